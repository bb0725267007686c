import Verif.Model.Surface
import Verif.Model.RFun
import Verif.Model.Domain
import Mathlib.LinearAlgebra.Matrix.NonsingularInverse
import Mathlib.Analysis.Complex.Trigonometric

/-! # Model of `/repo/examples/mumag3.py`

Over the real numbers, except for the ADF of the cuboid which is the one of `Verif.Model.RFun` and the normalisation of
points. A target point on a quadrature node is not modelled: the code divides by zero there. -/

namespace Verif

/-- The real number `a` of a finite number `fin a`. -/
def XR.toReal : XR → ℝ
  | .fin a => a
  | _ => 0

/-! ## Cuboids with faces -/

/-- mumag3.py:20-28 class `Face`; `midpoints` has one row for every cell of the first axis. -/
structure Face where
  axis1 : Fin 3
  axis2 : Fin 3
  const_axis : Fin 3
  axis1_vals : List ℝ
  axis2_vals : List ℝ
  const_val : ℝ
  midpoints : List (List (Pt 3))

/-- mumag3.py:121-125 `_midpoints`; `jnp.insert` puts the constant coordinate at its position. -/
noncomputable def midpoints_ (a b : List ℝ) (const_axis : Fin 3) (const_val : ℝ) : List (List (Pt 3)) :=
  let m1 := List.zipWith (fun p q => (p + q) / 2) a.tail a.dropLast
  let m2 := List.zipWith (fun p q => (p + q) / 2) b.tail b.dropLast
  m1.map fun s => m2.map fun t => WithLp.toLp 2 (const_axis.insertNth const_val ![s, t])

/-- mumag3.py:106-109 `face` in `_faces`. -/
noncomputable def faces_.face (axis1 axis2 const_axis : Fin 3) (axis1_vals axis2_vals : List ℝ) (const_val : ℝ) : Face :=
  let m := midpoints_ axis1_vals axis2_vals const_axis const_val
  ⟨axis1, axis2, const_axis, axis1_vals, axis2_vals, const_val, m⟩

/-- mumag3.py:106-118 `_faces`. -/
noncomputable def faces_ (xs ys zs : List ℝ) : Except Err (List Face) := do
  let z0 ← pyIndex zs 0
  let z1 ← pyIndex zs (-1)
  let y0 ← pyIndex ys 0
  let y1 ← pyIndex ys (-1)
  let x0 ← pyIndex xs 0
  let x1 ← pyIndex xs (-1)
  return [faces_.face 0 1 2 xs ys z0, faces_.face 0 1 2 xs ys z1, faces_.face 0 2 1 xs zs y0, faces_.face 0 2 1 xs zs y1,
    faces_.face 1 2 0 ys zs x0, faces_.face 1 2 0 ys zs x1]

/-- mumag3.py:34-43 class `Cuboid` (the grids have one axis). -/
structure Cuboid where
  xs : List ℝ
  ys : List ℝ
  zs : List ℝ
  dom : Hypercube 3
  faces : List Face

open Classical in
/-- mumag3.py:46-49 `_validate`. -/
noncomputable def Cuboid.validate (arr : List ℝ) : Except Err Unit := do
  if ¬ 1 < arr.length then throw .assertion
  if ¬ arr.insertionSort (· ≤ ·) = arr then throw .assertion

/-- mumag3.py:45-59 `Cuboid.__post_init__`. -/
noncomputable def Cuboid.init (xs ys zs : List ℝ) : Except Err Cuboid := do
  Cuboid.validate xs
  Cuboid.validate ys
  Cuboid.validate zs
  let lb := [← pyIndex xs 0, ← pyIndex ys 0, ← pyIndex zs 0]
  let ub := [← pyIndex xs (-1), ← pyIndex ys (-1), ← pyIndex zs (-1)]
  let dom : Hypercube 3 := ⟨fun i => .fin (lb.getD i 0), fun i => .fin (ub.getD i 0)⟩
  let faces ← faces_ xs ys zs
  return ⟨xs, ys, zs, dom, faces⟩

/-- mumag3.py:61-62 `Cuboid.support`. -/
noncomputable def Cuboid.support (D : Cuboid) : XR := D.dom.support

/-- mumag3.py:64-65 `Cuboid.includes`. -/
def Cuboid.includes (D : Cuboid) (samples : Vec 3) : Fin 3 → Prop := D.dom.includes samples

/-- mumag3.py:67-68 `Cuboid.transform`. -/
noncomputable def Cuboid.transform (D : Cuboid) (samples : Vec 3) : Vec 3 := D.dom.transform samples

/-- mumag3.py:70-71 `Cuboid.transform_bnd`. -/
noncomputable def Cuboid.transformBnd (D : Cuboid) (samples : List XR) : Except Err (Vec 3) := D.dom.transformBnd samples

/-- mumag3.py:73-84 `Cuboid.normalize`. -/
noncomputable def Cuboid.normalize (D : Cuboid) (sample : Vec 3) : Vec 3 := fun i =>
  2 * (sample i - D.dom.lb i) / (D.dom.ub i - D.dom.lb i) - 1

/-- mumag3.py:86-90 `Cuboid.adf`; the R-functions of `cuboid` are those of `r0` by default. -/
noncomputable def Cuboid.adf (D : Cuboid) : ADF 3 :=
  let side_lengths : Vec 3 := fun i => D.dom.ub i - D.dom.lb i
  let adf := cuboid (.vector side_lengths) false (RAlpha.sys 0)
  translate adf D.dom.lb

/-- The ADF as a real function. -/
noncomputable def Cuboid.adfReal (D : Cuboid) (x : Pt 3) : ℝ := XR.toReal (D.adf (efin x))

/-- mumag3.py:92-99 `Cuboid.normal_vec` at one point (the value; `stop_gradient` is treated where it is differentiated). -/
noncomputable def Cuboid.normalVec (D : Cuboid) (x : Pt 3) : Pt 3 := -jacVec D.adfReal x

/-! ## Surface integrals over the faces -/

/-- mumag3.py:198-211 `charge_taylor_coefs2` for charges which are numbers. The function `f` gets the point twice: the first
time for the uses below `stop_gradient`, which are constant for the derivatives. -/
noncomputable def chargeTaylorCoefs2 (face : Face) (f : Pt 3 → Pt 3 → ℝ) : List (List (Fin 6 → ℝ)) :=
  let _f : Pt 3 → Fin 6 → ℝ := fun x =>
    let g := jacfwd (f x) x
    let H := fun a b => jacfwd (fun y => jacfwd (f x) y a) x b
    let i := face.axis1
    let j := face.axis2
    ![f x x, g i, g j, 1 / 2 * H i i, H i j, 1 / 2 * H j j]
  face.midpoints.map fun row => row.map _f

/-- mumag3.py:176-177 `charges`, also in 133 and 156. -/
noncomputable def charges (dom : Cuboid) (f : Pt 3 → Pt 3 → ℝ) : List (List (List (Fin 6 → ℝ))) :=
  dom.faces.map fun face => chargeTaylorCoefs2 face f

/-- The point on a face with the two coordinates `y` (mumag3.py:219-222), and the centre of a cell (mumag3.py:246-249). -/
noncomputable def Face.point (face : Face) (s t : ℝ) : Pt 3 :=
  let _y : Fin 3 → ℝ := fun _ => 0
  let _y := Function.update _y face.axis1 s
  let _y := Function.update _y face.axis2 t
  let _y := Function.update _y face.const_axis face.const_val
  WithLp.toLp 2 _y

/-- mumag3.py:214-229 `_integrand`. -/
noncomputable def integrand_ (y : List ℝ) (x center : Pt 3) (face : Face) : Fin 6 → ℝ :=
  let _y := face.point (y.getD 0 0) (y.getD 1 0)
  let a0 : ℝ := 1
  let a1 := _y face.axis1 - center face.axis1
  let a2 := _y face.axis2 - center face.axis2
  let a3 := a1 ^ 2
  let a4 := a1 * a2
  let a5 := a2 ^ 2
  fun k => ![a0, a1, a2, a3, a4, a5] k / ‖x - _y‖

/-- The argument `subintervals`: a number, or a tuple like the default `(1, 1, 1)` of mumag3.py:131, 152 and 186. -/
inductive Subintervals where
  | int (n : ℕ)
  | tuple (a b c : ℕ)

/-- `subintervals + 1` (mumag3.py:244-245): a number cannot be added to a tuple. -/
def Subintervals.succ : Subintervals → Except Err ℕ
  | .int n => .ok (n + 1)
  | .tuple _ _ _ => .error .typeError

/-- The default value of `subintervals` (mumag3.py:131, 152 and 186). -/
def Subintervals.default : Subintervals := .tuple 1 1 1

/-- mumag3.py:232-261 `integrate_face`. -/
noncomputable def integrateFace (face : Face) (target_point : Pt 3) (subintervals : Subintervals) (method : QuadRule) :
    Except Err (List (List (Fin 6 → ℝ))) := do
  let dom1 := gridCells face.axis1_vals
  let dom2 := gridCells face.axis2_vals
  let n ← subintervals.succ
  return dom1.map fun d1 => dom2.map fun d2 =>
    let int_dom1 := linspace d1.1 d1.2 n
    let int_dom2 := linspace d2.1 d2.2 n
    let center := face.point ((d1.1 + d1.2) / 2) ((d2.1 + d2.2) / 2)
    integrateN (fun y => integrand_ y target_point center face) [int_dom1, int_dom2] method

/-- mumag3.py:264-275 `surface_tensors`. -/
noncomputable def surfaceTensors (target_point : Pt 3) (domain : Cuboid) (subintervals : Subintervals) (method : QuadRule) :
    Except Err (List (List (List (Fin 6 → ℝ)))) :=
  domain.faces.mapM fun face => integrateFace face target_point subintervals method

/-- mumag3.py:278-286 `surface_tensors_grad`: the partial derivatives of all entries. -/
noncomputable def surfaceTensorsGrad (target_point : Pt 3) (domain : Cuboid) (subintervals : Subintervals)
    (method : QuadRule) : Except Err (List (List (List (Fin 6 → Pt 3)))) := do
  let t ← surfaceTensors target_point domain subintervals method
  let entry : ℕ → ℕ → ℕ → Fin 6 → Pt 3 → ℝ := fun a i j k x =>
    match surfaceTensors x domain subintervals method with
    | .ok t => (((t.getD a []).getD i []).getD j 0) k
    | .error _ => 0
  return t.mapIdx fun a face => face.mapIdx fun i row => row.mapIdx fun j _ => fun k => jacVec (entry a i j k) target_point

section
variable {E : Type} [NormedAddCommGroup E] [NormedSpace ℝ E]

/-- `jnp.tensordot(c, t, 3)` (mumag3.py:194). -/
noncomputable def tensordot3 (c : List (List (Fin 6 → ℝ))) (t : List (List (Fin 6 → E))) : Except Err E :=
  if c.map List.length = t.map List.length then
    .ok (List.zipWith (fun c t => (List.zipWith (fun c t => ∑ k, c k • t k) c t).sum) c t).sum
  else .error .typeError

/-- mumag3.py:193-195 `solve_sufrace_integral`. -/
noncomputable def solveSufraceIntegral (charges : List (List (List (Fin 6 → ℝ)))) (target : List (List (List (Fin 6 → E)))) :
    Except Err E := do
  if charges.length ≠ target.length then throw .valueError
  let face_contributions ← (charges.zip target).mapM fun (c, t) => tensordot3 c t
  return face_contributions.sum

end

/-- mumag3.py:180-190 `integrate_surface` and 128-147 `surface_integral`. -/
noncomputable def integrateSurfaceBox (target_point : Pt 3) (dom : Cuboid) (charges : List (List (List (Fin 6 → ℝ))))
    (subintervals : Subintervals) (method : QuadRule) : Except Err ℝ := do
  let t ← surfaceTensors target_point dom subintervals method
  solveSufraceIntegral charges t

/-- mumag3.py:150-173 `single_layer_potential`. -/
noncomputable def singleLayerPotentialBox (domain : Cuboid) (f : Pt 3 → Pt 3 → ℝ) (subintervals : Subintervals)
    (method : QuadRule) (target_point : Pt 3) : Except Err ℝ := do
  let charges := charges domain f
  let v ← integrateSurfaceBox target_point domain charges subintervals method
  return 1 / (4 * Real.pi) * v

/-! ## Stray field -/

/-- The inputs of `create_stray_field_solver` (mumag3.py:292-300) and the singular value decomposition computed in line 305. -/
structure StrayField (N k r : ℕ) where
  X_dom : Fin N → Pt 3
  domain : Cuboid
  W_elm : Matrix (Fin k) (Fin 3) ℝ
  b_elm : Fin k → ℝ
  method : QuadRule
  subintervals : Subintervals
  U : Matrix (Fin N) (Fin r) ℝ
  S : Fin r → ℝ
  VT : Matrix (Fin r) (Fin k) ℝ

namespace StrayField

variable {N k r : ℕ} (s : StrayField N k r)

/-- mumag3.py:301 `h_elm`. -/
noncomputable def h_elm (x : Pt 3) : Fin k → ℝ := fun a =>
  Real.tanh ((∑ i, s.W_elm a i * XR.toReal (s.domain.normalize (efin x) i)) + s.b_elm a)

/-- mumag3.py:302 `u_elm`. -/
noncomputable def u_elm (x : Pt 3) : Fin k → ℝ := fun a => s.h_elm x a * s.domain.adfReal x

/-- mumag3.py:303 `Q_phi1`. -/
noncomputable def Q_phi1 : Matrix (Fin N) (Fin k) ℝ := fun n => -laplace s.u_elm (s.X_dom n)

/-- mumag3.py:308 `Pinv_phi1`. -/
noncomputable def Pinv_phi1 : Matrix (Fin k) (Fin N) ℝ :=
  (Matrix.of fun a b => s.VT.transpose a b * (1 / s.S b)) * s.U.transpose

/-- mumag3.py:311-313 `params_phi1`; the arguments `*args` are part of `m`. -/
noncomputable def params_phi1 (m : Pt 3 → Pt 3) : Fin k → ℝ :=
  let b1 : Fin N → ℝ := fun n => -divergence m (s.X_dom n)
  s.Pinv_phi1.mulVec b1

/-- mumag3.py:314 `phi1`. -/
noncomputable def phi1 (m : Pt 3 → Pt 3) (x : Pt 3) : ℝ := ∑ a, s.u_elm x a * s.params_phi1 m a

/-- mumag3.py:315 `phi1_without_adf`. -/
noncomputable def phi1_without_adf (m : Pt 3 → Pt 3) (x : Pt 3) : ℝ := ∑ a, s.h_elm x a * s.params_phi1 m a

/-- mumag3.py:317-319 `g`; the point below `stop_gradient` in `normal_vec` is the first argument. -/
noncomputable def g (m : Pt 3 → Pt 3) (z y : Pt 3) : ℝ :=
  let _m := m y
  inner ℝ _m (s.domain.normalVec z) + s.phi1_without_adf m y

/-- mumag3.py:327-329 `phi2`. -/
noncomputable def phi2 (m : Pt 3 → Pt 3) (x : Pt 3) : Except Err ℝ :=
  singleLayerPotentialBox s.domain (s.g m) s.subintervals s.method x

/-- mumag3.py:326-332 the stray field without precomputed tensors. -/
noncomputable def hs (m : Pt 3 → Pt 3) (x : Pt 3) : Except Err (Pt 3) := do
  let _ ← s.phi2 m x
  let phi := fun x => s.phi1 m x + match s.phi2 m x with
    | .ok v => v
    | .error _ => 0
  return -jacVec phi x

/-- mumag3.py:322-325 the stray field with the precomputed tensors `dt`. -/
noncomputable def hsTensors (m : Pt 3 → Pt 3) (x : Pt 3) (dt : List (List (List (Fin 6 → Pt 3)))) : Except Err (Pt 3) := do
  let c := charges s.domain (s.g m)
  let v ← solveSufraceIntegral c dt
  let grad_phi2 := (1 / (4 * Real.pi)) • v
  return -jacVec (s.phi1 m) x - grad_phi2

end StrayField

/-! ## Rotations -/

/-- mumag3.py:337-343 `to_skew_simmetric_matrix`: three entries are set, then the transpose is subtracted. -/
noncomputable def toSkewSimmetricMatrix (x : Pt 3) : Matrix (Fin 3) (Fin 3) ℝ :=
  let S : Matrix (Fin 3) (Fin 3) ℝ := 0
  let S := S.updateRow 1 (Function.update (S 1) 0 (x 2))
  let S := S.updateRow 2 (Function.update (S 2) 0 (-x 1))
  let S := S.updateRow 2 (Function.update (S 2) 1 (x 0))
  S - S.transpose

/-- mumag3.py:346-352 `cayley_rotation`; `solve_lu` solves the linear system (it is the inverse matrix here, the
theorems show that the matrix is invertible). -/
noncomputable def cayleyRotation (p x : Pt 3) : Pt 3 :=
  let Q := toSkewSimmetricMatrix p
  let b := (1 + Q).mulVec x.ofLp
  let A := 1 - Q
  WithLp.toLp 2 (A⁻¹.mulVec b)

end Verif
