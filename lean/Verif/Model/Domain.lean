import Verif.Num.Alg
import Mathlib.Data.Matrix.Basic
import Mathlib.LinearAlgebra.Matrix.NonsingularInverse

/-! # Model of `/repo/magpi/domain.py`

Arrays of samples are modelled one sample at a time (the code acts on the last axis) except for the two
`normal_vec` methods, where the batch matters.  Parameters given as tuples of floats are vectors. -/

namespace Verif

open XR

/-- `jnp.argmax` of a boolean vector: the first index with `True`, or `0`. -/
noncomputable def argmaxBool {m : ℕ} (p : Fin (m + 1) → Prop) : Fin (m + 1) :=
  haveI := Classical.decPred p
  ((List.finRange (m + 1)).find? fun k => p k).getD 0

/-- `jnp.isclose(a, b, rtol, atol)` for finite numbers: `|a - b| <= atol + rtol * |b|`. -/
def isclose (rtol atol : ℝ) (a b : XR) : Prop := abs (a - b) ≤ fin atol + fin rtol * abs b

/-- domain.py:27-75 class `Hypercube`. -/
structure Hypercube (n : ℕ) where
  lb : Vec n
  ub : Vec n

/-- domain.py:33-34 `Hypercube.__post_init__`, on the tuples as given. -/
def Hypercube.init (lb ub : List XR) : Except Err (Σ n, Hypercube n) :=
  if h : lb.length = ub.length then
    .ok ⟨lb.length, ⟨fun i => lb[i], fun i => ub[i.1]'(h ▸ i.2)⟩⟩
  else .error .assertion

/-- domain.py:36-38 `Hypercube.support`. -/
noncomputable def Hypercube.support {n : ℕ} (D : Hypercube n) : XR :=
  (List.finRange n).foldl (fun acc i => acc * (D.ub i - D.lb i)) 1

/-- domain.py:40-42 `Hypercube.includes` (one truth value per coordinate). -/
def Hypercube.includes {n : ℕ} (D : Hypercube n) (x : Vec n) : Fin n → Prop := fun i =>
  D.lb i ≤ x i ∧ x i ≤ D.ub i

open Classical in
/-- domain.py:206-208 `transform_hypercube`. -/
noncomputable def transformHypercube {n : ℕ} (x lb ub : Vec n) : Vec n := fun i =>
  (if 1 < x i then mod1 (x i) else x i) * (ub i - lb i) + lb i

/-- domain.py:44-46 `Hypercube.transform`. -/
noncomputable def Hypercube.transform {n : ℕ} (D : Hypercube n) (x : Vec n) : Vec n :=
  transformHypercube x D.lb D.ub

/-- domain.py:230-231 `support(i)` inside `insert_rules`: product of the other edge lengths. -/
noncomputable def hyperBnd.face {n : ℕ} (lb ub : Vec n) (i : Fin n) : XR :=
  ((List.finRange n).filter (· ≠ i)).foldl (fun acc j => acc * abs (ub j - lb j)) 1

/-- domain.py:233-234 the concatenated array `supports + supports`. -/
noncomputable def hyperBnd.supports {m : ℕ} (lb ub : Vec (m + 2)) (k : Fin (2 * m + 3 + 1)) : XR :=
  hyperBnd.face lb ub ⟨k % (m + 2), Nat.mod_lt _ (by omega)⟩

/-- domain.py:235, 237 `jnp.sum(supports)`. -/
noncomputable def hyperBnd.total {m : ℕ} (lb ub : Vec (m + 2)) : XR := ∑ k, hyperBnd.supports lb ub k

/-- domain.py:235 `cum_supports`. -/
noncomputable def hyperBnd.cum {m : ℕ} (lb ub : Vec (m + 2)) (k : Fin (2 * m + 3 + 1)) : XR :=
  (∑ j ∈ Finset.univ.filter (· ≤ k), hyperBnd.supports lb ub j) / hyperBnd.total lb ub

/-- domain.py:236 `vals`. -/
noncomputable def hyperBnd.val {m : ℕ} (k : Fin (2 * m + 3 + 1)) : XR := if k.1 < m + 2 then 0 else 1

/-- domain.py:241-249 `insert`. -/
noncomputable def hyperBnd.insert {m : ℕ} (lb ub : Vec (m + 2)) (x : Vec (m + 1)) : Vec (m + 2) :=
  let i := argmaxBool fun k => x 0 < hyperBnd.cum lb ub k
  let l := hyperBnd.supports lb ub i / hyperBnd.total lb ub
  let x0 := if i = 0 then x 0 / l else (x 0 - hyperBnd.cum lb ub (i - 1)) / l
  Fin.insertNth (α := fun _ => XR) ⟨i % (m + 2), Nat.mod_lt _ (by omega)⟩ (hyperBnd.val i)
    (Function.update x 0 x0)

open Classical in
/-- domain.py:211-253 `transform_hypercube_bnd`; one sample, the list of its coordinates. In one dimension a longer list would be
several samples and is not a sample; arrays of any shape are in `Verif.Model.Batch`. -/
noncomputable def transformHypercubeBnd : {n : ℕ} → (x : List XR) → (lb ub : Vec n) → Except Err (Vec n)
  | 0, _, _, _ => .error .assertion
  | 1, x, lb, ub => match x with
    | [s] => .ok (transformHypercube (fun _ => if fin (1 / 2) < mod1 s then 1 else 0) lb ub)
    | _ => .error .assertion
  | m + 2, x, lb, ub =>
    if h : x.length = m + 1 then
      .ok (transformHypercube (hyperBnd.insert lb ub fun i => mod1 (x[i.1]'(by rw [h]; exact i.2))) lb ub)
    else .error .assertion

/-- domain.py:48-50 `Hypercube.transform_bnd`. -/
noncomputable def Hypercube.transformBnd {n : ℕ} (D : Hypercube n) (x : List XR) : Except Err (Vec n) :=
  transformHypercubeBnd x D.lb D.ub

/-- domain.py:55-58 `in_domain` for one sample. -/
def Hypercube.inDomain {n : ℕ} (D : Hypercube n) (rtol atol : ℝ) (x : Vec n) : Prop := ∀ i,
  D.lb i - (fin atol + fin rtol * abs (D.lb i)) < x i ∧
    x i < D.ub i + (fin atol + fin rtol * abs (D.ub i))

open Classical in
/-- domain.py:61-68 the flags `on_lb`/`on_ub` with all but the first touched coordinate reset. -/
noncomputable def Hypercube.touch {n : ℕ} (b : Vec n) (rtol atol : ℝ) (x : Vec n) : Vec n :=
  let on : Vec n := fun i => if isclose rtol atol (x i) (b i) then 1 else 0
  fun i => if 1 < ∑ j ∈ Finset.univ.filter (· ≤ i), on j then 0 else on i

/-- domain.py:69 the candidate normal of one sample. -/
noncomputable def Hypercube.candidate {n : ℕ} (D : Hypercube n) (rtol atol : ℝ) (x : Vec n) : Vec n :=
  fun i => Hypercube.touch D.ub rtol atol x i - Hypercube.touch D.lb rtol atol x i

open Classical in
/-- domain.py:52-74 `Hypercube.normal_vec` for a batch of samples (a single sample behaves like a batch of
one).  Note `in_domain.any()` and `(norm(n) == 1).all()`. -/
noncomputable def Hypercube.normalVec {n : ℕ} (D : Hypercube n) (rtol atol : ℝ) (xs : List (Vec n)) :
    Option (List (Vec n)) :=
  if ¬ ∃ x ∈ xs, D.inDomain rtol atol x then none
  else
    let ns := xs.map (D.candidate rtol atol)
    if ∀ v ∈ ns, vnorm v = 1 then some ns else none

/-- domain.py:116 the reference points `X_ref` in `affine_plane`. -/
def affinePlane.ref : Matrix (Fin 3) (Fin 3) ℝ := !![0, 0, 1; 1, 0, 1; 0, 1, 1]

/-- domain.py:109-112 `linear_map`: `solve_lu` is taken to return the exact solution `X_ref⁻¹ X`. -/
noncomputable def linearMap {d : ℕ} (ref : Matrix (Fin 3) (Fin 3) ℝ) (X : Matrix (Fin 3) (Fin d) ℝ) :
    Matrix (Fin d) (Fin 3) ℝ := (ref⁻¹ * X).transpose

/-- domain.py:115-119 `affine_plane`: matrix and offset. -/
noncomputable def affinePlane {d : ℕ} (a b c : Fin d → ℝ) : Matrix (Fin d) (Fin 2) ℝ × (Fin d → ℝ) :=
  let B := linearMap affinePlane.ref (Matrix.of ![a, b, c])
  (Matrix.of fun i j => B i j.castSucc, fun i => B i 2)

/-- domain.py:77-106 class `Parallelogram` (the points are finite floats of equal length). -/
structure Parallelogram (d : ℕ) where
  a : Fin d → ℝ
  b : Fin d → ℝ
  c : Fin d → ℝ

/-- domain.py:85-88 the attribute `B` set by `__post_init__`. -/
noncomputable def Parallelogram.B {d : ℕ} (P : Parallelogram d) : Matrix (Fin d) (Fin 2) ℝ :=
  (affinePlane P.a P.b P.c).1

/-- domain.py:90-93 `Parallelogram.support`. -/
noncomputable def Parallelogram.support {d : ℕ} (P : Parallelogram d) : XR :=
  let D : Matrix (Fin 2) (Fin d) ℝ := Matrix.of ![P.b - P.a, P.c - P.a]
  sqrt (fin (D * D.transpose).det)

open Classical in
/-- domain.py:95-102 `Parallelogram.transform` of one sample. -/
noncomputable def Parallelogram.transform {d : ℕ} (P : Parallelogram d) (x : List XR) : Except Err (Vec d) :=
  match x with
  | [s, t] =>
    let w : Vec 2 := fun j => let u := ![s, t] j; if 1 < u then mod1 u else u
    .ok fun i => (∑ j, fin (P.B i j) * w j) + fin (P.a i)
  | _ => .error .assertion

/-- domain.py:126-128 `_Spherical.includes`. -/
def spherical.includes {d : ℕ} (r : XR) (o x : Vec d) : Prop := vnorm (fun i => x i - o i) < r

open Classical in
/-- domain.py:130-138 `_Spherical.normal_vec` for a single sample. -/
noncomputable def spherical.normalVec {d : ℕ} (r : XR) (o : Vec d) (rtol atol : ℝ) (x : Vec d) :
    Option (Vec d) :=
  let s : Vec d := fun i => x i - o i
  let nrm := vnorm s
  if isclose rtol atol nrm r then some fun i => s i / nrm else none

open Classical in
/-- domain.py:130-138 `_Spherical.normal_vec` for a batch of `N` samples: `sample / sample_norm` divides an
array of shape `(N, d)` by one of shape `(N,)`, which broadcasts along the LAST axis.
(For `d ≥ 2`; in dimension one the shapes would broadcast to `(N, N)`, which is not modelled.) -/
noncomputable def spherical.normalVecBatch {d N : ℕ} (r : XR) (o : Vec d) (rtol atol : ℝ)
    (x : Fin N → Vec d) : Except Err (Option (Fin N → Vec d)) :=
  let s : Fin N → Vec d := fun k i => x k i - o i
  let nrm : Vec N := fun k => vnorm (s k)
  if ¬ ∀ k, isclose rtol atol (nrm k) r then .ok none
  else if h : N = d then .ok (some fun k i => s k i / nrm (i.cast h.symm))
  else if h : N = 1 then .ok (some fun k i => s k i / nrm (Fin.cast h.symm 0))
  else .error .typeError

/-- domain.py:151-152 `Sphere.support`. -/
noncomputable def sphereSupport (r : XR) : XR := 4 / 3 * r ^ 3 * fin Real.pi

/-- domain.py:173-174 `Disk.support`. -/
noncomputable def diskSupport (r : XR) : XR := r ^ 2 * fin Real.pi

/-- domain.py:197-198 `Annulus.support`. -/
noncomputable def annulusSupport (r1 r2 : XR) : XR := (r2 ^ 2 - r1 ^ 2) * fin Real.pi

/-- domain.py:260-269 `transform_annulus`. -/
noncomputable def transformAnnulus (x : Vec 2) (r1 r2 : XR) (o : Vec 2) : Vec 2 :=
  let x : Vec 2 := fun i => mod1 (x i)
  let theta := 2 * fin Real.pi * x 0
  let r := sqrt (x 1 * (r2 ^ 2 - r1 ^ 2) + r1 ^ 2)
  ![r * cos theta + o 0, r * sin theta + o 1]

/-- domain.py:256-257 `transform_circle` (also `Disk.transform`, 176-178). -/
noncomputable def transformCircle (x : Vec 2) (r : XR) (o : Vec 2) : Vec 2 := transformAnnulus x 0 r o

/-- domain.py:272-283 `transform_sphere` (also `Sphere.transform`, 154-156). -/
noncomputable def transformSphere (x : Vec 3) (r : XR) (o : Vec 3) : Vec 3 :=
  let x : Vec 3 := fun i => mod1 (x i)
  let u := 2 * x 0 - 1
  let phi := 2 * fin Real.pi * x 1
  let rad := rpow (x 2) (1 / 3)
  let x1 := rad * cos phi * sqrt (1 - u ^ 2)
  let x2 := rad * sin phi * sqrt (1 - u ^ 2)
  let x3 := rad * u
  fun i => ![x1, x2, x3] i * r + o i

/-- domain.py:286-294 `transform_sphere_bnd` (also `Sphere.transform_bnd`, 158-160). -/
noncomputable def transformSphereBnd (x : Vec 2) (r : XR) (o : Vec 3) : Vec 3 :=
  let x : Vec 2 := fun i => mod1 (x i)
  let x3 := 2 * x 0 - 1
  let phi := 2 * fin Real.pi * x 1
  let x1 := cos phi * rpow (1 - x3 ^ 2) (1 / 2)
  let x2 := sin phi * rpow (1 - x3 ^ 2) (1 / 2)
  fun i => ![x1, x2, x3] i * r + o i

/-- domain.py:297-304 `transform_circle_bnd` (also `Disk.transform_bnd`, 180-182). -/
noncomputable def transformCircleBnd (s r : XR) (o : Vec 2) : Vec 2 :=
  let s := mod1 s
  let phi := 4 * fin Real.pi * s
  fun i => ![cos phi, sin phi] i * r + o i

open Classical in
/-- domain.py:311-312 the folded sample: if the 1-norm exceeds one, `1 - x`. -/
noncomputable def transformTriangle.fold (x : Vec 2) : Vec 2 :=
  let x : Vec 2 := fun i => mod1 (x i)
  if 1 < abs (x 0) + abs (x 1) then fun i => 1 - x i else x

/-- domain.py:307-315 `transform_triangle` of one sample, for points of dimension `d`. After line 312 the
folded sample has shape `(2, 1)`; `x[..., 0]` is the whole sample, and so is `x[..., 1]`, because JAX clamps
out-of-range indices. The product with the difference vector of shape `(d,)` is therefore elementwise for
`d = 2`, broadcasts for `d = 1` (giving two numbers), and raises a shape error otherwise. -/
noncomputable def transformTriangle {d : ℕ} (x : Vec 2) (a b c : Vec d) : Except Err (List XR) :=
  let w := transformTriangle.fold x
  if h : d = 2 then
    .ok ((List.finRange 2).map fun k =>
      let i : Fin d := k.cast h.symm
      a i + w k * (b i - a i) + w k * (c i - a i))
  else if h : d = 1 then
    .ok ((List.finRange 2).map fun k =>
      let i : Fin d := Fin.cast h.symm 0
      a i + w k * (b i - a i) + w k * (c i - a i))
  else .error .typeError

/-- domain.py:321 `segments`. -/
noncomputable def polyline.seg {d m : ℕ} (line : Fin (m + 2) → Vec d) (k : Fin (m + 1)) : XR :=
  vnorm fun i => line k.succ i - line k.castSucc i

/-- domain.py:322 `length`. -/
noncomputable def polyline.length {d m : ℕ} (line : Fin (m + 2) → Vec d) : XR := ∑ k, polyline.seg line k

/-- domain.py:323 `cumlengths`. -/
noncomputable def polyline.cum {d m : ℕ} (line : Fin (m + 2) → Vec d) (k : Fin (m + 1)) : XR :=
  ∑ j ∈ Finset.univ.filter (· ≤ k), polyline.seg line j

/-- domain.py:318-334 `transform_polyline` of one parameter; at least two points. -/
noncomputable def transformPolyline {d m : ℕ} (s : XR) (line : Fin (m + 2) → Vec d) : Vec d :=
  let s' := mod1 s * polyline.length line
  let idx := argmaxBool fun k => s' ≤ polyline.cum line k
  let p1 := line idx.castSucc
  let p2 := line idx.succ
  let dd := polyline.cum line idx - s'
  fun i => p2 i + (p1 i - p2 i) * dd / vnorm fun i => p1 i - p2 i

/-- domain.py:104-106 `Parallelogram.transform_bnd`. -/
noncomputable def Parallelogram.transformBnd {d : ℕ} (P : Parallelogram d) (s : XR) : Vec d :=
  transformPolyline (m := 3) s
    ![vfin P.a, vfin (P.a + P.b), vfin (P.a + P.b + P.c), vfin P.c, vfin P.a]

end Verif
