import Verif.Model.Mumag3

/-! # Surface tensors and potentials at all target points

The definitions of `Verif.Model.Mumag3` and `Verif.Model.Surface` for surface integrals divide real numbers. Here the same parts of
the code work with extended real numbers, so target points on quadrature nodes are included: the code divides by zero there. Nodes,
weights, centres and charges are finite. -/

namespace Verif

open XR

/-- `jnp.tensordot(W, F, len(domain))` (integrate.py:140) for finite weights. -/
noncomputable def tensordotX (W : List ℝ) (F : List XR) : XR := (List.zipWith (fun w z => fin w * z) W F).sum

/-- integrate.py:66-140 `integrate` for two or more grids and arrays as values. -/
noncomputable def integrateNX {d : ℕ} (f : List ℝ → Fin d → XR) (domain : List (List ℝ)) (method : QuadRule) : Fin d → XR :=
  let W := meshgrid (domain.map fun d => (method d).1)
  let X := meshgrid (domain.map fun d => (method d).2)
  let W := W.map List.prod
  fun k => tensordotX W (X.map fun x => f x k)

/-- mumag3.py:214-229 `_integrand`. -/
noncomputable def integrandX_ (y : List ℝ) (x center : Pt 3) (face : Face) : Fin 6 → XR :=
  let _y := face.point (y.getD 0 0) (y.getD 1 0)
  let a0 : XR := 1
  let a1 := efin _y face.axis1 - efin center face.axis1
  let a2 := efin _y face.axis2 - efin center face.axis2
  let a3 := a1 ^ 2
  let a4 := a1 * a2
  let a5 := a2 ^ 2
  fun k => ![a0, a1, a2, a3, a4, a5] k / vnorm fun i => efin x i - efin _y i

/-- mumag3.py:232-261 `integrate_face`. -/
noncomputable def integrateFaceX (face : Face) (target_point : Pt 3) (subintervals : Subintervals) (method : QuadRule) :
    Except Err (List (List (Fin 6 → XR))) := do
  let dom1 := gridCells face.axis1_vals
  let dom2 := gridCells face.axis2_vals
  let n ← subintervals.succ
  return dom1.map fun d1 => dom2.map fun d2 =>
    let int_dom1 := linspace d1.1 d1.2 n
    let int_dom2 := linspace d2.1 d2.2 n
    let center := face.point ((d1.1 + d1.2) / 2) ((d2.1 + d2.2) / 2)
    integrateNX (fun y => integrandX_ y target_point center face) [int_dom1, int_dom2] method

/-- mumag3.py:264-275 `surface_tensors`. -/
noncomputable def surfaceTensorsX (target_point : Pt 3) (domain : Cuboid) (subintervals : Subintervals) (method : QuadRule) :
    Except Err (List (List (List (Fin 6 → XR)))) :=
  domain.faces.mapM fun face => integrateFaceX face target_point subintervals method

/-- `jnp.tensordot(c, t, 3)` (mumag3.py:194). -/
noncomputable def tensordot3X (c : List (List (Fin 6 → ℝ))) (t : List (List (Fin 6 → XR))) : Except Err XR :=
  if c.map List.length = t.map List.length then
    .ok (List.zipWith (fun c t => (List.zipWith (fun c t => ∑ k, fin (c k) * t k) c t).sum) c t).sum
  else .error .typeError

/-- mumag3.py:193-195 `solve_sufrace_integral`. -/
noncomputable def solveSufraceIntegralX (charges : List (List (List (Fin 6 → ℝ)))) (target : List (List (List (Fin 6 → XR)))) :
    Except Err XR := do
  if charges.length ≠ target.length then throw .valueError
  let face_contributions ← (charges.zip target).mapM fun (c, t) => tensordot3X c t
  return face_contributions.sum

/-- mumag3.py:150-173 `single_layer_potential`. -/
noncomputable def singleLayerPotentialBoxX (domain : Cuboid) (f : Pt 3 → Pt 3 → ℝ) (subintervals : Subintervals)
    (method : QuadRule) (target_point : Pt 3) : Except Err XR := do
  let charges := charges domain f
  let t ← surfaceTensorsX target_point domain subintervals method
  let v ← solveSufraceIntegralX charges t
  return fin (1 / (4 * Real.pi)) * v

/-- surface_integral.py:53-68 `_integrand` in `_source_tensor`. -/
noncomputable def sourceTensorX.integrand (order : ℕ) (y c x : Pt 3) : Fin (tensorSize order) → XR :=
  let n := vnorm fun i => efin x i - efin y i
  let d := y - c
  let c := sourceTerms d order
  fun k => fin (c.getD k 0) / n

/-- surface_integral.py:8-19 `integrate_surface`. -/
noncomputable def integrateSurfaceX {d : ℕ} (f : Pt 3 → Fin d → XR) (parametrization : Pt 2 → Pt 3) (u v : List ℝ)
    (method : QuadRule) : Fin d → XR :=
  integrateNX (fun x k =>
    let J := jacfwd parametrization (pt2 x)
    let ru := J 0
    let rv := J 1
    let z := ‖crossPt ru rv‖
    let r := parametrization (pt2 x)
    f r k * fin z) [u, v] method

/-- surface_integral.py:50-71 `_source_tensor` with 22-32 `integrate_surface_elements`. -/
noncomputable def sourceTensorX_ (x : Pt 3) (parametrization : Pt 2 → Pt 3) (u v : List ℝ) (method : QuadRule) (order : ℕ) :
    Except Err (List XR) := do
  if u.length < 2 then throw .assertion
  if v.length < 2 then throw .assertion
  let Z := (gridCells u).map fun _u => (gridCells v).map fun _v =>
    let c := surfaceCenter parametrization _u _v
    integrateSurfaceX (fun r => sourceTensorX.integrand order r c x) parametrization [_u.1, _u.2] [_v.1, _v.2] method
  return Z.flatten.flatMap fun z => List.ofFn z

/-- surface_integral.py:107-108 `single_layer_potential` for charges which are numbers. -/
noncomputable def singleLayerPotentialX (source_tensor : List XR) (charge_tensor : List ℝ) : Except Err XR :=
  if charge_tensor.length = source_tensor.length then
    .ok (fin (1 / (4 * Real.pi)) * tensordotX charge_tensor source_tensor)
  else .error .typeError

end Verif
