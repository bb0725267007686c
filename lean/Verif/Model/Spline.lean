import Verif.Num.XR

/-! # Model of `/repo/magpi/spline.py` -/

namespace Verif

open XR

open Classical in
/-- spline.py:6-20 `_base_fun` for one grid `t`, whose entries are accessed by `t : ℕ → XR`. -/
noncomputable def baseFun (x : XR) (t : ℕ → XR) : ℕ → ℕ → XR
  | 0, i => if t i ≤ x ∧ x < t (i + 1) then 1 else 0
  | k + 1, i =>
    let c1 := if t (i + (k + 1)) = t i ∧ t i ≠ nan then 0
      else (x - t i) / (t (i + (k + 1)) - t i) * baseFun x t k i
    let c2 := if t (i + (k + 1) + 1) = t (i + 1) ∧ t (i + 1) ≠ nan then 0
      else (t (i + (k + 1) + 1) - x) / (t (i + (k + 1) + 1) - t (i + 1)) * baseFun x t k (i + 1)
    c1 + c2

/-- Indexing of an array; JAX clamps indices which are too large. -/
def clampIndex {m : ℕ} (hm : 0 < m) (grid : Vec m) (i : ℕ) : XR := grid ⟨min i (m - 1), by omega⟩

/-- spline.py:24-41 `basis` for one number `x` and one grid. -/
noncomputable def splineBasis {m : ℕ} (x : XR) (grid : Vec m) (degree : ℕ) : Vec (m - degree - 1) := fun i =>
  baseFun x (clampIndex (by have := i.isLt; omega) grid) degree i

/-- `jnp.sign`. -/
noncomputable def XR.sign : XR → XR
  | nan => nan
  | ninf => fin (-1)
  | pinf => fin 1
  | fin a => fin (SignType.sign a : ℝ)

open Classical in
/-- `jnp.linspace(-1, 1, num)`. -/
noncomputable def makeGrid.nodes (num : ℕ) : Vec num := fun i =>
  if num = 1 then fin (-1) else fin (-1 + (i : ℕ) * (2 / ((num : ℝ) - 1)))

/-- spline.py:44-63 `make_grid`. -/
noncomputable def makeGrid (start stop power : ℝ) (num : ℕ) : Vec num := fun i =>
  let t := makeGrid.nodes num i
  let t := XR.sign t * rpow (XR.abs t) power
  let t := (t + 1) / 2
  t * XR.abs (fin start - fin stop) + fin start

/-- spline.py:131-132 the output of `SplineActivation` for the features `x` with one grid and one row of coefficients
for each feature; `activation` is applied entry by entry. -/
noncomputable def splineActivation {d m : ℕ} (activation : XR → XR) (grid : Fin d → Vec m) (degree : ℕ)
    (coefs : Fin d → Vec (m - degree - 1)) (x : Vec d) : Vec d := fun j =>
  let y := ∑ i, splineBasis (x j) (grid j) degree i * coefs j i
  activation (x j) + y

/-- spline.py:74-133 `SplineActivation` with its parameters `coefs` and, if `parameterize_grid`, the variable `grids`;
otherwise all features share the grid of `make_grid`. -/
noncomputable def SplineActivation {d : ℕ} (nodes : ℕ) (node_min node_max : ℝ) (degree : ℕ) (grid_power : ℝ)
    (activation : XR → XR) (grids : Option (Fin d → Vec nodes)) (coefs : Fin d → Vec (nodes - degree - 1))
    (x : Vec d) : Vec d :=
  let grid : Fin d → Vec nodes := match grids with
    | some g => g
    | none => fun _ => makeGrid node_min node_max grid_power nodes
  splineActivation activation grid degree coefs x

/-- spline.py:66-71 `_grid_init`: `nn.initializers.constant` stretches the grid to one row for each feature. -/
noncomputable def gridInit (node_min node_max grid_power : ℝ) (nodes : ℕ) (d : ℕ) : Fin d → Vec nodes := fun _ =>
  makeGrid node_min node_max grid_power nodes

/-- spline.py:116-129 the variable `grids` and the parameter `coefs` of a new `SplineActivation` with the default `coef_init`. -/
noncomputable def SplineActivation.init (nodes : ℕ) (node_min node_max : ℝ) (degree : ℕ) (grid_power : ℝ) (parameterize_grid : Bool) (d : ℕ) :
    Option (Fin d → Vec nodes) × (Fin d → Vec (nodes - degree - 1)) :=
  (if parameterize_grid then some (gridInit node_min node_max grid_power nodes d) else none, fun _ _ => 0)

end Verif
