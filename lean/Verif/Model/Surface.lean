import Verif.Model.Calc
import Verif.Model.Integrate
import Mathlib.LinearAlgebra.CrossProduct

/-! # Model of `/repo/magpi/surface_integral.py`

Over the real numbers; `jax.jacfwd` is the partial derivatives. The values of the functions which are integrated are in a real
vector space `E` (one leaf of the tree returned by the function, the code treats the leaves separately). Grids are lists.
Arrays which are flattened by the code are lists in the order of the flattened array. Further arguments `*args`, `**kwargs`
are part of the functions. A parametrization returns three entries (otherwise the assertion of line 12 fails). A target point on
a quadrature node is not modelled: the code divides by zero there, the theorems exclude it where it matters. -/

namespace Verif

/-- `jnp.cross` of two vectors. -/
noncomputable def crossPt (a b : Pt 3) : Pt 3 := WithLp.toLp 2 (crossProduct a.ofLp b.ofLp)

/-- The point with the two coordinates handed over by `integrate`. -/
noncomputable def pt2 (l : List ℝ) : Pt 2 := !₂[l.getD 0 0, l.getD 1 0]

section
variable {E : Type} [NormedAddCommGroup E] [NormedSpace ℝ E]

/-- surface_integral.py:9-17 `integrand` in `integrate_surface`. -/
noncomputable def integrateSurface.integrand (f : Pt 3 → E) (parametrization : Pt 2 → Pt 3) (x : Pt 2) : E :=
  let J := jacfwd parametrization x
  let ru := J 0
  let rv := J 1
  let z := ‖crossPt ru rv‖
  let r := parametrization x
  z • f r

/-- surface_integral.py:8-19 `integrate_surface`. -/
noncomputable def integrateSurface (f : Pt 3 → E) (parametrization : Pt 2 → Pt 3) (u v : List ℝ) (method : QuadRule) : E :=
  integrateN (fun x => integrateSurface.integrand f parametrization (pt2 x)) [u, v] method

/-- `jnp.stack([u[:-1], u[1:]], axis=-1)` (surface_integral.py:30 and 45). -/
def gridCells (u : List ℝ) : List (ℝ × ℝ) := u.dropLast.zip u.tail

/-- surface_integral.py:35-38 `center` of one cell. -/
noncomputable def surfaceCenter (parametrization : Pt 2 → Pt 3) (u v : ℝ × ℝ) : Pt 3 :=
  let u_bar := (u.2 + u.1) / 2
  let v_bar := (v.2 + v.1) / 2
  parametrization !₂[u_bar, v_bar]

/-- surface_integral.py:41-47 `midpoints`: the first index is that of `u`. -/
noncomputable def surfaceMidpoints (parametrization : Pt 2 → Pt 3) (u v : List ℝ) : List (List (Pt 3)) :=
  (gridCells u).map fun _u => (gridCells v).map fun _v => surfaceCenter parametrization _u _v

/-- surface_integral.py:22-32 `integrate_surface_elements`: the first index is that of `u`. -/
noncomputable def integrateSurfaceElements (f : Pt 3 → Pt 3 → E) (parametrization : Pt 2 → Pt 3) (u v : List ℝ)
    (method : QuadRule) : Except Err (List (List E)) := do
  if u.length < 2 then throw .assertion
  if v.length < 2 then throw .assertion
  return (gridCells u).map fun _u => (gridCells v).map fun _v =>
    let c := surfaceCenter parametrization _u _v
    integrateSurface (fun r => f r c) parametrization [_u.1, _u.2] [_v.1, _v.2] method

/-- Number of entries of all tensors up to the given order. -/
def tensorSize (order : ℕ) : ℕ := ((List.range (order + 1)).map (3 ^ ·)).sum

/-- `t.ravel()` for the outer product `t` of `i` vectors `d`, `jnp.tensordot(t, d, 0)` (surface_integral.py:60-65). -/
noncomputable def outerPower (d : Pt 3) : ℕ → List ℝ
  | 0 => [1]
  | i + 1 => (outerPower d i).flatMap fun a => [a * d 0, a * d 1, a * d 2]

/-- surface_integral.py:59-67: the concatenated tensors. -/
noncomputable def sourceTerms (d : Pt 3) (order : ℕ) : List ℝ :=
  [1] ++ (List.range order).flatMap fun i => outerPower d (i + 1)

/-- surface_integral.py:53-68 `_integrand` in `_source_tensor`; the value has `tensorSize order` entries. -/
noncomputable def sourceTensor.integrand (order : ℕ) (y c x : Pt 3) : Fin (tensorSize order) → ℝ :=
  let n := ‖x - y‖
  let d := y - c
  let c := sourceTerms d order
  fun k => c.getD k 0 / n

/-- surface_integral.py:50-71 `_source_tensor`. -/
noncomputable def sourceTensor_ (x : Pt 3) (parametrization : Pt 2 → Pt 3) (u v : List ℝ) (method : QuadRule) (order : ℕ) :
    Except Err (List ℝ) := do
  let Z ← integrateSurfaceElements (fun y c => sourceTensor.integrand order y c x) parametrization u v method
  return Z.flatten.flatMap fun z => List.ofFn z

/-- surface_integral.py:74-79 `source_tensor` with `compute_jacfwd=True`: the tensor and its derivative. -/
noncomputable def sourceTensorJac (x : Pt 3) (parametrization : Pt 2 → Pt 3) (u v : List ℝ) (method : QuadRule) (order : ℕ) :
    Except Err (List ℝ × List (Pt 3)) := do
  let Z ← sourceTensor_ x parametrization u v method order
  let dZ := (List.range Z.length).map fun k => jacVec (fun x =>
    match sourceTensor_ x parametrization u v method order with
    | .ok Z => Z.getD k 0
    | .error _ => 0) x
  return (Z, dZ)

/-- The entries of the `i`-th derivative (`i` times `jacfwd`, surface_integral.py:93), flattened. -/
noncomputable def derivEntries (f : Pt 3 → E) : ℕ → List (Pt 3 → E)
  | 0 => [f]
  | i + 1 => (derivEntries f i).flatMap fun g => [fun x => jacfwd g x 0, fun x => jacfwd g x 1, fun x => jacfwd g x 2]

/-- surface_integral.py:87-99 `charge` for values which are numbers or vectors. The last axis, which is moved to the front,
enumerates the derivatives. -/
noncomputable def chargeTensor.charge (f : Pt 3 → E) (order : ℕ) (c : Pt 3) : List E :=
  [f c] ++ (List.range order).flatMap fun i => (derivEntries f (i + 1)).map fun g => ((i + 1).factorial : ℝ)⁻¹ • g c

/-- surface_integral.py:82-104 `charge_tensor` for values which are numbers or vectors. -/
noncomputable def chargeTensor (f : Pt 3 → E) (parametrization : Pt 2 → Pt 3) (u v : List ℝ) (order : ℕ) : List E :=
  (surfaceMidpoints parametrization u v).flatten.flatMap (chargeTensor.charge f order)

/-- surface_integral.py:82-104 `charge_tensor` for values which are matrices: `swapaxes(-1, 0)` (line 99) makes the first
axis of the values the last one. -/
noncomputable def chargeTensorMatrix {a b : ℕ} (f : Pt 3 → Fin a → Fin b → ℝ) (parametrization : Pt 2 → Pt 3) (u v : List ℝ)
    (order : ℕ) : List (Fin b → Fin a → ℝ) :=
  (surfaceMidpoints parametrization u v).flatten.flatMap fun c =>
    (chargeTensor.charge f order c).map fun q => fun j i => q i j

/-- surface_integral.py:107-108 `single_layer_potential`. -/
noncomputable def singleLayerPotential (source_tensor : List ℝ) (charge_tensor : List E) : Except Err E :=
  if charge_tensor.length = source_tensor.length then
    .ok ((1 / (4 * Real.pi)) • tensordot source_tensor charge_tensor)
  else .error .typeError

end

/-- surface_integral.py:111-113 `curl_single_layer_potential`. `jnp.cross` broadcasts: one row in one of the two arrays is used
for all rows of the other one. -/
noncomputable def curlSingleLayerPotential (source_tensor_derivative charge_tensor : List (Pt 3)) : Except Err (Pt 3) :=
  if charge_tensor.length = source_tensor_derivative.length then
    .ok ((1 / (4 * Real.pi)) • (List.zipWith (fun q s => -crossPt q s) charge_tensor source_tensor_derivative).sum)
  else if charge_tensor.length = 1 then
    .ok ((1 / (4 * Real.pi)) • (source_tensor_derivative.map fun s => -crossPt (charge_tensor.headD 0) s).sum)
  else if source_tensor_derivative.length = 1 then
    .ok ((1 / (4 * Real.pi)) • (charge_tensor.map fun q => -crossPt q (source_tensor_derivative.headD 0)).sum)
  else .error .typeError

/-- The normal of surface_integral.py:119-120, 126-127, 136-137 and 143-144. -/
noncomputable def chargeNormal (adf : Pt 3 → ℝ) (x : Pt 3) : Pt 3 :=
  let n := -jacVec adf x
  ‖n‖⁻¹ • n

/-- surface_integral.py:116-130 `scalar_potential_charge`; the parameters are part of `mag` and `phi1`. -/
noncomputable def scalarPotentialCharge (adf : Pt 3 → ℝ) (mag : Pt 3 → Pt 3) (phi1 : Pt 3 → ℝ) (normalized : Bool)
    (x : Pt 3) : ℝ :=
  if normalized then
    let n := chargeNormal adf x
    inner ℝ (mag x) n + phi1 x
  else
    let n := chargeNormal adf x
    inner ℝ (mag x) n - inner ℝ (jacVec phi1 x) n

/-- surface_integral.py:133-147 `vector_potential_charge`. -/
noncomputable def vectorPotentialCharge (adf : Pt 3 → ℝ) (mag : Pt 3 → Pt 3) (A1 : Pt 3 → Pt 3) (normalized : Bool)
    (x : Pt 3) : Pt 3 :=
  if normalized then
    let n := chargeNormal adf x
    crossPt (mag x) n + A1 x
  else
    let n := chargeNormal adf x
    crossPt (mag x) n - WithLp.toLp 2 ((jacMatrix A1 x).mulVec n.ofLp)

end Verif
