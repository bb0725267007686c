import Verif.Model.QuatAD
import Verif.Model.Spline

/-! # Model of forward and reverse differentiation of `/repo/magpi/spline.py`

Forward mode as in `Verif.Model.FwdAD`; the knots are differentiated as well. `jnp.where` selects the tangent as it selects the
value. Reverse mode (`jax.grad`, `vjp`) with respect to the point: the cotangent of the result is carried back through the
operations of the code; `jnp.where` gives its cotangent to the selected operand and zero to the other, which carries it on. -/

namespace Verif

open XR

open Classical in
/-- spline.py:6-20 `_base_fun` under `jvp`. -/
noncomputable def baseFunD (x : Dual) (t : ℕ → Dual) : ℕ → ℕ → Dual
  | 0, i => Dual.const (if (t i).val ≤ x.val ∧ x.val < (t (i + 1)).val then 1 else 0)
  | k + 1, i =>
    let c1 := if (t (i + (k + 1))).val = (t i).val ∧ (t i).val ≠ nan then Dual.const 0
      else (x - t i).div (t (i + (k + 1)) - t i) * baseFunD x t k i
    let c2 := if (t (i + (k + 1) + 1)).val = (t (i + 1)).val ∧ (t (i + 1)).val ≠ nan then Dual.const 0
      else (t (i + (k + 1) + 1) - x).div (t (i + (k + 1) + 1) - t (i + 1)) * baseFunD x t k (i + 1)
    c1 + c2

/-- spline.py:24-41 `basis` under `jvp`, for one number `x` and one grid. -/
noncomputable def splineBasisD {m : ℕ} (x : Dual) (grid : Fin m → Dual) (degree : ℕ) : Fin (m - degree - 1) → Dual := fun i =>
  baseFunD x (fun j => grid ⟨min j (m - 1), by have := i.isLt; omega⟩) degree i

open Classical in
/-- spline.py:6-20 `_base_fun`, reverse: what the cotangent `g` of the result adds to the cotangent of `x`. The indicator
functions of degree zero do not depend on `x` for the differentiation. -/
noncomputable def baseFunVjp (x : XR) (t : ℕ → XR) : ℕ → ℕ → XR → XR
  | 0, _, _ => 0
  | k + 1, i, g =>
    let d1 := t (i + (k + 1)) - t i
    let g1 := if t (i + (k + 1)) = t i ∧ t i ≠ nan then 0 else g
    let c1 := g1 * baseFun x t k i / d1 + baseFunVjp x t k i (g1 * ((x - t i) / d1))
    let d2 := t (i + (k + 1) + 1) - t (i + 1)
    let g2 := if t (i + (k + 1) + 1) = t (i + 1) ∧ t (i + 1) ≠ nan then 0 else g
    let c2 := -(g2 * baseFun x t k (i + 1) / d2) + baseFunVjp x t k (i + 1) (g2 * ((t (i + (k + 1) + 1) - x) / d2))
    c1 + c2

/-- spline.py:24-41 `basis`, reverse: the cotangent of `x` for the cotangents `g` of the basis functions. -/
noncomputable def splineBasisVjp {m : ℕ} (x : XR) (grid : Vec m) (degree : ℕ) (g : Vec (m - degree - 1)) : XR :=
  ∑ i : Fin (m - degree - 1), baseFunVjp x (clampIndex (by have := i.isLt; omega) grid) degree i (g i)

/-- spline.py:131-132 the output of `SplineActivation` under `jvp` with respect to `x`; `activationD` is the activation function
under `jvp`. -/
noncomputable def splineActivationD {d m : ℕ} (activationD : Dual → Dual) (grid : Fin d → Vec m) (degree : ℕ)
    (coefs : Fin d → Vec (m - degree - 1)) (x : Fin d → Dual) : Fin d → Dual := fun j =>
  let b := splineBasisD (x j) (fun i => Dual.const (grid j i)) degree
  activationD (x j) + ⟨∑ i, ((b i).mulc (coefs j i)).val, ∑ i, ((b i).mulc (coefs j i)).tan⟩

/-- spline.py:131-132 the output of `SplineActivation`, reverse: the cotangent of `x` for the cotangent `g` of the output;
`activationVjp` is that of the activation function. -/
noncomputable def splineActivationVjp {d m : ℕ} (activationVjp : XR → XR → XR) (grid : Fin d → Vec m) (degree : ℕ)
    (coefs : Fin d → Vec (m - degree - 1)) (x g : Vec d) : Vec d := fun j =>
  activationVjp (x j) (g j) + splineBasisVjp (x j) (grid j) degree fun i => g j * coefs j i

/-- spline.py:131-132 the output of `SplineActivation`, reverse: the cotangent of `coefs`. -/
noncomputable def splineCoefsVjp {d m : ℕ} (grid : Fin d → Vec m) (degree : ℕ) (x g : Vec d) : Fin d → Vec (m - degree - 1) :=
  fun j i => splineBasis (x j) (grid j) degree i * g j

end Verif
