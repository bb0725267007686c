import Verif.Num.Fl
import Verif.Model.Spline

/-! # `/repo/magpi/spline.py` with rounding: the basis, operation by operation in a format (`Verif.Num.Fl`) -/

namespace Verif

open XR

open Classical in
/-- spline.py:6-20 `_base_fun` in the format `F`. -/
noncomputable def baseFunFl (F : Fmt) (x : XR) (t : ℕ → XR) : ℕ → ℕ → XR
  | 0, i => if t i ≤ x ∧ x < t (i + 1) then 1 else 0
  | k + 1, i =>
    let c1 := if t (i + (k + 1)) = t i ∧ t i ≠ nan then 0
      else F.mul (F.div (F.sub x (t i)) (F.sub (t (i + (k + 1))) (t i))) (baseFunFl F x t k i)
    let c2 := if t (i + (k + 1) + 1) = t (i + 1) ∧ t (i + 1) ≠ nan then 0
      else F.mul (F.div (F.sub (t (i + (k + 1) + 1)) x) (F.sub (t (i + (k + 1) + 1)) (t (i + 1)))) (baseFunFl F x t k (i + 1))
    F.add c1 c2

/-- spline.py:24-41 `basis` for one number `x` and one grid, in the format `F`. -/
noncomputable def splineBasisFl {m : ℕ} (F : Fmt) (x : XR) (grid : Vec m) (degree : ℕ) : Vec (m - degree - 1) := fun i =>
  baseFunFl F x (clampIndex (by have := i.isLt; omega) grid) degree i

end Verif
