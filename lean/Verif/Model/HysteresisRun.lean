import Verif.Model.TrainAD
import Verif.Model.TR

/-! # The objective of the trust region method in `/repo/examples/hysteresis.ipynb`

Line numbers are those of the `.ipynb` file. -/

namespace Verif

/-- The objective which `TR` (tr.py:111-138) gets from a program in which the parameters also occur inside of `stop_gradient`: `loss P` is the program in
which they are `P` there. Values are computed with `P` the parameters, and `value_and_grad` and `value_grad_hvp` differentiate for constant `P`. -/
noncomputable def LossG.stopObjective {q : ℕ} (loss : Vec q → LossG q) : Objective q Unit where
  value params := loss params XR params
  aux _ := ()
  grad params := ((loss params).valueAndGrad params).2
  hvp params := (loss params).hvpForwardOverReverse params

namespace Micromag

/-- hysteresis.ipynb:127-144 `loss` as objective of `TR` (line 194), without the energies. `field params` are the values of the stray field at the
samples (lines 132-133), which are computed with `stop_gradient(params)`. -/
noncomputable def hysteresisObjective {q n : ℕ} (A Ka : ℝ) (easy_axis hext_axis : Pt 3) (field : Vec q → Fin n → Pt 3) (m : NetG q 3 3)
    (x_dom : Fin n → Pt 3) (hext : ℝ) : Objective q Unit :=
  LossG.stopObjective fun params _ _ _ => hysteresisLossG A Ka easy_axis hext_axis (field params) m x_dom hext

end Micromag

end Verif
