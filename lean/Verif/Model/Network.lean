import Verif.Model.BC
import Mathlib.Analysis.Complex.Trigonometric

/-! # Model of `/repo/magpi/model.py`: the default activation of `MLP` -/

namespace Verif

open XR

/-- `jnp.tanh`. -/
noncomputable def XR.tanh : XR → XR
  | nan => nan
  | ninf => fin (-1)
  | pinf => fin 1
  | fin a => fin (Real.tanh a)

/-- model.py:20-33 `MLP.__call__` with the choice of the activation: `tanh` if none is given. -/
noncomputable def MLP.call (layers : List ℕ) (activation : Option (XR → XR)) (params : MLPParams) (x : List XR) :
    Except Err (XR ⊕ List XR) :=
  MLP.apply layers (activation.getD XR.tanh) params x

end Verif
