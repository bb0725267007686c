import Verif.Model.TrainStep
import Mathlib.Analysis.SpecialFunctions.Pow.Real

/-!
# The step sizes of the training in `mumag3.ipynb`

The step sizes are exact real numbers.
-/

namespace Verif

namespace Micromag

/-- mumag3.ipynb:253-254 and 273-274 `_transition_steps` for `n` samples. A batch size of zero (which raises an error in python) is excluded
in the theorems. -/
noncomputable def transitionSteps (n batch_size_dom epochs reductions : ℕ) : ℝ :=
  let n_batches := n / batch_size_dom
  (n_batches : ℝ) * epochs / reductions

/-- mumag3.ipynb:255 and 275 `optax.exponential_decay` with its other defaults (`transition_begin` 0, not a staircase, no end value), which is
constant if the number of transition steps is not positive. -/
noncomputable def exponentialDecay (init_value transition_steps decay_rate : ℝ) (count : ℕ) : ℝ :=
  if transition_steps ≤ 0 ∨ decay_rate = 0 then init_value
  else if count = 0 then init_value
  else init_value * decay_rate ^ ((count : ℝ) / transition_steps)

end Micromag

end Verif
