import Mathlib.Analysis.SpecialFunctions.Pow.Real

/-! # Regions of space, for the properties of `domain.py` -/

namespace Verif

/-- Euclidean distance of two points. -/
noncomputable def edist2 {n : ℕ} (p o : Fin n → ℝ) : ℝ := Real.sqrt (∑ i, (p i - o i) ^ 2)

end Verif
