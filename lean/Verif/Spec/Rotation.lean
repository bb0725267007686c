import Mathlib.LinearAlgebra.CrossProduct
import Mathlib.Analysis.SpecialFunctions.Trigonometric.Basic

/-! # Specification vocabulary: rotations and mirror images of real vectors -/

namespace Verif

open Matrix

/-- Rodrigues' formula: the vector `x` turned about the unit vector `u` by the angle `t`
(right hand rule). -/
noncomputable def rodrigues (u : Fin 3 → ℝ) (t : ℝ) (x : Fin 3 → ℝ) : Fin 3 → ℝ :=
  Real.cos t • x + Real.sin t • (u ⨯₃ x) + ((1 - Real.cos t) * (u ⬝ᵥ x)) • u

/-- The point `x` of the plane turned counter-clockwise about the origin by the angle `t`. -/
noncomputable def turn2 (t : ℝ) (x : Fin 2 → ℝ) : Fin 2 → ℝ :=
  ![Real.cos t * x 0 - Real.sin t * x 1, Real.sin t * x 0 + Real.cos t * x 1]

/-- `y` is the mirror image of `x` in the plane through the origin orthogonal to `n`: the displacement is
parallel to `n` and the midpoint lies in the plane. -/
def IsMirror {m : ℕ} (n x y : Fin m → ℝ) : Prop :=
  (∃ c : ℝ, y - x = c • n) ∧ n ⬝ᵥ (x + y) = 0

end Verif
