import Verif.Model.FwdAD
import Verif.Spec.Geometry

/-! # Specification vocabulary for differentiated programs -/

namespace Verif

open XR

/-- The input of a differentiated function: the point `x` with the direction `v`. -/
def seed {n : ℕ} (x v : Pt n) : Fin n → Dual := fun i => ⟨fin (x i), fin (v i)⟩

section

variable {E : Type*} [NormedAddCommGroup E] [NormedSpace ℝ E]

/-- For every direction the program returns the value of `f` at `x` and the derivative of `f` at `x` in that direction. -/
def IsAD (d : E → Dual) (f : E → ℝ) (x : E) : Prop :=
  ∃ f' : E →L[ℝ] ℝ, HasFDerivAt f f' x ∧ ∀ v, d v = ⟨fin (f x), fin (f' v)⟩

/-- For every direction, also the zero direction, the program returns the value `c` and the tangent `nan`. -/
def NoTangent (d : E → Dual) (c : ℝ) : Prop := ∀ v, d v = ⟨fin c, nan⟩

/-- The program returns value and derivative if `p` holds, and `nan` as tangent in every direction if not. -/
def Outcome (p : Prop) (d : E → Dual) (f : E → ℝ) (x : E) : Prop :=
  (p → IsAD d f x) ∧ (¬ p → NoTangent d (f x))

end

/-- At a point whose position relative to the leaves is `v`, no set operation of the expression meets two operands which
are both on their boundaries, and the leaves satisfy `r`. -/
def SetExpr.regular {ι : Type*} (v : ι → SignType) (r : ι → Prop) : SetExpr ι → Prop
  | .leaf i => r i
  | .compl e => e.regular v r
  | .union e₁ e₂ => e₁.regular v r ∧ e₂.regular v r ∧ ¬ (e₁.kleene v = 0 ∧ e₂.kleene v = 0)
  | .inter e₁ e₂ => e₁.regular v r ∧ e₂.regular v r ∧ ¬ (e₁.kleene v = 0 ∧ e₂.kleene v = 0)
  | .diff e₁ e₂ => e₁.regular v r ∧ e₂.regular v r ∧ ¬ (e₁.kleene v = 0 ∧ e₂.kleene v = 0)
  | .impl e₁ e₂ => e₁.regular v r ∧ e₂.regular v r ∧ ¬ (e₁.kleene v = 0 ∧ e₂.kleene v = 0)
  | .equiv e₁ e₂ => e₁.regular v r ∧ e₂.regular v r ∧ ¬ (e₁.kleene v = 0 ∧ e₂.kleene v = 0)
  | .symmDiff e₁ e₂ => e₁.regular v r ∧ e₂.regular v r ∧ ¬ (e₁.kleene v = 0 ∧ e₂.kleene v = 0)

/-- Coordinate `i` of `x` is on one of the two face planes of the box. -/
def OnFace {n : ℕ} (lb ub x : Fin n → ℝ) (i : Fin n) : Prop := x i = lb i ∨ x i = ub i

/-- The value part of the differentiated program is the program. -/
def Primal {n : ℕ} (fD : DADF n) (f : ADF n) : Prop := ∀ z, (fD z).val = f fun i => (z i).val

/-- A `nan` among the tangents of the input makes the tangent of the result `nan`. -/
def Strict {n : ℕ} (fD : DADF n) : Prop := ∀ z, (∃ i, (z i).tan = nan) → (fD z).tan = nan

end Verif
