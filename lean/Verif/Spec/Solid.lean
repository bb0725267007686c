import Verif.Num.XR
import Mathlib.Data.Sign.Basic

/-! # Specification vocabulary for implicit solids: signs and three-valued set logic

Nothing here refers to the model: these are the meanings of "inside / on the boundary / outside" and of
the set operations. -/

namespace Verif

/-- Two binary operations obey the sign law of an R-function system: on finite operands they return
finite numbers whose signs are the minimum (AND) and the maximum (OR) of the operands' signs, with
`SignType` ordered `-1 < 0 < 1`. -/
structure SignLaw (conj disj : XR → XR → XR) : Prop where
  and_sign : ∀ a b : ℝ, ∃ c : ℝ, conj (.fin a) (.fin b) = .fin c ∧
    SignType.sign c = min (SignType.sign a) (SignType.sign b)
  or_sign : ∀ a b : ℝ, ∃ c : ℝ, disj (.fin a) (.fin b) = .fin c ∧
    SignType.sign c = max (SignType.sign a) (SignType.sign b)

/-- A set expression over named solids. -/
inductive SetExpr (ι : Type*) where
  | leaf (i : ι)
  | compl (e : SetExpr ι)
  | union (e₁ e₂ : SetExpr ι)
  | inter (e₁ e₂ : SetExpr ι)
  | diff (e₁ e₂ : SetExpr ι)
  | impl (e₁ e₂ : SetExpr ι)
  | equiv (e₁ e₂ : SetExpr ι)
  | symmDiff (e₁ e₂ : SetExpr ι)

namespace SetExpr

variable {ι : Type*}

/-- Kleene's strong three-valued logic: `1` = inside, `0` = on the boundary, `-1` = outside.
Equivalence is "both or neither", symmetric difference "at least one but not both". -/
def kleene (v : ι → SignType) : SetExpr ι → SignType
  | leaf i => v i
  | compl e => -e.kleene v
  | union e₁ e₂ => max (e₁.kleene v) (e₂.kleene v)
  | inter e₁ e₂ => min (e₁.kleene v) (e₂.kleene v)
  | diff e₁ e₂ => min (e₁.kleene v) (-e₂.kleene v)
  | impl e₁ e₂ => max (-e₁.kleene v) (e₂.kleene v)
  | equiv e₁ e₂ => max (min (e₁.kleene v) (e₂.kleene v)) (min (-e₁.kleene v) (-e₂.kleene v))
  | symmDiff e₁ e₂ => min (max (e₁.kleene v) (e₂.kleene v)) (-min (e₁.kleene v) (e₂.kleene v))

/-- Ordinary two-valued membership. -/
def mem (m : ι → Prop) : SetExpr ι → Prop
  | leaf i => m i
  | compl e => ¬ e.mem m
  | union e₁ e₂ => e₁.mem m ∨ e₂.mem m
  | inter e₁ e₂ => e₁.mem m ∧ e₂.mem m
  | diff e₁ e₂ => e₁.mem m ∧ ¬ e₂.mem m
  | impl e₁ e₂ => e₁.mem m → e₂.mem m
  | equiv e₁ e₂ => (e₁.mem m ↔ e₂.mem m)
  | symmDiff e₁ e₂ => (e₁.mem m ∧ ¬ e₂.mem m) ∨ (¬ e₁.mem m ∧ e₂.mem m)

/-- Away from all leaf boundaries three-valued logic is ordinary set membership: the value is `±1` and it
is `1` exactly for members. -/
theorem kleene_of_ne_zero (v : ι → SignType) (hv : ∀ i, v i ≠ 0) (e : SetExpr ι) :
    e.kleene v ≠ 0 ∧ (e.kleene v = 1 ↔ e.mem fun i => v i = 1) := by
  induction e with
  | leaf i => exact ⟨hv i, Iff.rfl⟩
  | compl e ih =>
    obtain ⟨h1, h2⟩ := ih
    simp only [kleene, mem, ← h2]
    generalize e.kleene v = x at *
    clear h2; revert h1; revert x; decide
  | _ e₁ e₂ ih₁ ih₂ =>
    obtain ⟨h1, h2⟩ := ih₁
    obtain ⟨h3, h4⟩ := ih₂
    simp only [kleene, mem, ← h2, ← h4]
    generalize e₁.kleene v = x at *
    generalize e₂.kleene v = y at *
    clear h2 h4
    revert h1 h3
    revert x y
    decide

end SetExpr

end Verif
