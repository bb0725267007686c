import Verif.Model.NestedAD
import Verif.Spec.Geometry
import Mathlib.Analysis.Calculus.ContDiff.Defs

/-! # Specification vocabulary for nested differentiation -/

namespace Verif

open XR
open scoped ContDiff Topology

/-- The input of a function below `k` nested `jvp`s: the point `x` with the directions `vs 0`, ..., `vs (k - 1)`. -/
noncomputable def seedK {n : ℕ} (x : Pt n) (vs : ℕ → Pt n) : (k : ℕ) → Fin n → Nested k
  | 0 => fun i => fin (x i)
  | k + 1 => fun i => (⟨seedK x vs k i, some (ADNum.const (fin (vs k i)))⟩ : JVP (Nested k))

/-- The entry of the nested pairs which belongs to the directions `vs i` with `b i`: the tangent is taken for these, the value for
the others. A symbolic zero is the number zero. -/
noncomputable def comp (b : ℕ → Bool) : (k : ℕ) → Nested k → XR
  | 0, d => d
  | k + 1, d => if b k then (JVP.tan d).elim 0 (comp b k) else comp b k (JVP.val d)

/-- The value at the bottom. -/
noncomputable abbrev value (k : ℕ) (d : Nested k) : XR := comp (fun _ => false) k d

section

variable {E : Type*} [NormedAddCommGroup E] [NormedSpace ℝ E]

/-- The mixed derivative of `f` in the directions `vs i`, `i < k`, with `b i`. -/
noncomputable def dderiv (vs : ℕ → E) (b : ℕ → Bool) : ℕ → (E → ℝ) → E → ℝ
  | 0, f => f
  | k + 1, f => if b k then dderiv vs b k (fun y => fderiv ℝ f y (vs k)) else dderiv vs b k f

/-- The nested pairs carry the value of `f` at `x` and all mixed derivatives in the directions `vs`. -/
def Carries (k : ℕ) (vs : ℕ → E) (d : Nested k) (f : E → ℝ) (x : E) : Prop :=
  ∀ b, comp b k d = fin (dderiv vs b k f x)

/-- `f` is smooth at `x` and the nested pairs `d` stand for `f` at `x`: the value is that of `f`, the tangent stands for the function
`y ↦ D f(y) vs` in the same way, and a symbolic zero only occurs if that function is zero near `x`. -/
def Rep (x : E) (vs : ℕ → E) : (k : ℕ) → Nested k → (E → ℝ) → Prop
  | 0, d, f => ContDiffAt ℝ ∞ f x ∧ d = fin (f x)
  | k + 1, d, f => Rep x vs k (JVP.val d) f ∧
    match JVP.tan d with
    | none => (fun y => fderiv ℝ f y (vs k)) =ᶠ[𝓝 x] 0
    | some t => Rep x vs k t fun y => fderiv ℝ f y (vs k)

end

/-- No tangent of the value is a symbolic zero. -/
def Tracked : (k : ℕ) → Nested k → Prop
  | 0, _ => True
  | k + 1, d => Tracked k (JVP.val d) ∧ (JVP.tan d).isSome

/-- Every entry but the value is `nan`. -/
def Poisoned (k : ℕ) (d : Nested k) : Prop := ∀ b : ℕ → Bool, (∃ j < k, b j = true) → comp b k d = nan

/-- The program `F`, called with numbers which stand for smooth functions `T 0`, ..., `T (m - 1)` of any point (below any number of
nested `jvp`s, in any directions) with values `x₀` at the point, returns a number which stands for `f (T 0, ..., T (m - 1))` if `p`
holds, and a number with `nan` for every derivative if not. -/
def NestOutcome {m : ℕ} (p : Prop) (F : (k : ℕ) → GADF (Nested k) m) (f : Pt m → ℝ) (x₀ : Pt m) : Prop :=
  ∀ (n k : ℕ) (x : Pt n) (vs : ℕ → Pt n) (a : Fin m → Nested k) (T : Pt n → Pt m), T x = x₀ →
    (∀ i, Rep x vs k (a i) (fun y => T y i) ∧ Tracked k (a i)) →
    (p → Rep x vs k (F k a) (fun y => f (T y)) ∧ Tracked k (F k a)) ∧ (¬ p → Poisoned k (F k a))

/-- `nan` entries of an argument are `nan` entries of the result. -/
def NestStrict {n : ℕ} (F : (k : ℕ) → GADF (Nested k) n) : Prop :=
  ∀ (c : ℕ → Bool) (k : ℕ) (a : Fin n → Nested k), (∃ i, comp c k (a i) = nan) → comp c k (F k a) = nan

end Verif
