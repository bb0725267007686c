import Mathlib.MeasureTheory.Integral.IntervalIntegral.Basic
import Mathlib.Algebra.Polynomial.Eval.Defs
import Mathlib.Algebra.Polynomial.Degree.Defs

/-! # What a quadrature rule computes -/

namespace Verif

open Polynomial

/-- The quadrature sum of `f` with weights and nodes `r`. -/
noncomputable def quad {E : Type*} [AddCommGroup E] [Module ℝ E] (r : List ℝ × List ℝ) (f : ℝ → E) : E :=
  (List.zipWith (fun w x => w • f x) r.1 r.2).sum

/-- The weights and nodes `r` integrate polynomials of degree at most `D` exactly over `[a, b]`. -/
def ExactOn (r : List ℝ × List ℝ) (D : ℕ) (a b : ℝ) : Prop :=
  ∀ p : ℝ[X], p.natDegree ≤ D → quad r (fun x => p.eval x) = ∫ x in a..b, p.eval x

/-- Well formed weights and nodes for the interval `[a, b]`: as many weights as nodes, positive weights which
add up to the length of the interval, nodes inside of the interval. -/
structure WellFormed (r : List ℝ × List ℝ) (a b : ℝ) : Prop where
  length_eq : r.1.length = r.2.length
  sum_eq : r.1.sum = b - a
  pos : ∀ w ∈ r.1, 0 < w
  mem : ∀ x ∈ r.2, a ≤ x ∧ x ≤ b

/-- On every grid with at least two nodes the rule has as many weights as nodes and is exact for polynomials
of degree at most `D` over the interval from the first to the last node. -/
def ExactRule (m : List ℝ → List ℝ × List ℝ) (D : ℕ) : Prop :=
  ∀ l : List ℝ, ∀ h : l ≠ [], 2 ≤ l.length →
    (m l).1.length = (m l).2.length ∧ ExactOn (m l) D (l.head h) (l.getLast h)

/-- Nested quadrature: the first rule is the outermost sum. -/
noncomputable def nestedQuad {E : Type*} [AddCommGroup E] [Module ℝ E] :
    List (List ℝ × List ℝ) → (List ℝ → E) → E
  | [], f => f []
  | r :: rs, f => quad r fun x => nestedQuad rs fun p => f (x :: p)

end Verif
