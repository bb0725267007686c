import Verif.Spec.Quadrature
import Mathlib.Analysis.InnerProductSpace.PiL2
import Mathlib.Analysis.Calculus.IteratedDeriv.Defs

/-! # Surface integrals and Taylor polynomials -/

namespace Verif

/-- Area of the parallelogram spanned by two vectors: the square root of the Gram determinant. -/
noncomputable def gramArea {V : Type*} [NormedAddCommGroup V] [InnerProductSpace ℝ V] (a b : V) : ℝ :=
  √(‖a‖ ^ 2 * ‖b‖ ^ 2 - inner ℝ a b ^ 2)

/-- Area element of the parametrised surface `r`: the area of the parallelogram spanned by the tangent vectors. -/
noncomputable def areaElement (r : EuclideanSpace ℝ (Fin 2) → EuclideanSpace ℝ (Fin 3)) (s t : ℝ) : ℝ :=
  gramArea (deriv (fun s => r !₂[s, t]) s) (deriv (fun t => r !₂[s, t]) t)

/-- Quadrature of `f` over the part of the surface `r` with parameters in a rectangle, given by the quadrature
rules `p` and `q` of its sides. -/
noncomputable def surfaceQuad {E : Type*} [AddCommGroup E] [Module ℝ E] (p q : List ℝ × List ℝ)
    (r : EuclideanSpace ℝ (Fin 2) → EuclideanSpace ℝ (Fin 3)) (f : EuclideanSpace ℝ (Fin 3) → E) : E :=
  quad p fun s => quad q fun t => areaElement r s t • f (r !₂[s, t])

/-- Taylor polynomial of `f` of order `k` about `c`, evaluated at `y`: the Taylor polynomial of `f` along the line from `c`
to `y`. -/
noncomputable def taylorPoly {V E : Type*} [AddCommGroup V] [Module ℝ V] [NormedAddCommGroup E] [NormedSpace ℝ E]
    (f : V → E) (k : ℕ) (c y : V) : E :=
  ∑ i ∈ Finset.range (k + 1), (i.factorial : ℝ)⁻¹ • iteratedDeriv i (fun t : ℝ => f (c + t • (y - c))) 0

/-- Polynomials of total degree at most `k` with coefficients in `E`. -/
def IsPolynomial {n : ℕ} {E : Type*} [AddCommGroup E] [Module ℝ E] (f : EuclideanSpace ℝ (Fin n) → E) (k : ℕ) : Prop :=
  ∃ (s : Finset (Fin n → ℕ)) (a : (Fin n → ℕ) → E), (∀ m ∈ s, ∑ i, m i ≤ k) ∧
    ∀ y, f y = ∑ m ∈ s, (∏ i, y i ^ m i) • a m

/-- Sum over the cells of a rectangular grid: `F` gets the end points of the sides of the cell. -/
noncomputable def gridSum {E : Type*} [AddCommMonoid E] (u v : List ℝ) (F : ℝ → ℝ → ℝ → ℝ → E) : E :=
  ∑ i ∈ Finset.range (u.length - 1), ∑ j ∈ Finset.range (v.length - 1),
    F (u.getD i 0) (u.getD (i + 1) 0) (v.getD j 0) (v.getD (j + 1) 0)

end Verif
