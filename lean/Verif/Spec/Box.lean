import Verif.Spec.Surface

/-! # Boxes with a grid on every axis -/

namespace Verif

/-- A grid: at least two entries, in ascending order. -/
def IsGrid (l : List ℝ) : Prop := 2 ≤ l.length ∧ l.Pairwise (· ≤ ·)

/-- Lower corner of the box with the grids `G`. -/
def gridLo (G : Fin 3 → List ℝ) : Fin 3 → ℝ := fun i => (G i).headD 0

/-- Upper corner of the box with the grids `G`. -/
def gridHi (G : Fin 3 → List ℝ) : Fin 3 → ℝ := fun i => (G i).getLastD 0

/-- The point whose coordinate `k` is `c`, the other two coordinates are `s` and `t`. -/
noncomputable def planePoint (k : Fin 3) (c s t : ℝ) : EuclideanSpace ℝ (Fin 3) := WithLp.toLp 2 (k.insertNth c ![s, t])

/-- Sum over all cells of all six sides of the box with the grids `G`: `F` gets the axis which is orthogonal to the side,
the coordinate of the side on this axis, and the end points of the sides of the cell. -/
noncomputable def boxSum {E : Type*} [AddCommMonoid E] (G : Fin 3 → List ℝ)
    (F : Fin 3 → ℝ → ℝ → ℝ → ℝ → ℝ → E) : E :=
  ∑ k, (gridSum (G (k.succAbove 0)) (G (k.succAbove 1)) (F k (gridLo G k)) +
    gridSum (G (k.succAbove 0)) (G (k.succAbove 1)) (F k (gridHi G k)))

end Verif
