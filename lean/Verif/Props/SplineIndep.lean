import Verif.Props.SplineSmooth

/-!
# C135: the spline determines its coefficients
-/

namespace Verif

open XR

section
variable {t : ℕ → ℝ} (ht : StrictMono t)
include ht

theorem bspline_pos (x : ℝ) (k i : ℕ) (h1 : t i < x) (h2 : x < t (i + k + 1)) : 0 < bspline x t k i := by
  induction k generalizing i with
  | zero => rw [bspline, if_pos ⟨h1.le, h2⟩]; exact zero_lt_one
  | succ k ih =>
    have hd1 : 0 < t (i + (k + 1)) - t i := sub_pos.mpr (ht (by omega))
    have hd2 : 0 < t (i + (k + 1) + 1) - t (i + 1) := sub_pos.mpr (ht (by omega))
    have hn1 := bspline_nonneg ht.monotone x k i
    have hn2 := bspline_nonneg ht.monotone x k (i + 1)
    rw [bspline]
    rcases lt_or_ge x (t (i + (k + 1))) with h | h
    · have p1 := ih i h1 h
      have : 0 < (x - t i) / (t (i + (k + 1)) - t i) * bspline x t k i := mul_pos (div_pos (by linarith) hd1) p1
      have : 0 ≤ (t (i + (k + 1) + 1) - x) / (t (i + (k + 1) + 1) - t (i + 1)) * bspline x t k (i + 1) :=
        mul_nonneg (div_nonneg (by linarith [show x < t (i + (k + 1) + 1) from h2]) hd2.le) hn2
      linarith
    · have h3 : t (i + 1) ≤ t (i + (k + 1)) := ht.monotone (by omega)
      have h4 : x < t (i + (k + 1) + 1) := h2
      have : 0 ≤ (x - t i) / (t (i + (k + 1)) - t i) * bspline x t k i :=
        mul_nonneg (div_nonneg (by linarith) hd1.le) hn1
      rcases eq_or_lt_of_le (h3.trans h) with h5 | h5
      · -- `x` is the knot `t (i + 1)`: only for `k = 0`
        have hk : k = 0 := by
          by_contra hk
          have := ht (show i + 1 < i + (k + 1) by omega)
          linarith
        subst hk
        rw [show bspline x t 0 (i + 1) = 1 by rw [bspline, if_pos ⟨h5.le, h4⟩]]
        have : 0 < (t (i + (0 + 1) + 1) - x) / (t (i + (0 + 1) + 1) - t (i + 1)) * 1 := by
          rw [mul_one]; exact div_pos (by linarith) hd2
        linarith
      · have p2 := ih (i + 1) h5 (by rw [show i + 1 + k + 1 = i + (k + 1) + 1 by omega]; exact h4)
        have : 0 < (t (i + (k + 1) + 1) - x) / (t (i + (k + 1) + 1) - t (i + 1)) * bspline x t k (i + 1) :=
          mul_pos (div_pos (by linarith) hd2) p2
        linarith

/-- A combination which vanishes on the grid has the coefficients zero. -/
theorem bspline_independent (k n : ℕ) (c : Fin n → ℝ)
    (h : ∀ x, t 0 ≤ x → x < t n → ∑ i : Fin n, bspline x t k i * c i = 0) : c = 0 := by
  have key : ∀ j (hj : j < n), c ⟨j, hj⟩ = 0 := by
    intro j
    induction j using Nat.strong_induction_on with
    | _ j ih =>
      intro hj
      obtain ⟨x, hx1, hx2⟩ := exists_between (ht (Nat.lt_succ_self j))
      have hs := h x ((ht.monotone (Nat.zero_le j)).trans hx1.le) (hx2.trans_le (ht.monotone hj))
      rw [Finset.sum_eq_single (⟨j, hj⟩ : Fin n)] at hs
      · exact (mul_eq_zero.mp hs).resolve_left
          (bspline_pos ht x k j hx1 (hx2.trans_le (ht.monotone (by omega)))).ne'
      · intro i _ hi
        rcases lt_or_gt_of_ne (fun e => hi (Fin.ext e) : (i : ℕ) ≠ j) with hlt | hgt
        · rw [ih i hlt i.isLt, mul_zero]
        · rw [bspline_support ht.monotone x k i (Or.inl (hx2.trans_le (ht.monotone hgt))), zero_mul]
      · simp
  funext i
  exact key i i.isLt

end

/-- The basis functions of a strictly increasing grid are positive in the interior of their support. -/
theorem C135_positive {m : ℕ} (x : ℝ) (t : Fin m → ℝ) (ht : StrictMono t) (k : ℕ) (i : Fin (m - k - 1))
    (h1 : t ⟨i, by omega⟩ < x) (h2 : x < t ⟨i + k + 1, by omega⟩) :
    ∃ b : ℝ, splineBasis (fin x) (vfin t) k i = fin b ∧ 0 < b := by
  have hm : 0 < m := by have := i.isLt; omega
  refine ⟨_, splineBasis_extend x t k i hm, bspline_pos (extendGrid_strictMono hm ht) x k i ?_ ?_⟩
  · rw [extendGrid_of_lt hm t (by omega)]; exact h1
  · rw [extendGrid_of_lt hm t (by omega)]; exact h2

example : ∃ b : ℝ, splineBasis (fin (5 / 2)) (vfin fun i : Fin 10 => ((i : ℕ) : ℝ)) 3 ⟨1, by norm_num⟩ = fin b ∧ 0 < b :=
  C135_positive _ _ (fun _ _ h => Nat.cast_lt.2 h) 3 _ (by norm_num) (by norm_num)

/-- Splines over a strictly increasing grid which agree between the first knot and the last knot have the same
coefficients. -/
theorem C135_coefficients {m : ℕ} (t : Fin m → ℝ) (ht : StrictMono t) (k : ℕ) (c c' : Fin (m - k - 1) → ℝ)
    (h : ∀ x : ℝ, (∃ i, t i ≤ x) → (∃ i, x < t i) →
      ∑ i, splineBasis (fin x) (vfin t) k i * fin (c i) = ∑ i, splineBasis (fin x) (vfin t) k i * fin (c' i)) :
    c = c' := by
  rcases Nat.eq_zero_or_pos m with hm | hm
  · subst hm; funext i; exact absurd i.isLt (by omega)
  have hz : (fun i => c i - c' i) = 0 := by
    refine bspline_independent (extendGrid_strictMono hm ht) k (m - k - 1) _ fun x h0 h1 => ?_
    rw [extendGrid_of_lt hm t hm] at h0
    rw [extendGrid_of_lt hm t (by omega)] at h1
    have := h x ⟨_, h0⟩ ⟨_, h1⟩
    simp only [splineBasis_extend x t k _ hm, fin_mul, fin_sum, fin_inj] at this
    rw [← sub_eq_zero, ← Finset.sum_sub_distrib] at this
    rw [← this]
    exact Finset.sum_congr rfl fun i _ => mul_sub _ _ _
  funext i
  exact sub_eq_zero.mp (congrFun hz i)

/-- `SplineActivation` with the grid of `make_grid`: different coefficients give different functions, already on the
inputs between `node_min` and `node_max`. -/
theorem C135_module {d : ℕ} (nodes : ℕ) (hn : 2 ≤ nodes) (node_min node_max : ℝ) (hs : node_min < node_max) (degree : ℕ)
    (grid_power : ℝ) (hp : 0 < grid_power) (activation : XR → XR) (hact : ∀ a : ℝ, ∃ b : ℝ, activation (fin a) = fin b)
    (coefs coefs' : Fin d → Fin (nodes - degree - 1) → ℝ)
    (h : ∀ x : Fin d → ℝ, (∀ j, node_min ≤ x j ∧ x j < node_max) →
      SplineActivation nodes node_min node_max degree grid_power activation none (fun j => vfin (coefs j)) (vfin x) =
      SplineActivation nodes node_min node_max degree grid_power activation none (fun j => vfin (coefs' j)) (vfin x)) :
    coefs = coefs' := by
  obtain ⟨t, hgrid, hmono, h0, h1, -⟩ := C75_grid node_min node_max grid_power hs hp nodes hn
  have hm : 0 < nodes := by omega
  funext j
  refine C135_coefficients t hmono degree _ _ fun x hx0 hx1 => ?_
  have hlo : node_min ≤ x := by
    obtain ⟨i, hi⟩ := hx0
    exact h0 ▸ (hmono.monotone (show (⟨0, by omega⟩ : Fin nodes) ≤ i from Nat.zero_le _)).trans hi
  have hhi : x < node_max := by
    obtain ⟨i, hi⟩ := hx1
    exact h1 ▸ hi.trans_le (hmono.monotone (show i ≤ (⟨nodes - 1, by omega⟩ : Fin nodes) from Nat.le_sub_one_of_lt i.isLt))
  have hj := congrFun (h (fun _ => x) fun _ => ⟨hlo, hhi⟩) j
  obtain ⟨b, hb⟩ := hact x
  simp only [SplineActivation, splineActivation, hgrid, vfin_apply, hb, splineBasis_extend x t degree _ hm, fin_mul,
    fin_sum, fin_add, fin_inj, add_right_inj] at hj
  simp only [splineBasis_extend x t degree _ hm, fin_mul, fin_sum, fin_inj]
  exact hj

/-- Quadratic splines on six knots with the three coefficients `0, 0, 1` are not those with `0, 0, 0`. -/
example : ¬ ∀ x : ℝ, ∑ i, splineBasis (fin x) (vfin fun i : Fin 6 => (i : ℝ)) 2 i * fin ((![0, 0, 1] : Fin 3 → ℝ) i) =
    ∑ i, splineBasis (fin x) (vfin fun i : Fin 6 => (i : ℝ)) 2 i * fin ((0 : Fin 3 → ℝ) i) := by
  intro h
  have := C135_coefficients (fun i : Fin 6 => (i : ℝ)) (fun i j h => by simpa using h) 2 ![0, 0, 1] 0 fun x _ _ => h x
  have := congrFun this 2
  simp at this

end Verif
