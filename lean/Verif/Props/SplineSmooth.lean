import Verif.Props.Spline
import Mathlib.MeasureTheory.Integral.IntervalIntegral.FundThmCalculus
import Mathlib.Algebra.Polynomial.BigOperators
import Mathlib.Algebra.Polynomial.Roots
import Mathlib.Analysis.Calculus.ContDiff.Deriv
import Mathlib.Analysis.SpecialFunctions.Trigonometric.Deriv

/-! # Splines reproduce polynomials and are smooth -/

namespace Verif

open XR Set

/-! ## Marsden's identity -/

section
variable {t : ℕ → ℝ} (ht : Monotone t) (x : ℝ)
include ht

theorem bspline_marsden (y : ℝ) (k lo hi : ℕ) (h1 : t (lo + k) ≤ x) (h2 : x < t hi) :
    ∑ i ∈ Finset.Ico lo hi, bspline x t k i * ∏ j ∈ Finset.range k, (y - t (i + 1 + j)) = (y - x) ^ k := by
  induction k generalizing lo with
  | zero => simpa using bspline_sum ht x 0 lo hi h1 h2
  | succ k ih =>
    have hlt : lo < hi := by
      by_contra h
      have := ht (show hi ≤ lo + (k + 1) by omega)
      linarith
    set P : ℕ → ℝ := fun i => ∏ j ∈ Finset.range k, (y - t (i + 1 + j)) with hP
    set Q : ℕ → ℝ := fun i => ∏ j ∈ Finset.range (k + 1), (y - t (i + 1 + j)) with hQ
    have hQ1 : ∀ i, Q i = P i * (y - t (i + (k + 1))) := by
      intro i
      simp only [hQ, hP]
      rw [Finset.prod_range_succ, show i + 1 + k = i + (k + 1) by omega]
    have hQ2 : ∀ i, Q i = P (i + 1) * (y - t (i + 1)) := by
      intro i
      simp only [hQ, hP]
      rw [Finset.prod_range_succ', Nat.add_zero]
      congr 1
      refine Finset.prod_congr rfl fun j _ => ?_
      rw [show i + 1 + (j + 1) = i + 1 + 1 + j by omega]
    set a : ℕ → ℝ := fun i => (x - t i) / (t (i + (k + 1)) - t i) * bspline x t k i with ha
    set b : ℕ → ℝ := fun i => (t (i + (k + 1)) - x) / (t (i + (k + 1)) - t i) * bspline x t k i with hb
    have hab : ∀ i, a i * (P i * (y - t (i + (k + 1)))) + b i * (P i * (y - t i)) = (y - x) * (bspline x t k i * P i) := by
      intro i
      by_cases hti : t (i + (k + 1)) = t i
      · have h0 : bspline x t k i = 0 := by
          apply bspline_support ht
          rw [show i + k + 1 = i + (k + 1) by omega, hti]
          exact lt_or_ge x (t i)
        simp [ha, hb, h0]
      · have : t (i + (k + 1)) - t i ≠ 0 := sub_ne_zero.mpr hti
        simp only [ha, hb]
        field_simp
        ring
    have hrec : ∀ i, bspline x t (k + 1) i = a i + b (i + 1) := by
      intro i
      rw [bspline]
      simp only [ha, hb]
      rw [show i + 1 + (k + 1) = i + (k + 1) + 1 by omega]
    have ha0 : a lo = 0 := by
      simp only [ha]
      rw [bspline_support ht x k lo (Or.inr (by rw [show lo + k + 1 = lo + (k + 1) by omega]; exact h1)), mul_zero]
    have hb0 : b hi = 0 := by
      simp only [hb]
      rw [bspline_support ht x k hi (Or.inl h2), mul_zero]
    have e1 : ∀ i, bspline x t (k + 1) i * Q i =
        a i * (P i * (y - t (i + (k + 1)))) + b (i + 1) * (P (i + 1) * (y - t (i + 1))) := by
      intro i
      rw [hrec, add_mul]
      congr 1
      · rw [hQ1]
      · rw [hQ2]
    rw [Finset.sum_congr rfl fun i _ => e1 i, Finset.sum_add_distrib, Finset.sum_eq_sum_Ico_succ_bot hlt, ha0, zero_mul,
      zero_add]
    have hshift : ∑ i ∈ Finset.Ico lo hi, b (i + 1) * (P (i + 1) * (y - t (i + 1))) =
        ∑ i ∈ Finset.Ico (lo + 1) hi, b i * (P i * (y - t i)) := by
      rw [Finset.sum_Ico_add' (fun i => b i * (P i * (y - t i))) lo hi 1, Finset.sum_Ico_succ_top (by omega), hb0, zero_mul,
        add_zero]
    rw [hshift, ← Finset.sum_add_distrib, Finset.sum_congr rfl fun i _ => hab i, ← Finset.mul_sum,
      ih (lo + 1) (by rw [show lo + 1 + k = lo + (k + 1) by omega]; exact h1)]
    ring

end

/-! ## C116 -/

/-- The polynomial whose zeros are the inner knots of a basis function. -/
noncomputable def knotPoly {m : ℕ} (t : Fin m → ℝ) (k : ℕ) (i : Fin (m - k - 1)) : Polynomial ℝ :=
  ∏ j : Fin k, (Polynomial.X - Polynomial.C (t ⟨i + 1 + j, by omega⟩))

section
variable {m : ℕ} (x : ℝ) (t : Fin m → ℝ) (ht : Monotone t) (k : ℕ) (hk : k + 1 ≤ m)
  (h1 : t ⟨k, by omega⟩ ≤ x) (h2 : x < t ⟨m - 1 - k, by omega⟩)
include ht h1 h2

/-- **C116, Marsden's identity**. Between the knots `t_k` and `t_(m-1-k)` the polynomial `(y - x)^k` is the spline with the
coefficients `(y - t_(i+1)) ⋯ (y - t_(i+k))`. -/
theorem C116_marsden (y : ℝ) :
    ∑ i, splineBasis (fin x) (vfin t) k i * fin (∏ j : Fin k, (y - t ⟨i + 1 + j, by omega⟩)) = fin ((y - x) ^ k) := by
  have hm : 0 < m := by omega
  have h3 : t ⟨m - k - 1, by omega⟩ = t ⟨m - 1 - k, by omega⟩ := by
    congr 1
    rw [Fin.mk.injEq]
    omega
  rw [← bspline_marsden (clampReal_mono hm ht) x y k 0 (m - k - 1)
    (by rw [Nat.zero_add, clampReal_of_lt hm t (by omega)]; exact h1)
    (by rw [clampReal_of_lt hm t (by omega), h3]; exact h2), ← Finset.range_eq_Ico,
    ← Fin.sum_univ_eq_sum_range
      (fun i => bspline x (clampReal hm t) k i * ∏ j ∈ Finset.range k, (y - clampReal hm t (i + 1 + j))) (m - k - 1),
    ← fin_sum]
  refine Finset.sum_congr rfl fun i _ => ?_
  rw [splineBasis_fin x t k i hm, fin_mul, ← Fin.prod_univ_eq_prod_range (fun j => y - clampReal hm t (i + 1 + j)) k]
  congr 2
  refine Finset.prod_congr rfl fun j _ => ?_
  rw [clampReal_of_lt hm t (by omega)]

theorem marsden_coeff (r : ℕ) (hr : r ≤ k) (hm : 0 < m) :
    ∑ i : Fin (m - k - 1), bspline x (clampReal hm t) k i *
      (knotPoly t k i).coeff (k - r) = (-x) ^ r * (k.choose (k - r) : ℝ) := by
  have hpoly : ∑ i : Fin (m - k - 1), Polynomial.C (bspline x (clampReal hm t) k i) *
      knotPoly t k i = (Polynomial.X - Polynomial.C x) ^ k := by
    refine Polynomial.funext fun y => ?_
    have h := C116_marsden x t ht k hk h1 h2 y
    rw [Finset.sum_congr rfl fun i _ => by rw [splineBasis_fin x t k i hm, fin_mul], fin_sum, fin_inj] at h
    simpa [knotPoly, Polynomial.eval_finsetSum, Polynomial.eval_prod] using h
  have h := congrArg (fun p => Polynomial.coeff p (k - r)) hpoly
  simp only [Polynomial.finsetSum_coeff, Polynomial.coeff_C_mul, sub_eq_add_neg, ← Polynomial.C_neg,
    Polynomial.coeff_X_add_C_pow] at h
  rw [h, show k - (k - r) = r by omega]

/-- **C116, linear precision**. With the averages of the inner knots as coefficients the spline is the identity. -/
theorem C116_linear (hk1 : 1 ≤ k) :
    ∑ i, splineBasis (fin x) (vfin t) k i * fin ((∑ j : Fin k, t ⟨i + 1 + j, by omega⟩) / k) = fin x := by
  have hm : 0 < m := by omega
  have h := marsden_coeff x t ht k hk h1 h2 1 hk1 hm
  rw [Finset.sum_congr rfl fun i _ => by rw [splineBasis_fin x t k i hm, fin_mul], fin_sum, fin_inj]
  have hc : ∀ i : Fin (m - k - 1), (knotPoly t k i).coeff (k - 1) =
      -∑ j : Fin k, t ⟨i + 1 + j, by omega⟩ := by
    intro i
    have := Polynomial.prod_X_sub_C_coeff_card_pred (R := ℝ) (Finset.univ : Finset (Fin k))
      (fun j => t ⟨i + 1 + j, by omega⟩) (by simp; omega)
    simpa [knotPoly] using this
  simp only [hc] at h
  have hkk : (k.choose (k - 1) : ℝ) = k := by
    rw [Nat.choose_symm hk1, Nat.choose_one_right]
  rw [hkk] at h
  have hk0 : (k : ℝ) ≠ 0 := by positivity
  have e : ∀ i : Fin (m - k - 1), bspline x (clampReal hm t) k i * ((∑ j : Fin k, t ⟨i + 1 + j, by omega⟩) / k) =
      -(bspline x (clampReal hm t) k i * -∑ j : Fin k, t ⟨i + 1 + j, by omega⟩) / k := by
    intro i
    ring
  rw [Finset.sum_congr rfl fun i _ => e i, ← Finset.sum_div, Finset.sum_neg_distrib, h]
  field_simp

end

/-- **C116, polynomials**. Every polynomial of degree at most `k` is a spline of degree `k`: there are coefficients, depending
only on the grid, such that the spline agrees with the polynomial between the knots `t_k` and `t_(m-1-k)`. -/
theorem C116_polynomials {m : ℕ} (t : Fin m → ℝ) (ht : Monotone t) (k : ℕ) (hk : k + 1 ≤ m) (p : Polynomial ℝ)
    (hp : p.natDegree ≤ k) :
    ∃ c : Fin (m - k - 1) → ℝ, ∀ x : ℝ, t ⟨k, by omega⟩ ≤ x → x < t ⟨m - 1 - k, by omega⟩ →
      ∑ i, splineBasis (fin x) (vfin t) k i * fin (c i) = fin (p.eval x) := by
  have hm : 0 < m := by omega
  refine ⟨fun i => ∑ r ∈ Finset.range (k + 1), p.coeff r * ((-1) ^ r / (k.choose (k - r) : ℝ) *
    (knotPoly t k i).coeff (k - r)), fun x h1 h2 => ?_⟩
  rw [Finset.sum_congr rfl fun i _ => by rw [splineBasis_fin x t k i hm, fin_mul], fin_sum, fin_inj,
    Polynomial.eval_eq_sum_range' (Nat.lt_succ_of_le hp)]
  simp only [Finset.mul_sum]
  rw [Finset.sum_comm]
  refine Finset.sum_congr rfl fun r hr => ?_
  have hr' : r ≤ k := by rw [Finset.mem_range] at hr; omega
  have h := marsden_coeff x t ht k hk h1 h2 r hr' hm
  have hch : (k.choose (k - r) : ℝ) ≠ 0 := by
    have : 0 < k.choose (k - r) := Nat.choose_pos (Nat.sub_le _ _)
    positivity
  calc ∑ i : Fin (m - k - 1), bspline x (clampReal hm t) k i * (p.coeff r * ((-1) ^ r / (k.choose (k - r) : ℝ) *
        (knotPoly t k i).coeff (k - r))) =
      p.coeff r * ((-1) ^ r / (k.choose (k - r) : ℝ)) * ∑ i : Fin (m - k - 1), bspline x (clampReal hm t) k i *
        (knotPoly t k i).coeff (k - r) := by
          rw [Finset.mul_sum]
          exact Finset.sum_congr rfl fun i _ => by ring
    _ = p.coeff r * x ^ r := by
          rw [h]
          field_simp
          rw [mul_assoc, ← mul_pow]
          norm_num

/-- Cubic splines on equidistant nodes: `x³ - 2 x`. -/
example : ∃ c : Fin (10 - 3 - 1) → ℝ, ∀ x : ℝ, 3 ≤ x → x < 6 →
    ∑ i, splineBasis (fin x) (vfin fun i : Fin 10 => ((i : ℕ) : ℝ)) 3 i * fin (c i) = fin (x ^ 3 - 2 * x) := by
  obtain ⟨c, hc⟩ := C116_polynomials (fun i : Fin 10 => ((i : ℕ) : ℝ)) (fun i j h => Nat.cast_le.2 h) 3 (by norm_num)
    (Polynomial.X ^ 3 - 2 * Polynomial.X : Polynomial ℝ) (by compute_degree!)
  refine ⟨c, fun x h1 h2 => ?_⟩
  rw [hc x (by simpa using h1) (by simpa using h2)]
  simp

/-- The same with a repeated knot, for the identity. -/
example : ∑ i, splineBasis (fin (3 / 2)) (vfin ![0, 0, 1, 2, 5]) 1 i *
    fin ((∑ j : Fin 1, (![0, 0, 1, 2, 5] : Fin 5 → ℝ) ⟨i + 1 + j, by omega⟩) / (1 : ℕ)) = fin (3 / 2) :=
  C116_linear (3 / 2) ![0, 0, 1, 2, 5] knots_mono 1 (by norm_num) (by norm_num) (by
    show (3 / 2 : ℝ) < 2
    norm_num) le_rfl

/-! ## Continuity and derivatives -/

theorem bspline_congr (x : ℝ) {t s : ℕ → ℝ} (k i : ℕ) (h : ∀ j, i ≤ j → j ≤ i + k + 1 → t j = s j) :
    bspline x t k i = bspline x s k i := by
  induction k generalizing i with
  | zero => rw [bspline, bspline, h i le_rfl (by omega), h (i + 1) (by omega) (by omega)]
  | succ k ih =>
    rw [bspline, bspline, ih i fun j h1 h2 => h j h1 (by omega), ih (i + 1) fun j h1 h2 => h j (by omega) (by omega),
      h i le_rfl (by omega), h (i + 1) (by omega) (by omega), h (i + (k + 1)) (by omega) (by omega),
      h (i + (k + 1) + 1) (by omega) (by omega)]

section
variable {t : ℕ → ℝ} (ht : StrictMono t)
include ht

theorem bspline_one (i : ℕ) (x : ℝ) : bspline x t 1 i =
    max 0 (min ((x - t i) / (t (i + 1) - t i)) ((t (i + 2) - x) / (t (i + 2) - t (i + 1)))) := by
  have h1 : t i < t (i + 1) := ht (by omega)
  have h2 : t (i + 1) < t (i + 2) := ht (by omega)
  simp only [bspline, Nat.zero_add]
  rw [show i + 1 + 1 = i + 2 from rfl]
  rcases lt_or_ge x (t i) with hx | hx
  · rw [if_neg (by rintro ⟨h, -⟩; linarith), if_neg (by rintro ⟨h, -⟩; linarith), mul_zero, mul_zero, add_zero, max_eq_left]
    exact (min_le_left _ _).trans (div_nonpos_of_nonpos_of_nonneg (by linarith) (by linarith))
  · rcases lt_or_ge x (t (i + 1)) with hx1 | hx1
    · rw [if_pos ⟨hx, hx1⟩, if_neg (by rintro ⟨h, -⟩; linarith), mul_zero, add_zero, mul_one, min_eq_left, max_eq_right]
      · exact div_nonneg (by linarith) (by linarith)
      · refine le_trans ((div_le_one (by linarith)).2 (by linarith)) ((one_le_div (by linarith)).2 (by linarith))
    · rw [if_neg (by rintro ⟨-, h⟩; linarith), mul_zero, zero_add]
      rcases lt_or_ge x (t (i + 2)) with hx2 | hx2
      · rw [if_pos ⟨hx1, hx2⟩, mul_one, min_eq_right, max_eq_right]
        · exact div_nonneg (by linarith) (by linarith)
        · refine le_trans ((div_le_one (by linarith)).2 (by linarith)) ((one_le_div (by linarith)).2 (by linarith))
      · rw [if_neg (by rintro ⟨-, h⟩; linarith), mul_zero, max_eq_left]
        exact (min_le_right _ _).trans (div_nonpos_of_nonpos_of_nonneg (by linarith) (by linarith))

theorem bspline_continuous (k i : ℕ) : Continuous fun x => bspline x t (k + 1) i := by
  induction k generalizing i with
  | zero =>
    simp only [Nat.zero_add, bspline_one ht]
    fun_prop
  | succ k ih =>
    have h1 := ih i
    have h2 := ih (i + 1)
    have e : (fun x => bspline x t (k + 1 + 1) i) = fun x => (x - t i) / (t (i + (k + 1 + 1)) - t i) * bspline x t (k + 1) i +
      (t (i + (k + 1 + 1) + 1) - x) / (t (i + (k + 1 + 1) + 1) - t (i + 1)) * bspline x t (k + 1) (i + 1) := rfl
    rw [e]
    fun_prop

/-- The derivative formula. -/
noncomputable def dspline (t : ℕ → ℝ) (k i : ℕ) (x : ℝ) : ℝ :=
  (k + 1) * (bspline x t k i / (t (i + k + 1) - t i) - bspline x t k (i + 1) / (t (i + k + 2) - t (i + 1)))

theorem bspline_hasDeriv_right (k i : ℕ) (x : ℝ) :
    HasDerivWithinAt (fun x => bspline x t (k + 1) i) (dspline t k i x) (Ioi x) x := by
  have hpos : ∀ i k, t (i + k + 1) - t i ≠ 0 := fun i k => sub_ne_zero.2 (ht (by omega)).ne'
  have hzero : ∀ i, HasDerivWithinAt (fun y => bspline y t 0 i) 0 (Ioi x) x := by
    intro i
    refine (hasDerivWithinAt_const x (Ioi x) (bspline x t 0 i)).congr_of_eventuallyEq ?_ rfl
    have hlt : ∀ a : ℝ, ∀ᶠ y in nhdsWithin x (Ioi x), (a ≤ y ↔ a ≤ x) := by
      intro a
      rcases lt_or_ge x a with h | h
      · filter_upwards [nhdsWithin_le_nhds (Iio_mem_nhds h)] with y hy
        exact ⟨fun h' => absurd h' (not_le.2 hy), fun h' => absurd h' (not_le.2 h)⟩
      · filter_upwards [self_mem_nhdsWithin] with y hy
        exact ⟨fun _ => h, fun _ => h.trans (le_of_lt hy)⟩
    filter_upwards [hlt (t i), hlt (t (i + 1))] with y h1 h2
    simp only [bspline]
    simp only [← not_le, h1, h2]
  induction k generalizing i with
  | zero =>
    have e : (fun x => bspline x t (0 + 1) i) = fun x => (x - t i) / (t (i + (0 + 1)) - t i) * bspline x t 0 i +
      (t (i + (0 + 1) + 1) - x) / (t (i + (0 + 1) + 1) - t (i + 1)) * bspline x t 0 (i + 1) := rfl
    rw [e]
    have h1 := (((hasDerivWithinAt_id x (Ioi x)).sub_const (t i)).div_const (t (i + (0 + 1)) - t i)).fun_mul (hzero i)
    have h2 := (((hasDerivWithinAt_id x (Ioi x)).const_sub (t (i + (0 + 1) + 1))).div_const
      (t (i + (0 + 1) + 1) - t (i + 1))).fun_mul (hzero (i + 1))
    refine (h1.fun_add h2).congr_deriv ?_
    simp only [dspline, Nat.cast_zero, zero_add, id, mul_zero, add_zero]
    rw [show i + 1 + 1 = i + 2 from rfl]
    ring
  | succ k ih =>
    have e : (fun x => bspline x t (k + 1 + 1) i) = fun x => (x - t i) / (t (i + (k + 1 + 1)) - t i) * bspline x t (k + 1) i +
      (t (i + (k + 1 + 1) + 1) - x) / (t (i + (k + 1 + 1) + 1) - t (i + 1)) * bspline x t (k + 1) (i + 1) := rfl
    rw [e]
    have h1 := (((hasDerivWithinAt_id x (Ioi x)).sub_const (t i)).div_const (t (i + (k + 1 + 1)) - t i)).fun_mul (ih i)
    have h2 := (((hasDerivWithinAt_id x (Ioi x)).const_sub (t (i + (k + 1 + 1) + 1))).div_const
      (t (i + (k + 1 + 1) + 1) - t (i + 1))).fun_mul (ih (i + 1))
    refine (h1.fun_add h2).congr_deriv ?_
    have a0 : t (i + k + 1) - t i ≠ 0 := hpos i k
    have a1 : t (i + k + 2) - t (i + 1) ≠ 0 := by
      have := hpos (i + 1) k; rwa [show i + 1 + k + 1 = i + k + 2 by omega] at this
    have a2 : t (i + k + 3) - t (i + 2) ≠ 0 := by
      have := hpos (i + 2) k; rwa [show i + 2 + k + 1 = i + k + 3 by omega] at this
    have a3 : t (i + k + 2) - t i ≠ 0 := by
      have := hpos i (k + 1); rwa [show i + (k + 1) + 1 = i + k + 2 by omega] at this
    have a4 : t (i + k + 3) - t (i + 1) ≠ 0 := by
      have := hpos (i + 1) (k + 1); rwa [show i + 1 + (k + 1) + 1 = i + k + 3 by omega] at this
    simp only [dspline, id]
    rw [show bspline x t (k + 1) i = (x - t i) / (t (i + (k + 1)) - t i) * bspline x t k i +
        (t (i + (k + 1) + 1) - x) / (t (i + (k + 1) + 1) - t (i + 1)) * bspline x t k (i + 1) from rfl,
      show bspline x t (k + 1) (i + 1) = (x - t (i + 1)) / (t (i + 1 + (k + 1)) - t (i + 1)) * bspline x t k (i + 1) +
        (t (i + 1 + (k + 1) + 1) - x) / (t (i + 1 + (k + 1) + 1) - t (i + 1 + 1)) * bspline x t k (i + 1 + 1) from rfl]
    simp only [show i + (k + 1) = i + k + 1 by omega, show i + k + 1 + 1 = i + k + 2 by omega,
      show i + (k + 1 + 1) = i + k + 2 by omega, show i + k + 2 + 1 = i + k + 3 by omega,
      show i + 1 + (k + 1) = i + k + 2 by omega, show i + 1 + 1 = i + 2 by omega, show i + 1 + k + 1 = i + k + 2 by omega,
      show i + 1 + k + 2 = i + k + 3 by omega]
    push_cast
    field_simp
    ring

theorem bspline_hasDerivAt (k i : ℕ) (x : ℝ) :
    HasDerivAt (fun x => bspline x t (k + 2) i) (dspline t (k + 1) i x) x := by
  have hc : Continuous (dspline t (k + 1) i) := by
    have h1 := bspline_continuous ht k i
    have h2 := bspline_continuous ht k (i + 1)
    unfold dspline
    fun_prop
  have key : (fun y => bspline y t (k + 2) i) = fun y => bspline x t (k + 2) i + ∫ z in x..y, dspline t (k + 1) i z := by
    funext y
    rw [intervalIntegral.integral_eq_sub_of_hasDeriv_right (f := fun y => bspline y t (k + 2) i)
      (bspline_continuous ht (k + 1) i).continuousOn (fun z _ => bspline_hasDeriv_right ht (k + 1) i z)
      (hc.intervalIntegrable _ _)]
    ring
  rw [key]
  exact (intervalIntegral.integral_hasDerivAt_right (hc.intervalIntegrable _ _)
    hc.stronglyMeasurable.stronglyMeasurableAtFilter hc.continuousAt).const_add _

theorem bspline_contDiff (k i : ℕ) : ContDiff ℝ k fun x => bspline x t (k + 1) i := by
  induction k generalizing i with
  | zero => exact contDiff_zero.2 (bspline_continuous ht 0 i)
  | succ k ih =>
    have hd : deriv (fun x => bspline x t (k + 2) i) = dspline t (k + 1) i := by
      funext x
      exact (bspline_hasDerivAt ht k i x).deriv
    rw [show ((k + 1 : ℕ) : WithTop ℕ∞) = (k : WithTop ℕ∞) + 1 by norm_cast, contDiff_succ_iff_deriv]
    refine ⟨fun x => (bspline_hasDerivAt ht k i x).differentiableAt, fun h => by simp at h, ?_⟩
    rw [hd]
    have h1 := ih i
    have h2 := ih (i + 1)
    unfold dspline
    fun_prop

end

/-- A strictly increasing finite grid, continued to infinity. -/
noncomputable def extendGrid {m : ℕ} (hm : 0 < m) (t : Fin m → ℝ) (i : ℕ) : ℝ :=
  clampReal hm t i + ((i - (m - 1) : ℕ) : ℝ)

theorem extendGrid_strictMono {m : ℕ} (hm : 0 < m) {t : Fin m → ℝ} (ht : StrictMono t) : StrictMono (extendGrid hm t) := by
  refine strictMono_nat_of_lt_succ fun i => ?_
  unfold extendGrid
  rcases lt_or_ge i (m - 1) with h | h
  · rw [clampReal_of_lt hm t (by omega), clampReal_of_lt hm t (by omega), Nat.sub_eq_zero_of_le h.le,
      Nat.sub_eq_zero_of_le (by omega : i + 1 ≤ m - 1)]
    have : t ⟨i, by omega⟩ < t ⟨i + 1, by omega⟩ := ht (by simp)
    simpa using this
  · have h1 : clampReal hm t i ≤ clampReal hm t (i + 1) := clampReal_mono hm ht.monotone (by omega)
    have h2 : ((i + 1 - (m - 1) : ℕ) : ℝ) = ((i - (m - 1) : ℕ) : ℝ) + 1 := by
      rw [show i + 1 - (m - 1) = i - (m - 1) + 1 by omega]; push_cast; ring
    rw [h2]; linarith

theorem extendGrid_of_lt {m : ℕ} (hm : 0 < m) (t : Fin m → ℝ) {i : ℕ} (hi : i < m) : extendGrid hm t i = t ⟨i, hi⟩ := by
  rw [extendGrid, clampReal_of_lt hm t hi, Nat.sub_eq_zero_of_le (by omega)]
  simp

theorem splineBasis_extend {m : ℕ} (x : ℝ) (t : Fin m → ℝ) (k : ℕ) (i : Fin (m - k - 1)) (hm : 0 < m) :
    splineBasis (fin x) (vfin t) k i = fin (bspline x (extendGrid hm t) k i) := by
  rw [splineBasis_fin x t k i hm]
  congr 1
  refine bspline_congr x k i fun j h1 h2 => ?_
  rw [clampReal_of_lt hm t (by omega), extendGrid_of_lt hm t (by omega)]

/-! ## C117 -/

/-- **C117, smoothness**. On a strictly increasing grid the basis functions of degree `k + 1` are `k` times continuously
differentiable on the whole line. -/
theorem C117_smooth {m : ℕ} (t : Fin m → ℝ) (ht : StrictMono t) (k : ℕ) (i : Fin (m - (k + 1) - 1)) :
    ∃ b : ℝ → ℝ, (∀ x, splineBasis (fin x) (vfin t) (k + 1) i = fin (b x)) ∧ ContDiff ℝ k b := by
  have hm : 0 < m := by have := i.isLt; omega
  exact ⟨_, fun x => splineBasis_extend x t (k + 1) i hm, bspline_contDiff (extendGrid_strictMono hm ht) k i⟩

/-- **C117, derivative**. The derivative of a basis function of degree `k + 2` is the difference of two basis functions of degree
`k + 1`, divided by the lengths of their supports, times the degree. -/
theorem C117_derivative {m : ℕ} (t : Fin m → ℝ) (ht : StrictMono t) (k : ℕ) (i : ℕ) (hi : i + (k + 2) + 1 < m) :
    ∃ b b₁ b₂ : ℝ → ℝ, (∀ x, splineBasis (fin x) (vfin t) (k + 2) ⟨i, by omega⟩ = fin (b x)) ∧
      (∀ x, splineBasis (fin x) (vfin t) (k + 1) ⟨i, by omega⟩ = fin (b₁ x)) ∧
      (∀ x, splineBasis (fin x) (vfin t) (k + 1) ⟨i + 1, by omega⟩ = fin (b₂ x)) ∧
      ∀ x, HasDerivAt b ((k + 2 : ℝ) * (b₁ x / (t ⟨i + (k + 2), by omega⟩ - t ⟨i, by omega⟩) -
        b₂ x / (t ⟨i + 1 + (k + 2), by omega⟩ - t ⟨i + 1, by omega⟩))) x := by
  have hm : 0 < m := by omega
  refine ⟨_, _, _, fun x => splineBasis_extend x t (k + 2) _ hm, fun x => splineBasis_extend x t (k + 1) _ hm,
    fun x => splineBasis_extend x t (k + 1) _ hm, fun x => ?_⟩
  refine (bspline_hasDerivAt (extendGrid_strictMono hm ht) k i x).congr_deriv ?_
  rw [dspline, extendGrid_of_lt hm t (by omega), extendGrid_of_lt hm t (by omega), extendGrid_of_lt hm t (by omega),
    extendGrid_of_lt hm t (by omega)]
  have e1 : (⟨i + (k + 1) + 1, by omega⟩ : Fin m) = ⟨i + (k + 2), by omega⟩ := by rw [Fin.mk.injEq]; omega
  have e2 : (⟨i + (k + 1) + 2, by omega⟩ : Fin m) = ⟨i + 1 + (k + 2), by omega⟩ := by rw [Fin.mk.injEq]; omega
  rw [e1, e2]
  push_cast
  ring

/-- **C117, layer**. On the grids of `make_grid`, and on all strictly increasing grids, a spline activation of degree `k + 1` with an
activation function which is `k` times continuously differentiable is `k` times continuously differentiable. -/
theorem C117_activation {d m : ℕ} (activation : ℝ → ℝ) (act : XR → XR) (hact : ∀ a, act (fin a) = fin (activation a))
    (k : ℕ) (hs : ContDiff ℝ k activation) (grid : Fin d → Fin m → ℝ) (hgrid : ∀ j, StrictMono (grid j))
    (coefs : Fin d → Fin (m - (k + 1) - 1) → ℝ) :
    ∃ F : (Fin d → ℝ) → Fin d → ℝ, ContDiff ℝ k F ∧
      ∀ x, splineActivation act (fun j => vfin (grid j)) (k + 1) (fun j => vfin (coefs j)) (vfin x) = vfin (F x) := by
  choose b hb hbs using fun j i => C117_smooth (grid j) (hgrid j) k i
  refine ⟨fun x j => activation (x j) + ∑ i, b j i (x j) * coefs j i, ?_, fun x => ?_⟩
  · rw [contDiff_pi]
    intro j
    have hj : ContDiff ℝ k fun x : Fin d → ℝ => x j := contDiff_apply ℝ ℝ j
    exact (hs.comp hj).add (ContDiff.sum fun i _ => ((hbs j i).comp hj).mul contDiff_const)
  · funext j
    simp only [splineActivation, vfin_apply, hact]
    rw [← fin_add, ← fin_sum]
    congr 1
    exact Finset.sum_congr rfl fun i _ => by rw [hb, fin_mul]

example : ∃ b : ℝ → ℝ, (∀ x, splineBasis (fin x) (vfin fun i : Fin 10 => ((i : ℕ) : ℝ)) 3 ⟨2, by norm_num⟩ = fin (b x)) ∧
    ContDiff ℝ 2 b :=
  C117_smooth _ (fun _ _ h => Nat.cast_lt.2 h) 2 _

example : ∃ b b₁ b₂ : ℝ → ℝ, (∀ x, splineBasis (fin x) (vfin fun i : Fin 10 => ((i : ℕ) : ℝ)) 3 ⟨2, by norm_num⟩ = fin (b x)) ∧
    (∀ x, splineBasis (fin x) (vfin fun i : Fin 10 => ((i : ℕ) : ℝ)) 2 ⟨2, by norm_num⟩ = fin (b₁ x)) ∧
    (∀ x, splineBasis (fin x) (vfin fun i : Fin 10 => ((i : ℕ) : ℝ)) 2 ⟨3, by norm_num⟩ = fin (b₂ x)) ∧
    ∀ x, HasDerivAt b (b₁ x - b₂ x) x := by
  obtain ⟨b, b₁, b₂, h, h1, h2, hd⟩ := C117_derivative (fun i : Fin 10 => ((i : ℕ) : ℝ)) (fun _ _ h => Nat.cast_lt.2 h) 1 2
    (by norm_num)
  refine ⟨b, b₁, b₂, h, h1, h2, fun x => ?_⟩
  convert hd x using 1
  norm_num
  ring

example : ∃ F : (Fin 2 → ℝ) → Fin 2 → ℝ, ContDiff ℝ 2 F ∧
    ∀ x, splineActivation id (fun _ => vfin fun i : Fin 10 => ((i : ℕ) : ℝ)) 3 (fun _ => vfin fun _ => 1) (vfin x) = vfin (F x) :=
  C117_activation id id (fun _ => rfl) 2 contDiff_id (fun _ i => ((i : ℕ) : ℝ)) (fun _ _ _ h => Nat.cast_lt.2 h) fun _ _ => 1

/-- The module with its defaults (cubic splines, fourteen nodes) is twice continuously differentiable. -/
theorem C117_module {d : ℕ} (nodes : ℕ) (hn : 2 ≤ nodes) (node_min node_max : ℝ) (hs : node_min < node_max) (k : ℕ)
    (grid_power : ℝ) (hp : 0 < grid_power) (activation : ℝ → ℝ) (act : XR → XR) (hact : ∀ a, act (fin a) = fin (activation a))
    (hsm : ContDiff ℝ k activation) (coefs : Fin d → Fin (nodes - (k + 1) - 1) → ℝ) :
    ∃ F : (Fin d → ℝ) → Fin d → ℝ, ContDiff ℝ k F ∧
      ∀ x, SplineActivation nodes node_min node_max (k + 1) grid_power act none (fun j => vfin (coefs j)) (vfin x) =
        vfin (F x) := by
  obtain ⟨t, ht, hmono, -⟩ := C75_grid node_min node_max grid_power hs hp nodes hn
  simp only [SplineActivation, ht]
  exact C117_activation activation act hact k hsm (fun _ => t) (fun _ => hmono) coefs

/-- The default layer of cubic splines with the activation `sin`. -/
example (coefs : Fin 2 → Fin (14 - (2 + 1) - 1) → ℝ) : ∃ F : (Fin 2 → ℝ) → Fin 2 → ℝ, ContDiff ℝ 2 F ∧
    ∀ x, SplineActivation 14 (-3) 3 3 2 XR.sin none (fun j => vfin (coefs j)) (vfin x) = vfin (F x) :=
  C117_module 14 (by norm_num) (-3) 3 (by norm_num) 2 2 two_pos Real.sin XR.sin (fun _ => rfl) Real.contDiff_sin coefs

end Verif
