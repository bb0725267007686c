import Verif.Model.Spline
import Mathlib.Algebra.Order.BigOperators.Ring.Finset
import Mathlib.Algebra.BigOperators.Intervals

/-! # Properties of the splines -/

namespace Verif

open XR

/-! ## The basis on a finite grid -/

open Classical in
/-- The B-spline recursion of Cox and de Boor over the real numbers, with `0 / 0 = 0`. -/
noncomputable def bspline (x : ℝ) (t : ℕ → ℝ) : ℕ → ℕ → ℝ
  | 0, i => if t i ≤ x ∧ x < t (i + 1) then 1 else 0
  | k + 1, i => (x - t i) / (t (i + (k + 1)) - t i) * bspline x t k i +
      (t (i + (k + 1) + 1) - x) / (t (i + (k + 1) + 1) - t (i + 1)) * bspline x t k (i + 1)

open Classical in
theorem baseFun_fin (x : ℝ) (t : ℕ → ℝ) (k i : ℕ) : baseFun (fin x) (fun j => fin (t j)) k i = fin (bspline x t k i) := by
  induction k generalizing i with
  | zero =>
    simp only [baseFun, bspline, fin_le, fin_lt]
    split <;> simp
  | succ k ih =>
    simp only [baseFun, bspline, ih]
    have term : ∀ (a b c d : ℝ), (if fin a = fin b ∧ fin b ≠ nan then (0 : XR) else
        (fin c) / (fin a - fin b) * fin d) = fin (c / (a - b) * d) := by
      intro a b c d
      by_cases h : a = b
      · rw [if_pos ⟨by rw [h], by simp⟩, h]; simp
      · rw [if_neg (by rintro ⟨h1, -⟩; exact h (fin_inj.mp h1)), fin_sub, fin_div _ (sub_ne_zero.mpr h), fin_mul]
    simp only [fin_sub] at term ⊢
    rw [term, term, fin_add]

section
variable {t : ℕ → ℝ} (ht : Monotone t) (x : ℝ)
include ht

/-- Support of the basis functions. -/
theorem bspline_support (k i : ℕ) (h : x < t i ∨ t (i + k + 1) ≤ x) : bspline x t k i = 0 := by
  induction k generalizing i with
  | zero =>
    rw [bspline, if_neg]
    rintro ⟨h1, h2⟩
    rcases h with h | h
    · linarith
    · simp only [Nat.add_zero] at h; linarith
  | succ k ih =>
    rw [bspline, ih i, ih (i + 1)]
    · ring
    · rcases h with h | h
      · left; exact lt_of_lt_of_le h (ht (by omega))
      · right; rw [show i + 1 + k + 1 = i + (k + 1) + 1 by omega]; exact h
    · rcases h with h | h
      · left; exact h
      · right; exact (ht (by omega)).trans h

theorem bspline_nonneg (k i : ℕ) : 0 ≤ bspline x t k i := by
  induction k generalizing i with
  | zero => rw [bspline]; split <;> norm_num
  | succ k ih =>
    rw [bspline]
    have h1 : 0 ≤ (x - t i) / (t (i + (k + 1)) - t i) * bspline x t k i := by
      by_cases hx : x < t i
      · rw [bspline_support ht x k i (Or.inl hx)]; simp
      · have := ht (show i ≤ i + (k + 1) by omega)
        exact mul_nonneg (div_nonneg (by linarith) (by linarith)) (ih i)
    have h2 : 0 ≤ (t (i + (k + 1) + 1) - x) / (t (i + (k + 1) + 1) - t (i + 1)) * bspline x t k (i + 1) := by
      by_cases hx : t (i + (k + 1) + 1) ≤ x
      · rw [bspline_support ht x k (i + 1) (Or.inr (by rw [show i + 1 + k + 1 = i + (k + 1) + 1 by omega]; exact hx))]
        simp
      · have := ht (show i + 1 ≤ i + (k + 1) + 1 by omega)
        exact mul_nonneg (div_nonneg (by linarith) (by linarith)) (ih (i + 1))
    linarith

/-- Partition of unity. -/
theorem bspline_sum (k lo hi : ℕ) (h1 : t (lo + k) ≤ x) (h2 : x < t hi) :
    ∑ i ∈ Finset.Ico lo hi, bspline x t k i = 1 := by
  induction k generalizing lo with
  | zero =>
    have hlt : lo < hi := by
      by_contra h
      have := ht (not_lt.mp h)
      rw [Nat.add_zero] at h1
      linarith
    induction hi, hlt using Nat.le_induction with
    | base =>
      rw [Nat.succ_eq_add_one, Nat.Ico_succ_singleton, Finset.sum_singleton, bspline, if_pos ⟨h1, h2⟩]
    | succ hi hle ih =>
      rw [Finset.sum_Ico_succ_top (by omega)]
      by_cases hx : x < t hi
      · rw [ih hx, bspline_support ht x 0 hi (Or.inl hx), add_zero]
      · rw [bspline, if_pos ⟨not_lt.mp hx, h2⟩, Finset.sum_eq_zero, zero_add]
        intro i hi'
        rw [Finset.mem_Ico] at hi'
        exact bspline_support ht x 0 i (Or.inr ((ht (by omega)).trans (not_lt.mp hx)))
  | succ k ih =>
    have hlt : lo < hi := by
      by_contra h
      have := ht (show hi ≤ lo + (k + 1) by omega)
      linarith
    -- the two weights of each lower basis function add up to one
    set a : ℕ → ℝ := fun i => (x - t i) / (t (i + (k + 1)) - t i) * bspline x t k i with ha
    set b : ℕ → ℝ := fun i => (t (i + (k + 1)) - x) / (t (i + (k + 1)) - t i) * bspline x t k i with hb
    have hab : ∀ i, a i + b i = bspline x t k i := by
      intro i
      by_cases hti : t (i + (k + 1)) = t i
      · have h0 : bspline x t k i = 0 := by
          apply bspline_support ht
          rw [show i + k + 1 = i + (k + 1) by omega, hti]
          exact lt_or_ge x (t i)
        simp [ha, hb, h0]
      · have : t (i + (k + 1)) - t i ≠ 0 := sub_ne_zero.mpr hti
        simp only [ha, hb]
        field_simp
        ring
    have hrec : ∀ i, bspline x t (k + 1) i = a i + b (i + 1) := by
      intro i
      rw [bspline]
      simp only [ha, hb]
      rw [show i + 1 + (k + 1) = i + (k + 1) + 1 by omega]
    have ha0 : a lo = 0 := by
      simp only [ha]
      rw [bspline_support ht x k lo (Or.inr (by rw [show lo + k + 1 = lo + (k + 1) by omega]; exact h1)), mul_zero]
    have hb0 : b hi = 0 := by
      simp only [hb]
      rw [bspline_support ht x k hi (Or.inl h2), mul_zero]
    rw [Finset.sum_congr rfl fun i _ => hrec i, Finset.sum_add_distrib, Finset.sum_eq_sum_Ico_succ_bot hlt, ha0, zero_add]
    have hshift : ∑ i ∈ Finset.Ico lo hi, b (i + 1) = ∑ i ∈ Finset.Ico (lo + 1) hi, b i := by
      rw [Finset.sum_Ico_add' b lo hi 1, Finset.sum_Ico_succ_top (by omega), hb0, add_zero]
    rw [hshift, ← Finset.sum_add_distrib, Finset.sum_congr rfl fun i _ => hab i]
    exact ih (lo + 1) (by rw [show lo + 1 + k = lo + (k + 1) by omega]; exact h1)

end

/-- A sorted finite grid as a sequence of numbers. -/
noncomputable def clampReal {m : ℕ} (hm : 0 < m) (t : Fin m → ℝ) (i : ℕ) : ℝ := t ⟨min i (m - 1), by omega⟩

theorem clampReal_mono {m : ℕ} (hm : 0 < m) {t : Fin m → ℝ} (ht : Monotone t) : Monotone (clampReal hm t) := by
  intro i j hij
  apply ht
  show min i (m - 1) ≤ min j (m - 1)
  omega

theorem clampReal_of_lt {m : ℕ} (hm : 0 < m) (t : Fin m → ℝ) {i : ℕ} (hi : i < m) : clampReal hm t i = t ⟨i, hi⟩ := by
  unfold clampReal
  congr 2
  omega

theorem splineBasis_fin {m : ℕ} (x : ℝ) (t : Fin m → ℝ) (k : ℕ) (i : Fin (m - k - 1)) (hm : 0 < m) :
    splineBasis (fin x) (vfin t) k i = fin (bspline x (clampReal hm t) k i) := by
  rw [splineBasis, ← baseFun_fin]
  rfl

/-! ## C73 -/

/-- On a sorted grid (repeated knots allowed) the basis functions are finite, non-negative and vanish outside of
`[t_i, t_(i+k+1))`. -/
theorem C73_basis {m : ℕ} (x : ℝ) (t : Fin m → ℝ) (ht : Monotone t) (k : ℕ) (i : Fin (m - k - 1)) :
    ∃ b : ℝ, splineBasis (fin x) (vfin t) k i = fin b ∧ 0 ≤ b ∧
      (x < t ⟨i, by omega⟩ → b = 0) ∧ (t ⟨i + k + 1, by omega⟩ ≤ x → b = 0) := by
  have hm : 0 < m := by have := i.isLt; omega
  refine ⟨_, splineBasis_fin x t k i hm, bspline_nonneg (clampReal_mono hm ht) x k i, fun h => ?_, fun h => ?_⟩
  · exact bspline_support (clampReal_mono hm ht) x k i (Or.inl (by rw [clampReal_of_lt hm t (by omega)]; exact h))
  · exact bspline_support (clampReal_mono hm ht) x k i (Or.inr (by rw [clampReal_of_lt hm t (by omega)]; exact h))

/-- A grid with a repeated knot. -/
theorem knots_mono : Monotone (![0, 0, 1, 2, 5] : Fin 5 → ℝ) := by
  rw [Fin.monotone_iff_le_succ]
  intro i
  fin_cases i
  · exact le_refl (0 : ℝ)
  · exact zero_le_one
  · exact one_le_two
  · show (2 : ℝ) ≤ 5
    norm_num

example (i : Fin (5 - 1 - 1)) : ∃ b : ℝ, splineBasis (fin (1 / 2)) (vfin ![0, 0, 1, 2, 5]) 1 i = fin b ∧ 0 ≤ b :=
  let ⟨b, h1, h2, _⟩ := C73_basis (1 / 2) _ knots_mono 1 i
  ⟨b, h1, h2⟩

/-- `x` is `nan` or infinite. -/
theorem baseFun_nonfinite (x : XR) (hx : ∀ a, x ≠ fin a) {t : ℕ → ℝ} (ht : Monotone t) (k i : ℕ) :
    (k = 0 → baseFun x (fun j => fin (t j)) k i = 0) ∧
    (k ≠ 0 → (t i = t (i + k + 1) → baseFun x (fun j => fin (t j)) k i = 0) ∧
      (t i ≠ t (i + k + 1) → baseFun x (fun j => fin (t j)) k i = nan)) := by
  have hsub : ∀ a d : ℝ, d ≠ 0 → ∀ b, (x - fin a) / fin d ≠ fin b ∧ (fin a - x) / fin d ≠ fin b := fun a d hd b => by
    cases x with
    | fin c => exact absurd rfl (hx c)
    | nan => exact ⟨by simp, by simp⟩
    | pinf =>
      refine ⟨?_, ?_⟩
      · show (if d < 0 then ninf else pinf) ≠ fin b
        split <;> simp
      · show (if d < 0 then pinf else ninf) ≠ fin b
        split <;> simp
    | ninf =>
      refine ⟨?_, ?_⟩
      · show (if d < 0 then pinf else ninf) ≠ fin b
        split <;> simp
      · show (if d < 0 then ninf else pinf) ≠ fin b
        split <;> simp
  have hmul : ∀ y : XR, (∀ a, y ≠ fin a) → y * 0 = nan ∧ y * nan = nan := fun y hy => by
    cases y with
    | fin c => exact absurd rfl (hy c)
    | nan => exact ⟨by simp, by simp⟩
    | pinf => exact ⟨by rw [zero_eq]; show infSign 0 = nan; simp [infSign], by simp⟩
    | ninf => exact ⟨by rw [zero_eq]; show infSign (-0) = nan; simp [infSign], by simp⟩
  induction k generalizing i with
  | zero =>
    refine ⟨fun _ => ?_, fun h => absurd rfl h⟩
    rw [baseFun, if_neg]
    rintro ⟨h1, h2⟩
    cases x with
    | fin c => exact absurd rfl (hx c)
    | nan => exact h1
    | pinf => exact h2
    | ninf => exact h1
  | succ k ih =>
    refine ⟨fun h => absurd h (by omega), fun _ => ⟨fun h => ?_, fun h => ?_⟩⟩
    · have e1 : t (i + (k + 1)) = t i := le_antisymm ((ht (by omega)).trans h.ge) (ht (by omega))
      have e2 : t (i + (k + 1) + 1) = t (i + 1) := le_antisymm (h.ge.trans (ht (by omega))) (ht (by omega))
      rw [baseFun, if_pos ⟨by rw [e1], by simp⟩, if_pos ⟨by rw [e2], by simp⟩, add_zero]
    · have val : ∀ j, baseFun x (fun j => fin (t j)) k j = 0 ∨ baseFun x (fun j => fin (t j)) k j = nan := fun j => by
        rcases Nat.eq_zero_or_pos k with hk | hk
        · exact .inl ((ih j).1 hk)
        · by_cases hj : t j = t (j + k + 1)
          · exact .inl (((ih j).2 hk.ne').1 hj)
          · exact .inr (((ih j).2 hk.ne').2 hj)
      rw [baseFun]
      by_cases n1 : t (i + (k + 1)) = t i
      · have n2 : t (i + (k + 1) + 1) ≠ t (i + 1) := fun h2 => h (by
          rw [h2]
          exact le_antisymm (ht (by omega)) ((ht (by omega)).trans n1.le))
        rw [if_pos (show fin (t (i + (k + 1))) = fin (t i) ∧ fin (t i) ≠ nan from ⟨by rw [n1], by simp⟩),
          if_neg (fun h => n2 (fin_inj.mp h.1)), fin_sub]
        have hd := fun b => (hsub (t (i + (k + 1) + 1)) _ (sub_ne_zero.mpr n2) b).2
        rcases val (i + 1) with h' | h' <;> rw [h']
        · rw [(hmul _ hd).1]; simp
        · rw [(hmul _ hd).2]; simp
      · rw [if_neg (fun h => n1 (fin_inj.mp h.1)), fin_sub]
        have hd := fun b => (hsub (t i) _ (sub_ne_zero.mpr n1) b).1
        rcases val i with h' | h' <;> rw [h']
        · rw [(hmul _ hd).1]; simp
        · rw [(hmul _ hd).2]; simp

/-- At `nan` and at infinity the basis functions of degree one and more are `nan`, although both infinities are outside of the
support; only functions whose knots all agree are `0` there. For degree zero all are `0`. -/
theorem C73_nonfinite {m : ℕ} (x : XR) (hx : ∀ a, x ≠ fin a) (t : Fin m → ℝ) (ht : Monotone t) (k : ℕ) (i : Fin (m - k - 1)) :
    (k = 0 → splineBasis x (vfin t) k i = 0) ∧
    (k ≠ 0 → t ⟨i, by omega⟩ = t ⟨i + k + 1, by omega⟩ → splineBasis x (vfin t) k i = 0) ∧
    (k ≠ 0 → t ⟨i, by omega⟩ ≠ t ⟨i + k + 1, by omega⟩ → splineBasis x (vfin t) k i = nan) := by
  have hm : 0 < m := by have := i.isLt; omega
  have h := baseFun_nonfinite x hx (clampReal_mono hm ht) k i
  rw [clampReal_of_lt hm t (show (i : ℕ) < m by omega), clampReal_of_lt hm t (show (i : ℕ) + k + 1 < m by omega)] at h
  exact ⟨h.1, fun hk h' => (h.2 hk).1 h', fun hk h' => (h.2 hk).2 h'⟩

example : splineBasis pinf (vfin ![(0 : ℝ), 0, 1, 2, 5]) 1 (0 : Fin 3) = nan :=
  (C73_nonfinite pinf (fun _ => by simp) _ knots_mono 1 (0 : Fin 3)).2.2 one_ne_zero (by
    show (0 : ℝ) ≠ 1
    norm_num)

/-! ## C74 -/

/-- Between the knots `t_k` and `t_(m-1-k)` the basis functions add up to one. -/
theorem C74_partition {m : ℕ} (x : ℝ) (t : Fin m → ℝ) (ht : Monotone t) (k : ℕ) (hk : k + 1 ≤ m)
    (h1 : t ⟨k, by omega⟩ ≤ x) (h2 : x < t ⟨m - 1 - k, by omega⟩) :
    ∑ i, splineBasis (fin x) (vfin t) k i = fin 1 := by
  have hm : 0 < m := by omega
  rw [Finset.sum_congr rfl fun i _ => splineBasis_fin x t k i hm, fin_sum]
  congr 1
  rw [Fin.sum_univ_eq_sum_range (fun i => bspline x (clampReal hm t) k i) (m - k - 1), Finset.range_eq_Ico]
  refine bspline_sum (clampReal_mono hm ht) x k 0 _ ?_ ?_
  · rw [Nat.zero_add, clampReal_of_lt hm t (by omega)]; exact h1
  · rw [clampReal_of_lt hm t (by omega)]
    have : (⟨m - k - 1, by omega⟩ : Fin m) = ⟨m - 1 - k, by omega⟩ := by
      rw [Fin.mk.injEq]; omega
    rw [this]
    exact h2

/-- So a spline lies between its smallest and its largest coefficient there. -/
theorem C74_hull {m : ℕ} (x : ℝ) (t : Fin m → ℝ) (ht : Monotone t) (k : ℕ) (hk : k + 1 ≤ m)
    (h1 : t ⟨k, by omega⟩ ≤ x) (h2 : x < t ⟨m - 1 - k, by omega⟩) (c : Fin (m - k - 1) → ℝ) (lo hi : ℝ)
    (hlo : ∀ i, lo ≤ c i) (hhi : ∀ i, c i ≤ hi) :
    ∃ y, ∑ i, splineBasis (fin x) (vfin t) k i * fin (c i) = fin y ∧ lo ≤ y ∧ y ≤ hi := by
  have hm : 0 < m := by omega
  have hp := C74_partition x t ht k hk h1 h2
  rw [Finset.sum_congr rfl fun i _ => splineBasis_fin x t k i hm, fin_sum, fin_inj] at hp
  refine ⟨∑ i : Fin (m - k - 1), bspline x (clampReal hm t) k i * c i, ?_, ?_, ?_⟩
  · rw [← fin_sum]
    refine Finset.sum_congr rfl fun i _ => ?_
    rw [splineBasis_fin x t k i hm, fin_mul]
  · calc lo = ∑ i : Fin (m - k - 1), bspline x (clampReal hm t) k i * lo := by rw [← Finset.sum_mul, hp, one_mul]
      _ ≤ _ := Finset.sum_le_sum fun i _ =>
          mul_le_mul_of_nonneg_left (hlo i) (bspline_nonneg (clampReal_mono hm ht) x k i)
  · calc _ ≤ ∑ i : Fin (m - k - 1), bspline x (clampReal hm t) k i * hi := Finset.sum_le_sum fun i _ =>
          mul_le_mul_of_nonneg_left (hhi i) (bspline_nonneg (clampReal_mono hm ht) x k i)
      _ = hi := by rw [← Finset.sum_mul, hp, one_mul]

/-- Linear splines with a repeated knot. -/
example : ∑ i, splineBasis (fin (3 / 2)) (vfin ![0, 0, 1, 2, 5]) 1 i = fin 1 := by
  refine C74_partition _ _ ?_ 1 (by norm_num) (by norm_num) ?_
  · exact knots_mono
  · show (3 / 2 : ℝ) < 2
    norm_num

/-! ## C75 -/

/-- The signed power is odd and strictly increasing. -/
noncomputable def signedPow (p t : ℝ) : ℝ := (SignType.sign t : ℝ) * |t| ^ p

theorem signedPow_neg (p t : ℝ) : signedPow p (-t) = -signedPow p t := by
  simp [signedPow, Left.sign_neg]

theorem signedPow_of_nonneg {p t : ℝ} (hp : 0 < p) (ht : 0 ≤ t) : signedPow p t = t ^ p := by
  rcases ht.eq_or_lt with rfl | h
  · simp [signedPow, Real.zero_rpow hp.ne']
  · simp [signedPow, sign_pos h, abs_of_pos h]

theorem signedPow_strictMono {p : ℝ} (hp : 0 < p) : StrictMono (signedPow p) := by
  have hnn : ∀ s t : ℝ, 0 ≤ s → s < t → signedPow p s < signedPow p t := by
    intro s t hs hst
    rw [signedPow_of_nonneg hp hs, signedPow_of_nonneg hp (hs.trans hst.le)]
    exact Real.rpow_lt_rpow hs hst hp
  intro s t hst
  rcases le_or_gt 0 s with hs | hs
  · exact hnn s t hs hst
  · rcases le_or_gt t 0 with ht | ht
    · have := hnn (-t) (-s) (by linarith) (by linarith)
      rw [signedPow_neg, signedPow_neg] at this
      linarith
    · have h1 := hnn 0 (-s) le_rfl (by linarith)
      have h2 := hnn 0 t le_rfl ht
      rw [signedPow_neg] at h1
      have h0 : signedPow p 0 = 0 := by simp [signedPow]
      rw [h0] at h1 h2
      linarith

theorem makeGrid_fin (start stop power : ℝ) (hp : 0 < power) (num : ℕ) (hn : 2 ≤ num) (i : Fin num) :
    makeGrid start stop power num i =
      fin ((signedPow power (-1 + (i : ℕ) * (2 / ((num : ℝ) - 1))) + 1) / 2 * |start - stop| + start) := by
  simp only [makeGrid, makeGrid.nodes, if_neg (show num ≠ 1 by omega), XR.sign, fin_abs,
    fin_rpow' (abs_nonneg _) hp.le, fin_mul, one_eq, fin_add, lit_eq, fin_sub]
  rw [fin_div _ two_ne_zero, fin_mul, fin_add]
  rfl

/-- `make_grid` gives a strictly increasing grid from `start` to `stop` which is symmetric about the centre. -/
theorem C75_grid (start stop power : ℝ) (hs : start < stop) (hp : 0 < power) (num : ℕ) (hn : 2 ≤ num) :
    ∃ t : Fin num → ℝ, makeGrid start stop power num = vfin t ∧ StrictMono t ∧ t ⟨0, by omega⟩ = start ∧
      t ⟨num - 1, by omega⟩ = stop ∧ ∀ i, t i + t i.rev = start + stop := by
  have hn1 : (0 : ℝ) < (num : ℝ) - 1 := by
    have : (2 : ℝ) ≤ num := by exact_mod_cast hn
    linarith
  have habs : |start - stop| = stop - start := by rw [abs_sub_comm, abs_of_pos (by linarith)]
  refine ⟨fun i => (signedPow power (-1 + (i : ℕ) * (2 / ((num : ℝ) - 1))) + 1) / 2 * |start - stop| + start,
    funext fun i => makeGrid_fin start stop power hp num hn i, ?_, ?_, ?_, ?_⟩
  · intro i j hij
    have h1 : -1 + (i : ℕ) * (2 / ((num : ℝ) - 1)) < -1 + (j : ℕ) * (2 / ((num : ℝ) - 1)) := by
      have : ((i : ℕ) : ℝ) < (j : ℕ) := by exact_mod_cast hij
      gcongr
    have h2 := signedPow_strictMono hp h1
    rw [habs]
    have : 0 < stop - start := by linarith
    simp only
    gcongr
  · have e : signedPow power (-1) = -1 := by rw [signedPow_neg, signedPow_of_nonneg hp zero_le_one, Real.one_rpow]
    simp [e]
  · have e1 : (-1 : ℝ) + ((num - 1 : ℕ) : ℝ) * (2 / ((num : ℝ) - 1)) = 1 := by
      rw [Nat.cast_sub (by omega), Nat.cast_one]
      field_simp
      ring
    simp only [e1]
    rw [signedPow_of_nonneg hp zero_le_one, Real.one_rpow, habs]
    ring
  · intro i
    have e1 : (-1 : ℝ) + ((i.rev : ℕ) : ℝ) * (2 / ((num : ℝ) - 1)) = -(-1 + (i : ℕ) * (2 / ((num : ℝ) - 1))) := by
      rw [Fin.val_rev, Nat.cast_sub (by omega)]
      push_cast
      field_simp
      ring
    simp only [e1, signedPow_neg, habs]
    ring

/-- For `start > stop` the grid does not run down to `stop`: it runs up from `start` by the distance of the two. -/
theorem C75_reversed (start stop power : ℝ) (hs : stop < start) (hp : 0 < power) (num : ℕ) (hn : 2 ≤ num) :
    ∃ t : Fin num → ℝ, makeGrid start stop power num = vfin t ∧ StrictMono t ∧ t ⟨0, by omega⟩ = start ∧
      t ⟨num - 1, by omega⟩ = 2 * start - stop := by
  obtain ⟨t, h1, h2, h3, h4, -⟩ := C75_grid start (2 * start - stop) power (by linarith) hp num hn
  refine ⟨t, ?_, h2, h3, h4⟩
  rw [← h1]
  funext i
  rw [makeGrid_fin _ _ _ hp _ hn, makeGrid_fin _ _ _ hp _ hn]
  rw [show start - (2 * start - stop) = -(start - stop) by ring, abs_neg]

example : ∃ t : Fin 5 → ℝ, makeGrid 3 1 2 5 = vfin t ∧ StrictMono t ∧ t 0 = 3 ∧ t 4 = 5 := by
  obtain ⟨t, h1, h2, h3, h4⟩ := C75_reversed 3 1 2 (by norm_num) (by norm_num) 5 (by norm_num)
  exact ⟨t, h1, h2, h3, h4.trans (by norm_num)⟩

/-- The defaults of `SplineActivation`. -/
example : ∃ t : Fin 14 → ℝ, makeGrid (-3) 3 2 14 = vfin t ∧ StrictMono t ∧ t 0 = -3 ∧ t 13 = 3 := by
  obtain ⟨t, h1, h2, h3, h4, -⟩ := C75_grid (-3) 3 2 (by norm_num) two_pos 14 (by norm_num)
  exact ⟨t, h1, h2, h3, h4⟩

/-! ## C76 -/

theorem add_fin_zero (a : XR) : a + fin 0 = a := by rw [← zero_eq, add_zero]

/-- With zero coefficients the layer is the base activation. -/
theorem C76_zero {d m : ℕ} (activation : XR → XR) (grid : Fin d → Fin m → ℝ) (degree : ℕ) (x : Fin d → ℝ) :
    splineActivation activation (fun j => vfin (grid j)) degree (fun _ _ => 0) (vfin x) =
      fun j => activation (fin (x j)) := by
  funext j
  simp only [splineActivation, vfin_apply]
  rw [Finset.sum_eq_zero]
  · exact add_zero _
  · intro i _
    rw [splineBasis_fin _ _ _ _ (by have := i.isLt; omega)]
    simp

/-- Outside of the (sorted) grid the layer is the base activation. -/
theorem C76_outside {d m : ℕ} (activation : XR → XR) (grid : Fin d → Fin m → ℝ) (hgrid : ∀ j, Monotone (grid j))
    (degree : ℕ) (coefs : Fin d → Fin (m - degree - 1) → ℝ) (x : Fin d → ℝ) (j : Fin d)
    (hx : (∀ i, x j < grid j i) ∨ ∀ i, grid j i ≤ x j) :
    splineActivation activation (fun j => vfin (grid j)) degree (fun j => vfin (coefs j)) (vfin x) j =
      activation (fin (x j)) := by
  simp only [splineActivation, vfin_apply]
  rw [Finset.sum_eq_zero]
  · exact add_zero _
  · intro i _
    obtain ⟨b, hb, -, h1, h2⟩ := C73_basis (x j) (grid j) (hgrid j) degree i
    rw [hb]
    have : b = 0 := by
      rcases hx with h | h
      · exact h1 (h _)
      · exact h2 (h _)
    simp [this]

/-- The input `7` is beyond the grid `0, 1, 2, 5`. -/
example (activation : XR → XR) (coefs : Fin 1 → Fin (4 - 1 - 1) → ℝ) :
    splineActivation activation (fun _ => vfin ![0, 1, 2, 5]) 1 (fun j => vfin (coefs j)) (vfin ![7]) 0 =
      activation (fin 7) :=
  C76_outside activation (fun _ => ![0, 1, 2, 5]) (fun _ => Fin.monotone_iff_le_succ.mpr fun i => by
    fin_cases i <;> simp
    norm_num) 1
    coefs ![7] 0 (.inr fun i => by fin_cases i <;> norm_num)

/-- The output is affine in the coefficients. -/
theorem C76_affine {d m : ℕ} (activation : ℝ → ℝ) (act : XR → XR) (hact : ∀ a, act (fin a) = fin (activation a))
    (grid : Fin d → Fin m → ℝ) (degree : ℕ) (x : Fin d → ℝ) :
    ∃ L : (Fin d → Fin (m - degree - 1) → ℝ) →ₗ[ℝ] (Fin d → ℝ), ∀ coefs,
      splineActivation act (fun j => vfin (grid j)) degree (fun j => vfin (coefs j)) (vfin x) =
        vfin fun j => activation (x j) + L coefs j := by
  refine ⟨{ toFun := fun c j => ∑ i : Fin (m - degree - 1),
              bspline (x j) (clampReal (by have := i.isLt; omega) (grid j)) degree i * c j i
            map_add' := fun c c' => ?_, map_smul' := fun a c => ?_ }, fun c => ?_⟩
  · funext j
    simp [mul_add, Finset.sum_add_distrib]
  · funext j
    simp only [Pi.smul_apply, smul_eq_mul, RingHom.id_apply, Finset.mul_sum]
    exact Finset.sum_congr rfl fun i _ => by ring
  · funext j
    simp only [splineActivation, vfin_apply, hact, LinearMap.coe_mk, AddHom.coe_mk]
    rw [← fin_add, ← fin_sum]
    congr 1
    refine Finset.sum_congr rfl fun i _ => ?_
    rw [splineBasis_fin _ _ _ _ (by have := i.isLt; omega), fin_mul]

/-- The module as built by default: outside of `[-3, 3]` it is its activation, whatever the coefficients are. -/
theorem C76_module {d : ℕ} (nodes : ℕ) (hn : 2 ≤ nodes) (node_min node_max : ℝ) (hs : node_min < node_max) (degree : ℕ)
    (grid_power : ℝ) (hp : 0 < grid_power) (activation : XR → XR) (coefs : Fin d → Fin (nodes - degree - 1) → ℝ)
    (x : Fin d → ℝ) (j : Fin d) (hx : x j < node_min ∨ node_max ≤ x j) :
    SplineActivation nodes node_min node_max degree grid_power activation none (fun j => vfin (coefs j)) (vfin x) j =
      activation (fin (x j)) := by
  obtain ⟨t, ht, hmono, h0, h1, -⟩ := C75_grid node_min node_max grid_power hs hp nodes hn
  simp only [SplineActivation, ht]
  refine C76_outside activation (fun _ => t) (fun _ => hmono.monotone) degree coefs x j ?_
  rcases hx with h | h
  · left
    intro i
    refine lt_of_lt_of_le (h.trans_eq h0.symm) (hmono.monotone ?_)
    show 0 ≤ (i : ℕ)
    omega
  · right
    intro i
    refine le_trans (hmono.monotone ?_) (h1.le.trans h)
    show (i : ℕ) ≤ nodes - 1
    omega

example (coefs : Fin 1 → Fin (14 - 3 - 1) → ℝ) (activation : XR → XR) :
    SplineActivation 14 (-3) 3 3 2 activation none (fun j => vfin (coefs j)) (vfin ![5]) 0 = activation (fin 5) :=
  C76_module 14 (by norm_num) (-3) 3 (by norm_num) 3 2 two_pos activation coefs ![5] 0 (Or.inr (by norm_num))

/-- With `parameterize_grid` every feature has its own stored grid: outside of it the layer is the activation; in the interior of it
the spline part is a weighted mean of the coefficients of the feature. -/
theorem C76_own_grids {d : ℕ} (nodes : ℕ) (node_min node_max : ℝ) (degree : ℕ) (grid_power : ℝ) (activation : ℝ → ℝ) (act : XR → XR)
    (hact : ∀ a, act (fin a) = fin (activation a)) (grids : Fin d → Fin nodes → ℝ) (hgrids : ∀ j, Monotone (grids j))
    (coefs : Fin d → Fin (nodes - degree - 1) → ℝ) (x : Fin d → ℝ) (j : Fin d) :
    ((∀ i, x j < grids j i) ∨ (∀ i, grids j i ≤ x j) →
      SplineActivation nodes node_min node_max degree grid_power act (some fun j => vfin (grids j)) (fun j => vfin (coefs j)) (vfin x) j =
        fin (activation (x j))) ∧
    ∀ (hk : degree + 1 ≤ nodes), grids j ⟨degree, by omega⟩ ≤ x j → x j < grids j ⟨nodes - 1 - degree, by omega⟩ →
      ∀ lo hi, (∀ i, lo ≤ coefs j i) → (∀ i, coefs j i ≤ hi) → ∃ y,
        SplineActivation nodes node_min node_max degree grid_power act (some fun j => vfin (grids j)) (fun j => vfin (coefs j)) (vfin x) j =
          fin (activation (x j) + y) ∧ lo ≤ y ∧ y ≤ hi := by
  refine ⟨fun h => ?_, fun hk h1 h2 lo hi hlo hhi => ?_⟩
  · rw [← hact]
    exact C76_outside act grids hgrids degree coefs x j h
  · obtain ⟨y, hy, hy1, hy2⟩ := C74_hull (x j) (grids j) (hgrids j) degree hk h1 h2 (coefs j) lo hi hlo hhi
    refine ⟨y, ?_, hy1, hy2⟩
    simp only [SplineActivation, splineActivation, vfin_apply, hact]
    rw [hy, fin_add]

/-- Two features with different grids: at `7` the first grid has ended, the second has not. -/
example (activation : ℝ → ℝ) (act : XR → XR) (hact : ∀ a, act (fin a) = fin (activation a)) :
    SplineActivation 4 (-3) 3 1 2 act (some fun j => vfin ((![![0, 1, 2, 5], ![0, 6, 8, 9]] : Fin 2 → Fin 4 → ℝ) j))
      (fun _ => vfin ![3, 3]) (vfin ![7, 7]) 0 = fin (activation 7) ∧
    SplineActivation 4 (-3) 3 1 2 act (some fun j => vfin ((![![0, 1, 2, 5], ![0, 6, 8, 9]] : Fin 2 → Fin 4 → ℝ) j))
      (fun _ => vfin ![3, 3]) (vfin ![7, 7]) 1 = fin (activation 7 + 3) := by
  have hm : ∀ j, Monotone ((![![0, 1, 2, 5], ![0, 6, 8, 9]] : Fin 2 → Fin 4 → ℝ) j) := fun j => by
    fin_cases j <;> refine Fin.monotone_iff_le_succ.mpr fun i => ?_ <;> fin_cases i <;> simp <;> norm_num
  refine ⟨(C76_own_grids 4 (-3) 3 1 2 activation act hact ![![0, 1, 2, 5], ![0, 6, 8, 9]] hm (fun _ => ![3, 3]) ![7, 7] 0).1
    (Or.inr fun i => by fin_cases i <;> norm_num), ?_⟩
  obtain ⟨y, h, h1, h2⟩ := (C76_own_grids 4 (-3) 3 1 2 activation act hact ![![0, 1, 2, 5], ![0, 6, 8, 9]] hm (fun _ => ![3, 3]) ![7, 7] 1).2
    (by norm_num) (by norm_num) (by norm_num) 3 3 (fun i => by fin_cases i <;> norm_num) (fun i => by fin_cases i <;> norm_num)
  rw [h, le_antisymm h2 h1]
  norm_num

/-- A new module, with or without own grids: it computes its activation, and with own grids it has for all coefficients the values it has
without them. -/
theorem C76_init {d : ℕ} (nodes : ℕ) (hn : 2 ≤ nodes) (node_min node_max : ℝ) (hs : node_min < node_max) (degree : ℕ)
    (grid_power : ℝ) (hp : 0 < grid_power) (activation : ℝ → ℝ) (act : XR → XR) (hact : ∀ a, act (fin a) = fin (activation a))
    (parameterize_grid : Bool) (x : Fin d → ℝ) :
    let new := SplineActivation.init nodes node_min node_max degree grid_power parameterize_grid d
    SplineActivation nodes node_min node_max degree grid_power act new.1 new.2 (vfin x) = vfin (fun j => activation (x j)) ∧
    (new.1.isSome ↔ parameterize_grid = true) ∧
    ∀ (coefs : Fin d → Vec (nodes - degree - 1)) (x : Vec d),
      SplineActivation nodes node_min node_max degree grid_power act new.1 coefs x =
        SplineActivation nodes node_min node_max degree grid_power act none coefs x := by
  intro new
  have e : ∀ (coefs : Fin d → Vec (nodes - degree - 1)) (x : Vec d),
      SplineActivation nodes node_min node_max degree grid_power act new.1 coefs x =
        SplineActivation nodes node_min node_max degree grid_power act none coefs x := by
    intro coefs x
    cases parameterize_grid <;> rfl
  refine ⟨?_, by cases parameterize_grid <;> simp [new, SplineActivation.init], e⟩
  obtain ⟨t, ht, -⟩ := C75_grid node_min node_max grid_power hs hp nodes hn
  rw [e]
  simp only [SplineActivation, ht]
  have := C76_zero act (fun _ => t) degree x
  funext j
  rw [vfin_apply, ← hact]
  exact congrFun this j

example (x : Fin 2 → ℝ) : let new := SplineActivation.init 14 (-3) 3 3 2 true 2
    SplineActivation 14 (-3) 3 3 2 XR.exp new.1 new.2 (vfin x) = vfin fun j => Real.exp (x j) :=
  (C76_init 14 (by norm_num) (-3) 3 (by norm_num) 3 2 two_pos Real.exp XR.exp (fun _ => rfl) true x).1

end Verif
