import Verif.Model.FloatSpline
import Verif.Props.Spline
import Verif.Props.FloatR

/-! # C153: the spline basis in floating point arithmetic -/

namespace Verif

open XR

/-! ## Neighbouring basis functions -/

theorem bspline_shift (x : ℝ) (t s : ℕ → ℝ) (k i j : ℕ) (h : ∀ l, l ≤ k + 1 → s (j + l) = t (i + l)) :
    bspline x s k j = bspline x t k i := by
  induction k generalizing i j with
  | zero =>
    have h0 := h 0 (by omega)
    have h1 := h 1 (by omega)
    simp only [Nat.add_zero] at h0
    rw [bspline, bspline, h0, h1]
  | succ k ih =>
    have h0 := h 0 (by omega)
    have h1 := h 1 (by omega)
    have h2 := h (k + 1) (by omega)
    have h3 := h (k + 1 + 1) (by omega)
    simp only [Nat.add_zero] at h0
    rw [bspline, bspline, ih i j fun l hl => h l (by omega), ih (i + 1) (j + 1) fun l hl => by
      rw [show j + 1 + l = j + (l + 1) by ring, show i + 1 + l = i + (l + 1) by ring]; exact h _ (by omega)]
    rw [← add_assoc, ← add_assoc] at h3
    simp only [← add_assoc] at h2 h3 ⊢
    rw [h0, h1, h2, h3]

/-- Two neighbours add up to at most one. -/
theorem bspline_add_le {t : ℕ → ℝ} (ht : Monotone t) (x : ℝ) (k i : ℕ) : bspline x t k i + bspline x t k (i + 1) ≤ 1 := by
  by_cases h1 : x < t i
  · rw [bspline_support ht x k i (.inl h1), bspline_support ht x k (i + 1) (.inl (lt_of_lt_of_le h1 (ht (by omega))))]
    norm_num
  by_cases h2 : t (i + k + 2) ≤ x
  · rw [bspline_support ht x k i (.inr ((ht (by omega)).trans h2)),
      bspline_support ht x k (i + 1) (.inr (by rw [show i + 1 + k + 1 = i + k + 2 by ring]; exact h2))]
    norm_num
  push Not at h1 h2
  set s : ℕ → ℝ := fun j => t (j - k) with hs
  have hsm : Monotone s := fun a b hab => ht (by omega)
  have e : ∀ j, bspline x s k (j + k) = bspline x t k j := fun j =>
    bspline_shift x t s k j (j + k) fun l _ => by simp only [hs]; congr 1; omega
  have hsum := bspline_sum hsm x k i (i + k + k + 2) (by simp only [hs]; rw [Nat.add_sub_cancel]; exact h1)
    (by simp only [hs]; rw [show i + k + k + 2 - k = i + k + 2 by omega]; exact h2)
  have hsub : ({i + k, i + 1 + k} : Finset ℕ) ⊆ Finset.Ico i (i + k + k + 2) := by
    intro j hj
    simp only [Finset.mem_insert, Finset.mem_singleton] at hj
    rw [Finset.mem_Ico]; omega
  have := Finset.sum_le_sum_of_subset_of_nonneg (f := fun j => bspline x s k j) hsub fun j _ _ => bspline_nonneg hsm x k j
  rw [Finset.sum_pair (by omega), e, e, hsum] at this
  exact this

/-! ## Rounding -/

section
variable (F : Fmt)

theorem rndR_abs_err {y : ℝ} (h : |y| ≤ 2) : |F.rndR y - y| ≤ 2 ^ (-(F.p : ℤ)) := by
  have hp := F.hp
  have hmin := F.hmin
  rcases h.lt_or_eq with h | h
  · refine (F.rndR_err y).trans ?_
    have h1 : F.ulpExp y ≤ 1 - F.p := by
      rw [Fmt.ulpExp]
      refine max_le ?_ (by omega)
      by_cases hy : y = 0
      · rw [hy, abs_zero, Int.log_of_right_le_zero _ le_rfl]; omega
      have h2 : (2 : ℝ) ^ Int.log 2 |y| < 2 ^ (1 : ℤ) := by
        refine lt_of_le_of_lt (Fmt.log_le hy) ?_
        simpa using h
      rw [zpow_lt_zpow_iff_right₀ (by norm_num)] at h2
      omega
    rw [Fmt.ulp]
    calc (2 : ℝ) ^ F.ulpExp y / 2 ≤ 2 ^ (1 - (F.p : ℤ)) / 2 := by gcongr; norm_num
      _ = 2 ^ (-(F.p : ℤ)) := by rw [sub_eq_add_neg, zpow_add₀ (by norm_num)]; norm_num
  · have h1 : F.Rep y := by
      have := F.rep_two_zpow (k := 1) (by omega)
      rw [zpow_one] at this
      rcases abs_choice y with e | e
      · rwa [← e, h]
      · have := this.neg
        rwa [← h, e, neg_neg] at this
    rw [F.rndR_rep h1, sub_self, abs_zero]
    positivity

theorem unit_le (hp : 4 ≤ F.p) : (2 : ℝ) ^ (-(F.p : ℤ)) ≤ 1 / 16 := by
  calc (2 : ℝ) ^ (-(F.p : ℤ)) ≤ 2 ^ (-4 : ℤ) := zpow_le_zpow_right₀ (by norm_num) (by omega)
    _ = 1 / 16 := by norm_num

/-- A quotient of two differences. -/
theorem quotFl (hp : 4 ≤ F.p) {N D : ℝ} (hN : |F.rndR N - N| ≤ |N| * 2 ^ (-(F.p : ℤ))) (hD : |F.rndR D - D| ≤ |D| * 2 ^ (-(F.p : ℤ)))
    (hD0 : 0 < D) (hN1 : |N| ≤ 2 ^ F.emax) (hD1 : D ≤ 2 ^ F.emax) (hND : |N| ≤ 2 ^ (F.emax - 1) * D) :
    ∃ q : ℝ, F.div (F.rnd (fin N)) (F.rnd (fin D)) = fin q ∧
      (0 ≤ N → N ≤ D → 0 ≤ q ∧ q ≤ 1 ∧ |q - N / D| ≤ 4 * 2 ^ (-(F.p : ℤ))) := by
  have hu := unit_le F hp
  set u : ℝ := 2 ^ (-(F.p : ℤ)) with hudef
  have hu0 : 0 < u := by positivity
  rw [abs_of_pos hD0] at hD
  have hDl : D * (1 - u) ≤ F.rndR D := by linarith [(abs_le.mp hD).1]
  have hDp : 0 < F.rndR D := lt_of_lt_of_le (mul_pos hD0 (by linarith)) hDl
  have hNu : |F.rndR N| ≤ |N| * (1 + u) := by
    have := abs_sub_abs_le_abs_sub (F.rndR N) N
    linarith
  have hq : |F.rndR N / F.rndR D| ≤ 2 ^ F.emax := by
    rw [abs_div, abs_of_pos hDp, div_le_iff₀ hDp]
    have h1 : |F.rndR N| ≤ 2 ^ (F.emax - 1) * D * (1 + u) := hNu.trans (by gcongr)
    have e1 : (2 : ℝ) ^ F.emax = 2 * 2 ^ (F.emax - 1) := by
      rw [← zpow_one_add₀ (by norm_num)]; congr 1; ring
    have hE : (0 : ℝ) < 2 ^ (F.emax - 1) := by positivity
    have h2 : D * (1 + u) ≤ 2 * F.rndR D := by
      have : D * (1 + u) ≤ D * (2 * (1 - u)) := by
        gcongr; linarith
      linarith
    calc |F.rndR N| ≤ 2 ^ (F.emax - 1) * (D * (1 + u)) := by linarith
      _ ≤ 2 ^ (F.emax - 1) * (2 * F.rndR D) := by gcongr
      _ = 2 ^ F.emax * F.rndR D := by rw [e1]; ring
  refine ⟨F.rndR (F.rndR N / F.rndR D), ?_, fun h0 h1 => ?_⟩
  · rw [Fmt.div, F.rnd_fin hN1, F.rnd_fin (by rwa [abs_of_pos hD0]), fin_div _ hDp.ne', F.rnd_fin hq]
  · have hN0 : 0 ≤ F.rndR N := F.rndR_nonneg h0
    have hle : F.rndR N / F.rndR D ≤ 1 := by
      rw [div_le_one hDp]; exact F.rndR_mono h1
    have hge : 0 ≤ F.rndR N / F.rndR D := div_nonneg hN0 hDp.le
    have hone : F.Rep 1 := by simpa using F.rep_two_zpow (k := 0) (by have := F.hmin; omega)
    refine ⟨F.rndR_nonneg hge, F.rndR_le hone hle, ?_⟩
    have h2 := rndR_abs_err F (y := F.rndR N / F.rndR D) (by rw [abs_of_nonneg hge]; linarith)
    rw [← hudef] at h2
    have h3 : |F.rndR N / F.rndR D - N / D| ≤ 3 * u := by
      rw [div_sub_div _ _ hDp.ne' hD0.ne', abs_div, abs_of_pos (mul_pos hDp hD0), div_le_iff₀ (mul_pos hDp hD0)]
      rw [abs_of_nonneg h0] at hN
      have e2 : F.rndR N * D - F.rndR D * N = (F.rndR N - N) * D - (F.rndR D - D) * N := by ring
      rw [e2]
      calc |(F.rndR N - N) * D - (F.rndR D - D) * N| ≤ |(F.rndR N - N) * D| + |(F.rndR D - D) * N| := abs_sub _ _
        _ = |F.rndR N - N| * D + |F.rndR D - D| * N := by rw [abs_mul, abs_mul, abs_of_pos hD0, abs_of_nonneg h0]
        _ ≤ N * u * D + D * u * N := by gcongr
        _ = 2 * u * N * D := by ring
        _ ≤ 3 * u * ((1 - u) * D) * D := by
          have h4 : D * u ≤ D * (1 / 16) := mul_le_mul_of_nonneg_left hu hD0.le
          have h5 : u * (2 * N) ≤ u * (3 * ((1 - u) * D)) := mul_le_mul_of_nonneg_left (by linarith) hu0.le
          exact mul_le_mul_of_nonneg_right (by linarith) hD0.le
        _ ≤ 3 * u * F.rndR D * D := by gcongr; linarith
        _ = _ := by ring
    calc |F.rndR (F.rndR N / F.rndR D) - N / D| ≤ |F.rndR (F.rndR N / F.rndR D) - F.rndR N / F.rndR D| + |F.rndR N / F.rndR D - N / D| :=
          abs_sub_le _ _ _
      _ ≤ u + 3 * u := add_le_add h2 h3
      _ = 4 * u := by ring

/-- One of the two terms of the recursion. -/
theorem termFl {q qh b bh e : ℝ} (hq0 : 0 ≤ q) (hq1 : q ≤ 1) (hqh0 : 0 ≤ qh) (hqh1 : qh ≤ 1)
    (hq : |qh - q| ≤ 4 * 2 ^ (-(F.p : ℤ))) (hbh0 : 0 ≤ bh) (hbh : F.Rep bh) (hbh2 : bh ≤ 2) (hb : |bh - b| ≤ e) :
    F.mul (fin qh) (fin bh) = fin (F.rndR (qh * bh)) ∧ 0 ≤ F.rndR (qh * bh) ∧ F.rndR (qh * bh) ≤ bh ∧
      |F.rndR (qh * bh) - q * b| ≤ 2 ^ (-(F.p : ℤ)) * (1 + 4 * bh) + e := by
  have h0 : 0 ≤ qh * bh := mul_nonneg hqh0 hbh0
  have h1 : qh * bh ≤ bh := mul_le_of_le_one_left hbh0 hqh1
  have h2 : (2 : ℝ) ≤ 2 ^ F.emax := by
    calc (2 : ℝ) = 2 ^ (1 : ℤ) := by norm_num
      _ ≤ _ := zpow_le_zpow_right₀ (by norm_num) F.hmax
  refine ⟨?_, F.rndR_nonneg h0, F.rndR_le hbh h1, ?_⟩
  · rw [Fmt.mul, fin_mul, F.rnd_fin (by rw [abs_of_nonneg h0]; linarith)]
  · have h3 := rndR_abs_err F (y := qh * bh) (by rw [abs_of_nonneg h0]; linarith)
    have h4 : |qh * bh - q * b| ≤ 4 * 2 ^ (-(F.p : ℤ)) * bh + e := by
      have e1 : qh * bh - q * b = (qh - q) * bh + q * (bh - b) := by ring
      rw [e1]
      calc |(qh - q) * bh + q * (bh - b)| ≤ |(qh - q) * bh| + |q * (bh - b)| := abs_add_le _ _
        _ = |qh - q| * bh + q * |bh - b| := by rw [abs_mul, abs_mul, abs_of_nonneg hbh0, abs_of_nonneg hq0]
        _ ≤ 4 * 2 ^ (-(F.p : ℤ)) * bh + 1 * e := by
          have he : 0 ≤ e := (abs_nonneg _).trans hb
          gcongr
        _ = _ := by ring
    calc |F.rndR (qh * bh) - q * b| ≤ |F.rndR (qh * bh) - qh * bh| + |qh * bh - q * b| := abs_sub_le _ _ _
      _ ≤ _ := by linarith

/-- The numbers of a grid and the argument are in the range of the format: differences and their quotients do not overflow. -/
structure SplineRange {ι : Type} (x : ℝ) (t : ι → ℝ) : Prop where
  repx : F.Rep x
  rep : ∀ i, F.Rep (t i)
  bx : ∀ i, |x - t i| ≤ 2 ^ F.emax
  bt : ∀ i j, t j - t i ≤ 2 ^ F.emax
  lo : ∀ i j, t i < t j → |x - t i| ≤ 2 ^ (F.emax - 1) * (t j - t i)
  hi : ∀ i j, t i < t j → |x - t j| ≤ 2 ^ (F.emax - 1) * (t j - t i)

theorem baseFunFl_spec {x : ℝ} {t : ℕ → ℝ} (ht : Monotone t) (hr : SplineRange F x t) (k : ℕ) (hk : k + 6 ≤ F.p) (i : ℕ) :
    ∃ b : ℝ, baseFunFl F (fin x) (fun j => fin (t j)) k i = fin b ∧ F.Rep b ∧ 0 ≤ b ∧ (x < t i ∨ t (i + k + 1) ≤ x → b = 0) ∧
      |b - bspline x t k i| ≤ 8 * (2 ^ k - 1) * 2 ^ (-(F.p : ℤ)) := by
  have hone : F.Rep 1 := by simpa using F.rep_two_zpow (k := 0) (by have := F.hmin; omega)
  induction k generalizing i with
  | zero =>
    rw [baseFunFl, bspline]
    simp only [fin_le, fin_lt]
    by_cases h : t i ≤ x ∧ x < t (i + 1)
    · rw [if_pos h, if_pos h]
      refine ⟨1, one_eq, hone, zero_le_one, fun h' => ?_, by simp⟩
      rcases h' with h' | h'
      · linarith
      · simp only [Nat.add_zero] at h'; linarith
    · rw [if_neg h, if_neg h]
      exact ⟨0, zero_eq, F.rep_zero, le_rfl, fun _ => rfl, by simp⟩
  | succ k ih =>
    have hp4 : 4 ≤ F.p := by omega
    obtain ⟨b1, e1, rep1, nn1, sup1, err1⟩ := ih (by omega) i
    obtain ⟨b2, e2, rep2, nn2, sup2, err2⟩ := ih (by omega) (i + 1)
    set u : ℝ := 2 ^ (-(F.p : ℤ)) with hu
    have hu0 : 0 < u := by positivity
    set e : ℝ := 8 * (2 ^ k - 1) * u with he
    have hk1 : (1 : ℝ) ≤ 2 ^ k := one_le_pow₀ (by norm_num)
    have he0 : 0 ≤ e := by
      have : (0 : ℝ) ≤ 2 ^ k - 1 := by linarith
      positivity
    have he8 : e ≤ 1 / 8 := by
      have h1 : (2 : ℝ) ^ k * u ≤ 1 / 64 := by
        calc (2 : ℝ) ^ k * u = 2 ^ ((k : ℤ) + -(F.p : ℤ)) := by rw [hu, zpow_add₀ (by norm_num), zpow_natCast]
          _ ≤ 2 ^ (-6 : ℤ) := zpow_le_zpow_right₀ (by norm_num) (by omega)
          _ = 1 / 64 := by norm_num
      have h2 : e = 8 * (2 ^ k * u) - 8 * u := by rw [he]; ring
      linarith
    have hsum := bspline_add_le ht x k i
    have hB1 := bspline_nonneg ht x k i
    have hB2 := bspline_nonneg ht x k (i + 1)
    have a1 := abs_le.mp err1
    have a2 := abs_le.mp err2
    -- the terms
    have term : ∀ (N D q b B : ℝ) (_ : q = N / D) (hb0 : 0 ≤ b) (_ : F.Rep b) (_ : b ≤ 2) (_ : |b - B| ≤ e)
        (_ : D ≠ 0 → 0 < D) (_ : D ≠ 0 → |F.rndR N - N| ≤ |N| * u) (_ : D ≠ 0 → |F.rndR D - D| ≤ |D| * u)
        (_ : |N| ≤ 2 ^ F.emax) (_ : D ≤ 2 ^ F.emax) (_ : D ≠ 0 → |N| ≤ 2 ^ (F.emax - 1) * D)
        (_ : ¬ (0 ≤ N ∧ N ≤ D) ∨ D = 0 → b = 0 ∧ B = 0),
        ∃ ch : ℝ, (if D = 0 then (0 : XR) else F.mul (F.div (F.rnd (fin N)) (F.rnd (fin D))) (fin b)) = fin ch ∧ 0 ≤ ch ∧ ch ≤ b ∧
          F.Rep ch ∧ |ch - q * B| ≤ u * (1 + 4 * b) + e := by
      intro N D q b B hq hb0 hbr hb2 hbB hDp hNr hDr hN1 hD1 hND hout
      by_cases hD : D = 0
      · rw [if_pos hD]
        obtain ⟨h1, h2⟩ := hout (.inr hD)
        refine ⟨0, zero_eq, le_rfl, hb0, F.rep_zero, ?_⟩
        rw [h2, mul_zero, sub_zero, abs_zero]
        positivity
      · rw [if_neg hD]
        obtain ⟨qh, h1, h2⟩ := quotFl F hp4 (hNr hD) (hDr hD) (hDp hD) hN1 hD1 (hND hD)
        rw [h1]
        by_cases hin : 0 ≤ N ∧ N ≤ D
        · obtain ⟨h3, h4, h5⟩ := h2 hin.1 hin.2
          have hq0 : 0 ≤ q := by rw [hq]; exact div_nonneg hin.1 (hDp hD).le
          have hq1 : q ≤ 1 := by rw [hq]; exact div_le_one_of_le₀ hin.2 (hDp hD).le
          obtain ⟨h6, h7, h8, h9⟩ := termFl F hq0 hq1 h3 h4 (by rw [hq]; exact h5) hb0 hbr hb2 hbB
          exact ⟨_, h6, h7, h8, F.rep_rndR _, h9⟩
        · obtain ⟨h3, h4⟩ := hout (.inl hin)
          refine ⟨0, ?_, le_rfl, hb0, F.rep_zero, ?_⟩
          · rw [h3, Fmt.mul, fin_mul, mul_zero, rnd_zero]
          · rw [h4, mul_zero, sub_zero, abs_zero]; positivity
    have hsubx : ∀ j, |F.rndR (x - t j) - (x - t j)| ≤ |x - t j| * u := fun j => by
      have := F.rndR_add hr.repx (hr.rep j).neg
      rwa [← sub_eq_add_neg] at this
    have hsubx' : ∀ j, |F.rndR (t j - x) - (t j - x)| ≤ |t j - x| * u := fun j => by
      have := F.rndR_add (hr.rep j) hr.repx.neg
      rwa [← sub_eq_add_neg] at this
    have hsubt : ∀ j l, |F.rndR (t j - t l) - (t j - t l)| ≤ |t j - t l| * u := fun j l => by
      have := F.rndR_add (hr.rep j) (hr.rep l).neg
      rwa [← sub_eq_add_neg] at this
    have hmono1 := ht (show i ≤ i + (k + 1) by omega)
    have hmono2 := ht (show i + 1 ≤ i + (k + 1) + 1 by omega)
    obtain ⟨c1, f1, g1, l1, r1, err1'⟩ := term (x - t i) (t (i + (k + 1)) - t i) _ b1 (bspline x t k i) rfl nn1 rep1
      (by linarith [a1.2]) err1 (fun h => lt_of_le_of_ne (by linarith) (Ne.symm h)) (fun _ => hsubx i) (fun _ => hsubt _ _) (hr.bx i)
      (hr.bt _ _) (fun h => hr.lo _ _ (by
        rcases hmono1.lt_or_eq with h' | h'
        · exact h'
        · exact absurd (by rw [h', sub_self]) h)) (fun h => by
        have : x < t i ∨ t (i + k + 1) ≤ x := by
          rcases h with h | h
          · by_contra hc
            push Not at hc
            exact h ⟨by linarith [hc.1], by have := hc.2; rw [show i + k + 1 = i + (k + 1) by ring] at this; linarith⟩
          · rcases lt_or_ge x (t i) with h' | h'
            · exact .inl h'
            · right; rw [show i + k + 1 = i + (k + 1) by ring]; linarith
        exact ⟨sup1 this, bspline_support ht x k i this⟩)
    obtain ⟨c2, f2, g2, l2, r2, err2'⟩ := term (t (i + (k + 1) + 1) - x) (t (i + (k + 1) + 1) - t (i + 1)) _ b2
      (bspline x t k (i + 1)) rfl nn2 rep2
      (by linarith [a2.2]) err2 (fun h => lt_of_le_of_ne (by linarith) (Ne.symm h)) (fun _ => hsubx' _) (fun _ => hsubt _ _)
      (by rw [abs_sub_comm]; exact hr.bx _) (hr.bt _ _) (fun h => by
        rw [abs_sub_comm]
        exact hr.hi _ _ (by
          rcases hmono2.lt_or_eq with h' | h'
          · exact h'
          · exact absurd (by rw [h', sub_self]) h)) (fun h => by
        have : x < t (i + 1) ∨ t (i + 1 + k + 1) ≤ x := by
          rw [show i + 1 + k + 1 = i + (k + 1) + 1 by ring]
          rcases h with h | h
          · by_contra hc
            push Not at hc
            exact h ⟨by linarith [hc.2], by linarith [hc.1]⟩
          · rcases lt_or_ge x (t (i + 1)) with h' | h'
            · exact .inl h'
            · right; linarith
        exact ⟨sup2 this, bspline_support ht x k (i + 1) this⟩)
    have hif : ∀ a b : ℝ, (fin a = fin b ∧ fin b ≠ nan) = (a - b = 0) := fun a b => by
      simp [sub_eq_zero]
    have hval : baseFunFl F (fin x) (fun j => fin (t j)) (k + 1) i = F.add (fin c1) (fin c2) := by
      rw [baseFunFl]
      simp only [hif, e1, e2, Fmt.sub, fin_sub]
      rw [f1, f2]
    have hc2 : c1 + c2 ≤ 2 := by linarith [a1.2, a2.2]
    have hc0 : 0 ≤ c1 + c2 := by linarith
    have h2m : (2 : ℝ) ≤ 2 ^ F.emax := by
      calc (2 : ℝ) = 2 ^ (1 : ℤ) := by norm_num
        _ ≤ _ := zpow_le_zpow_right₀ (by norm_num) F.hmax
    refine ⟨F.rndR (c1 + c2), ?_, F.rep_rndR _, F.rndR_nonneg hc0, fun h => ?_, ?_⟩
    · rw [hval, Fmt.add, fin_add, F.rnd_fin (by rw [abs_of_nonneg hc0]; linarith)]
    · have h1 : b1 = 0 := sup1 (by
        rcases h with h | h
        · exact .inl h
        · exact .inr ((ht (by omega)).trans h))
      have h2 : b2 = 0 := sup2 (by
        rcases h with h | h
        · exact .inl (lt_of_lt_of_le h (ht (by omega)))
        · right; rw [show i + 1 + k + 1 = i + (k + 1) + 1 by ring]; exact h)
      rw [show c1 = 0 by linarith, show c2 = 0 by linarith, add_zero, F.rndR_zero]
    · rw [bspline]
      have h3 := rndR_abs_err F (y := c1 + c2) (by rw [abs_of_nonneg hc0]; exact hc2)
      rw [← hu] at h3
      have hbb : b1 + b2 ≤ 1 + 2 * e := by linarith [a1.2, a2.2]
      have h4 : u * (b1 + b2) ≤ u * (1 + 2 * (1 / 8)) := mul_le_mul_of_nonneg_left (by linarith) hu0.le
      have h5 : 8 * (2 ^ (k + 1) - 1) * u = 2 * e + 8 * u := by rw [he, pow_succ]; ring
      rw [h5]
      rw [abs_le] at err1' err2' h3 ⊢
      constructor <;> linarith [err1'.1, err1'.2, err2'.1, err2'.2, h3.1, h3.2]


end

/-! ## C153 -/

theorem splineFl {F : Fmt} {m : ℕ} {x : ℝ} {t : Fin m → ℝ} (ht : Monotone t) (hr : SplineRange F x t) (k : ℕ) (hk : k + 6 ≤ F.p)
    (i : Fin (m - k - 1)) :
    ∃ b B : ℝ, splineBasisFl F (fin x) (vfin t) k i = fin b ∧ splineBasis (fin x) (vfin t) k i = fin B ∧ 0 ≤ b ∧
      (x < t ⟨i, by omega⟩ ∨ t ⟨i + k + 1, by omega⟩ ≤ x → b = 0 ∧ B = 0) ∧ |b - B| ≤ 8 * (2 ^ k - 1) * 2 ^ (-(F.p : ℤ)) := by
  have hm : 0 < m := by have := i.isLt; omega
  have hr' : SplineRange F x (clampReal hm t) :=
    ⟨hr.repx, fun _ => hr.rep _, fun _ => hr.bx _, fun _ _ => hr.bt _ _, fun _ _ => hr.lo _ _, fun _ _ => hr.hi _ _⟩
  obtain ⟨b, h1, -, h3, h4, h5⟩ := baseFunFl_spec F (clampReal_mono hm ht) hr' k hk i
  refine ⟨b, _, ?_, splineBasis_fin x t k i hm, h3, fun h => ?_, h5⟩
  · rw [splineBasisFl, ← h1]
    rfl
  · rw [← clampReal_of_lt hm t (show (i : ℕ) < m by omega), ← clampReal_of_lt hm t (show (i : ℕ) + k + 1 < m by omega)] at h
    exact ⟨h4 h, bspline_support (clampReal_mono hm ht) x k i h⟩

/-- On a sorted grid (repeated knots allowed) in the range of the format the computed basis functions of degree `k` are finite,
non-negative, exactly zero outside of `[t_i, t_(i+k+1))`, and their absolute error is at most `8 (2 ^ k - 1)` units, however close the
knots are to each other. -/
theorem C153_basis {F : Fmt} {m : ℕ} {x : ℝ} {t : Fin m → ℝ} (ht : Monotone t) (hr : SplineRange F x t) (k : ℕ) (hk : k + 6 ≤ F.p)
    (i : Fin (m - k - 1)) :
    ∃ b B : ℝ, splineBasisFl F (fin x) (vfin t) k i = fin b ∧ splineBasis (fin x) (vfin t) k i = fin B ∧ 0 ≤ b ∧
      (x < t ⟨i, by omega⟩ → b = 0) ∧ (t ⟨i + k + 1, by omega⟩ ≤ x → b = 0) ∧
      |b - B| ≤ 8 * (2 ^ k - 1) * 2 ^ (-(F.p : ℤ)) := by
  obtain ⟨b, B, h1, h2, h3, h4, h5⟩ := splineFl ht hr k hk i
  exact ⟨b, B, h1, h2, h3, fun h => (h4 (.inl h)).1, fun h => (h4 (.inr h)).1, h5⟩

/-- Between the knots `t_k` and `t_(m-1-k)` the exact sum of the computed basis functions is one up to `8 (k + 1) (2 ^ k - 1)` units,
whatever the number of knots. -/
theorem C153_partition {F : Fmt} {m : ℕ} {x : ℝ} {t : Fin m → ℝ} (ht : Monotone t) (hr : SplineRange F x t) (k : ℕ) (hk : k + 6 ≤ F.p)
    (hm : k + 1 ≤ m) (h1 : t ⟨k, by omega⟩ ≤ x) (h2 : x < t ⟨m - 1 - k, by omega⟩) :
    ∃ b : Fin (m - k - 1) → ℝ, splineBasisFl F (fin x) (vfin t) k = vfin b ∧
      |∑ i, b i - 1| ≤ (k + 1) * (8 * (2 ^ k - 1) * 2 ^ (-(F.p : ℤ))) := by
  choose b B hb hB h0 hs he using fun i => splineFl ht hr k hk i
  refine ⟨b, funext hb, ?_⟩
  have hsum : ∑ i, B i = 1 := by
    have := C74_partition x t ht k hm h1 h2
    rw [Finset.sum_congr rfl fun i _ => hB i, fin_sum] at this
    exact fin_inj.mp this
  set E : ℝ := 8 * (2 ^ k - 1) * 2 ^ (-(F.p : ℤ)) with hE
  have hE0 : 0 ≤ E := by
    have : (1 : ℝ) ≤ 2 ^ k := one_le_pow₀ (by norm_num)
    have : (0 : ℝ) ≤ 2 ^ k - 1 := by linarith
    positivity
  classical
  set S : Finset (Fin (m - k - 1)) := Finset.univ.filter fun i => ¬ (x < t ⟨i, by omega⟩ ∨ t ⟨i + k + 1, by omega⟩ ≤ x) with hS
  have hcard : S.card ≤ k + 1 := by
    rcases S.eq_empty_or_nonempty with h | h
    · rw [h]; simp
    set j := S.min' h with hj
    have hjS : j ∈ S := S.min'_mem h
    have hsub : S.image (Fin.val : Fin (m - k - 1) → ℕ) ⊆ Finset.Ico (j : ℕ) (j + k + 1) := by
      intro n hn
      rw [Finset.mem_image] at hn
      obtain ⟨i, hi, rfl⟩ := hn
      rw [Finset.mem_Ico]
      refine ⟨S.min'_le i hi, ?_⟩
      rw [hS, Finset.mem_filter] at hi hjS
      have hi' := hi.2
      have hj' := hjS.2
      push Not at hi' hj'
      by_contra hc
      have := ht (show (⟨(j : ℕ) + k + 1, by omega⟩ : Fin m) ≤ ⟨i, by omega⟩ from by
        rw [Fin.mk_le_mk]; omega)
      linarith [hi'.1, hj'.2]
    have := Finset.card_le_card hsub
    rw [Finset.card_image_of_injective _ Fin.val_injective, Nat.card_Ico] at this
    omega
  have hz : ∀ i ∉ S, b i - B i = 0 := fun i hi => by
    have : x < t ⟨i, by omega⟩ ∨ t ⟨i + k + 1, by omega⟩ ≤ x := by
      by_contra hc
      exact hi (by rw [hS, Finset.mem_filter]; exact ⟨Finset.mem_univ _, hc⟩)
    rw [(hs i this).1, (hs i this).2, sub_zero]
  calc |∑ i, b i - 1| = |∑ i, (b i - B i)| := by rw [Finset.sum_sub_distrib, hsum]
    _ = |∑ i ∈ S, (b i - B i)| := by
      rw [Finset.sum_subset (Finset.subset_univ S) fun i _ hi => hz i hi]
    _ ≤ ∑ i ∈ S, |b i - B i| := Finset.abs_sum_le_sum_abs _ _
    _ ≤ ∑ _i ∈ S, E := Finset.sum_le_sum fun i _ => he i
    _ = S.card * E := by rw [Finset.sum_const, nsmul_eq_mul]
    _ ≤ (k + 1) * E := by
      gcongr
      exact_mod_cast hcard

/-- The knots `0, 2^-20, 2^-19`. -/
noncomputable def tinyKnots : Fin 3 → ℝ := ![0, 2 ^ (-20 : ℤ), 2 ^ (-19 : ℤ)]

/-- Outside of the range: in single precision the quotient overflows far from narrow knots, and the computed basis function is nan,
although the exact one is zero there. -/
theorem C153_overflow_counterexample :
    splineBasisFl Fmt.single (fin (2 ^ (110 : ℤ))) (vfin tinyKnots) 1 0 = nan ∧
      splineBasis (fin (2 ^ (110 : ℤ))) (vfin tinyKnots) 1 0 = fin 0 ∧ Monotone tinyKnots ∧
      Fmt.single.Rep (2 ^ (110 : ℤ)) ∧ ∀ i, Fmt.single.Rep (tinyKnots i) := by
  have hmono : Monotone tinyKnots := by
    rw [Fin.monotone_iff_le_succ]
    intro i
    fin_cases i
    · show (0 : ℝ) ≤ 2 ^ (-20 : ℤ); positivity
    · show (2 : ℝ) ^ (-20 : ℤ) ≤ 2 ^ (-19 : ℤ); norm_num
  have r1 : Fmt.single.Rep (2 ^ (110 : ℤ)) := Fmt.single.rep_two_zpow (by simp [Fmt.single])
  have r2 : Fmt.single.Rep (2 ^ (-20 : ℤ)) := Fmt.single.rep_two_zpow (by simp [Fmt.single])
  have r3 : Fmt.single.Rep (2 ^ (130 : ℤ)) := Fmt.single.rep_two_zpow (by simp [Fmt.single])
  refine ⟨?_, ?_, hmono, r1, fun i => ?_⟩
  · have e1 : Fmt.single.sub (fin (2 ^ (110 : ℤ))) (fin 0) = fin (2 ^ (110 : ℤ)) := by
      rw [Fmt.sub, fin_sub, sub_zero, Fmt.single.rnd_rep r1 (by
        rw [abs_of_pos (by positivity)]; exact zpow_lt_zpow_right₀ (by norm_num) (by simp [Fmt.single]))]
    have e2 : Fmt.single.sub (fin (2 ^ (-20 : ℤ))) (fin 0) = fin (2 ^ (-20 : ℤ)) := by
      rw [Fmt.sub, fin_sub, sub_zero, Fmt.single.rnd_rep r2 (by
        rw [abs_of_pos (by positivity)]; exact zpow_lt_zpow_right₀ (by norm_num) (by simp [Fmt.single]))]
    have e3 : Fmt.single.div (fin (2 ^ (110 : ℤ))) (fin (2 ^ (-20 : ℤ))) = pinf := by
      rw [Fmt.div, fin_div _ (by positivity), show (2 : ℝ) ^ (110 : ℤ) / 2 ^ (-20 : ℤ) = 2 ^ (130 : ℤ) by norm_num, Fmt.rnd,
        Fmt.single.rndR_rep r3, if_neg (by
          rw [abs_of_pos (by positivity), not_lt]; exact zpow_le_zpow_right₀ (by norm_num) (by simp [Fmt.single]))]
      exact if_pos (by positivity)
    have e4 : baseFunFl Fmt.single (fin (2 ^ (110 : ℤ))) (clampIndex (by norm_num) (vfin tinyKnots)) 0 0 = fin 0 := by
      rw [baseFunFl, if_neg, zero_eq]
      rintro ⟨-, h⟩
      have : clampIndex (by norm_num) (vfin tinyKnots) (0 + 1) = fin (2 ^ (-20 : ℤ)) := rfl
      rw [this, fin_lt] at h
      norm_num at h
    have hne : ¬ (fin ((2 : ℝ) ^ (-20 : ℤ)) = fin 0 ∧ fin (0 : ℝ) ≠ nan) := by
      rintro ⟨h, -⟩
      rw [fin_inj] at h
      norm_num at h
    rw [splineBasisFl]
    show baseFunFl Fmt.single (fin (2 ^ (110 : ℤ))) (clampIndex (by norm_num) (vfin tinyKnots)) 1 0 = nan
    rw [baseFunFl, e4]
    have t0 : clampIndex (by norm_num) (vfin tinyKnots) 0 = fin 0 := rfl
    have t1 : clampIndex (by norm_num) (vfin tinyKnots) (0 + (0 + 1)) = fin (2 ^ (-20 : ℤ)) := rfl
    rw [if_neg (by rw [t0, t1]; exact hne), t0, t1, e1, e2, e3]
    have e5 : Fmt.single.mul pinf (fin 0) = nan := by
      rw [Fmt.mul, show (pinf : XR) * fin 0 = nan by show infSign 0 = nan; simp [infSign]]
      rfl
    rw [e5, Fmt.add, nan_add]
    rfl
  · obtain ⟨b, h1, -, -, h2⟩ := C73_basis (2 ^ (110 : ℤ)) tinyKnots hmono 1 0
    rw [h1, h2 (by show (2 : ℝ) ^ (-19 : ℤ) ≤ _; norm_num)]
  · fin_cases i
    · exact Fmt.single.rep_zero
    · exact r2
    · exact Fmt.single.rep_two_zpow (by simp [Fmt.single])

/-- Five knots, one of them twice, in single precision. -/
theorem knots_range : SplineRange Fmt.single 1 (![0, 0, 1, 2, 4] : Fin 5 → ℝ) ∧ Monotone (![0, 0, 1, 2, 4] : Fin 5 → ℝ) := by
  have r : ∀ j : ℤ, -126 ≤ j → Fmt.single.Rep (2 ^ j) := fun j hj => Fmt.single.rep_two_zpow (by simp [Fmt.single]; omega)
  have r1 : Fmt.single.Rep 1 := by simpa using r 0 (by norm_num)
  have r2 : Fmt.single.Rep 2 := by simpa using r 1 (by norm_num)
  have r4 : Fmt.single.Rep 4 := by
    have := r 2 (by norm_num)
    norm_num at this
    exact this
  have big : (8 : ℝ) ≤ 2 ^ (Fmt.single.emax - 1) := by
    calc (8 : ℝ) = 2 ^ (3 : ℤ) := by norm_num
      _ ≤ _ := zpow_le_zpow_right₀ (by norm_num) (by simp [Fmt.single])
  have big' : (8 : ℝ) ≤ 2 ^ Fmt.single.emax := big.trans (zpow_le_zpow_right₀ (by norm_num) (by omega))
  have hb : ∀ i : Fin 5, (0 : ℝ) ≤ (![0, 0, 1, 2, 4] : Fin 5 → ℝ) i ∧ (![0, 0, 1, 2, 4] : Fin 5 → ℝ) i ≤ 4 := by
    intro i; fin_cases i <;> norm_num
  have hd : ∀ i j : Fin 5, (![0, 0, 1, 2, 4] : Fin 5 → ℝ) i < (![0, 0, 1, 2, 4] : Fin 5 → ℝ) j →
      (1 : ℝ) ≤ (![0, 0, 1, 2, 4] : Fin 5 → ℝ) j - (![0, 0, 1, 2, 4] : Fin 5 → ℝ) i := by
    intro i j; fin_cases i <;> fin_cases j <;> norm_num
  have hx : ∀ i : Fin 5, |1 - (![0, 0, 1, 2, 4] : Fin 5 → ℝ) i| ≤ 8 := fun i => by
    rw [abs_le]; constructor <;> linarith [(hb i).1, (hb i).2]
  refine ⟨⟨r1, fun i => ?_, fun i => (hx i).trans big', fun i j => ?_, fun i j h => ?_, fun i j h => ?_⟩, ?_⟩
  · fin_cases i
    exacts [Fmt.single.rep_zero, Fmt.single.rep_zero, r1, r2, r4]
  · linarith [(hb i).1, (hb j).2]
  · calc |1 - (![0, 0, 1, 2, 4] : Fin 5 → ℝ) i| ≤ 8 * 1 := by linarith [hx i]
      _ ≤ _ := mul_le_mul big (hd i j h) zero_le_one (by positivity)
  · calc |1 - (![0, 0, 1, 2, 4] : Fin 5 → ℝ) j| ≤ 8 * 1 := by linarith [hx j]
      _ ≤ _ := mul_le_mul big (hd i j h) zero_le_one (by positivity)
  · rw [Fin.monotone_iff_le_succ]
    intro i
    fin_cases i
    · exact le_refl (0 : ℝ)
    · exact zero_le_one
    · exact one_le_two
    · show (2 : ℝ) ≤ 4
      norm_num

example : ∃ b : Fin 3 → ℝ, splineBasisFl Fmt.single (fin 1) (vfin ![0, 0, 1, 2, 4]) 1 = vfin b ∧
    |∑ i, b i - 1| ≤ 2 * (8 * (2 ^ 1 - 1) * 2 ^ (-(24 : ℤ))) := by
  have := C153_partition knots_range.2 knots_range.1 1 (by simp [Fmt.single]) (by norm_num) (by norm_num [Matrix.cons_val]) (by
    show (1 : ℝ) < 2
    norm_num)
  simpa [Fmt.single, one_add_one_eq_two] using this

example (i : Fin 3) : ∃ b B : ℝ, splineBasisFl Fmt.single (fin 1) (vfin ![0, 0, 1, 2, 4]) 1 i = fin b ∧
    splineBasis (fin 1) (vfin ![0, 0, 1, 2, 4]) 1 i = fin B ∧ 0 ≤ b ∧ |b - B| ≤ 8 * (2 ^ 1 - 1) * 2 ^ (-(24 : ℤ)) :=
  let ⟨b, B, h1, h2, h3, _, _, h4⟩ := C153_basis knots_range.2 knots_range.1 1 (by simp [Fmt.single]) i
  ⟨b, B, h1, h2, h3, h4⟩

end Verif
