import Verif.Num.Alg
import Mathlib.Data.Int.Log
import Mathlib.Algebra.Order.Round
import Mathlib.Tactic.GCongr

/-!
# Floating point numbers

The type `XR` computes with exact real numbers. This file adds the rounding of IEEE arithmetic: a binary format, rounding to the
nearest number of the format with ties to even, and the operations of `XR` followed by rounding.  Underflow is gradual; overflow
gives an infinity.  Not modelled: signed zeros, fused operations and flushing of subnormal numbers to zero.
-/

namespace Verif

/-- A binary format: `p` bits, the smallest positive number is `2 ^ emin`, all numbers are smaller than `2 ^ (emax + 1)`. -/
structure Fmt where
  p : ℕ
  emin : ℤ
  emax : ℤ
  hp : 2 ≤ p
  hmin : emin + p ≤ 0
  hmax : 1 ≤ emax

/-- `float32`, the default type of JAX. -/
def Fmt.single : Fmt := ⟨24, -149, 127, by norm_num, by norm_num, by norm_num⟩

/-- `float64`. -/
def Fmt.double : Fmt := ⟨53, -1074, 1023, by norm_num, by norm_num, by norm_num⟩

open Classical in
/-- The nearest integer, the even one of two. -/
noncomputable def rne (x : ℝ) : ℤ :=
  if Int.fract x < 1 / 2 then ⌊x⌋ else if 1 / 2 < Int.fract x then ⌊x⌋ + 1 else if Even ⌊x⌋ then ⌊x⌋ else ⌊x⌋ + 1

theorem rne_err (x : ℝ) : |(rne x : ℝ) - x| ≤ 1 / 2 := by
  have h := Int.floor_add_fract x
  have h0 := Int.fract_nonneg x
  have h1 := Int.fract_lt_one x
  unfold rne
  rw [abs_le]
  split_ifs <;> push_cast <;> constructor <;> linarith

theorem rne_int (n : ℤ) : rne n = n := by
  unfold rne
  rw [if_pos (by simp)]
  simp

theorem rne_nearest (x : ℝ) (n : ℤ) : |(rne x : ℝ) - x| ≤ |(n : ℝ) - x| := by
  by_contra hc
  push Not at hc
  have h := rne_err x
  have h1 : |(rne x : ℝ) - n| < 1 := by
    calc |(rne x : ℝ) - n| = |((rne x : ℝ) - x) - ((n : ℝ) - x)| := by ring_nf
      _ ≤ |(rne x : ℝ) - x| + |(n : ℝ) - x| := abs_sub _ _
      _ < 1 := by linarith
  have h2 : |rne x - n| < 1 := by exact_mod_cast h1
  have h3 : rne x - n = 0 := Int.abs_lt_one_iff.mp h2
  have h4 : rne x = n := by omega
  rw [h4] at hc
  exact lt_irrefl _ hc

theorem rne_eq {x : ℝ} {n : ℤ} (h : |(n : ℝ) - x| < 1 / 2) : rne x = n := by
  have h1 : |(rne x : ℝ) - n| < 1 := by
    calc |(rne x : ℝ) - n| = |((rne x : ℝ) - x) - ((n : ℝ) - x)| := by ring_nf
      _ ≤ |(rne x : ℝ) - x| + |(n : ℝ) - x| := abs_sub _ _
      _ < 1 := by linarith [rne_err x]
  have h2 : |rne x - n| < 1 := by exact_mod_cast h1
  have h3 : rne x - n = 0 := Int.abs_lt_one_iff.mp h2
  omega

theorem rne_neg (x : ℝ) : rne (-x) = -rne x := by
  by_cases hf : Int.fract x = 0
  · have hx : x = (⌊x⌋ : ℝ) := by
      have := Int.floor_add_fract x
      linarith
    rw [hx, show -((⌊x⌋ : ℝ)) = ((-⌊x⌋ : ℤ) : ℝ) by push_cast; rfl, rne_int, rne_int]
  · have h1 : Int.fract (-x) = 1 - Int.fract x := Int.fract_neg hf
    have h2 : ⌊-x⌋ = -⌊x⌋ - 1 := by
      have h3 := Int.floor_add_fract x
      have h4 := Int.floor_add_fract (-x)
      have h5 : (⌊-x⌋ : ℝ) = ((-⌊x⌋ - 1 : ℤ) : ℝ) := by push_cast; linarith
      exact_mod_cast h5
    unfold rne
    rw [h1, h2]
    rcases lt_trichotomy (Int.fract x) (1 / 2) with h | h | h
    · rw [if_neg (by linarith), if_pos (by linarith), if_pos h]; ring
    · rw [h]
      norm_num
      by_cases he : Even ⌊x⌋
      · have h7 : ¬ Odd ⌊x⌋ := by rwa [Int.not_odd_iff_even]
        rw [if_pos he, if_neg h7]
      · have h7 : Odd ⌊x⌋ := by rwa [← Int.not_even_iff_odd]
        rw [if_neg he, if_pos h7]
        ring
    · rw [if_pos (by linarith), if_neg (by linarith), if_pos h]; ring

namespace Fmt

variable (F : Fmt)

/-- The exponent of the spacing of the numbers of the format around `x`. -/
noncomputable def ulpExp (x : ℝ) : ℤ := max (Int.log 2 |x| - (F.p - 1)) F.emin

/-- The spacing of the numbers of the format around `x`. -/
noncomputable def ulp (x : ℝ) : ℝ := (2 : ℝ) ^ F.ulpExp x

/-- Rounding to the nearest number of the format, without upper bound for the exponent. -/
noncomputable def rndR (x : ℝ) : ℝ := rne (x / F.ulp x) * F.ulp x

/-- The numbers of the format, without upper bound for the exponent. -/
def Rep (x : ℝ) : Prop := ∃ m e : ℤ, |m| < 2 ^ F.p ∧ F.emin ≤ e ∧ x = m * (2 : ℝ) ^ e

theorem ulp_pos (x : ℝ) : 0 < F.ulp x := zpow_pos (by norm_num) _

theorem ulp_neg (x : ℝ) : F.ulp (-x) = F.ulp x := by simp [ulp, ulpExp]

theorem rndR_neg (x : ℝ) : F.rndR (-x) = -F.rndR x := by
  rw [rndR, rndR, F.ulp_neg, neg_div, rne_neg]
  push_cast; ring

theorem rndR_zero : F.rndR 0 = 0 := by
  have h : rne 0 = 0 := by simpa using rne_int 0
  simp [rndR, h]

theorem rndR_err (x : ℝ) : |F.rndR x - x| ≤ F.ulp x / 2 := by
  have h := rne_err (x / F.ulp x)
  have hu := F.ulp_pos x
  have e : F.rndR x - x = ((rne (x / F.ulp x) : ℝ) - x / F.ulp x) * F.ulp x := by
    rw [rndR]; field_simp
  rw [e, abs_mul, abs_of_pos hu]
  nlinarith

/-- A multiple of the spacing is at most as close. -/
theorem rndR_nearest_mul (x : ℝ) (n : ℤ) : |F.rndR x - x| ≤ |n * F.ulp x - x| := by
  have h := rne_nearest (x / F.ulp x) n
  have hu := F.ulp_pos x
  have e : F.rndR x - x = ((rne (x / F.ulp x) : ℝ) - x / F.ulp x) * F.ulp x := by
    rw [rndR]; field_simp
  have e' : n * F.ulp x - x = ((n : ℝ) - x / F.ulp x) * F.ulp x := by field_simp
  rw [e, e', abs_mul, abs_mul]
  exact mul_le_mul_of_nonneg_right h (abs_nonneg _)

theorem two_zpow_mul {a b : ℤ} (h : b ≤ a) : ∃ n : ℕ, (2 : ℝ) ^ a = (2 ^ n : ℤ) * (2 : ℝ) ^ b := by
  refine ⟨(a - b).toNat, ?_⟩
  push_cast
  rw [← zpow_natCast, ← zpow_add₀ (by norm_num)]
  congr 1
  omega

theorem log_le {x : ℝ} (hx : x ≠ 0) : (2 : ℝ) ^ Int.log 2 |x| ≤ |x| := by
  exact_mod_cast Int.zpow_log_le_self (b := 2) (by norm_num) (abs_pos.mpr hx)

theorem lt_log {x : ℝ} : |x| < (2 : ℝ) ^ (Int.log 2 |x| + 1) := by
  exact_mod_cast Int.lt_zpow_succ_log_self (b := 2) (by norm_num) |x|

theorem log_eq {x : ℝ} {k : ℤ} (h1 : (2 : ℝ) ^ k ≤ |x|) (h2 : |x| < (2 : ℝ) ^ (k + 1)) : Int.log 2 |x| = k := by
  have hx : x ≠ 0 := by
    rintro rfl
    have : (0 : ℝ) < 2 ^ k := by positivity
    simp at h1; linarith
  have h3 : (2 : ℝ) ^ Int.log 2 |x| < 2 ^ (k + 1) := lt_of_le_of_lt (log_le hx) h2
  have h4 : (2 : ℝ) ^ k < 2 ^ (Int.log 2 |x| + 1) := lt_of_le_of_lt h1 lt_log
  rw [zpow_lt_zpow_iff_right₀ (by norm_num)] at h3 h4
  omega

/-- The result is a nearest number of the format. -/
theorem rndR_nearest (x z : ℝ) (hz : F.Rep z) : |F.rndR x - x| ≤ |z - x| := by
  obtain ⟨m, e, hm, he, rfl⟩ := hz
  by_cases hx : x = 0
  · subst hx
    rw [F.rndR_zero, sub_self, abs_zero]
    exact abs_nonneg _
  by_cases h : F.ulpExp x ≤ e
  · obtain ⟨n, hn⟩ := two_zpow_mul h
    have := F.rndR_nearest_mul x (m * 2 ^ n)
    rw [hn]
    push_cast at this ⊢
    rwa [← mul_assoc]
  · push Not at h
    have hmax : F.ulpExp x = Int.log 2 |x| - (F.p - 1) := by
      unfold ulpExp at h ⊢
      omega
    set k := Int.log 2 |x| with hk
    have hz : |(m : ℝ) * 2 ^ e| ≤ 2 ^ k := by
      rw [abs_mul, abs_of_pos (zpow_pos (by norm_num : (0 : ℝ) < 2) e)]
      have h1 : (|m| : ℝ) ≤ 2 ^ (F.p : ℤ) := by
        rw [zpow_natCast]
        exact_mod_cast hm.le
      calc |(m : ℝ)| * 2 ^ e ≤ 2 ^ (F.p : ℤ) * 2 ^ e := by gcongr
        _ = 2 ^ ((F.p : ℤ) + e) := (zpow_add₀ (by norm_num) _ _).symm
        _ ≤ 2 ^ k := zpow_le_zpow_right₀ (by norm_num) (by omega)
    have hkx : (2 : ℝ) ^ k ≤ |x| := log_le hx
    obtain ⟨n, hn⟩ := two_zpow_mul (show F.ulpExp x ≤ k by have := F.hp; omega)
    have h2 : |F.rndR x - x| ≤ |x| - 2 ^ k := by
      rcases le_total 0 x with h0 | h0
      · have h3 := F.rndR_nearest_mul x (2 ^ n)
        rw [ulp, ← hn] at h3
        rw [abs_of_nonneg h0] at hkx ⊢
        rwa [abs_of_nonpos (a := (2 : ℝ) ^ k - x) (by linarith), neg_sub] at h3
      · have h3 := F.rndR_nearest_mul x (-2 ^ n)
        rw [Int.cast_neg, neg_mul, ulp, ← hn] at h3
        rw [abs_of_nonpos h0] at hkx ⊢
        rwa [abs_of_nonneg (a := -(2 : ℝ) ^ k - x) (by linarith), show -(2 : ℝ) ^ k - x = -x - 2 ^ k by ring] at h3
    have h3 : |x| - |(m : ℝ) * 2 ^ e| ≤ |(m : ℝ) * 2 ^ e - x| := by
      rw [abs_sub_comm]; exact abs_sub_abs_le_abs_sub _ _
    linarith

theorem rndR_rep {x : ℝ} (h : F.Rep x) : F.rndR x = x := by
  have := F.rndR_nearest x x h
  rw [sub_self, abs_zero] at this
  exact sub_eq_zero.mp (abs_nonpos_iff.mp this)

theorem Rep.neg {F : Fmt} {x : ℝ} (h : F.Rep x) : F.Rep (-x) := by
  obtain ⟨m, e, hm, he, rfl⟩ := h
  exact ⟨-m, e, by rwa [abs_neg], he, by push_cast; ring⟩

theorem rep_zero : F.Rep 0 := ⟨0, F.emin, by simp, le_rfl, by simp⟩

theorem rep_two_zpow {k : ℤ} (h : F.emin ≤ k) : F.Rep (2 ^ k) :=
  ⟨1, k, by have := F.hp; rw [abs_one]; exact one_lt_pow₀ (by norm_num) (by omega), h, by simp⟩

theorem Rep.abs {F : Fmt} {x : ℝ} (h : F.Rep x) : F.Rep |x| := by
  rcases abs_choice x with e | e <;> rw [e]
  · exact h
  · exact h.neg

/-- The result is a number of the format. -/
theorem rep_rndR (x : ℝ) : F.Rep (F.rndR x) := by
  set n := rne (x / F.ulp x) with hn
  have hu := F.ulp_pos x
  have he : F.emin ≤ F.ulpExp x := le_max_right _ _
  have hb : |n| ≤ 2 ^ F.p := by
    have h1 : |x| < 2 ^ (F.p : ℤ) * F.ulp x := by
      rw [ulp, ← zpow_add₀ (by norm_num)]
      refine lt_of_lt_of_le lt_log (zpow_le_zpow_right₀ (by norm_num) ?_)
      have : Int.log 2 |x| - (F.p - 1) ≤ F.ulpExp x := le_max_left _ _
      omega
    have h2 : |x / F.ulp x| < 2 ^ F.p := by
      rw [abs_div, abs_of_pos hu, div_lt_iff₀ hu]
      rwa [zpow_natCast] at h1
    have h3 := rne_err (x / F.ulp x)
    rw [← hn] at h3
    have h4 : |(n : ℝ)| < 2 ^ F.p + 1 := by
      calc |(n : ℝ)| = |((n : ℝ) - x / F.ulp x) + x / F.ulp x| := by ring_nf
        _ ≤ _ := abs_add_le _ _
        _ < _ := by linarith
    have h5 : |n| < 2 ^ F.p + 1 := by exact_mod_cast h4
    omega
  rcases hb.lt_or_eq with h | h
  · exact ⟨n, F.ulpExp x, h, he, rfl⟩
  · have h6 : F.Rep |F.rndR x| := by
      rw [rndR, ← hn, abs_mul, abs_of_pos hu, ← Int.cast_abs, h]
      have := F.rep_two_zpow (k := F.p + F.ulpExp x) (by omega)
      rw [zpow_add₀ (by norm_num), zpow_natCast] at this
      simpa [ulp] using this
    rcases abs_choice (F.rndR x) with e | e
    · rwa [e] at h6
    · rw [e] at h6; simpa using h6.neg

theorem rndR_mono {x y : ℝ} (h : x ≤ y) : F.rndR x ≤ F.rndR y := by
  rcases h.eq_or_lt with rfl | h
  · exact le_rfl
  by_contra hc
  push Not at hc
  have h1 := F.rndR_nearest x _ (F.rep_rndR y)
  have h2 := F.rndR_nearest y _ (F.rep_rndR x)
  rcases abs_cases (F.rndR x - x) with h3 | h3 <;> rcases abs_cases (F.rndR y - x) with h4 | h4 <;>
    rcases abs_cases (F.rndR y - y) with h5 | h5 <;> rcases abs_cases (F.rndR x - y) with h6 | h6 <;> linarith

theorem rndR_nonneg {x : ℝ} (h : 0 ≤ x) : 0 ≤ F.rndR x := by
  simpa [F.rndR_zero] using F.rndR_mono h

theorem rndR_nonpos {x : ℝ} (h : x ≤ 0) : F.rndR x ≤ 0 := by
  simpa [F.rndR_zero] using F.rndR_mono h

theorem rndR_le {x z : ℝ} (hz : F.Rep z) (h : x ≤ z) : F.rndR x ≤ z := by
  simpa [F.rndR_rep hz] using F.rndR_mono h

theorem le_rndR {x z : ℝ} (hz : F.Rep z) (h : z ≤ x) : z ≤ F.rndR x := by
  simpa [F.rndR_rep hz] using F.rndR_mono h

theorem rndR_abs (x : ℝ) : F.rndR |x| = |F.rndR x| := by
  rcases le_total 0 x with h | h
  · rw [abs_of_nonneg h, abs_of_nonneg (F.rndR_nonneg h)]
  · rw [abs_of_nonpos h, abs_of_nonpos (F.rndR_nonpos h), rndR_neg]

/-- Rounding with a known exponent. -/
theorem rndR_eq {x : ℝ} {k m : ℤ} (h1 : (2 : ℝ) ^ k ≤ |x|) (h2 : |x| < (2 : ℝ) ^ (k + 1)) (he : F.emin ≤ k - (F.p - 1))
    (hm : |m * (2 : ℝ) ^ (k - (F.p - 1)) - x| < (2 : ℝ) ^ (k - (F.p - 1)) / 2) :
    F.rndR x = m * (2 : ℝ) ^ (k - (F.p - 1)) := by
  have hu : F.ulp x = (2 : ℝ) ^ (k - (F.p - 1 : ℤ)) := by
    rw [ulp, ulpExp, log_eq h1 h2, max_eq_left he]
  have hp := F.ulp_pos x
  rw [← hu] at hm ⊢
  rw [rndR, rne_eq (n := m)]
  rw [show (m : ℝ) - x / F.ulp x = (m * F.ulp x - x) / F.ulp x by field_simp, abs_div, abs_of_pos hp, div_lt_iff₀ hp]
  linarith

/-- The relative error for results in the normal range. -/
theorem rndR_rel {x : ℝ} (h : (2 : ℝ) ^ (F.emin + (F.p - 1)) ≤ |x|) : |F.rndR x - x| ≤ |x| * 2 ^ (-(F.p : ℤ)) := by
  have hx : x ≠ 0 := by
    rintro rfl
    have : (0 : ℝ) < 2 ^ (F.emin + ((F.p : ℤ) - 1)) := by positivity
    simp at h; linarith
  refine (F.rndR_err x).trans ?_
  have h1 : (2 : ℝ) ^ (F.emin + ((F.p : ℤ) - 1)) < 2 ^ (Int.log 2 |x| + 1) := lt_of_le_of_lt h lt_log
  rw [zpow_lt_zpow_iff_right₀ (by norm_num)] at h1
  rw [ulp, ulpExp, max_eq_left (by omega), show Int.log 2 |x| - ((F.p : ℤ) - 1) = Int.log 2 |x| + (-(F.p : ℤ)) + 1 by ring,
    zpow_add₀ (by norm_num), zpow_add₀ (by norm_num), zpow_one]
  have := log_le hx
  have h2 : (0 : ℝ) < 2 ^ (-(F.p : ℤ)) := by positivity
  nlinarith

theorem Rep.mul_emin {F : Fmt} {x : ℝ} (h : F.Rep x) : ∃ n : ℤ, x = n * (2 : ℝ) ^ F.emin := by
  obtain ⟨m, e, -, he, rfl⟩ := h
  obtain ⟨n, hn⟩ := two_zpow_mul he
  exact ⟨m * 2 ^ n, by rw [hn]; push_cast; ring⟩

theorem rep_of_small {x : ℝ} {n : ℤ} (hx : x = n * (2 : ℝ) ^ F.emin) (h : |x| < 2 ^ ((F.p : ℤ) + F.emin)) : F.Rep x := by
  refine ⟨n, F.emin, ?_, le_rfl, hx⟩
  have h0 : (0 : ℝ) < 2 ^ F.emin := by positivity
  rw [hx, abs_mul, abs_of_pos h0, zpow_add₀ (by norm_num), zpow_natCast, mul_lt_mul_iff_left₀ h0] at h
  exact_mod_cast h

/-- A positive number which is not below the normal range has a mantissa of `p` bits. -/
theorem Rep.normal {F : Fmt} {x : ℝ} (h : F.Rep x) (hx : 2 ^ ((F.p : ℤ) - 1 + F.emin) ≤ x) :
    ∃ (m : ℕ) (e : ℤ), 2 ^ (F.p - 1) ≤ m ∧ m < 2 ^ F.p ∧ F.emin ≤ e ∧ x = m * (2 : ℝ) ^ e := by
  have hp := F.hp
  have hx0 : 0 < x := lt_of_lt_of_le (by positivity) hx
  set k := Int.log 2 |x| with hk
  have h1 : (2 : ℝ) ^ k ≤ x := by simpa [hk, abs_of_pos hx0] using log_le hx0.ne'
  have h2 : x < 2 ^ (k + 1) := by simpa [hk, abs_of_pos hx0] using lt_log (x := x)
  have h3 : (F.p : ℤ) - 1 + F.emin ≤ k := by
    have : (2 : ℝ) ^ ((F.p : ℤ) - 1 + F.emin) < 2 ^ (k + 1) := lt_of_le_of_lt hx h2
    rw [zpow_lt_zpow_iff_right₀ (by norm_num)] at this
    omega
  have hu : F.ulp x = 2 ^ (k - ((F.p : ℤ) - 1)) := by
    rw [ulp, ulpExp, max_eq_left (by omega)]
  have hr := F.rndR_rep h
  rw [rndR, hu] at hr
  set n := rne (x / 2 ^ (k - ((F.p : ℤ) - 1))) with hn
  have hP : (0 : ℝ) < 2 ^ (k - ((F.p : ℤ) - 1)) := by positivity
  have e1 : (2 : ℝ) ^ k = (2 ^ (F.p - 1) : ℤ) * 2 ^ (k - ((F.p : ℤ) - 1)) := by
    push_cast
    rw [← zpow_natCast, ← zpow_add₀ (by norm_num)]; congr 1; omega
  have e2 : (2 : ℝ) ^ (k + 1) = (2 ^ F.p : ℤ) * 2 ^ (k - ((F.p : ℤ) - 1)) := by
    push_cast
    rw [← zpow_natCast, ← zpow_add₀ (by norm_num)]; congr 1; omega
  rw [← hr, e1, mul_le_mul_iff_left₀ hP] at h1
  rw [← hr, e2, mul_lt_mul_iff_left₀ hP] at h2
  have h1' : (2 : ℤ) ^ (F.p - 1) ≤ n := by exact_mod_cast h1
  have h2' : n < (2 : ℤ) ^ F.p := by exact_mod_cast h2
  have hn0 : 0 ≤ n := le_trans (by positivity) h1'
  refine ⟨n.toNat, k - ((F.p : ℤ) - 1), ?_, ?_, by omega, ?_⟩
  · zify; rw [Int.toNat_of_nonneg hn0]; exact h1'
  · zify; rw [Int.toNat_of_nonneg hn0]; exact h2'
  · rw [← hr]
    congr 1
    have : ((n.toNat : ℤ) : ℝ) = (n : ℝ) := by rw [Int.toNat_of_nonneg hn0]
    exact_mod_cast this.symm

open Classical in
/-- The rounded result of an operation: results which are too large become infinite. -/
noncomputable def rnd : XR → XR
  | .fin x => if |F.rndR x| < 2 ^ (F.emax + 1) then .fin (F.rndR x) else XR.infSign x
  | x => x

/-- Addition, subtraction, multiplication, division and square root with rounding. -/
noncomputable def add (a b : XR) : XR := F.rnd (a + b)
noncomputable def sub (a b : XR) : XR := F.rnd (a - b)
noncomputable def mul (a b : XR) : XR := F.rnd (a * b)
noncomputable def div (a b : XR) : XR := F.rnd (a / b)
noncomputable def sqrt (a : XR) : XR := F.rnd (XR.sqrt a)

/-- A Python number which meets an array. -/
noncomputable def const (c : ℝ) : XR := F.rnd (.fin c)

theorem emin_le : F.emin ≤ F.emax := by have := F.hmin; have := F.hmax; omega

theorem rnd_fin {x : ℝ} (h : |x| ≤ 2 ^ F.emax) : F.rnd (.fin x) = .fin (F.rndR x) := by
  have h1 : |F.rndR x| ≤ 2 ^ F.emax := by
    rw [← F.rndR_abs]
    exact F.rndR_le (F.rep_two_zpow F.emin_le) h
  have h2 : (2 : ℝ) ^ F.emax < 2 ^ (F.emax + 1) := zpow_lt_zpow_right₀ (by norm_num) (by omega)
  rw [rnd, if_pos (lt_of_le_of_lt h1 h2)]

theorem rnd_rep {x : ℝ} (hx : F.Rep x) (h : |x| < 2 ^ (F.emax + 1)) : F.rnd (.fin x) = .fin x := by
  rw [rnd, F.rndR_rep hx, if_pos h]

/-- The square root of a rounded square is exact. -/
theorem sqrt_sq {a : ℝ} (ha : F.Rep a) {k : ℤ} (hk : F.emin + (F.p - 1) ≤ 2 * k) (hka : (2 : ℝ) ^ k ≤ |a|) :
    F.rndR (Real.sqrt (F.rndR (a ^ 2))) = |a| := by
  wlog h0 : 0 ≤ a generalizing a
  · have := this ha.neg (by rwa [abs_neg]) (by linarith)
    simpa using this
  rw [abs_of_nonneg h0] at hka ⊢
  have hp := F.hp
  have ha0 : 0 < a := lt_of_lt_of_le (by positivity) hka
  set j := Int.log 2 |a| with hj
  have hj1 : (2 : ℝ) ^ j ≤ a := by simpa [hj, abs_of_pos ha0] using log_le ha0.ne'
  have hj2 : a < 2 ^ (j + 1) := by simpa [hj, abs_of_pos ha0] using lt_log (x := a)
  have hjk : k ≤ j := by
    have : (2 : ℝ) ^ k < 2 ^ (j + 1) := lt_of_le_of_lt hka hj2
    rw [zpow_lt_zpow_iff_right₀ (by norm_num)] at this
    omega
  have hmin := F.hmin
  obtain ⟨n, hn⟩ : ∃ n : ℤ, a = n * (2 : ℝ) ^ (j - ((F.p : ℤ) - 1)) := by
    have hr := F.rndR_rep ha
    rw [rndR, ulp, ulpExp, max_eq_left (by omega)] at hr
    exact ⟨_, hr.symm⟩
  set r := F.rndR (a ^ 2) with hr
  have hr1 : (2 : ℝ) ^ (2 * j) ≤ r := by
    refine F.le_rndR (F.rep_two_zpow (by omega)) ?_
    calc (2 : ℝ) ^ (2 * j) = (2 ^ j) ^ 2 := by rw [two_mul, zpow_add₀ (by norm_num), sq]
      _ ≤ a ^ 2 := by gcongr
  have hs1 : (2 : ℝ) ^ j ≤ Real.sqrt r := by
    apply Real.le_sqrt_of_sq_le
    rwa [← zpow_natCast, ← zpow_mul, mul_comm]
  have hs0 : 0 ≤ r := le_trans (by positivity) hr1
  have hss : Real.sqrt r ^ 2 = r := Real.sq_sqrt hs0
  have herr := F.rndR_err (a ^ 2)
  rw [← hr] at herr
  have hU : (0 : ℝ) < 2 ^ (j - (F.p : ℤ)) := by positivity
  have e0 : (2 : ℝ) ^ (j - ((F.p : ℤ) - 1)) = 2 * 2 ^ (j - (F.p : ℤ)) := by
    rw [show j - ((F.p : ℤ) - 1) = j - (F.p : ℤ) + 1 by ring, zpow_add_one₀ (by norm_num), mul_comm]
  have hj0 : (0 : ℝ) < 2 ^ j := by positivity
  have hclose : |a - Real.sqrt r| < 2 ^ (j - (F.p : ℤ)) := by
    have hprod : |a - Real.sqrt r| * (a + Real.sqrt r) = |r - a ^ 2| := by
      rw [← abs_of_pos (show 0 < a + Real.sqrt r by linarith), ← abs_mul, abs_sub_comm r]
      congr 1
      nlinarith
    by_cases hc : a ^ 2 < 2 ^ (2 * j + 1)
    · have hl : Int.log 2 |a ^ 2| = 2 * j := by
        refine log_eq ?_ ?_
        · rw [abs_of_nonneg (by positivity)]
          calc (2 : ℝ) ^ (2 * j) = (2 ^ j) ^ 2 := by rw [two_mul, zpow_add₀ (by norm_num), sq]
            _ ≤ a ^ 2 := by gcongr
        · rwa [abs_of_nonneg (by positivity)]
      have hu : F.ulp (a ^ 2) = 2 * (2 ^ j * 2 ^ (j - (F.p : ℤ))) := by
        rw [ulp, ulpExp, hl, max_eq_left (by omega), ← zpow_add₀ (by norm_num),
          show 2 * j - ((F.p : ℤ) - 1) = (j + (j - (F.p : ℤ))) + 1 by ring, zpow_add_one₀ (by norm_num), mul_comm]
      rw [hu] at herr
      by_contra hcon
      push Not at hcon
      have h5 : 2 ^ (j - (F.p : ℤ)) * (2 * 2 ^ j) ≤ |a - Real.sqrt r| * (a + Real.sqrt r) := by
        gcongr; linarith
      nlinarith [mul_pos hU hj0]
    · push Not at hc
      have hl : Int.log 2 |a ^ 2| = 2 * j + 1 := by
        refine log_eq ?_ ?_
        · rwa [abs_of_nonneg (by positivity)]
        · rw [abs_of_nonneg (by positivity)]
          calc a ^ 2 < (2 ^ (j + 1)) ^ 2 := by gcongr
            _ = (2 : ℝ) ^ (2 * j + 1 + 1) := by rw [← zpow_natCast, ← zpow_mul]; congr 1; push_cast; ring
      have hu : F.ulp (a ^ 2) = 4 * (2 ^ j * 2 ^ (j - (F.p : ℤ))) := by
        rw [ulp, ulpExp, hl, max_eq_left (by omega), ← zpow_add₀ (by norm_num),
          show 2 * j + 1 - ((F.p : ℤ) - 1) = (j + (j - (F.p : ℤ))) + 2 by ring, zpow_add₀ (by norm_num)]
        norm_num
        ring
      rw [hu] at herr
      have e3 : (2 : ℝ) ^ (2 * j + 1) = 2 * (2 ^ j) ^ 2 := by
        rw [zpow_add_one₀ (by norm_num), two_mul, zpow_add₀ (by norm_num)]; ring
      have ha5 : 7 / 5 * (2 : ℝ) ^ j < a := by
        rw [e3] at hc
        nlinarith
      by_contra hcon
      push Not at hcon
      have h5 : 2 ^ (j - (F.p : ℤ)) * (7 / 5 * 2 ^ j + 2 ^ j) ≤ |a - Real.sqrt r| * (a + Real.sqrt r) := by
        gcongr
      nlinarith [mul_pos hU hj0]
  have hs2 : Real.sqrt r < 2 ^ (j + 1) := by
    have hnn : (n : ℝ) < 2 ^ (F.p : ℤ) := by
      have : (2 : ℝ) ^ (j + 1) = 2 ^ (F.p : ℤ) * 2 ^ (j - ((F.p : ℤ) - 1)) := by
        rw [← zpow_add₀ (by norm_num)]; congr 1; ring
      rw [hn, this, mul_lt_mul_iff_left₀ (by positivity)] at hj2
      exact hj2
    have hnn' : (n : ℝ) ≤ 2 ^ (F.p : ℤ) - 1 := by
      rw [zpow_natCast] at hnn ⊢
      have h6 : n < (2 : ℤ) ^ F.p := by exact_mod_cast hnn
      have h7 : n ≤ (2 : ℤ) ^ F.p - 1 := by omega
      exact_mod_cast h7
    have h8 : a ≤ 2 ^ (j + 1) - 2 * 2 ^ (j - (F.p : ℤ)) := by
      calc a = n * (2 : ℝ) ^ (j - ((F.p : ℤ) - 1)) := hn
        _ ≤ (2 ^ (F.p : ℤ) - 1) * (2 : ℝ) ^ (j - ((F.p : ℤ) - 1)) := by gcongr
        _ = 2 ^ (j + 1) - 2 ^ (j - ((F.p : ℤ) - 1)) := by
          rw [sub_mul, ← zpow_add₀ (by norm_num), one_mul]; congr 2; ring
        _ = _ := by rw [e0]
    have := (abs_lt.mp hclose).1
    linarith
  have hs3 : 0 ≤ Real.sqrt r := Real.sqrt_nonneg _
  have := F.rndR_eq (x := Real.sqrt r) (k := j) (m := n) (by rwa [abs_of_nonneg hs3]) (by rwa [abs_of_nonneg hs3]) (by omega)
    (by rw [← hn, e0]; linarith)
  rw [this, ← hn]

/-- Rounding with a known exponent, in general. -/
theorem rndR_val {x : ℝ} {k : ℤ} (h1 : (2 : ℝ) ^ k ≤ |x|) (h2 : |x| < (2 : ℝ) ^ (k + 1)) (he : F.emin ≤ k - (F.p - 1)) :
    F.rndR x = rne (x / (2 : ℝ) ^ (k - ((F.p : ℤ) - 1))) * (2 : ℝ) ^ (k - ((F.p : ℤ) - 1)) := by
  have hu : F.ulp x = (2 : ℝ) ^ (k - (F.p - 1 : ℤ)) := by
    rw [ulp, ulpExp, log_eq h1 h2, max_eq_left he]
  rw [rndR, hu]

/-- Sums of numbers of the format have a small relative error, also below the normal range. -/
theorem rndR_add {x y : ℝ} (hx : F.Rep x) (hy : F.Rep y) : |F.rndR (x + y) - (x + y)| ≤ |x + y| * 2 ^ (-(F.p : ℤ)) := by
  by_cases h : (2 : ℝ) ^ (F.emin + ((F.p : ℤ) - 1)) ≤ |x + y|
  · exact F.rndR_rel h
  · push Not at h
    obtain ⟨n, hn⟩ := hx.mul_emin
    obtain ⟨m, hm⟩ := hy.mul_emin
    have h1 : F.Rep (x + y) := F.rep_of_small (n := n + m) (by rw [hn, hm]; push_cast; ring)
      (h.trans (zpow_lt_zpow_right₀ (by norm_num) (by omega)))
    rw [F.rndR_rep h1, sub_self, abs_zero]
    positivity

end Fmt

/-- Ties are rounded to the even neighbour. -/
theorem rne_half {n : ℤ} (h : Even n) : rne (n + 1 / 2) = n := by
  have h1 : ⌊(n : ℝ) + 1 / 2⌋ = n := by
    rw [Int.floor_eq_iff]; constructor <;> linarith
  have h2 : Int.fract ((n : ℝ) + 1 / 2) = 1 / 2 := by
    rw [Int.fract, h1]; ring
  rw [rne, h1, h2, if_neg (lt_irrefl _), if_neg (lt_irrefl _), if_pos h]

end Verif
