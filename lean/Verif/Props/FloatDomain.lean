import Verif.Props.FloatR

/-! # C139: samples of a box in floating point arithmetic -/

namespace Verif

open XR

section
variable (F : Fmt)

/-- The largest number of the format below one. -/
theorem rep_lt_one {x : ℝ} (hx : F.Rep x) (h1 : x < 1) : x ≤ 1 - 2 ^ (-(F.p : ℤ)) := by
  have hp := F.hp
  have hmin := F.hmin
  by_cases h : x < 1 / 2
  · have : (2 : ℝ) ^ (-(F.p : ℤ)) ≤ 2 ^ (-1 : ℤ) := zpow_le_zpow_right₀ (by norm_num) (by omega)
    norm_num at this
    norm_num at h ⊢
    linarith
  · push Not at h
    obtain ⟨m, e, hm1, hm2, -, hme⟩ := hx.normal (le_trans (by
      calc (2 : ℝ) ^ ((F.p : ℤ) - 1 + F.emin) ≤ 2 ^ (-1 : ℤ) := zpow_le_zpow_right₀ (by norm_num) (by omega)
        _ = 1 / 2 := by norm_num) h)
    have he : e ≤ -(F.p : ℤ) := by
      have h2 : (2 : ℝ) ^ ((F.p : ℤ) - 1 + e) < 2 ^ (0 : ℤ) := by
        rw [zpow_zero]
        refine lt_of_le_of_lt ?_ h1
        rw [hme, zpow_add₀ (by norm_num)]
        gcongr
        have : ((2 ^ (F.p - 1) : ℕ) : ℝ) ≤ m := by exact_mod_cast hm1
        refine le_trans (le_of_eq ?_) this
        rw [Nat.cast_pow, ← zpow_natCast]
        congr 1
        omega
      rw [zpow_lt_zpow_iff_right₀ (by norm_num)] at h2
      omega
    have hm3 : (m : ℝ) + 1 ≤ 2 ^ (F.p : ℤ) := by
      rw [zpow_natCast]; exact_mod_cast hm2
    calc x = m * (2 : ℝ) ^ e := hme
      _ ≤ m * 2 ^ (-(F.p : ℤ)) := by gcongr; norm_num
      _ ≤ (2 ^ (F.p : ℤ) - 1) * 2 ^ (-(F.p : ℤ)) := by gcongr; linarith
      _ = 1 - 2 ^ (-(F.p : ℤ)) := by
        rw [sub_mul, ← zpow_add₀ (by norm_num)]; simp

/-- A width that was rounded up is not reached by the scaled coordinate. -/
theorem scale_lt {w x : ℝ} {n : ℤ} (hw : w = n * 2 ^ F.emin) (hw0 : 0 ≤ w) (hlt : w < F.rndR w) (hx : F.Rep x) (_h0 : 0 ≤ x)
    (h1 : x < 1) : F.rndR (x * F.rndR w) < F.rndR w := by
  have hp := F.hp
  have hrep : F.Rep (F.rndR w) := F.rep_rndR w
  have hbig : (2 : ℝ) ^ ((F.p : ℤ) + F.emin) ≤ w := by
    by_contra h
    push Not at h
    have := F.rndR_rep (F.rep_of_small hw (by rwa [abs_of_nonneg hw0]))
    linarith
  have hbig' : (2 : ℝ) ^ ((F.p : ℤ) + F.emin) ≤ F.rndR w := hbig.trans hlt.le
  obtain ⟨m, e, hm1, hm2, -, hme⟩ := hrep.normal (le_trans (zpow_le_zpow_right₀ (by norm_num) (by omega)) hbig')
  set w' := F.rndR w with hw'
  have hm2' : (m : ℝ) < 2 ^ (F.p : ℤ) := by rw [zpow_natCast]; exact_mod_cast hm2
  have he : F.emin < e := by
    have h2 : (2 : ℝ) ^ ((F.p : ℤ) + F.emin) < 2 ^ ((F.p : ℤ) + e) := by
      refine lt_of_le_of_lt hbig' ?_
      rw [hme, zpow_add₀ (by norm_num)]
      gcongr
    rw [zpow_lt_zpow_iff_right₀ (by norm_num)] at h2
    omega
  have hw'0 : 0 < w' := lt_of_le_of_lt hw0 hlt
  have hE : (0 : ℝ) < 2 ^ e := by positivity
  have hxw : x * w' ≤ w' - 2 ^ (-(F.p : ℤ)) * m * 2 ^ e := by
    have := mul_le_mul_of_nonneg_right (rep_lt_one F hx h1) hw'0.le
    rw [sub_mul, one_mul] at this
    calc x * w' ≤ _ := this
      _ = _ := by rw [mul_assoc, ← hme]
  have hhalf : (2 : ℝ) ^ (-(F.p : ℤ)) * 2 ^ (F.p - 1) = 1 / 2 := by
    rw [← zpow_natCast, ← zpow_add₀ (by norm_num), show -(F.p : ℤ) + ((F.p - 1 : ℕ) : ℤ) = -1 by omega]; norm_num
  rcases Nat.eq_or_lt_of_le hm1 with hm | hm
  · have e1 : (2 : ℝ) ^ (-(F.p : ℤ)) * m * 2 ^ e = 2 ^ (e - 1) := by
      rw [← hm, Nat.cast_pow, Nat.cast_two, hhalf, zpow_sub_one₀ (by norm_num)]; ring
    have e2 : w' - 2 ^ (e - 1) = ((2 ^ F.p - 1 : ℤ) : ℝ) * 2 ^ (e - 1) := by
      rw [hme, ← hm]
      have : (2 : ℝ) ^ e = 2 * 2 ^ (e - 1) := by rw [zpow_sub_one₀ (by norm_num)]; ring
      rw [this]
      push_cast
      obtain ⟨q, hq⟩ : ∃ q, F.p = q + 1 := ⟨F.p - 1, by omega⟩
      rw [hq]
      simp only [Nat.add_sub_cancel, pow_succ]
      ring
    have hy : F.Rep (w' - 2 ^ (e - 1)) := ⟨2 ^ F.p - 1, e - 1, by
      rw [abs_of_nonneg (by have : (1 : ℤ) ≤ 2 ^ F.p := one_le_pow₀ (by norm_num); linarith)]; linarith, by omega, e2⟩
    have := F.rndR_le hy (hxw.trans (by rw [e1]))
    have h3 : (0 : ℝ) < 2 ^ (e - 1) := by positivity
    linarith
  · have hy : F.Rep (w' - 2 ^ e) := ⟨(m : ℤ) - 1, e, by
      have : (1 : ℤ) ≤ m := by
        have := Nat.one_le_two_pow (n := F.p - 1)
        omega
      rw [abs_of_nonneg (by linarith)]
      have : (m : ℤ) < 2 ^ F.p := by exact_mod_cast hm2
      linarith, he.le, by rw [hme]; push_cast; ring⟩
    have hgap : 1 / 2 * (2 : ℝ) ^ e < 2 ^ (-(F.p : ℤ)) * m * 2 ^ e := by
      gcongr
      rw [← hhalf]
      gcongr
      exact_mod_cast hm
    by_cases h2 : x * w' ≤ w' - 2 ^ e
    · have := F.rndR_le hy h2
      linarith
    · push Not at h2
      have h3 := F.rndR_nearest (x * w') _ hy
      rw [abs_of_neg (by linarith : w' - 2 ^ e - x * w' < 0)] at h3
      have h4 := (abs_le.mp h3).2
      linarith

/-- The scaled coordinate does not exceed the exact width. -/
theorem scale_le {lb ub x : ℝ} (hl : F.Rep lb) (hu : F.Rep ub) (h : lb ≤ ub) (hx : F.Rep x) (h0 : 0 ≤ x) (h1 : x < 1) :
    F.rndR (x * F.rndR (ub - lb)) ≤ ub - lb := by
  have hw0 : 0 ≤ ub - lb := by linarith
  have hr0 := F.rndR_nonneg hw0
  by_cases hlt : ub - lb < F.rndR (ub - lb)
  · obtain ⟨n, hn⟩ := hu.mul_emin
    obtain ⟨m, hm⟩ := hl.mul_emin
    have h2 := scale_lt F (w := ub - lb) (n := n - m) (by rw [hn, hm]; push_cast; ring) hw0 hlt hx h0 h1
    by_contra h3
    push Not at h3
    have h4 := F.rndR_nearest (ub - lb) _ (F.rep_rndR (x * F.rndR (ub - lb)))
    rw [abs_of_pos (by linarith), abs_of_pos (by linarith)] at h4
    linarith
  · push Not at hlt
    refine (F.rndR_le (F.rep_rndR _) ?_).trans hlt
    nlinarith

/-- The fractional part of a number of the format is a number of the format. -/
theorem rep_fract {x : ℝ} (hx : F.Rep x) (h0 : 0 ≤ x) : F.Rep (Int.fract x) := by
  obtain ⟨m, e, hm, he, rfl⟩ := hx
  have hE : (0 : ℝ) < 2 ^ e := by positivity
  have hm0 : 0 ≤ m := by
    by_contra h
    push Not at h
    have : (m : ℝ) < 0 := by exact_mod_cast h
    nlinarith
  rcases le_or_gt 0 e with h | h
  · obtain ⟨k, rfl⟩ := Int.eq_ofNat_of_zero_le h
    have : (m : ℝ) * 2 ^ ((k : ℕ) : ℤ) = ((m * 2 ^ k : ℤ) : ℝ) := by push_cast; rw [zpow_natCast]
    rw [this, Int.fract_intCast]
    exact F.rep_zero
  · obtain ⟨k, hk⟩ : ∃ k : ℕ, e = -(k : ℤ) := ⟨(-e).toNat, by omega⟩
    subst hk
    have hfl : ⌊(m : ℝ) * 2 ^ (-(k : ℤ))⌋ = m / 2 ^ k := by
      have : (m : ℝ) * 2 ^ (-(k : ℤ)) = (m : ℝ) / ((2 ^ k : ℕ) : ℝ) := by
        rw [zpow_neg, zpow_natCast, Nat.cast_pow, Nat.cast_two]; rfl
      rw [this, Int.floor_div_natCast, Int.floor_intCast]
      push_cast
      rfl
    refine ⟨m % 2 ^ k, -(k : ℤ), ?_, he, ?_⟩
    · have h2 : (0 : ℤ) ≤ m % 2 ^ k := Int.emod_nonneg _ (by positivity)
      rw [abs_of_nonneg h2]
      rw [abs_of_nonneg hm0] at hm
      refine lt_of_le_of_lt ?_ hm
      have := Int.mul_ediv_add_emod m (2 ^ k)
      have h3 : 0 ≤ 2 ^ k * (m / 2 ^ k) := mul_nonneg (by positivity) (Int.ediv_nonneg hm0 (by positivity))
      linarith
    · rw [Int.fract, hfl, Int.emod_def]
      push_cast
      have : (2 : ℝ) ^ k * 2 ^ (-(k : ℤ)) = 1 := by
        rw [zpow_neg, zpow_natCast, mul_inv_cancel₀ (by positivity)]
      linear_combination (((m / 2 ^ k : ℤ) : ℝ)) * this

/-- The computation without overflow. -/
theorem hypercubeFl_eq {lb ub t : ℝ} (h : lb ≤ ub) (hl2 : |lb| ≤ 2 ^ (F.emax - 1))
    (hu2 : |ub| ≤ 2 ^ (F.emax - 1)) (h0 : 0 ≤ t) (h1 : t ≤ 1) :
    F.add (F.mul (fin t) (F.sub (fin ub) (fin lb))) (fin lb) = fin (F.rndR (F.rndR (t * F.rndR (ub - lb)) + lb)) := by
  have hmax := F.hmax
  have hmin := F.hmin
  have e2 : (2 : ℝ) ^ F.emax = 2 * 2 ^ (F.emax - 1) := by rw [zpow_sub_one₀ (by norm_num)]; ring
  rw [abs_le] at hl2 hu2
  have hP : F.Rep (2 ^ F.emax) := F.rep_two_zpow F.emin_le
  have hw0 : 0 ≤ ub - lb := by linarith
  have hw1 : F.rndR (ub - lb) ≤ 2 ^ F.emax := F.rndR_le hP (by linarith)
  have hr0 := F.rndR_nonneg hw0
  have hs : F.sub (fin ub) (fin lb) = fin (F.rndR (ub - lb)) := by
    rw [Fmt.sub, fin_sub, F.rnd_fin (by rw [abs_of_nonneg hw0]; linarith)]
  have ht0 : 0 ≤ t * F.rndR (ub - lb) := mul_nonneg h0 hr0
  have ht1 : t * F.rndR (ub - lb) ≤ F.rndR (ub - lb) := mul_le_of_le_one_left hr0 h1
  have hz0 := F.rndR_nonneg ht0
  have hz1 : F.rndR (t * F.rndR (ub - lb)) ≤ F.rndR (ub - lb) := F.rndR_le (F.rep_rndR _) ht1
  rw [hs, Fmt.mul, fin_mul, F.rnd_fin (by rw [abs_of_nonneg ht0]; linarith), Fmt.add, fin_add, F.rnd_fin]
  rw [abs_le]
  constructor
  · linarith [show (0 : ℝ) ≤ 2 ^ (F.emax - 1) by positivity]
  · rcases le_or_gt lb 0 with hlb | hlb
    · linarith
    · have : F.rndR (ub - lb) ≤ 2 ^ (F.emax - 1) :=
        F.rndR_le (F.rep_two_zpow (by omega)) (by linarith)
      linarith

/-- Wrapping of a number above one. -/
theorem mod1_of_nonneg {x : ℝ} (h : 0 ≤ x) : F.mod1 (fin x) = fin (Int.fract x) := by
  have : ¬ Int.fract x < 0 := not_lt.mpr (Int.fract_nonneg x)
  simp [Fmt.mod1, h, this]

/-- Samples of a box lie in the box, in spite of rounding: every coordinate in `[0, 1)`, and every coordinate above one, which is
wrapped, is mapped into `[lb, ub]`. -/
theorem C139_in_box {lb ub x : ℝ} (hl : F.Rep lb) (hu : F.Rep ub) (h : lb ≤ ub) (hl2 : |lb| ≤ 2 ^ (F.emax - 1))
    (hu2 : |ub| ≤ 2 ^ (F.emax - 1)) (hx : F.Rep x) (h0 : 0 ≤ x) (h1 : x ≠ 1) :
    ∃ y : ℝ, transformHypercubeFl F (fin x) (fin lb) (fin ub) = fin y ∧ F.Rep y ∧ lb ≤ y ∧ y ≤ ub := by
  obtain ⟨t, ht, ht0, ht1, htx⟩ : ∃ t : ℝ, F.Rep t ∧ 0 ≤ t ∧ t < 1 ∧
      transformHypercubeFl F (fin x) (fin lb) (fin ub) = F.add (F.mul (fin t) (F.sub (fin ub) (fin lb))) (fin lb) := by
    by_cases hx1 : 1 < x
    · refine ⟨Int.fract x, rep_fract F hx h0, Int.fract_nonneg x, Int.fract_lt_one x, ?_⟩
      rw [transformHypercubeFl, if_pos (by rw [one_eq]; exact (fin_lt _ _).mpr hx1), mod1_of_nonneg F h0]
    · refine ⟨x, hx, h0, lt_of_le_of_ne (not_lt.mp hx1) h1, ?_⟩
      rw [transformHypercubeFl, if_neg (by rw [one_eq]; exact fun h => hx1 ((fin_lt _ _).mp h))]
  refine ⟨_, htx.trans (hypercubeFl_eq F h hl2 hu2 ht0 ht1.le), F.rep_rndR _, ?_, ?_⟩
  · refine F.le_rndR hl ?_
    have := F.rndR_nonneg (mul_nonneg ht0 (F.rndR_nonneg (by linarith : 0 ≤ ub - lb)))
    linarith
  · refine F.rndR_le hu ?_
    have := scale_le F hl hu h ht ht0 ht1
    linarith

/-- The coordinate one is mapped to `ub` if `lb` is zero. -/
theorem C139_end {ub : ℝ} (hu : F.Rep ub) (h : 0 ≤ ub) (hu2 : |ub| ≤ 2 ^ (F.emax - 1)) :
    transformHypercubeFl F 1 0 (fin ub) = fin ub := by
  rw [transformHypercubeFl, if_neg (by rw [one_eq]; exact fun h => absurd ((fin_lt _ _).mp h) (lt_irrefl _)), one_eq, zero_eq,
    hypercubeFl_eq F h (by rw [abs_zero]; positivity) hu2 zero_le_one le_rfl]
  rw [sub_zero, one_mul, add_zero, F.rndR_rep hu, F.rndR_rep hu, F.rndR_rep hu]

example : transformHypercubeFl Fmt.single 1 0 (fin 3) = fin 3 :=
  C139_end (F := Fmt.single) ⟨3, 0, by norm_num [Fmt.single], by decide, by norm_num⟩ (by norm_num)
    (by rw [abs_of_pos (by norm_num)]; exact le_trans (by norm_num : (3 : ℝ) ≤ 2 ^ (2 : ℤ)) (zpow_le_zpow_right₀ (by norm_num) (by decide)))

/-- The coordinate zero is mapped to `lb`. -/
theorem C139_start {lb ub : ℝ} (hl : F.Rep lb) (h : lb ≤ ub) (hl2 : |lb| ≤ 2 ^ (F.emax - 1))
    (hu2 : |ub| ≤ 2 ^ (F.emax - 1)) : transformHypercubeFl F 0 (fin lb) (fin ub) = fin lb := by
  rw [transformHypercubeFl, if_neg (by rw [one_eq, zero_eq]; exact fun h => absurd ((fin_lt _ _).mp h) (by norm_num)), zero_eq,
    hypercubeFl_eq F h hl2 hu2 le_rfl zero_le_one]
  rw [zero_mul, F.rndR_zero, zero_add, F.rndR_rep hl]

end

/-- The midpoint of an interval in single precision. -/
example : ∃ y : ℝ, transformHypercubeFl Fmt.single (fin (1 / 2)) (fin (-1)) (fin 3) = fin y ∧ -1 ≤ y ∧ y ≤ 3 := by
  obtain ⟨y, h1, -, h2, h3⟩ := C139_in_box Fmt.single (lb := -1) (ub := 3) (x := 1 / 2)
    ⟨-1, 0, by norm_num [Fmt.single], by decide, by norm_num⟩ ⟨3, 0, by norm_num [Fmt.single], by decide, by norm_num⟩
    (by norm_num)
    (by rw [abs_neg, abs_one]; exact one_le_zpow₀ (by norm_num) (by decide))
    (by rw [abs_of_pos (by norm_num)]; exact le_trans (by norm_num : (3 : ℝ) ≤ 2 ^ (2 : ℤ)) (zpow_le_zpow_right₀ (by norm_num) (by decide)))
    ⟨1, -1, by norm_num [Fmt.single], by decide, by norm_num⟩ (by norm_num) (by norm_num)
  exact ⟨y, h1, h2, h3⟩

/-- The coordinate one may be mapped outside: in single precision with `lb = -1` and `ub = 3 · 2⁻²⁵` the result is `4 · 2⁻²⁵`. -/
theorem C139_outside : transformHypercubeFl Fmt.single 1 (fin (-1)) (fin (3 * 2 ^ (-25 : ℤ))) = fin (4 * 2 ^ (-25 : ℤ)) := by
  rw [transformHypercubeFl, if_neg (by rw [one_eq]; exact fun h => absurd ((fin_lt _ _).mp h) (lt_irrefl _)), one_eq,
    hypercubeFl_eq Fmt.single (by norm_num)
    (by rw [abs_neg, abs_one]; exact one_le_zpow₀ (by norm_num) (by decide))
    (le_trans (by norm_num [abs_of_pos] : _ ≤ (1 : ℝ)) (one_le_zpow₀ (by norm_num) (by decide))) zero_le_one le_rfl]
  have h1 : Fmt.single.rndR (3 * 2 ^ (-25 : ℤ) - -1) = 1 + 2 ^ (-23 : ℤ) := by
    rw [Fmt.single.rndR_eq (k := 0) (m := 2 ^ 23 + 1) (by norm_num [abs_of_pos]) (by norm_num [abs_of_pos]) (by decide) (by
      simp only [Fmt.single]; norm_num [abs_lt])]
    simp only [Fmt.single]; norm_num
  have h2 : Fmt.single.Rep (1 + 2 ^ (-23 : ℤ)) := ⟨2 ^ 23 + 1, -23, by norm_num [Fmt.single], by decide, by norm_num⟩
  have h3 : Fmt.single.Rep (2 ^ (-23 : ℤ)) := Fmt.single.rep_two_zpow (by decide)
  rw [h1, one_mul, Fmt.single.rndR_rep h2, add_comm (1 : ℝ), add_neg_cancel_right, Fmt.single.rndR_rep h3]
  norm_num

/-- The wrapping `x % 1.0` gives numbers below one for nonnegative numbers only: small negative numbers give one. -/
theorem C139_wrap (F : Fmt) {x : ℝ} (hx : F.Rep x) :
    (0 ≤ x → ∃ r : ℝ, F.mod1 (fin x) = fin r ∧ F.Rep r ∧ 0 ≤ r ∧ r < 1 ∧ ∃ n : ℤ, x - r = n) ∧
    (x < 0 → ∃ r : ℝ, F.mod1 (fin x) = fin r ∧ F.Rep r ∧ 0 ≤ r ∧ r ≤ 1) := by
  constructor
  · intro h
    exact ⟨_, mod1_of_nonneg F h, rep_fract F hx h, Int.fract_nonneg x, Int.fract_lt_one x, ⌊x⌋, by rw [Int.fract]; ring⟩
  · intro h
    have h1 : ¬ 0 ≤ x := not_le.mpr h
    have hone : F.Rep 1 := by simpa using F.rep_two_zpow (k := 0) (by have := F.hmin; omega)
    by_cases h2 : 0 < Int.fract (-x)
    · have h3 := Int.fract_lt_one (-x)
      refine ⟨F.rndR (-Int.fract (-x) + 1), ?_, F.rep_rndR _, F.rndR_nonneg (by linarith), F.rndR_le hone (by linarith)⟩
      simp only [Fmt.mod1, if_neg h1]
      rw [if_pos (by linarith), Fmt.add, one_eq, fin_add, F.rnd_fin]
      rw [abs_of_nonneg (by linarith)]
      exact le_trans (by linarith) (one_le_zpow₀ (by norm_num) (by have := F.hmax; omega))
    · have h3 : Int.fract (-x) = 0 := le_antisymm (not_lt.mp h2) (Int.fract_nonneg _)
      refine ⟨0, ?_, F.rep_zero, le_rfl, zero_le_one⟩
      simp only [Fmt.mod1, if_neg h1, h3]
      simp

example : ∃ r : ℝ, Fmt.single.mod1 (fin 3) = fin r ∧ Fmt.single.Rep r ∧ 0 ≤ r ∧ r < 1 ∧ ∃ n : ℤ, 3 - r = n :=
  (C139_wrap Fmt.single (x := 3) ⟨3, 0, by norm_num [Fmt.single], by decide, by norm_num⟩).1 (by norm_num)

/-- The wrapping of `-2⁻²⁶` is one in single precision. -/
theorem C139_wrap_one : Fmt.single.mod1 (fin (-2 ^ (-26 : ℤ))) = fin 1 := by
  have h1 : ¬ (0 : ℝ) ≤ -2 ^ (-26 : ℤ) := by norm_num
  have h2 : Int.fract (- -(2 : ℝ) ^ (-26 : ℤ)) = 2 ^ (-26 : ℤ) := by
    rw [neg_neg, Int.fract_eq_self]; norm_num
  simp only [Fmt.mod1, if_neg h1, h2]
  rw [if_pos (by norm_num), Fmt.add, one_eq, fin_add, Fmt.single.rnd_fin]
  · have := Fmt.single.rndR_eq (x := -2 ^ (-26 : ℤ) + 1) (k := -1) (m := 2 ^ 24) (by norm_num [abs_of_pos])
      (by norm_num [abs_of_pos]) (by decide) (by simp only [Fmt.single]; norm_num [abs_lt])
    rw [this]; simp only [Fmt.single]; norm_num
  · exact le_trans (by norm_num [abs_of_pos] : _ ≤ (1 : ℝ)) (one_le_zpow₀ (by norm_num) (by decide))

end Verif
