import Verif.Model.FloatOps
import Mathlib.Tactic.NormNum

/-! # C138: R-functions in floating point arithmetic -/

namespace Verif

open XR

/-- A number of the format which is zero or whose square is neither too large nor too small for the format. -/
structure Moderate (F : Fmt) (a : ℝ) : Prop where
  rep : F.Rep a
  small : a = 0 ∨ ∃ k : ℤ, F.emin + (F.p - 1) ≤ 2 * k ∧ (2 : ℝ) ^ k ≤ |a|
  large : ∃ l : ℤ, 2 * l + 3 ≤ F.emax ∧ |a| ≤ 2 ^ l

theorem Moderate.neg {F : Fmt} {a : ℝ} (h : Moderate F a) : Moderate F (-a) :=
  ⟨h.rep.neg, by simpa using h.small, by simpa using h.large⟩

section
variable (F : Fmt)

theorem rndR_one : F.rndR 1 = 1 := F.rndR_rep (by simpa using F.rep_two_zpow (k := 0) (by have := F.hmin; omega))

theorem rnd_one : F.rnd (fin 1) = fin 1 := by
  rw [F.rnd_fin (by rw [abs_one]; exact one_le_zpow₀ (by norm_num) (by have := F.hmax; omega)), rndR_one]

theorem rnd_zero : F.rnd (fin 0) = fin 0 := by
  rw [F.rnd_fin (by rw [abs_zero]; positivity), F.rndR_zero]

/-- The square root term. -/
noncomputable def flHypot (a b : ℝ) : ℝ := F.rndR (Real.sqrt (F.rndR (F.rndR (a ^ 2) + F.rndR (b ^ 2))))

theorem sq_le_of_large {a : ℝ} {l : ℤ} (h : |a| ≤ 2 ^ l) : a ^ 2 ≤ 2 ^ (2 * l) := by
  rw [← sq_abs, two_mul, zpow_add₀ (by norm_num), ← sq]
  gcongr

/-- What the code computes for `alpha = 0`. -/
theorem conjFl_zero {a b : ℝ} (ha : Moderate F a) (hb : Moderate F b) :
    RAlpha.conjFl F 0 (fin a) (fin b) = fin (F.rndR (F.rndR (a + b) - flHypot F a b)) ∧
    RAlpha.disjFl F 0 (fin a) (fin b) = fin (F.rndR (F.rndR (a + b) + flHypot F a b)) := by
  obtain ⟨la, hla, ha2⟩ := ha.large
  obtain ⟨lb, hlb, hb2⟩ := hb.large
  have hmin := F.hmin
  have hmax := F.hmax
  set E : ℤ := F.emax - 3 with hE
  have mono : ∀ {i j : ℤ}, i ≤ j → (2 : ℝ) ^ i ≤ 2 ^ j := fun h => zpow_le_zpow_right₀ (by norm_num) h
  have hE1 : (2 : ℝ) ^ (E + 1) = 2 * 2 ^ E := by rw [zpow_add_one₀ (by norm_num)]; ring
  have hE2 : (2 : ℝ) ^ (E + 2) = 4 * 2 ^ E := by rw [zpow_add₀ (by norm_num)]; norm_num; ring
  have hE3 : (2 : ℝ) ^ F.emax = 8 * 2 ^ E := by
    rw [show F.emax = E + 3 by omega, zpow_add₀ (by norm_num)]; norm_num; ring
  have hpos : (0 : ℝ) < 2 ^ E := by positivity
  have repk : ∀ k : ℤ, E ≤ k → F.emin ≤ k → F.Rep (2 ^ k) := fun k _ h => F.rep_two_zpow h
  have hEm : F.emin ≤ E := by have := F.hp; omega
  -- bounds of the intermediate results
  have sqa : a ^ 2 ≤ 2 ^ E := (sq_le_of_large ha2).trans (mono (by omega))
  have sqb : b ^ 2 ≤ 2 ^ E := (sq_le_of_large hb2).trans (mono (by omega))
  have ra0 := F.rndR_nonneg (sq_nonneg a)
  have rb0 := F.rndR_nonneg (sq_nonneg b)
  have ra : F.rndR (a ^ 2) ≤ 2 ^ E := F.rndR_le (repk _ le_rfl hEm) sqa
  have rb : F.rndR (b ^ 2) ≤ 2 ^ E := F.rndR_le (repk _ le_rfl hEm) sqb
  have rs0 : 0 ≤ F.rndR (F.rndR (a ^ 2) + F.rndR (b ^ 2)) := F.rndR_nonneg (by linarith)
  have rs : F.rndR (F.rndR (a ^ 2) + F.rndR (b ^ 2)) ≤ 2 ^ (E + 1) :=
    F.rndR_le (F.rep_two_zpow (by omega)) (by rw [hE1]; linarith)
  have hq1 : (1 : ℝ) ≤ 2 ^ (F.emax - 1) := one_le_zpow₀ (by norm_num) (by omega)
  have hq2 : Real.sqrt (F.rndR (F.rndR (a ^ 2) + F.rndR (b ^ 2))) ≤ 2 ^ (F.emax - 1) := by
    rw [Real.sqrt_le_iff]
    refine ⟨by positivity, rs.trans ?_⟩
    have : (2 : ℝ) ^ (E + 1) ≤ 2 ^ (F.emax - 1) := mono (by omega)
    nlinarith
  have hq0 := Real.sqrt_nonneg (F.rndR (F.rndR (a ^ 2) + F.rndR (b ^ 2)))
  have hh : flHypot F a b ≤ 2 ^ (F.emax - 1) := F.rndR_le (F.rep_two_zpow (by omega)) hq2
  have hh0 : 0 ≤ flHypot F a b := F.rndR_nonneg hq0
  have hab : |a + b| ≤ 2 ^ (F.emax - 1) := by
    have e : (2 : ℝ) ^ (F.emax - 1) = 2 * 2 ^ (F.emax - 2) := by
      rw [show F.emax - 1 = F.emax - 2 + 1 by ring, zpow_add_one₀ (by norm_num)]; ring
    have h1 : |a| ≤ 2 ^ (F.emax - 2) := ha2.trans (mono (by omega))
    have h2 : |b| ≤ 2 ^ (F.emax - 2) := hb2.trans (mono (by omega))
    rw [e]
    linarith [abs_add_le a b]
  have hab2 : |F.rndR (a + b)| ≤ 2 ^ (F.emax - 1) := by
    rw [← F.rndR_abs]; exact F.rndR_le (F.rep_two_zpow (by omega)) hab
  have hE4 : (2 : ℝ) ^ F.emax = 2 * 2 ^ (F.emax - 1) := by
    rw [show F.emax = F.emax - 1 + 1 by ring, zpow_add_one₀ (by norm_num)]; ring_nf
  have s1 : F.mul (fin a) (fin a) = fin (F.rndR (a ^ 2)) := by
    rw [Fmt.mul, fin_mul, ← sq, F.rnd_fin (by rw [abs_of_nonneg (sq_nonneg a)]; linarith)]
  have s2 : F.mul (fin b) (fin b) = fin (F.rndR (b ^ 2)) := by
    rw [Fmt.mul, fin_mul, ← sq, F.rnd_fin (by rw [abs_of_nonneg (sq_nonneg b)]; linarith)]
  have s3 : F.mul (F.mul (F.rnd (2 * fin 0)) (fin a)) (fin b) = fin 0 := by
    rw [show (2 : XR) * fin 0 = fin 0 by show fin _ * fin 0 = _; rw [fin_mul, mul_zero], rnd_zero, Fmt.mul, Fmt.mul, fin_mul,
      zero_mul, rnd_zero, fin_mul, zero_mul, rnd_zero]
  have s4 : F.add (fin (F.rndR (a ^ 2))) (fin (F.rndR (b ^ 2))) = fin (F.rndR (F.rndR (a ^ 2) + F.rndR (b ^ 2))) := by
    rw [Fmt.add, fin_add, F.rnd_fin (by rw [abs_of_nonneg (by linarith)]; linarith)]
  have s5 : F.sub (fin (F.rndR (F.rndR (a ^ 2) + F.rndR (b ^ 2)))) (fin 0) =
      fin (F.rndR (F.rndR (a ^ 2) + F.rndR (b ^ 2))) := by
    rw [Fmt.sub, fin_sub, sub_zero, F.rnd_fin (by rw [abs_of_nonneg rs0]; linarith), F.rndR_rep (F.rep_rndR _)]
  have s6 : F.sqrt (fin (F.rndR (F.rndR (a ^ 2) + F.rndR (b ^ 2)))) = fin (flHypot F a b) := by
    rw [Fmt.sqrt, XR.sqrt, if_neg (not_lt.mpr rs0), F.rnd_fin (by rw [abs_of_nonneg hq0]; linarith)]
    rfl
  have s7 : F.add (fin a) (fin b) = fin (F.rndR (a + b)) := by
    rw [Fmt.add, fin_add, F.rnd_fin (by linarith)]
  have s8 : F.rnd (1 / (1 + fin 0)) = fin 1 := by
    rw [show (1 : XR) / (1 + fin 0) = fin 1 by
      rw [one_eq, fin_add, fin_div _ (by norm_num)]; norm_num, rnd_one]
  have b1 : |F.rndR (a + b) - flHypot F a b| ≤ 2 ^ F.emax := by
    rw [hE4]
    calc _ ≤ |F.rndR (a + b)| + |flHypot F a b| := abs_sub _ _
      _ ≤ _ := by rw [abs_of_nonneg hh0]; linarith
  have b2 : |F.rndR (a + b) + flHypot F a b| ≤ 2 ^ F.emax := by
    rw [hE4]
    calc _ ≤ |F.rndR (a + b)| + |flHypot F a b| := abs_add_le _ _
      _ ≤ _ := by rw [abs_of_nonneg hh0]; linarith
  have fin_step : ∀ z : ℝ, |z| ≤ 2 ^ F.emax → F.mul (fin 1) (F.rnd (fin z)) = fin (F.rndR z) := by
    intro z hz
    have hz' : |F.rndR z| ≤ 2 ^ F.emax := by
      rw [← F.rndR_abs]; exact F.rndR_le (F.rep_two_zpow F.emin_le) hz
    rw [F.rnd_fin hz, Fmt.mul, fin_mul, one_mul, F.rnd_fin hz', F.rndR_rep (F.rep_rndR _)]
  constructor
  · rw [RAlpha.conjFl, s1, s2, s3, s4, s5, s6, s7, s8, Fmt.sub, fin_sub, fin_step _ b1]
  · rw [RAlpha.disjFl, s1, s2, s3, s4, s5, s6, s7, s8]
    rw [show F.add (fin (F.rndR (a + b))) (fin (flHypot F a b)) = F.rnd (fin (F.rndR (a + b) + flHypot F a b)) by
      rw [Fmt.add, fin_add], fin_step _ b2]

theorem flHypot_neg (a b : ℝ) : flHypot F (-a) (-b) = flHypot F a b := by simp [flHypot]

theorem flHypot_comm (a b : ℝ) : flHypot F a b = flHypot F b a := by rw [flHypot, flHypot, add_comm]

/-- The square root term is not smaller than the larger argument. -/
theorem le_flHypot (a : ℝ) {b : ℝ} (hb : Moderate F b) : |b| ≤ flHypot F a b := by
  rcases hb.small with rfl | ⟨k, hk, hkb⟩
  · rw [abs_zero]; exact F.rndR_nonneg (Real.sqrt_nonneg _)
  · rw [← F.sqrt_sq hb.rep hk hkb]
    apply F.rndR_mono
    apply Real.sqrt_le_sqrt
    apply F.le_rndR (F.rep_rndR _)
    linarith [F.rndR_nonneg (sq_nonneg a)]

theorem flHypot_zero {a : ℝ} (ha : Moderate F a) : flHypot F a 0 = |a| := by
  rcases ha.small with rfl | ⟨k, hk, hka⟩
  · simp [flHypot, F.rndR_zero]
  · rw [flHypot, sq (0 : ℝ), mul_zero, F.rndR_zero, add_zero, F.rndR_rep (F.rep_rndR _), F.sqrt_sq ha.rep hk hka]

/-- The square root term of two positive numbers is not larger than the rounded sum. -/
theorem flHypot_le (hp : 4 ≤ F.p) {a b : ℝ} (ha : Moderate F a) (hb : Moderate F b) (h0 : 0 ≤ b) (hba : b ≤ a) :
    flHypot F a b ≤ F.rndR (a + b) := by
  have ha0 : 0 ≤ a := h0.trans hba
  rcases hb.small with rfl | ⟨kb, hkb, hkb2⟩
  · rw [flHypot_zero F ha, add_zero, F.rndR_rep ha.rep, abs_of_nonneg ha0]
  rw [abs_of_nonneg h0] at hkb2
  have hb0 : 0 < b := lt_of_lt_of_le (by positivity) hkb2
  have hapos : 0 < a := lt_of_lt_of_le hb0 hba
  have hsq : ∀ x : ℝ, b ≤ x → (2 : ℝ) ^ (F.emin + ((F.p : ℤ) - 1)) ≤ x ^ 2 := by
    intro x hx
    calc (2 : ℝ) ^ (F.emin + ((F.p : ℤ) - 1)) ≤ 2 ^ (2 * kb) := zpow_le_zpow_right₀ (by norm_num) (by omega)
      _ = (2 ^ kb) ^ 2 := by rw [two_mul, zpow_add₀ (by norm_num), sq]
      _ ≤ x ^ 2 := by gcongr; linarith
  set u : ℝ := 2 ^ (-(F.p : ℤ)) with hu
  have hu0 : 0 < u := by positivity
  have hu1 : u ≤ 1 / 16 := by
    calc u ≤ 2 ^ (-4 : ℤ) := zpow_le_zpow_right₀ (by norm_num) (by omega)
      _ = 1 / 16 := by norm_num
  have ea := F.rndR_rel (x := a ^ 2) (by rw [abs_of_nonneg (sq_nonneg a)]; exact hsq a hba)
  have eb := F.rndR_rel (x := b ^ 2) (by rw [abs_of_nonneg (sq_nonneg b)]; exact hsq b le_rfl)
  rw [← hu, abs_of_nonneg (sq_nonneg a), abs_le] at ea
  rw [← hu, abs_of_nonneg (sq_nonneg b), abs_le] at eb
  have ra0 := F.rndR_nonneg (sq_nonneg a)
  have rb0 := F.rndR_nonneg (sq_nonneg b)
  by_cases hc : 2 * u * a ≤ b
  · -- the product 2 a b dominates the rounding errors
    apply F.rndR_mono
    rw [Real.sqrt_le_iff]
    refine ⟨by linarith, ?_⟩
    have es := F.rndR_rel (x := F.rndR (a ^ 2) + F.rndR (b ^ 2)) (by
      rw [abs_of_nonneg (by linarith)]
      have : (2 : ℝ) ^ (F.emin + ((F.p : ℤ) - 1)) ≤ F.rndR (a ^ 2) :=
        F.le_rndR (F.rep_two_zpow (by omega)) (hsq a hba)
      linarith)
    rw [← hu, abs_of_nonneg (a := F.rndR (a ^ 2) + F.rndR (b ^ 2)) (by linarith), abs_le] at es
    have h1 : F.rndR (F.rndR (a ^ 2) + F.rndR (b ^ 2)) ≤ (a ^ 2 + b ^ 2) * (1 + u) ^ 2 := by
      nlinarith [es.2, ea.2, eb.2]
    refine h1.trans ?_
    have h2 : b ^ 2 ≤ a * b := by nlinarith
    have h3 : (2 * u + u ^ 2) * (a ^ 2 + b ^ 2) ≤ 2 * a * b := by
      have h4 : 2 * u * a ^ 2 ≤ a * b := by nlinarith
      have h5 : u * (2 * u * a ^ 2) ≤ u * (a * b) := by gcongr
      nlinarith [mul_pos hapos hb0, mul_nonneg hu0.le (sq_nonneg b)]
    nlinarith
  · -- the smaller square is rounded away
    push Not at hc
    have hb2 : F.rndR (b ^ 2) ≤ 5 * u ^ 2 * a ^ 2 := by
      have h1 : b ^ 2 ≤ (2 * u * a) ^ 2 := by gcongr
      nlinarith [eb.2, mul_nonneg hu0.le (sq_nonneg b), mul_nonneg (sq_nonneg u) (sq_nonneg a)]
    set r := F.rndR (a ^ 2) with hr
    have hr1 : 0 < r := by nlinarith [ea.1, sq_pos_of_pos hapos]
    set j := Int.log 2 |r| with hj
    have hj1 : (2 : ℝ) ^ j ≤ r := by simpa [hj, abs_of_pos hr1] using Fmt.log_le hr1.ne'
    have hj2 : r < 2 ^ (j + 1) := by simpa [hj, abs_of_pos hr1] using Fmt.lt_log (x := r)
    have hrn : (2 : ℝ) ^ (F.emin + ((F.p : ℤ) - 1)) ≤ r := F.le_rndR (F.rep_two_zpow (by omega)) (hsq a hba)
    have hjn : F.emin + ((F.p : ℤ) - 1) ≤ j := by
      have := lt_of_le_of_lt hrn hj2
      rw [zpow_lt_zpow_iff_right₀ (by norm_num)] at this
      omega
    obtain ⟨n, hn⟩ : ∃ n : ℤ, r = n * (2 : ℝ) ^ (j - ((F.p : ℤ) - 1)) := by
      have h := F.rndR_rep (F.rep_rndR (a ^ 2))
      rw [← hr, Fmt.rndR, Fmt.ulp, Fmt.ulpExp, max_eq_left (by omega)] at h
      exact ⟨_, h.symm⟩
    have e0 : (2 : ℝ) ^ (j - ((F.p : ℤ) - 1)) = 2 * (u * 2 ^ j) := by
      rw [hu, ← zpow_add₀ (by norm_num), show j - ((F.p : ℤ) - 1) = -(F.p : ℤ) + j + 1 by ring, zpow_add_one₀ (by norm_num)]
      ring
    have hj0 : (0 : ℝ) < 2 ^ j := by positivity
    have e1 : (2 : ℝ) ^ (j + 1) = 2 * 2 ^ j := by rw [zpow_add_one₀ (by norm_num)]; ring
    have hsmall : F.rndR (b ^ 2) < u * 2 ^ j := by
      have h1 : a ^ 2 * (1 - u) ≤ 2 * 2 ^ j := by nlinarith [ea.1]
      have h2 : a ^ 2 ≤ 32 / 15 * 2 ^ j := by nlinarith [sq_nonneg a]
      have h3 : 5 * u ^ 2 * a ^ 2 ≤ 5 * u ^ 2 * (32 / 15 * 2 ^ j) := by gcongr
      have h4 : 5 * u ^ 2 * (32 / 15 * 2 ^ j) = (32 / 3 * u) * (u * 2 ^ j) := by ring
      nlinarith [mul_pos hu0 hj0]
    have hfit : r + F.rndR (b ^ 2) < 2 ^ (j + 1) := by
      have h5 : (n : ℝ) < 2 ^ F.p := by
        have : (2 : ℝ) ^ (j + 1) = 2 ^ F.p * 2 ^ (j - ((F.p : ℤ) - 1)) := by
          rw [← zpow_natCast, ← zpow_add₀ (by norm_num)]; congr 1; ring
        rwa [hn, this, mul_lt_mul_iff_left₀ (by positivity)] at hj2
      have h6 : n < (2 : ℤ) ^ F.p := by exact_mod_cast h5
      have h7 : n ≤ (2 : ℤ) ^ F.p - 1 := by omega
      have h8 : (n : ℝ) ≤ 2 ^ F.p - 1 := by exact_mod_cast h7
      have h9 : r ≤ (2 ^ F.p - 1) * 2 ^ (j - ((F.p : ℤ) - 1)) := by rw [hn]; gcongr
      have h10 : (2 ^ F.p - 1) * (2 : ℝ) ^ (j - ((F.p : ℤ) - 1)) = 2 ^ (j + 1) - 2 ^ (j - ((F.p : ℤ) - 1)) := by
        rw [sub_mul, one_mul, ← zpow_natCast, ← zpow_add₀ (by norm_num)]; congr 2; ring
      rw [h10, e0] at h9
      nlinarith [mul_pos hu0 hj0]
    have habs : |r + F.rndR (b ^ 2)| = r + F.rndR (b ^ 2) := abs_of_nonneg (by linarith)
    have hround : F.rndR (r + F.rndR (b ^ 2)) = r := by
      have := F.rndR_eq (x := r + F.rndR (b ^ 2)) (k := j) (m := n) (by rw [habs]; linarith) (by rw [habs]; exact hfit)
        (by omega) (by
          rw [← hn, show r - (r + F.rndR (b ^ 2)) = -F.rndR (b ^ 2) by ring, abs_neg, abs_of_nonneg rb0, e0]
          linarith)
      rw [this, ← hn]
    obtain ⟨k, hk, hka⟩ := ha.small.resolve_left hapos.ne'
    rw [flHypot, ← hr, hround, hr, F.sqrt_sq ha.rep hk hka, abs_of_pos hapos]
    exact F.le_rndR ha.rep (by linarith)

/-- The sum of two numbers which are not negative is rounded to a number which is not below the square root term. -/
theorem flHypot_le' (hp : 4 ≤ F.p) {a b : ℝ} (ha : Moderate F a) (hb : Moderate F b) (h0 : 0 ≤ a) (h1 : 0 ≤ b) :
    flHypot F a b ≤ F.rndR (a + b) := by
  rcases le_total b a with h | h
  · exact flHypot_le F hp ha hb h1 h
  · rw [flHypot_comm, add_comm]; exact flHypot_le F hp hb ha h0 h

theorem le_neg_flHypot {a b : ℝ} (hb : Moderate F b) (h : a ≤ 0) : F.rndR (a + b) ≤ flHypot F a b := by
  have h1 : F.rndR (a + b) ≤ b := F.rndR_le hb.rep (by linarith)
  exact h1.trans ((le_abs_self b).trans (le_flHypot F a hb))

end

/-- In floating point arithmetic the system `r0` never has the wrong sign: a conjunction is not negative if both arguments are
positive, and not positive if one of them is not; a disjunction is not positive if both arguments are negative, and not negative if
one of them is not. -/
theorem C138_r0_sign (F : Fmt) (hp : 4 ≤ F.p) {a b : ℝ} (ha : Moderate F a) (hb : Moderate F b) :
    ∃ c d : ℝ, RAlpha.conjFl F 0 (fin a) (fin b) = fin c ∧ RAlpha.disjFl F 0 (fin a) (fin b) = fin d ∧
      (0 ≤ a ∧ 0 ≤ b → 0 ≤ c) ∧ (a ≤ 0 ∨ b ≤ 0 → c ≤ 0) ∧ (a ≤ 0 ∧ b ≤ 0 → d ≤ 0) ∧ (0 ≤ a ∨ 0 ≤ b → 0 ≤ d) := by
  obtain ⟨h1, h2⟩ := conjFl_zero F ha hb
  have hneg : F.rndR (-a + -b) = -F.rndR (a + b) := by rw [← F.rndR_neg]; congr 1; ring
  refine ⟨_, _, h1, h2, fun h => ?_, fun h => ?_, fun h => ?_, fun h => ?_⟩
  · exact F.rndR_nonneg (by linarith [flHypot_le' F hp ha hb h.1 h.2])
  · apply F.rndR_nonpos
    rcases h with h | h
    · linarith [le_neg_flHypot F hb h]
    · have := le_neg_flHypot F ha h
      rw [add_comm, flHypot_comm] at this
      linarith
  · apply F.rndR_nonpos
    have := flHypot_le' F hp ha.neg hb.neg (by linarith) (by linarith)
    rw [flHypot_neg, hneg] at this
    linarith
  · apply F.rndR_nonneg
    rcases h with h | h
    · have := le_neg_flHypot F (a := -a) hb.neg (by linarith)
      rw [flHypot_neg, hneg] at this
      linarith
    · have := le_neg_flHypot F (a := -b) ha.neg (by linarith)
      rw [flHypot_neg, flHypot_comm, add_comm, hneg] at this
      linarith

/-- Numbers between `2⁻⁶³` and `2⁶²` in absolute value are moderate in single precision. -/
theorem moderate_single {a : ℝ} (h : Fmt.single.Rep a) (h1 : 2 ^ (-63 : ℤ) ≤ |a|) (h2 : |a| ≤ 2 ^ (62 : ℤ)) :
    Moderate Fmt.single a :=
  ⟨h, Or.inr ⟨-63, by decide, h1⟩, ⟨62, by decide, h2⟩⟩

/-- A conjunction of `-1` and `2` in single precision. -/
example : ∃ c : ℝ, RAlpha.conjFl Fmt.single 0 (fin (-1)) (fin 2) = fin c ∧ c ≤ 0 := by
  have h1 : Moderate Fmt.single (-1) := moderate_single ⟨-1, 0, by norm_num [Fmt.single], by decide, by norm_num⟩
    (by norm_num) (by norm_num)
  have h2 : Moderate Fmt.single 2 := moderate_single ⟨1, 1, by norm_num [Fmt.single], by decide, by norm_num⟩
    (by norm_num) (by norm_num)
  obtain ⟨c, d, hc, -, -, h, -⟩ := C138_r0_sign Fmt.single (by decide) h1 h2
  exact ⟨c, hc, h (Or.inl (by norm_num))⟩

/-- Two roundings below the root. -/
theorem two_roundings {u A B ra rb S : ℝ} (hu0 : 0 ≤ u) (hu1 : u ≤ 1) (ea : -(A * u) ≤ ra - A ∧ ra - A ≤ A * u)
    (eb : -(B * u) ≤ rb - B ∧ rb - B ≤ B * u) (es : -((ra + rb) * u) ≤ S - (ra + rb) ∧ S - (ra + rb) ≤ (ra + rb) * u) :
    S ≤ (1 + u) ^ 2 * (A + B) ∧ (1 - u) ^ 2 * (A + B) ≤ S := by
  have h1 : ra + rb ≤ (1 + u) * (A + B) := by linarith [ea.2, eb.2]
  have h2 : (1 - u) * (A + B) ≤ ra + rb := by linarith [ea.1, eb.1]
  have h3 := mul_le_mul_of_nonneg_left h1 (by linarith : 0 ≤ 1 + u)
  have h4 := mul_le_mul_of_nonneg_left h2 (by linarith : 0 ≤ 1 - u)
  constructor
  · linarith [es.2]
  · linarith [es.1]

/-- The last rounding. -/
theorem last_rounding {u T w v e : ℝ} (hu0 : 0 ≤ u) (hu1 : u ≤ 1 / 16) (hT : 0 ≤ T) (h3 : |w - v| ≤ |v| * u)
    (h4 : |v| ≤ (1 + u) * T + (1 + 2 * u + u ^ 2) * T) (h5 : |v - e| ≤ u * T + (2 * u + u ^ 2) * T) : |w - e| ≤ 6 * u * T := by
  have h6 : |w - e| ≤ |w - v| + |v - e| := abs_sub_le _ _ _
  have h7 : |v| * u ≤ ((1 + u) * T + (1 + 2 * u + u ^ 2) * T) * u := by gcongr
  have huT : 0 ≤ u * T := by positivity
  have h8 : u * (u * T) ≤ 1 / 16 * (u * T) := by gcongr
  have h9 : u * (u * (u * T)) ≤ 1 / 16 * (1 / 16 * (u * T)) := by gcongr
  nlinarith

/-- The error of the conjunction and the disjunction of `r0`: six units in the last place of the size of the arguments. -/
theorem C138_r0_error (F : Fmt) (hp : 4 ≤ F.p) {a b : ℝ} (ha : Moderate F a) (hb : Moderate F b) :
    ∃ c d : ℝ, RAlpha.conjFl F 0 (fin a) (fin b) = fin c ∧ RAlpha.disjFl F 0 (fin a) (fin b) = fin d ∧
      |c - (a + b - Real.sqrt (a ^ 2 + b ^ 2))| ≤ 6 * 2 ^ (-(F.p : ℤ)) * (|a| + |b|) ∧
      |d - (a + b + Real.sqrt (a ^ 2 + b ^ 2))| ≤ 6 * 2 ^ (-(F.p : ℤ)) * (|a| + |b|) := by
  obtain ⟨h1, h2⟩ := conjFl_zero F ha hb
  set u : ℝ := 2 ^ (-(F.p : ℤ)) with hu
  have hu0 : 0 < u := by positivity
  have hu1 : u ≤ 1 / 16 := by
    calc u ≤ 2 ^ (-4 : ℤ) := zpow_le_zpow_right₀ (by norm_num) (by omega)
      _ = 1 / 16 := by norm_num
  have hmin := F.hmin
  have hsq : ∀ x : ℝ, Moderate F x → |F.rndR (x ^ 2) - x ^ 2| ≤ x ^ 2 * u ∧
      (x = 0 ∨ (2 : ℝ) ^ (F.emin + ((F.p : ℤ) - 1)) ≤ F.rndR (x ^ 2)) := by
    intro x hx
    rcases hx.small with rfl | ⟨k, hk, hkx⟩
    · simp [F.rndR_zero]
    · have h3 : (2 : ℝ) ^ (F.emin + ((F.p : ℤ) - 1)) ≤ x ^ 2 := by
        calc (2 : ℝ) ^ (F.emin + ((F.p : ℤ) - 1)) ≤ 2 ^ (2 * k) := zpow_le_zpow_right₀ (by norm_num) (by omega)
          _ = (2 ^ k) ^ 2 := by rw [two_mul, zpow_add₀ (by norm_num), sq]
          _ ≤ |x| ^ 2 := by gcongr
          _ = x ^ 2 := sq_abs x
      have h4 := F.rndR_rel (x := x ^ 2) (by rwa [abs_of_nonneg (sq_nonneg x)])
      rw [abs_of_nonneg (sq_nonneg x)] at h4
      exact ⟨h4, Or.inr (F.le_rndR (F.rep_two_zpow (by omega)) h3)⟩
  obtain ⟨ea, na⟩ := hsq a ha
  obtain ⟨eb, nb⟩ := hsq b hb
  rw [abs_le] at ea eb
  have ra0 := F.rndR_nonneg (sq_nonneg a)
  have rb0 := F.rndR_nonneg (sq_nonneg b)
  set h := Real.sqrt (a ^ 2 + b ^ 2) with hh
  have hh0 : 0 ≤ h := Real.sqrt_nonneg _
  have hhs : h ^ 2 = a ^ 2 + b ^ 2 := Real.sq_sqrt (by positivity)
  have hhT : h ≤ |a| + |b| := by
    rw [hh, Real.sqrt_le_iff]
    refine ⟨by positivity, ?_⟩
    nlinarith [sq_abs a, sq_abs b, mul_nonneg (abs_nonneg a) (abs_nonneg b)]
  -- the error of the square root term
  have eh : |flHypot F a b - h| ≤ (2 * u + u ^ 2) * h := by
    by_cases hz : a = 0 ∧ b = 0
    · obtain ⟨rfl, rfl⟩ := hz
      have : h = 0 := by rw [hh]; simp
      rw [this]
      simp [flHypot, F.rndR_zero]
    have hbig : (2 : ℝ) ^ (F.emin + ((F.p : ℤ) - 1)) ≤ F.rndR (a ^ 2) + F.rndR (b ^ 2) := by
      rcases na with rfl | na
      · rcases nb with rfl | nb
        · exact absurd ⟨rfl, rfl⟩ hz
        · linarith
      · linarith
    set S := F.rndR (F.rndR (a ^ 2) + F.rndR (b ^ 2)) with hS
    have es := F.rndR_rel (x := F.rndR (a ^ 2) + F.rndR (b ^ 2)) (by rwa [abs_of_nonneg (by linarith)])
    rw [← hu, abs_of_nonneg (a := F.rndR (a ^ 2) + F.rndR (b ^ 2)) (by linarith), ← hS, abs_le] at es
    have hSbig : (2 : ℝ) ^ (F.emin + ((F.p : ℤ) - 1)) ≤ S := F.le_rndR (F.rep_two_zpow (by omega)) hbig
    have hS1 : S ≤ ((1 + u) * h) ^ 2 := by
      rw [mul_pow, hhs]
      exact (two_roundings hu0.le (by linarith) ea eb es).1
    have hS2 : ((1 - u) * h) ^ 2 ≤ S := by
      rw [mul_pow, hhs]
      exact (two_roundings hu0.le (by linarith) ea eb es).2
    have hr1 : Real.sqrt S ≤ (1 + u) * h := by
      rw [Real.sqrt_le_iff]; exact ⟨by positivity, hS1⟩
    have hr2 : (1 - u) * h ≤ Real.sqrt S := Real.le_sqrt_of_sq_le hS2
    have hr0 := Real.sqrt_nonneg S
    have et := F.rndR_rel (x := Real.sqrt S) (by
      rw [abs_of_nonneg hr0]
      apply Real.le_sqrt_of_sq_le
      refine le_trans ?_ hSbig
      rw [← zpow_natCast, ← zpow_mul]
      exact zpow_le_zpow_right₀ (by norm_num) (by push_cast; omega))
    rw [← hu, abs_of_nonneg hr0, abs_le] at et
    have e : flHypot F a b = F.rndR (Real.sqrt S) := rfl
    rw [e, abs_le]
    have m1 := mul_le_mul_of_nonneg_left hr1 (by linarith : 0 ≤ 1 + u)
    have m2 := mul_le_mul_of_nonneg_left hr2 (by linarith : 0 ≤ 1 - u)
    have m3 : 0 ≤ u ^ 2 * h := by positivity
    constructor
    · linarith [et.1]
    · linarith [et.2]
  have hrepH : F.Rep (flHypot F a b) := F.rep_rndR _
  have hrepS : F.Rep (F.rndR (a + b)) := F.rep_rndR _
  have e1 := F.rndR_add ha.rep hb.rep
  have e2 := F.rndR_add hrepS hrepH.neg
  have e3 := F.rndR_add hrepS hrepH
  rw [← hu] at e1 e2 e3
  rw [← sub_eq_add_neg] at e2
  have hT : |a + b| ≤ |a| + |b| := abs_add_le a b
  set T := |a| + |b| with hTdef
  have hT0 : 0 ≤ T := by positivity
  have k1 : |F.rndR (a + b) - (a + b)| ≤ u * T := e1.trans (by nlinarith)
  have k2 : |flHypot F a b - h| ≤ (2 * u + u ^ 2) * T := eh.trans (by gcongr)
  have k3 : |F.rndR (a + b)| ≤ (1 + u) * T := by
    calc |F.rndR (a + b)| = |(F.rndR (a + b) - (a + b)) + (a + b)| := by ring_nf
      _ ≤ _ := abs_add_le _ _
      _ ≤ _ := by linarith
  have k4 : |flHypot F a b| ≤ (1 + 2 * u + u ^ 2) * T := by
    calc |flHypot F a b| = |(flHypot F a b - h) + h| := by ring_nf
      _ ≤ _ := abs_add_le _ _
      _ ≤ _ := by rw [abs_of_nonneg hh0]; linarith
  have hfin : ∀ w v e : ℝ, |w - v| ≤ |v| * u → |v| ≤ (1 + u) * T + (1 + 2 * u + u ^ 2) * T →
      |v - e| ≤ u * T + (2 * u + u ^ 2) * T → |w - e| ≤ 6 * u * T := fun w v e =>
    last_rounding hu0.le hu1 hT0
  refine ⟨_, _, h1, h2, hfin _ _ _ e2 ?_ ?_, hfin _ _ _ e3 ?_ ?_⟩
  · exact (abs_sub _ _).trans (by linarith)
  · calc _ = |(F.rndR (a + b) - (a + b)) - (flHypot F a b - h)| := by congr 1; ring
      _ ≤ _ := abs_sub _ _
      _ ≤ _ := by linarith
  · exact (abs_add_le _ _).trans (by linarith)
  · calc _ = |(F.rndR (a + b) - (a + b)) + (flHypot F a b - h)| := by congr 1; ring
      _ ≤ _ := abs_add_le _ _
      _ ≤ _ := by linarith

example : ∃ c d : ℝ, RAlpha.conjFl Fmt.single 0 (fin 3) (fin (-4)) = fin c ∧ RAlpha.disjFl Fmt.single 0 (fin 3) (fin (-4)) = fin d ∧
    |c - (-6)| ≤ 42 * 2 ^ (-24 : ℤ) ∧ |d - 4| ≤ 42 * 2 ^ (-24 : ℤ) := by
  have h1 : Moderate Fmt.single 3 := moderate_single ⟨3, 0, by norm_num [Fmt.single], by decide, by norm_num⟩
    (by norm_num) (by norm_num)
  have h2 : Moderate Fmt.single (-4) := moderate_single ⟨-4, 0, by norm_num [Fmt.single], by decide, by norm_num⟩
    (by norm_num [abs_of_pos]) (by norm_num [abs_of_pos])
  have hs : Real.sqrt (3 ^ 2 + (-4) ^ 2) = 5 := by
    rw [show (3 : ℝ) ^ 2 + (-4) ^ 2 = 5 ^ 2 by norm_num]
    exact Real.sqrt_sq (by norm_num)
  obtain ⟨c, d, hc, hd, h3, h4⟩ := C138_r0_error Fmt.single (by decide) h1 h2
  rw [hs] at h3 h4
  refine ⟨c, d, hc, hd, ?_, ?_⟩
  · refine le_trans (le_of_eq ?_) (h3.trans (le_of_eq ?_))
    · norm_num
    · norm_num [Fmt.single]
  · refine le_trans (le_of_eq ?_) (h4.trans (le_of_eq ?_))
    · norm_num
    · norm_num [Fmt.single]

/-- The strict sign is lost: in single precision the conjunction of `1` and `2⁻³⁰` is zero, though both are positive. -/
theorem C138_r0_sign_lost : RAlpha.conjFl Fmt.single 0 (fin 1) (fin (2 ^ (-30 : ℤ))) = fin 0 := by
  have h1 : Moderate Fmt.single 1 := moderate_single ⟨1, 0, by norm_num [Fmt.single], by decide, by norm_num⟩
    (by norm_num) (by norm_num)
  have h2 : Moderate Fmt.single (2 ^ (-30 : ℤ)) :=
    moderate_single (Fmt.single.rep_two_zpow (by decide)) (by norm_num) (by norm_num)
  have key : ∀ t : ℝ, 0 ≤ t → t < 2 ^ (-24 : ℤ) → Fmt.single.rndR (1 + t) = 1 := by
    intro t h0 ht
    have habs : |1 + t| = 1 + t := abs_of_nonneg (by linarith)
    norm_num at ht
    have := Fmt.single.rndR_eq (x := 1 + t) (k := 0) (m := 2 ^ 23) (by rw [habs]; norm_num; linarith)
      (by rw [habs]; norm_num; linarith) (by decide) (by
        simp only [Fmt.single]
        norm_num
        rw [abs_of_nonneg h0]; linarith)
    rw [this]
    simp only [Fmt.single]
    norm_num
  have e1 : Fmt.single.rndR ((1 : ℝ) ^ 2) = 1 := by rw [one_pow, rndR_one]
  have e2 : Fmt.single.rndR (((2 : ℝ) ^ (-30 : ℤ)) ^ 2) = 2 ^ (-60 : ℤ) := by
    rw [← zpow_natCast, ← zpow_mul]
    exact Fmt.single.rndR_rep (Fmt.single.rep_two_zpow (by decide))
  have e3 : flHypot Fmt.single 1 (2 ^ (-30 : ℤ)) = 1 := by
    rw [flHypot, e1, e2, key _ (by positivity) (by norm_num), Real.sqrt_one, rndR_one]
  rw [(conjFl_zero _ h1 h2).1, key _ (by positivity) (by norm_num), e3, sub_self, Fmt.rndR_zero]

/-- The sign is wrong if the squares underflow: in single precision the conjunction of `-2⁻⁸⁰` and `2⁻⁷⁹` is positive, though one
argument is negative. -/
theorem C138_r0_underflow : RAlpha.conjFl Fmt.single 0 (fin (-2 ^ (-80 : ℤ))) (fin (2 ^ (-79 : ℤ))) = fin (2 ^ (-80 : ℤ)) := by
  have tiny : ∀ x : ℝ, 0 ≤ x → x < 2 ^ (-150 : ℤ) → Fmt.single.rndR x = 0 := by
    intro x h0 hx
    rcases h0.eq_or_lt with rfl | h0
    · exact Fmt.rndR_zero _
    have h1 : Fmt.single.ulp x = 2 ^ (-149 : ℤ) := by
        have h2 : (2 : ℝ) ^ Int.log 2 |x| < 2 ^ (-150 : ℤ) :=
          lt_of_le_of_lt (Fmt.log_le h0.ne') (by rwa [abs_of_pos h0])
        rw [zpow_lt_zpow_iff_right₀ (by norm_num)] at h2
        rw [Fmt.ulp, Fmt.ulpExp, max_eq_right]
        · rfl
        · show Int.log 2 |x| - ((24 : ℕ) - 1) ≤ -149
          push_cast
          omega
    have hn : rne (x / 2 ^ (-149 : ℤ)) = 0 := by
      apply rne_eq
      have e : (2 : ℝ) ^ (-149 : ℤ) = 2 * 2 ^ (-150 : ℤ) := by
        rw [show (-149 : ℤ) = -150 + 1 by norm_num, zpow_add_one₀ (by norm_num)]; ring
      rw [Int.cast_zero, zero_sub, abs_neg, abs_of_nonneg (by positivity), div_lt_iff₀ (by positivity), e, ← mul_assoc]
      rwa [show (1 : ℝ) / 2 * 2 = 1 by norm_num, one_mul]
    rw [Fmt.rndR, h1, hn]
    simp
  have small : ∀ x : ℝ, |x| ≤ 1 → Fmt.single.rnd (fin x) = fin (Fmt.single.rndR x) := fun x hx =>
    Fmt.single.rnd_fin (hx.trans (one_le_zpow₀ (by norm_num) (by decide)))
  have r80 : Fmt.single.rndR (2 ^ (-80 : ℤ)) = 2 ^ (-80 : ℤ) := Fmt.single.rndR_rep (Fmt.single.rep_two_zpow (by decide))
  have s1 : Fmt.single.mul (fin (-2 ^ (-80 : ℤ))) (fin (-2 ^ (-80 : ℤ))) = fin 0 := by
    rw [Fmt.mul, fin_mul, small _ (by norm_num), tiny _ (by positivity) (by norm_num)]
  have s2 : Fmt.single.mul (fin (2 ^ (-79 : ℤ))) (fin (2 ^ (-79 : ℤ))) = fin 0 := by
    rw [Fmt.mul, fin_mul, small _ (by norm_num), tiny _ (by positivity) (by norm_num)]
  have s3 : Fmt.single.mul (Fmt.single.mul (Fmt.single.rnd (2 * fin 0)) (fin (-2 ^ (-80 : ℤ)))) (fin (2 ^ (-79 : ℤ))) = fin 0 := by
    rw [show (2 : XR) * fin 0 = fin 0 by show fin _ * fin 0 = _; rw [fin_mul, mul_zero], rnd_zero, Fmt.mul, Fmt.mul, fin_mul,
      zero_mul, rnd_zero, fin_mul, zero_mul, rnd_zero]
  have s4 : Fmt.single.add (fin 0) (fin 0) = fin 0 := by rw [Fmt.add, fin_add, add_zero, rnd_zero]
  have s5 : Fmt.single.sub (fin 0) (fin 0) = fin 0 := by rw [Fmt.sub, fin_sub, sub_zero, rnd_zero]
  have s6 : Fmt.single.sqrt (fin 0) = fin 0 := by
    rw [Fmt.sqrt, XR.sqrt, if_neg (lt_irrefl _), Real.sqrt_zero, rnd_zero]
  have s7 : Fmt.single.add (fin (-2 ^ (-80 : ℤ))) (fin (2 ^ (-79 : ℤ))) = fin (2 ^ (-80 : ℤ)) := by
    rw [Fmt.add, fin_add, show -(2 : ℝ) ^ (-80 : ℤ) + 2 ^ (-79 : ℤ) = 2 ^ (-80 : ℤ) by norm_num, small _ (by norm_num), r80]
  have s8 : Fmt.single.rnd (1 / (1 + fin 0)) = fin 1 := by
    rw [show (1 : XR) / (1 + fin 0) = fin 1 by
      rw [one_eq, fin_add, fin_div _ (by norm_num)]; norm_num, rnd_one]
  rw [RAlpha.conjFl, s1, s2, s3, s4, s5, s6, s7, s8, Fmt.sub, fin_sub, sub_zero, small _ (by norm_num), r80, Fmt.mul, fin_mul,
    one_mul, small _ (by norm_num), r80]

/-- The system `r1` is `min` and `max` only without rounding: in single precision the conjunction and the disjunction of `8194` and
`8195` are `nan`, because the number below the root is rounded to `-16`. -/
theorem C138_r1_nan : RAlpha.conjFl Fmt.single 1 (fin 8194) (fin 8195) = nan ∧
    RAlpha.disjFl Fmt.single 1 (fin 8194) (fin 8195) = nan := by
  have large : ∀ x : ℝ, |x| ≤ 2 ^ (30 : ℤ) → Fmt.single.rnd (fin x) = fin (Fmt.single.rndR x) := fun x hx =>
    Fmt.single.rnd_fin (hx.trans (zpow_le_zpow_right₀ (by norm_num) (by decide)))
  have v26 : ∀ x : ℝ, 2 ^ 26 ≤ x → x < 2 ^ 27 → Fmt.single.rndR x = rne (x / 8) * 8 := by
    intro x h1 h2
    have h0 : |x| = x := abs_of_nonneg (by linarith [show (0 : ℝ) < 2 ^ 26 by positivity])
    have := Fmt.single.rndR_val (x := x) (k := 26) (by rw [h0]; exact_mod_cast h1) (by rw [h0]; exact_mod_cast h2) (by decide)
    rw [this]; simp only [Fmt.single]; norm_num
  have v27 : ∀ x : ℝ, 2 ^ 27 ≤ x → x < 2 ^ 28 → Fmt.single.rndR x = rne (x / 16) * 16 := by
    intro x h1 h2
    have h0 : |x| = x := abs_of_nonneg (by linarith [show (0 : ℝ) < 2 ^ 27 by positivity])
    have := Fmt.single.rndR_val (x := x) (k := 27) (by rw [h0]; exact_mod_cast h1) (by rw [h0]; exact_mod_cast h2) (by decide)
    rw [this]; simp only [Fmt.single]; norm_num
  have s1 : Fmt.single.mul (fin 8194) (fin 8194) = fin 67141632 := by
    rw [Fmt.mul, fin_mul, large _ (by norm_num), v26 _ (by norm_num) (by norm_num),
      show (8194 * 8194 / 8 : ℝ) = ((8392704 : ℤ) : ℝ) + 1 / 2 by norm_num, rne_half (by decide)]
    norm_num
  have s2 : Fmt.single.mul (fin 8195) (fin 8195) = fin 67158024 := by
    rw [Fmt.mul, fin_mul, large _ (by norm_num), v26 _ (by norm_num) (by norm_num),
      rne_eq (n := 8394753) (by norm_num [abs_lt])]
    norm_num
  have s4 : Fmt.single.add (fin 67141632) (fin 67158024) = fin 134299648 := by
    rw [Fmt.add, fin_add, large _ (by norm_num), v27 _ (by norm_num) (by norm_num),
      show ((67141632 + 67158024) / 16 : ℝ) = ((8393728 : ℤ) : ℝ) + 1 / 2 by norm_num, rne_half (by decide)]
    norm_num
  have r2 : Fmt.single.rnd (2 * fin 1) = fin 2 := by
    rw [show (2 : XR) * fin 1 = fin 2 by show fin _ * fin 1 = _; rw [fin_mul]; norm_num, large _ (by norm_num),
      Fmt.single.rndR_rep ⟨1, 1, by norm_num [Fmt.single], by decide, by norm_num⟩]
  have s3 : Fmt.single.mul (Fmt.single.mul (Fmt.single.rnd (2 * fin 1)) (fin 8194)) (fin 8195) = fin 134299664 := by
    rw [r2, show Fmt.single.mul (fin 2) (fin 8194) = fin 16388 by
      rw [Fmt.mul, fin_mul, large _ (by norm_num), Fmt.single.rndR_rep ⟨16388, 0, by norm_num [Fmt.single], by decide, by norm_num⟩]
      norm_num, Fmt.mul, fin_mul, large _ (by norm_num), v27 _ (by norm_num) (by norm_num),
      rne_eq (n := 8393729) (by norm_num [abs_lt])]
    norm_num
  have s5 : Fmt.single.sub (fin 134299648) (fin 134299664) = fin (-16) := by
    rw [Fmt.sub, fin_sub, large _ (by norm_num),
      Fmt.single.rndR_rep ⟨-16, 0, by norm_num [Fmt.single], by decide, by norm_num⟩]
    norm_num
  have s6 : Fmt.single.sqrt (fin (-16)) = nan := by
    rw [Fmt.sqrt, XR.sqrt, if_pos (by norm_num)]
    rfl
  have n1 : ∀ x : XR, Fmt.single.sub x nan = nan := by
    intro x
    cases x <;> rfl
  have n2 : ∀ x : XR, Fmt.single.add x nan = nan := by
    intro x
    cases x <;> rfl
  have n3 : ∀ x : XR, Fmt.single.mul x nan = nan := by
    intro x
    cases x <;> rfl
  constructor
  · rw [RAlpha.conjFl, s1, s2, s3, s4, s5, s6, n1, n3]
  · rw [RAlpha.disjFl, s1, s2, s3, s4, s5, s6, n2, n3]

end Verif
