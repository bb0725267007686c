import Verif.Props.FloatR
import Verif.Props.RSystems

/-! # C140: trees of set operations in floating point arithmetic -/

namespace Verif

open XR

/-- A number of the format which is zero or between `2 ^ k` and `2 ^ l` in absolute value. -/
structure InRange (F : Fmt) (k l : ℤ) (a : ℝ) : Prop where
  rep : F.Rep a
  small : a = 0 ∨ (2 : ℝ) ^ k ≤ |a|
  large : |a| ≤ 2 ^ l

/-- The number of nested roots. -/
def SetExpr.levels {ι : Type*} : SetExpr ι → ℕ
  | .leaf _ => 0
  | .compl e => e.levels
  | .union e₁ e₂ => max e₁.levels e₂.levels + 1
  | .inter e₁ e₂ => max e₁.levels e₂.levels + 1
  | .diff e₁ e₂ => max e₁.levels e₂.levels + 1
  | .impl e₁ e₂ => max e₁.levels e₂.levels + 1
  | .equiv e₁ e₂ => max e₁.levels e₂.levels + 2
  | .symmDiff e₁ e₂ => max e₁.levels e₂.levels + 2

section
variable {F : Fmt} {k l : ℤ} {a b : ℝ}

theorem InRange.mono {k' l' : ℤ} (h : InRange F k l a) (hk : k' ≤ k) (hl : l ≤ l') : InRange F k' l' a :=
  ⟨h.rep, h.small.imp_right fun h => le_trans (zpow_le_zpow_right₀ (by norm_num) hk) h,
    h.large.trans (zpow_le_zpow_right₀ (by norm_num) hl)⟩

theorem InRange.neg (h : InRange F k l a) : InRange F k l (-a) :=
  ⟨h.rep.neg, by simpa using h.small, by simpa using h.large⟩

theorem InRange.moderate (h : InRange F k l a) (hk : F.emin + (F.p - 1) ≤ 2 * k) (hl : 2 * l + 3 ≤ F.emax) : Moderate F a :=
  ⟨h.rep, h.small.imp_right fun h => ⟨k, hk, h⟩, ⟨l, hl, h.large⟩⟩

/-- Two different numbers of a format are not close. -/
theorem rep_sub_ge {x y : ℝ} {j : ℤ} (hx : F.Rep x) (hy : F.Rep y) (hj : (2 : ℝ) ^ j ≤ |y|) (hne : x ≠ y) :
    (2 : ℝ) ^ (j - F.p) ≤ |x - y| := by
  have hp := F.hp
  have mul : ∀ (z : ℝ) (i : ℤ), F.Rep z → (2 : ℝ) ^ i ≤ |z| → ∃ n : ℤ, z = n * (2 : ℝ) ^ (i + 1 - F.p) := by
    rintro z i ⟨m, e, hm, -, rfl⟩ hi
    have he : i < F.p + e := by
      have h1 : |(m : ℝ) * 2 ^ e| < 2 ^ ((F.p : ℤ) + e) := by
        rw [abs_mul, abs_of_pos (by positivity : (0 : ℝ) < 2 ^ e), zpow_add₀ (by norm_num), zpow_natCast]
        gcongr
        exact_mod_cast hm
      have := lt_of_le_of_lt hi h1
      rwa [zpow_lt_zpow_iff_right₀ (by norm_num)] at this
    obtain ⟨n, hn⟩ := Fmt.two_zpow_mul (a := e) (b := i + 1 - F.p) (by omega)
    exact ⟨m * 2 ^ n, by rw [hn]; push_cast; ring⟩
  obtain ⟨n, hn⟩ := mul y (j - 1) hy (le_trans (zpow_le_zpow_right₀ (by norm_num) (by omega)) hj)
  by_cases h : (2 : ℝ) ^ (j - 1) ≤ |x|
  · obtain ⟨m, hm⟩ := mul x (j - 1) hx h
    have e : j - 1 + 1 - (F.p : ℤ) = j - F.p := by ring
    rw [e] at hn hm
    have hnm : m - n ≠ 0 := by
      intro h0
      apply hne
      rw [hn, hm, show m = n by omega]
    have h1 : (1 : ℝ) ≤ |((m - n : ℤ) : ℝ)| := by exact_mod_cast Int.one_le_abs hnm
    rw [hn, hm, ← sub_mul, abs_mul, abs_of_pos (by positivity : (0 : ℝ) < 2 ^ (j - F.p))]
    push_cast at h1
    exact le_mul_of_one_le_left (by positivity) h1
  · push Not at h
    have h1 : (2 : ℝ) ^ j = 2 * 2 ^ (j - 1) := by rw [zpow_sub_one₀ (by norm_num)]; ring
    have h2 : (2 : ℝ) ^ (j - F.p) ≤ 2 ^ (j - 1) := zpow_le_zpow_right₀ (by norm_num) (by omega)
    have h3 : |y| - |x| ≤ |x - y| := by rw [abs_sub_comm]; exact abs_sub_abs_le_abs_sub y x
    linarith

/-- The upper bound of a rounded conjunction. -/
theorem conj_large (ha : |a| ≤ 2 ^ l) (hb : |b| ≤ 2 ^ l) (hl : F.emin ≤ 2 * l) (hl' : F.emin ≤ l) :
    |F.rndR (F.rndR (a + b) - flHypot F a b)| ≤ 2 ^ (l + 2) := by
  have hh0 : 0 ≤ flHypot F a b := F.rndR_nonneg (Real.sqrt_nonneg _)
  have step : ∀ {i : ℤ}, (2 : ℝ) ^ (i + 1) = 2 * 2 ^ i := by
    intro i; rw [zpow_add_one₀ (by norm_num)]; ring
  have repl : ∀ i : ℤ, F.emin ≤ i → F.Rep (2 ^ i) := fun i hi => F.rep_two_zpow hi
  have ra : F.rndR (a ^ 2) ≤ 2 ^ (2 * l) := F.rndR_le (repl _ (by omega)) (sq_le_of_large ha)
  have rb : F.rndR (b ^ 2) ≤ 2 ^ (2 * l) := F.rndR_le (repl _ (by omega)) (sq_le_of_large hb)
  have rs : F.rndR (F.rndR (a ^ 2) + F.rndR (b ^ 2)) ≤ 2 ^ (2 * l + 1) :=
    F.rndR_le (repl _ (by omega)) (by rw [step]; linarith)
  have rh : flHypot F a b ≤ 2 ^ (l + 1) := by
    refine F.rndR_le (repl _ (by omega)) ?_
    rw [Real.sqrt_le_iff]
    refine ⟨by positivity, rs.trans ?_⟩
    rw [← zpow_natCast, ← zpow_mul]
    exact zpow_le_zpow_right₀ (by norm_num) (by push_cast; omega)
  have rab : |F.rndR (a + b)| ≤ 2 ^ (l + 1) := by
    rw [← F.rndR_abs]
    refine F.rndR_le (repl _ (by omega)) ?_
    rw [step]
    linarith [abs_add_le a b]
  rw [← F.rndR_abs]
  refine F.rndR_le (repl _ (by omega)) ?_
  calc _ ≤ |F.rndR (a + b)| + |flHypot F a b| := abs_sub _ _
    _ ≤ 2 ^ (l + 1 + 1) := by rw [step, abs_of_nonneg hh0]; linarith
    _ = 2 ^ (l + 2) := by congr 1; ring

/-- The range of a rounded conjunction. -/
theorem InRange.conj (ha : InRange F k l a) (hb : InRange F k l b) (hk : F.emin + (F.p - 1) ≤ 2 * (k - F.p))
    (hkl : k ≤ l) (hl : 2 * l + 3 ≤ F.emax) : InRange F (k - F.p) (l + 2) (F.rndR (F.rndR (a + b) - flHypot F a b)) := by
  have hp := F.hp
  have hmin := F.hmin
  have hma := ha.moderate (by omega) hl
  have hmb := hb.moderate (by omega) hl
  have hrepH : F.Rep (flHypot F a b) := F.rep_rndR _
  have hh0 : 0 ≤ flHypot F a b := F.rndR_nonneg (Real.sqrt_nonneg _)
  have hha : |a| ≤ flHypot F a b := by rw [flHypot_comm]; exact le_flHypot F b hma
  have hhb : |b| ≤ flHypot F a b := le_flHypot F a hmb
  refine ⟨F.rep_rndR _, ?_, conj_large ha.large hb.large (by omega) (by omega)⟩
  by_cases h0 : F.rndR (a + b) = flHypot F a b
  · left; rw [h0, sub_self, F.rndR_zero]
  · right
    have hkh : (2 : ℝ) ^ k ≤ flHypot F a b := by
      rcases ha.small with h1 | h1
      · rcases hb.small with h2 | h2
        · exfalso
          apply h0
          rw [h1, h2, flHypot_zero F (h2 ▸ hmb), add_zero, F.rndR_zero, abs_zero]
        · exact h2.trans hhb
      · exact h1.trans hha
    have h3 := rep_sub_ge (F.rep_rndR (a + b)) hrepH (by rwa [abs_of_nonneg hh0]) h0
    rw [← F.rndR_abs]
    exact F.le_rndR (F.rep_two_zpow (by omega)) h3

/-- The range of a rounded conjunction of a computed value with a leaf: the lower end does not become smaller. -/
theorem InRange.conj_leaf (ha : InRange F (k - F.p) l a) (hb : InRange F k l b) (hk : F.emin + (F.p - 1) ≤ 2 * (k - F.p))
    (hkl : k ≤ l) (hl : 2 * l + 3 ≤ F.emax) : InRange F (k - F.p) (l + 2) (F.rndR (F.rndR (a + b) - flHypot F a b)) := by
  have hp := F.hp
  have hmin := F.hmin
  have hma := ha.moderate (by omega) hl
  have hmb := hb.moderate (by omega) hl
  have hh0 : 0 ≤ flHypot F a b := F.rndR_nonneg (Real.sqrt_nonneg _)
  refine ⟨F.rep_rndR _, ?_, conj_large ha.large hb.large (by omega) (by omega)⟩
  by_cases h0 : F.rndR (a + b) = flHypot F a b
  · left; rw [h0, sub_self, F.rndR_zero]
  rcases hb.small with h1 | h1
  · rw [h1, flHypot_zero F hma, add_zero, F.rndR_rep ha.rep]
    rcases le_total 0 a with h2 | h2
    · left; rw [abs_of_nonneg h2, sub_self, F.rndR_zero]
    · rcases ha.small with h3 | h3
      · left; rw [h3, abs_zero, sub_self, F.rndR_zero]
      · right
        rw [← F.rndR_abs]
        refine F.le_rndR (F.rep_two_zpow (by omega)) (h3.trans ?_)
        rw [abs_of_nonpos h2, abs_of_nonpos (by linarith)]
        linarith
  · right
    have hrepH : F.Rep (flHypot F a b) := F.rep_rndR _
    have hkh : (2 : ℝ) ^ k ≤ flHypot F a b := h1.trans (le_flHypot F a hmb)
    have h3 := rep_sub_ge (F.rep_rndR (a + b)) hrepH (by rwa [abs_of_nonneg hh0]) h0
    rw [← F.rndR_abs]
    exact F.le_rndR (F.rep_two_zpow (by omega)) h3

/-- A computed sign is not wrong if it is zero or the exact one. -/
def NotWrong (s t : SignType) : Prop := s = 0 ∨ s = t

instance (s t : SignType) : Decidable (NotWrong s t) := inferInstanceAs (Decidable (_ ∨ _))

theorem NotWrong.neg {s t : SignType} (h : NotWrong s t) : NotWrong (-s) (-t) := by revert s t; decide
theorem NotWrong.min {s t s' t' : SignType} (h : NotWrong s t) (h' : NotWrong s' t') : NotWrong (min s s') (min t t') := by
  revert s t s' t'; decide
theorem NotWrong.max {s t s' t' : SignType} (h : NotWrong s t) (h' : NotWrong s' t') : NotWrong (max s s') (max t t') := by
  revert s t s' t'; decide
theorem NotWrong.trans {s t u : SignType} (h : NotWrong s t) (h' : NotWrong t u) : NotWrong s u := by revert s t u; decide

/-- The sign of a rounded conjunction. -/
theorem notWrong_conj (hp : 4 ≤ F.p) (hma : Moderate F a) (hmb : Moderate F b) :
    NotWrong (SignType.sign (F.rndR (F.rndR (a + b) - flHypot F a b))) (min (SignType.sign a) (SignType.sign b)) := by
  obtain ⟨c, -, hc, -, h1, h2, -, -⟩ := C138_r0_sign F hp hma hmb
  have hc' := (conjFl_zero F hma hmb).1
  rw [hc] at hc'
  cases hc'
  set c := F.rndR (F.rndR (a + b) - flHypot F a b)
  rcases lt_trichotomy c 0 with h | h | h
  · right
    have : a < 0 ∨ b < 0 := by
      by_contra hn
      push Not at hn
      exact absurd (h1 hn) (not_le.mpr h)
    rw [sign_neg h]
    rcases this with h3 | h3 <;> rw [sign_neg h3]
    · generalize SignType.sign b = s; revert s; decide
    · generalize SignType.sign a = s; revert s; decide
  · left; rw [h, sign_zero]
  · right
    have : 0 < a ∧ 0 < b := by
      by_contra hn
      have : a ≤ 0 ∨ b ≤ 0 := by
        by_contra hn2
        push Not at hn2
        exact hn hn2
      exact absurd (h2 this) (not_le.mpr h)
    rw [sign_pos h, sign_pos this.1, sign_pos this.2]
    rfl

/-- One operation. -/
theorem step_conj (hp : 4 ≤ F.p) (ha : InRange F k l a) (hb : InRange F k l b) (hk : F.emin + (F.p - 1) ≤ 2 * (k - F.p))
    (hkl : k ≤ l) (hl : 2 * l + 3 ≤ F.emax) : ∃ c : ℝ, RAlpha.conjFl F 0 (fin a) (fin b) = fin c ∧
      InRange F (k - F.p) (l + 2) c ∧ NotWrong (SignType.sign c) (min (SignType.sign a) (SignType.sign b)) :=
  ⟨_, (conjFl_zero F (ha.moderate (by omega) hl) (hb.moderate (by omega) hl)).1, ha.conj hb hk hkl hl,
    notWrong_conj hp (ha.moderate (by omega) hl) (hb.moderate (by omega) hl)⟩

theorem step_disj (hp : 4 ≤ F.p) (ha : InRange F k l a) (hb : InRange F k l b) (hk : F.emin + (F.p - 1) ≤ 2 * (k - F.p))
    (hkl : k ≤ l) (hl : 2 * l + 3 ≤ F.emax) : ∃ c : ℝ, RAlpha.disjFl F 0 (fin a) (fin b) = fin c ∧
      InRange F (k - F.p) (l + 2) c ∧ NotWrong (SignType.sign c) (max (SignType.sign a) (SignType.sign b)) := by
  have hma := ha.moderate (by omega) hl
  have hmb := hb.moderate (by omega) hl
  obtain ⟨c, h1, h2, h3⟩ := step_conj hp ha.neg hb.neg hk hkl hl
  rw [(conjFl_zero F hma.neg hmb.neg).1] at h1
  cases h1
  refine ⟨_, (conjFl_zero F hma hmb).2, ?_⟩
  have e : F.rndR (F.rndR (a + b) + flHypot F a b) = -F.rndR (F.rndR (-a + -b) - flHypot F (-a) (-b)) := by
    rw [flHypot_neg, ← F.rndR_neg, show -a + -b = -(a + b) by ring, F.rndR_neg (a + b)]
    congr 1; ring
  rw [e]
  refine ⟨h2.neg, ?_⟩
  have h4 := h3.neg
  rw [Left.sign_neg, Left.sign_neg, ← Left.sign_neg] at h4
  convert h4 using 1
  generalize SignType.sign a = s
  generalize SignType.sign b = t
  revert s t; decide

end

/-- A tree of set operations built with `r0` in floating point arithmetic never has the wrong sign: where the leaves are computed
numbers `v`, the computed value is a number whose sign is zero or the value of the expression in three valued logic. The leaves are
zero or between `2 ^ k` and `2 ^ l`; the deeper the tree the wider the range of exponents has to be. -/
theorem C140_csg {ι : Type*} {n : ℕ} (F : Fmt) (hp : 4 ≤ F.p) (k l : ℤ) (leaf : ι → ADF n) (x : Vec n) (v : ι → ℝ)
    (hv : ∀ i, leaf i x = fin (v i)) (hr : ∀ i, InRange F k l (v i)) (hkl : k ≤ l) (e : SetExpr ι)
    (hk : F.emin + (F.p - 1) ≤ 2 * (k - F.p * e.levels)) (hl : 2 * (l + 2 * e.levels) + 3 ≤ F.emax) :
    ∃ c : ℝ, e.build (RAlpha.sysFl F 0) leaf x = fin c ∧ F.Rep c ∧
      (c = 0 ∨ SignType.sign c = e.kleene fun i => SignType.sign (v i)) ∧
      ((∀ i, v i ≠ 0) → (0 < c → e.mem fun i => 0 < v i) ∧ (c < 0 → ¬ e.mem fun i => 0 < v i)) := by
  have lift : ∀ {e₁ e₂ : SetExpr ι} {L : ℕ}, F.emin + ((F.p : ℤ) - 1) ≤ 2 * (k - F.p * L) → 2 * (l + 2 * L) + 3 ≤ (F.emax : ℤ) →
      ∀ j : ℤ, 0 ≤ j → (L : ℤ) = max (e₁.levels : ℤ) e₂.levels + j →
      (F.emin + ((F.p : ℤ) - 1) ≤ 2 * (k - F.p * e₁.levels) → 2 * (l + 2 * (e₁.levels : ℤ)) + 3 ≤ F.emax → ∃ c : ℝ,
        e₁.build (RAlpha.sysFl F 0) leaf x = fin c ∧ InRange F (k - F.p * e₁.levels) (l + 2 * e₁.levels) c ∧
        NotWrong (SignType.sign c) (e₁.kleene fun i => SignType.sign (v i))) →
      (F.emin + ((F.p : ℤ) - 1) ≤ 2 * (k - F.p * e₂.levels) → 2 * (l + 2 * (e₂.levels : ℤ)) + 3 ≤ F.emax → ∃ c : ℝ,
        e₂.build (RAlpha.sysFl F 0) leaf x = fin c ∧ InRange F (k - F.p * e₂.levels) (l + 2 * e₂.levels) c ∧
        NotWrong (SignType.sign c) (e₂.kleene fun i => SignType.sign (v i))) →
      ∃ (a b : ℝ) (K M : ℤ), e₁.build (RAlpha.sysFl F 0) leaf x = fin a ∧ e₂.build (RAlpha.sysFl F 0) leaf x = fin b ∧
        InRange F K M a ∧ InRange F K M b ∧
        NotWrong (SignType.sign a) (e₁.kleene fun i => SignType.sign (v i)) ∧
        NotWrong (SignType.sign b) (e₂.kleene fun i => SignType.sign (v i)) ∧
        F.emin + ((F.p : ℤ) - 1) ≤ 2 * (K - F.p * j) ∧ 2 * (M + 2 * j) + 3 ≤ F.emax ∧
        K ≤ M ∧ k - (F.p : ℤ) * L ≤ K - F.p * j ∧ M + 2 * j ≤ l + 2 * L := by
    intro e₁ e₂ L hk hl j hj hL ih₁ ih₂
    have hm1 : (e₁.levels : ℤ) ≤ L - j := by omega
    have hm2 : (e₂.levels : ℤ) ≤ L - j := by omega
    have hp0 : (0 : ℤ) ≤ F.p := by omega
    have m1 := mul_le_mul_of_nonneg_left hm1 hp0
    have m2 := mul_le_mul_of_nonneg_left hm2 hp0
    have m3 : (0 : ℤ) ≤ F.p * j := mul_nonneg hp0 hj
    have m4 : (F.p : ℤ) * (L - j) = F.p * L - F.p * j := by ring
    have m5 : (0 : ℤ) ≤ F.p * (L - j) := mul_nonneg hp0 (by omega)
    obtain ⟨a, ha, ra, sa⟩ := ih₁ (by linarith) (by linarith)
    obtain ⟨b, hb, rb, sb⟩ := ih₂ (by linarith) (by linarith)
    exact ⟨a, b, k - F.p * (L - j), l + 2 * (L - j), ha, hb, ra.mono (by linarith) (by linarith), rb.mono (by linarith) (by linarith), sa, sb, by linarith,
      by linarith, by linarith, by linarith, by linarith⟩
  have key : ∀ e : SetExpr ι, F.emin + ((F.p : ℤ) - 1) ≤ 2 * (k - F.p * e.levels) → 2 * (l + 2 * e.levels) + 3 ≤ F.emax →
      ∃ c : ℝ, e.build (RAlpha.sysFl F 0) leaf x = fin c ∧ InRange F (k - F.p * e.levels) (l + 2 * e.levels) c ∧
      NotWrong (SignType.sign c) (e.kleene fun i => SignType.sign (v i)) := by
    intro e
    induction e with
    | leaf i =>
      intro _ _
      exact ⟨v i, hv i, (hr i).mono (by simp [SetExpr.levels]) (by simp [SetExpr.levels]), Or.inr rfl⟩
    | compl e ih =>
      intro hk hl
      obtain ⟨c, h1, h2, h3⟩ := ih hk hl
      refine ⟨-c, ?_, h2.neg, ?_⟩
      · show -(e.build _ leaf x) = _
        rw [h1, fin_neg]
      · rw [Left.sign_neg]; exact h3.neg
    | union e₁ e₂ ih₁ ih₂ =>
      intro hk hl
      obtain ⟨a, b, K, M, ha, hb, ra, rb, sa, sb, hk', hl', hkl', ek, el⟩ := lift hk hl 1 (by norm_num) (by simp [SetExpr.levels]) ih₁ ih₂
      obtain ⟨c, h1, h2, h3⟩ := step_disj hp ra rb (by linarith) hkl' (by linarith)
      refine ⟨c, ?_, h2.mono (by linarith) (by linarith), h3.trans (sa.max sb)⟩
      show RAlpha.disjFl F 0 _ _ = _
      rw [ha, hb, h1]
    | inter e₁ e₂ ih₁ ih₂ =>
      intro hk hl
      obtain ⟨a, b, K, M, ha, hb, ra, rb, sa, sb, hk', hl', hkl', ek, el⟩ := lift hk hl 1 (by norm_num) (by simp [SetExpr.levels]) ih₁ ih₂
      obtain ⟨c, h1, h2, h3⟩ := step_conj hp ra rb (by linarith) hkl' (by linarith)
      refine ⟨c, ?_, h2.mono (by linarith) (by linarith), h3.trans (sa.min sb)⟩
      show RAlpha.conjFl F 0 _ _ = _
      rw [ha, hb, h1]
    | diff e₁ e₂ ih₁ ih₂ =>
      intro hk hl
      obtain ⟨a, b, K, M, ha, hb, ra, rb, sa, sb, hk', hl', hkl', ek, el⟩ := lift hk hl 1 (by norm_num) (by simp [SetExpr.levels]) ih₁ ih₂
      obtain ⟨c, h1, h2, h3⟩ := step_conj hp ra rb.neg (by linarith) hkl' (by linarith)
      rw [Left.sign_neg] at h3
      refine ⟨c, ?_, h2.mono (by linarith) (by linarith), h3.trans (sa.min sb.neg)⟩
      show RAlpha.conjFl F 0 _ (- _) = _
      rw [ha, hb, fin_neg, h1]
    | impl e₁ e₂ ih₁ ih₂ =>
      intro hk hl
      obtain ⟨a, b, K, M, ha, hb, ra, rb, sa, sb, hk', hl', hkl', ek, el⟩ := lift hk hl 1 (by norm_num) (by simp [SetExpr.levels]) ih₁ ih₂
      obtain ⟨c, h1, h2, h3⟩ := step_disj hp ra.neg rb (by linarith) hkl' (by linarith)
      rw [Left.sign_neg] at h3
      refine ⟨c, ?_, h2.mono (by linarith) (by linarith), h3.trans (sa.neg.max sb)⟩
      show RAlpha.disjFl F 0 (- _) _ = _
      rw [ha, hb, fin_neg, h1]
    | equiv e₁ e₂ ih₁ ih₂ =>
      intro hk hl
      obtain ⟨a, b, K, M, ha, hb, ra, rb, sa, sb, hk', hl', hkl', ek, el⟩ := lift hk hl 2 (by norm_num) (by simp [SetExpr.levels]) ih₁ ih₂
      obtain ⟨c, h1, h2, h3⟩ := step_disj hp ra rb.neg (by linarith [F.hp]) hkl' (by linarith)
      obtain ⟨d, h4, h5, h6⟩ := step_disj hp ra.neg rb (by linarith [F.hp]) hkl' (by linarith)
      obtain ⟨r, h7, h8, h9⟩ := step_conj hp h2 h5 (by linarith) (by omega) (by linarith)
      rw [Left.sign_neg] at h3 h6
      refine ⟨r, ?_, h8.mono (by linarith) (by linarith), ?_⟩
      · show RAlpha.conjFl F 0 (RAlpha.disjFl F 0 _ (- _)) (RAlpha.disjFl F 0 (- _) _) = _
        rw [ha, hb, fin_neg, fin_neg, h1, h4, h7]
      · have h10 := h9.trans ((h3.trans (sa.max sb.neg)).min (h6.trans (sa.neg.max sb)))
        convert h10 using 1
        simp only [SetExpr.kleene]
        generalize e₁.kleene _ = s
        generalize e₂.kleene _ = t
        revert s t; decide
    | symmDiff e₁ e₂ ih₁ ih₂ =>
      intro hk hl
      obtain ⟨a, b, K, M, ha, hb, ra, rb, sa, sb, hk', hl', hkl', ek, el⟩ := lift hk hl 2 (by norm_num) (by simp [SetExpr.levels]) ih₁ ih₂
      obtain ⟨c, h1, h2, h3⟩ := step_conj hp ra rb.neg (by linarith [F.hp]) hkl' (by linarith)
      obtain ⟨d, h4, h5, h6⟩ := step_conj hp ra.neg rb (by linarith [F.hp]) hkl' (by linarith)
      obtain ⟨r, h7, h8, h9⟩ := step_disj hp h2 h5 (by linarith) (by omega) (by linarith)
      rw [Left.sign_neg] at h3 h6
      refine ⟨r, ?_, h8.mono (by linarith) (by linarith), ?_⟩
      · show RAlpha.disjFl F 0 (RAlpha.conjFl F 0 _ (- _)) (RAlpha.conjFl F 0 (- _) _) = _
        rw [ha, hb, fin_neg, fin_neg, h1, h4, h7]
      · have h10 := h9.trans ((h3.trans (sa.min sb.neg)).max (h6.trans (sa.neg.min sb)))
        convert h10 using 1
        simp only [SetExpr.kleene]
        generalize e₁.kleene _ = s
        generalize e₂.kleene _ = t
        revert s t; decide
  obtain ⟨c, h1, h2, h3⟩ := key e hk hl
  have h3' : c = 0 ∨ SignType.sign c = e.kleene fun i => SignType.sign (v i) := h3.imp_left sign_eq_zero_iff.mp
  refine ⟨c, h1, h2.rep, h3', fun hne => ?_⟩
  obtain ⟨h4, h5⟩ := SetExpr.kleene_of_ne_zero (fun i => SignType.sign (v i)) (fun i => by simpa using hne i) e
  simp only [sign_eq_one_iff] at h5
  rw [← h5]
  constructor
  · intro hc
    rw [← h3'.resolve_left hc.ne', sign_pos hc]
  · intro hc
    rw [← h3'.resolve_left hc.ne, sign_neg hc]
    decide

/-- A union without a third solid in double precision at a point where the computed leaves are `1`, `-2` and `-3`. -/
example (x : Vec 2) : ∃ c : ℝ, (SetExpr.diff (.union (.leaf 0) (.leaf 1)) (.leaf 2)).build (RAlpha.sysFl Fmt.double 0)
    (fun (i : Fin 3) (_ : Vec 2) => fin (![1, -2, -3] i)) x = fin c ∧ ¬ c < 0 := by
  have hr : ∀ i : Fin 3, InRange Fmt.double (-200) 100 (![1, -2, -3] i) := by
    intro i
    fin_cases i
    · exact ⟨⟨1, 0, by norm_num [Fmt.double], by decide, by norm_num⟩, Or.inr (by norm_num), by norm_num⟩
    · exact ⟨⟨-2, 0, by norm_num [Fmt.double], by decide, by norm_num⟩, Or.inr (by norm_num), by norm_num⟩
    · exact ⟨⟨-3, 0, by norm_num [Fmt.double], by decide, by norm_num⟩, Or.inr (by norm_num), by norm_num⟩
  obtain ⟨c, h1, -, -, h2⟩ := C140_csg Fmt.double (by decide) (-200) 100 (fun (i : Fin 3) (_ : Vec 2) => fin (![1, -2, -3] i)) x _
    (fun _ => rfl) hr (by norm_num) (.diff (.union (.leaf 0) (.leaf 1)) (.leaf 2)) (by decide) (by decide)
  refine ⟨c, h1, fun h => (h2 (by intro i; fin_cases i <;> norm_num)).2 h ?_⟩
  simp [SetExpr.mem]

end Verif
