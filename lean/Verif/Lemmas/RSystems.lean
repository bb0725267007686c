import Verif.Model.RFun
import Verif.Num.Alg
import Verif.Spec.Solid

/-! # Real-number facts behind the R-function systems (helpers) -/

namespace Verif

open XR

theorem sign_eq_min_of {a b c : ℝ} (hp : 0 < c ↔ 0 < a ∧ 0 < b) (hn : c < 0 ↔ a < 0 ∨ b < 0) :
    SignType.sign c = min (SignType.sign a) (SignType.sign b) := by
  rcases lt_trichotomy c 0 with h | h | h
  · rw [sign_neg h]
    rcases hn.mp h with h' | h' <;> rw [sign_neg h']
    · generalize SignType.sign b = y; revert y; decide
    · generalize SignType.sign a = y; revert y; decide
  · have h1 : ¬ (0 < a ∧ 0 < b) := fun h' => absurd (hp.mpr h') (by simp [h])
    have h2 : ¬ (a < 0 ∨ b < 0) := fun h' => absurd (hn.mpr h') (by simp [h])
    push Not at h1 h2
    subst h
    rw [sign_zero]
    rcases h2.1.eq_or_lt with h3 | h3
    · rw [← h3, sign_zero]
      rcases h2.2.eq_or_lt with h4 | h4
      · rw [← h4, sign_zero]; decide
      · rw [sign_pos h4]; decide
    · have : b = 0 := le_antisymm (h1 h3) h2.2
      rw [this, sign_zero, sign_pos h3]; decide
  · obtain ⟨h1, h2⟩ := hp.mp h
    rw [sign_pos h, sign_pos h1, sign_pos h2]; decide

theorem sign_neg_min (x y : SignType) : -min (-x) (-y) = max x y := by
  revert x y; decide

/-- The disjunction inherits the sign law when it is the De Morgan dual of the conjunction. -/
theorem signLaw_of_conj {conj disj : XR → XR → XR}
    (h : ∀ a b : ℝ, ∃ c : ℝ, conj (fin a) (fin b) = fin c ∧
      (0 < c ↔ 0 < a ∧ 0 < b) ∧ (c < 0 ↔ a < 0 ∨ b < 0))
    (hd : ∀ a b : XR, disj a b = -conj (-a) (-b)) : SignLaw conj disj := by
  refine ⟨fun a b => ?_, fun a b => ?_⟩
  · obtain ⟨c, h1, h2, h3⟩ := h a b
    exact ⟨c, h1, sign_eq_min_of h2 h3⟩
  · obtain ⟨c, h1, h2, h3⟩ := h (-a) (-b)
    refine ⟨-c, by rw [hd, fin_neg, fin_neg, h1, fin_neg], ?_⟩
    rw [Left.sign_neg, sign_eq_min_of h2 h3, Left.sign_neg, Left.sign_neg, sign_neg_min]

/-! ### The radicand of `R_α` -/

theorem alpha_radicand_nonneg {α : ℝ} (h1 : -1 < α) (h2 : α ≤ 1) (a b : ℝ) :
    0 ≤ a ^ 2 + b ^ 2 - 2 * α * a * b := by
  nlinarith [sq_nonneg (a - b), sq_nonneg (a + b), mul_nonneg (by linarith : 0 ≤ 1 + α) (sq_nonneg (a - b)),
    mul_nonneg (by linarith : 0 ≤ 1 - α) (sq_nonneg (a + b))]

theorem RAlpha.conj_fin {α : ℝ} (h1 : -1 < α) (h2 : α ≤ 1) (a b : ℝ) :
    RAlpha.conj α (fin a) (fin b) =
      fin (1 / (1 + α) * (a + b - Real.sqrt (a ^ 2 + b ^ 2 - 2 * α * a * b))) := by
  have h3 : 1 + α ≠ 0 := by linarith
  simp only [RAlpha.conj, one_eq, lit_eq, fin_add, fin_mul, fin_npow, fin_sub,
    fin_sqrt (alpha_radicand_nonneg h1 h2 a b), fin_div _ h3]

theorem RAlpha.disj_fin {α : ℝ} (h1 : -1 < α) (h2 : α ≤ 1) (a b : ℝ) :
    RAlpha.disj α (fin a) (fin b) =
      fin (1 / (1 + α) * (a + b + Real.sqrt (a ^ 2 + b ^ 2 - 2 * α * a * b))) := by
  have h3 : 1 + α ≠ 0 := by linarith
  simp only [RAlpha.disj, one_eq, lit_eq, fin_add, fin_mul, fin_npow, fin_sub,
    fin_sqrt (alpha_radicand_nonneg h1 h2 a b), fin_div _ h3]

theorem alpha_conj_pos {α : ℝ} (h1 : -1 < α) {a b : ℝ} (ha : 0 < a) (hb : 0 < b) :
    Real.sqrt (a ^ 2 + b ^ 2 - 2 * α * a * b) < a + b := by
  rw [Real.sqrt_lt' (by linarith)]
  nlinarith [mul_pos (mul_pos ha hb) (by linarith : 0 < 1 + α)]

theorem alpha_conj_neg {α : ℝ} (h1 : -1 < α) {a b : ℝ} (h : a < 0 ∨ b < 0) :
    a + b < Real.sqrt (a ^ 2 + b ^ 2 - 2 * α * a * b) := by
  rcases lt_or_ge (a + b) 0 with hs | hs
  · exact hs.trans_le (Real.sqrt_nonneg _)
  · rw [Real.lt_sqrt hs]
    have hab : a * b < 0 := by
      rcases h with h | h
      · exact mul_neg_of_neg_of_pos h (by linarith)
      · exact mul_neg_of_pos_of_neg (by linarith) h
    nlinarith [mul_neg_of_neg_of_pos hab (by linarith : 0 < 1 + α)]

theorem alpha_conj_zero {α : ℝ} {a b : ℝ} (ha : 0 ≤ a) (hb : 0 ≤ b) (h : a = 0 ∨ b = 0) :
    Real.sqrt (a ^ 2 + b ^ 2 - 2 * α * a * b) = a + b := by
  rcases h with h | h <;> subst h
  · rw [show (0 : ℝ) ^ 2 + b ^ 2 - 2 * α * 0 * b = b ^ 2 by ring, Real.sqrt_sq hb, zero_add]
  · rw [show a ^ 2 + (0 : ℝ) ^ 2 - 2 * α * a * 0 = a ^ 2 by ring, Real.sqrt_sq ha, add_zero]

/-- Signs of `a + b - root` given the three case lemmas. -/
theorem sign_cases {a b root : ℝ} (hp : 0 < a → 0 < b → root < a + b)
    (hn : a < 0 ∨ b < 0 → a + b < root) (hz : 0 ≤ a → 0 ≤ b → a = 0 ∨ b = 0 → root = a + b) :
    (0 < a + b - root ↔ 0 < a ∧ 0 < b) ∧ (a + b - root < 0 ↔ a < 0 ∨ b < 0) := by
  rcases em (a < 0 ∨ b < 0) with h | h
  · have h1 := hn h
    refine ⟨⟨fun h2 => by linarith, fun h2 => ?_⟩, ⟨fun _ => h, fun _ => by linarith⟩⟩
    rcases h with h | h <;> linarith [h2.1, h2.2]
  · have h' := h
    push Not at h'
    rcases em (a = 0 ∨ b = 0) with h3 | h3
    · have h4 := hz h'.1 h'.2 h3
      refine ⟨⟨fun h2 => by linarith, fun h2 => ?_⟩, ⟨fun _ => by linarith, fun h2 => absurd h2 h⟩⟩
      rcases h3 with h3 | h3 <;> linarith [h2.1, h2.2]
    · push Not at h3
      have ha : 0 < a := lt_of_le_of_ne h'.1 (Ne.symm h3.1)
      have hb : 0 < b := lt_of_le_of_ne h'.2 (Ne.symm h3.2)
      have h4 := hp ha hb
      exact ⟨⟨fun _ => ⟨ha, hb⟩, fun _ => by linarith⟩, ⟨fun _ => by linarith, fun h2 => absurd h2 h⟩⟩

theorem sign_cases_mul {c d : ℝ} (hc : 0 < c) {P Q : Prop} (h : (0 < d ↔ P) ∧ (d < 0 ↔ Q)) :
    (0 < c * d ↔ P) ∧ (c * d < 0 ↔ Q) := by
  refine ⟨?_, ?_⟩
  · rw [← h.1]; exact mul_pos_iff_of_pos_left hc
  · rw [← h.2]
    constructor
    · intro h1; by_contra h2; push Not at h2; linarith [mul_nonneg hc.le h2]
    · intro h1; exact mul_neg_of_pos_of_neg hc h1

/-! ### De Morgan duality as written in the code -/

theorem RAlpha.disj_dual (α : ℝ) (a b : XR) : RAlpha.disj α a b = -RAlpha.conj α (-a) (-b) := by
  simp only [RAlpha.disj, RAlpha.conj, neg_sq', sub_eq, mul_neg, neg_mul, neg_neg]
  rw [← neg_add', ← neg_add', mul_neg, neg_neg]

theorem RAlphaM.disj_dual (m α : ℝ) (a b : XR) :
    RAlphaM.disj m α a b = -RAlphaM.conj m α (-a) (-b) := by
  simp only [RAlphaM.disj, RAlphaM.conj, neg_sq', sub_eq, mul_neg, neg_mul, neg_neg]
  rw [← neg_add', ← neg_add', mul_neg, neg_mul, neg_neg]

theorem zpow_neg_even {p : ℤ} (hp : p % 2 = 0) (a : XR) : zpow (-a) p = zpow a p := by
  have key : ∀ n : ℕ, n % 2 = 0 → (-a) ^ n = a ^ n := by
    intro n
    induction n using Nat.strong_induction_on with
    | _ n ih =>
      intro hn
      match n, hn with
      | 0, _ => rfl
      | 1, h => omega
      | k + 2, h =>
        show npow (-a) k * -a * -a = npow a k * a * a
        rw [show npow (-a) k = npow a k from ih k (by omega) (by omega)]
        simp
  rcases p with n | n
  · exact key n (by simp only [Int.ofNat_eq_natCast] at hp; omega)
  · show 1 / (-a) ^ (n + 1) = 1 / a ^ (n + 1)
    rw [key (n + 1) (by rw [Int.negSucc_eq] at hp; omega)]

theorem RP.disj_dual {p : ℤ} (hp : p % 2 = 0) (a b : XR) :
    RP.disj p a b = -RP.conj p (-a) (-b) := by
  simp only [RP.disj, RP.conj, zpow_neg_even hp, sub_eq, neg_add', neg_neg]

theorem RhoBlending.disj_dual (rho : ℝ) (a b : XR) :
    RhoBlending.disj rho a b = -RhoBlending.conj rho (-a) (-b) := by
  simp only [RhoBlending.disj, RhoBlending.conj, neg_sq', sub_eq, neg_add', neg_neg]

/-! ### The root of `R_p` -/

theorem pow_add_lt {a b : ℝ} (ha : 0 < a) (hb : 0 < b) : ∀ n : ℕ, 2 ≤ n → a ^ n + b ^ n < (a + b) ^ n := by
  intro n hn
  induction n, hn using Nat.le_induction with
  | base => nlinarith [mul_pos ha hb]
  | succ n hn ih =>
    have h1 : 0 < a ^ n := pow_pos ha n
    have h2 : 0 < b ^ n := pow_pos hb n
    rw [pow_succ, pow_succ, pow_succ]
    nlinarith [mul_pos h1 hb, mul_pos h2 ha, mul_lt_mul_of_pos_right ih (by linarith : 0 < a + b)]

/-- `(a^p + b^p)^(1/p)`. -/
noncomputable def pRoot (p : ℕ) (a b : ℝ) : ℝ := (a ^ p + b ^ p) ^ (1 / (p : ℝ))

theorem even_pow_nonneg {p : ℕ} (hp : p % 2 = 0) (a : ℝ) : 0 ≤ a ^ p :=
  (Nat.even_iff.mpr hp).pow_nonneg a

theorem pRoot_pow {p : ℕ} (hp : p % 2 = 0) (hp0 : 2 ≤ p) (a b : ℝ) : pRoot p a b ^ p = a ^ p + b ^ p := by
  have h : 0 ≤ a ^ p + b ^ p := add_nonneg (even_pow_nonneg hp a) (even_pow_nonneg hp b)
  unfold pRoot
  rw [one_div, Real.rpow_inv_natCast_pow h (by omega)]

theorem pRoot_nonneg {p : ℕ} (hp : p % 2 = 0) (a b : ℝ) : 0 ≤ pRoot p a b :=
  Real.rpow_nonneg (add_nonneg (even_pow_nonneg hp a) (even_pow_nonneg hp b)) _

theorem RP.conj_fin {p : ℕ} (hp : p % 2 = 0) (a b : ℝ) :
    RP.conj p (fin a) (fin b) = fin (a + b - pRoot p a b) := by
  have h : 0 ≤ a ^ p + b ^ p := add_nonneg (even_pow_nonneg hp a) (even_pow_nonneg hp b)
  show fin a + fin b - rpow (fin a ^ p + fin b ^ p) _ = _
  simp only [fin_npow, fin_add]
  rw [fin_rpow' h (by positivity), fin_sub]
  simp [pRoot]

theorem RP.disj_fin {p : ℕ} (hp : p % 2 = 0) (a b : ℝ) :
    RP.disj p (fin a) (fin b) = fin (a + b + pRoot p a b) := by
  have h : 0 ≤ a ^ p + b ^ p := add_nonneg (even_pow_nonneg hp a) (even_pow_nonneg hp b)
  show fin a + fin b + rpow (fin a ^ p + fin b ^ p) _ = _
  simp only [fin_npow, fin_add]
  rw [fin_rpow' h (by positivity), fin_add]
  simp [pRoot]

theorem le_pRoot_right {p : ℕ} (hp : p % 2 = 0) (hp0 : 2 ≤ p) (a b : ℝ) : |b| ≤ pRoot p a b := by
  have h := pRoot_pow hp hp0 a b
  refine le_of_pow_le_pow_left₀ (n := p) (by omega) (pRoot_nonneg hp a b) ?_
  rw [h, (Nat.even_iff.mpr hp).pow_abs]
  linarith [even_pow_nonneg hp a]

theorem pRoot_comm (p : ℕ) (a b : ℝ) : pRoot p a b = pRoot p b a := by
  unfold pRoot; rw [add_comm]

theorem pRoot_zero_left {p : ℕ} (hp0 : 2 ≤ p) {b : ℝ} (hb : 0 ≤ b) : pRoot p 0 b = b := by
  unfold pRoot
  rw [zero_pow (by omega), zero_add, one_div, Real.pow_rpow_inv_natCast hb (by omega)]

theorem RP.sign_aux {p : ℕ} (hp : p % 2 = 0) (hp0 : 2 ≤ p) (a b : ℝ) :
    (0 < a + b - pRoot p a b ↔ 0 < a ∧ 0 < b) ∧ (a + b - pRoot p a b < 0 ↔ a < 0 ∨ b < 0) := by
  apply sign_cases
  · intro ha hb
    refine lt_of_pow_lt_pow_left₀ p (by linarith) ?_
    rw [pRoot_pow hp hp0]
    exact pow_add_lt ha hb p hp0
  · rintro (h | h)
    · linarith [le_pRoot_right hp hp0 a b, le_abs_self b]
    · have := le_pRoot_right hp hp0 b a
      rw [pRoot_comm] at this
      linarith [le_abs_self a]
  · rintro ha hb (rfl | rfl)
    · rw [pRoot_zero_left hp0 hb, zero_add]
    · rw [pRoot_comm, pRoot_zero_left hp0 ha, add_zero]

theorem RAlphaM.conj_fin {m α : ℝ} (h1 : -1 < α) (h2 : α ≤ 1) {a b : ℝ}
    (h : 0 < a ^ 2 + b ^ 2 ∨ 0 ≤ m) :
    RAlphaM.conj m α (fin a) (fin b) =
      fin (1 / (1 + α) * (a + b - Real.sqrt (a ^ 2 + b ^ 2 - 2 * α * a * b)) *
        (a ^ 2 + b ^ 2) ^ (m / 2)) := by
  have h3 : 1 + α ≠ 0 := by linarith
  have h4 : rpow (fin (a ^ 2 + b ^ 2)) (m / 2) = fin ((a ^ 2 + b ^ 2) ^ (m / 2)) := by
    rcases h with h | h
    · exact fin_rpow h _
    · exact fin_rpow' (by positivity) (by linarith)
  simp only [RAlphaM.conj, one_eq, lit_eq, fin_add, fin_mul, fin_npow, fin_sub,
    fin_sqrt (alpha_radicand_nonneg h1 h2 a b), fin_div _ h3, h4]

end Verif
