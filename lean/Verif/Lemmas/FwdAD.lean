import Verif.Spec.FwdAD
import Verif.Props.RSystems
import Verif.Lemmas.Steihaug
import Mathlib.Analysis.InnerProductSpace.Calculus
import Mathlib.Analysis.SpecialFunctions.Sqrt
import Mathlib.Analysis.Calculus.FDeriv.Mul
import Mathlib.Analysis.Calculus.Deriv.Abs
import Mathlib.Analysis.SpecialFunctions.Pow.Deriv

/-! # Lemmas about forward differentiation -/

namespace Verif

open XR

section
variable {E : Type*} [NormedAddCommGroup E] [NormedSpace ℝ E]

variable {d e : E → Dual} {f g : E → ℝ} {x : E}

theorem IsAD.add (hd : IsAD d f x) (he : IsAD e g x) : IsAD (fun v => d v + e v) (fun y => f y + g y) x := by
  obtain ⟨f', h1, h2⟩ := hd
  obtain ⟨g', h3, h4⟩ := he
  refine ⟨f' + g', h1.add h3, fun v => ?_⟩
  beta_reduce
  rw [h2, h4]
  show Dual.mk (_ + _) (_ + _) = _
  simp

theorem IsAD.sub (hd : IsAD d f x) (he : IsAD e g x) : IsAD (fun v => d v - e v) (fun y => f y - g y) x := by
  obtain ⟨f', h1, h2⟩ := hd
  obtain ⟨g', h3, h4⟩ := he
  refine ⟨f' - g', h1.sub h3, fun v => ?_⟩
  beta_reduce
  rw [h2, h4]
  show Dual.mk (_ - _) (_ - _) = _
  simp

theorem IsAD.neg (hd : IsAD d f x) : IsAD (fun v => -d v) (fun y => -f y) x := by
  obtain ⟨f', h1, h2⟩ := hd
  refine ⟨-f', h1.neg, fun v => ?_⟩
  beta_reduce
  rw [h2]
  show Dual.mk (-_) (-_) = _
  simp

theorem IsAD.mul (hd : IsAD d f x) (he : IsAD e g x) : IsAD (fun v => d v * e v) (fun y => f y * g y) x := by
  obtain ⟨f', h1, h2⟩ := hd
  obtain ⟨g', h3, h4⟩ := he
  refine ⟨_, h1.mul h3, fun v => ?_⟩
  beta_reduce
  rw [h2, h4]
  show Dual.mk (_ * _) (_ * _ + _ * _) = _
  simp
  ring

theorem IsAD.cmul (hd : IsAD d f x) (c : ℝ) : IsAD (fun v => (d v).cmul (fin c)) (fun y => c * f y) x := by
  obtain ⟨f', h1, h2⟩ := hd
  refine ⟨c • f', h1.const_mul c, fun v => ?_⟩
  beta_reduce
  rw [h2]
  simp [Dual.cmul]

theorem IsAD.subFrom (hd : IsAD d f x) (c : ℝ) : IsAD (fun v => (d v).subFrom (fin c)) (fun y => c - f y) x := by
  obtain ⟨f', h1, h2⟩ := hd
  refine ⟨-f', h1.const_sub c, fun v => ?_⟩
  beta_reduce
  rw [h2]
  simp [Dual.subFrom]

theorem IsAD.subc (hd : IsAD d f x) (c : ℝ) : IsAD (fun v => (d v).subc (fin c)) (fun y => f y - c) x := by
  obtain ⟨f', h1, h2⟩ := hd
  refine ⟨f', h1.sub_const c, fun v => ?_⟩
  beta_reduce
  rw [h2]
  simp [Dual.subc]

theorem IsAD.divc (hd : IsAD d f x) {c : ℝ} (hc : c ≠ 0) : IsAD (fun v => (d v).divc (fin c)) (fun y => f y / c) x := by
  obtain ⟨f', h1, h2⟩ := hd
  refine ⟨c⁻¹ • f', ?_, fun v => ?_⟩
  · have := h1.const_mul c⁻¹
    simpa [div_eq_inv_mul] using this
  · beta_reduce
    rw [h2]
    simp [Dual.divc, fin_div _ hc, div_eq_inv_mul]

theorem IsAD.sq (hd : IsAD d f x) : IsAD (fun v => (d v).sq) (fun y => f y ^ 2) x := by
  obtain ⟨f', h1, h2⟩ := hd
  refine ⟨_, h1.pow 2, fun v => ?_⟩
  beta_reduce
  rw [h2]
  simp [Dual.sq, lit_eq]
  ring

theorem IsAD.sqrt (hd : IsAD d f x) (h0 : 0 < f x) : IsAD (fun v => (d v).sqrt) (fun y => Real.sqrt (f y)) x := by
  obtain ⟨f', h1, h2⟩ := hd
  refine ⟨_, h1.sqrt h0.ne', fun v => ?_⟩
  have hs : Real.sqrt (f x) ≠ 0 := (Real.sqrt_pos.mpr h0).ne'
  beta_reduce
  rw [h2]
  simp only [Dual.sqrt, fin_sqrt h0.le, one_eq, lit_eq, _root_.smul_apply, smul_eq_mul]
  rw [fin_div _ (by norm_num), fin_div _ hs, fin_mul]
  congr 2
  field_simp

theorem IsAD.abs (hd : IsAD d f x) (h0 : f x ≠ 0) : IsAD (fun v => (d v).abs) (fun y => |f y|) x := by
  obtain ⟨f', h1, h2⟩ := hd
  refine ⟨(SignType.sign (f x) : ℝ) • f', ?_, fun v => ?_⟩
  · exact (hasDerivAt_abs h0).comp_hasFDerivAt x h1
  · beta_reduce
    rw [h2]
    rcases lt_or_gt_of_ne h0 with h | h
    · simp [Dual.abs, XR.jsign, h, not_lt.mpr h.le]
    · simp [Dual.abs, XR.jsign, h]

theorem IsAD.rpow (hd : IsAD d f x) (h0 : 0 < f x) (y : ℝ) : IsAD (fun v => (d v).rpow y) (fun z => f z ^ y) x := by
  obtain ⟨f', h1, h2⟩ := hd
  refine ⟨(y * f x ^ (y - 1)) • f', (Real.hasDerivAt_rpow_const (Or.inl h0.ne')).comp_hasFDerivAt x h1, fun v => ?_⟩
  beta_reduce
  rw [h2]
  by_cases hy : y = 0
  · simp [Dual.rpow, fin_rpow h0, hy]
  · simp only [Dual.rpow, fin_rpow h0, if_neg hy, fin_mul, _root_.smul_apply, smul_eq_mul]
    rw [mul_comm]


theorem IsAD.mulc (hd : IsAD d f x) (c : ℝ) : IsAD (fun v => (d v).mulc (fin c)) (fun y => f y * c) x := by
  obtain ⟨f', h1, h2⟩ := hd
  refine ⟨c • f', h1.mul_const c, fun v => ?_⟩
  beta_reduce
  rw [h2]
  simp [Dual.mulc, mul_comm]

theorem IsAD.npow (hd : IsAD d f x) (n : ℕ) : IsAD (fun v => (d v).npow n) (fun y => f y ^ n) x := by
  obtain ⟨f', h1, h2⟩ := hd
  refine ⟨_, h1.pow n, fun v => ?_⟩
  beta_reduce
  rw [h2]
  simp [Dual.npow]
  ring

theorem IsAD.congr (hd : IsAD d f x) {e : E → Dual} (he : ∀ v, e v = d v) {g : E → ℝ} (hg : ∀ y, g y = f y) : IsAD e g x := by
  have h1 : e = d := funext he
  have h2 : g = f := funext hg
  rw [h1, h2]; exact hd

theorem IsAD.val (hd : IsAD d f x) (v : E) : (d v).val = fin (f x) := by
  obtain ⟨f', -, h⟩ := hd
  rw [h]

theorem Outcome.val {p : Prop} (h : Outcome p d f x) (v : E) : (d v).val = fin (f x) := by
  by_cases hp : p
  · exact (h.1 hp).val v
  · rw [h.2 hp v]

theorem Outcome.neg {p : Prop} (h : Outcome p d f x) : Outcome p (fun v => -d v) (fun y => -f y) x := by
  refine ⟨fun hp => (h.1 hp).neg, fun hp v => ?_⟩
  show -d v = _
  rw [h.2 hp v]
  rfl

theorem Outcome.iff {p q : Prop} (h : Outcome p d f x) (hpq : p ↔ q) : Outcome q d f x := by
  rwa [propext hpq] at h

end

theorem Dual.ext' {q : Dual} {a b : XR} (h1 : q.val = a) (h2 : q.tan = b) : q = ⟨a, b⟩ := by
  cases q; cases h1; cases h2; rfl

theorem Dual.add_def (a b : Dual) : a + b = ⟨a.val + b.val, a.tan + b.tan⟩ := rfl
theorem Dual.sub_def (a b : Dual) : a - b = ⟨a.val - b.val, a.tan - b.tan⟩ := rfl
theorem Dual.neg_def (a : Dual) : -a = ⟨-a.val, -a.tan⟩ := rfl
theorem Dual.mul_def (a b : Dual) : a * b = ⟨a.val * b.val, a.tan * b.val + a.val * b.tan⟩ := rfl

structure ADSystem (S : RFunD) (P : RFun) : Prop where
  val_conj : ∀ a b, (S.conj a b).val = P.conj a.val b.val
  val_disj : ∀ a b, (S.disj a b).val = P.disj a.val b.val
  nan_conj : ∀ a b, a.tan = nan ∨ b.tan = nan → (S.conj a b).tan = nan
  nan_disj : ∀ a b, a.tan = nan ∨ b.tan = nan → (S.disj a b).tan = nan
  conj_ad : ∀ {n : ℕ} (d e : Pt n → Dual) (f g h : Pt n → ℝ) (x : Pt n), IsAD d f x → IsAD e g x →
    ¬ (f x = 0 ∧ g x = 0) → (∀ y, P.conj (fin (f y)) (fin (g y)) = fin (h y)) →
    IsAD (fun v => S.conj (d v) (e v)) h x
  disj_ad : ∀ {n : ℕ} (d e : Pt n → Dual) (f g h : Pt n → ℝ) (x : Pt n), IsAD d f x → IsAD e g x →
    ¬ (f x = 0 ∧ g x = 0) → (∀ y, P.disj (fin (f y)) (fin (g y)) = fin (h y)) →
    IsAD (fun v => S.disj (d v) (e v)) h x
  conj_zero : ∀ s t : ℝ, (S.conj ⟨fin 0, fin s⟩ ⟨fin 0, fin t⟩).tan = nan
  disj_zero : ∀ s t : ℝ, (S.disj ⟨fin 0, fin s⟩ ⟨fin 0, fin t⟩).tan = nan

theorem zero_mul_div_zero : fin 0 * (1 / 2 / XR.sqrt (fin 0)) = nan := by
  rw [fin_sqrt le_rfl, Real.sqrt_zero]
  simp only [one_eq, lit_eq]
  rw [fin_div _ (by norm_num), fin_div_zero]
  simp only [infSign]
  norm_num
  show infSign 0 = _
  simp [infSign]

theorem ad_radicand_pos {α : ℝ} (h1 : -1 < α) (h2 : α < 1) {a b : ℝ} (h : ¬ (a = 0 ∧ b = 0)) :
    0 < a ^ 2 + b ^ 2 - 2 * α * a * b := by
  have h3 : a ^ 2 + b ^ 2 - 2 * α * a * b = (1 + α) / 2 * (a - b) ^ 2 + (1 - α) / 2 * (a + b) ^ 2 := by ring
  rw [h3]
  by_cases h4 : a = b
  · have : 0 < (a + b) ^ 2 := by
      have : a ≠ 0 := fun h0 => h ⟨h0, h4 ▸ h0⟩
      rw [← h4]
      have : a + a ≠ 0 := by simpa using this
      positivity
    have h5 : 0 ≤ (1 + α) / 2 * (a - b) ^ 2 := mul_nonneg (by linarith) (sq_nonneg _)
    have h6 : 0 < (1 - α) / 2 * (a + b) ^ 2 := mul_pos (by linarith) this
    linarith
  · have : 0 < (a - b) ^ 2 := by
      have : a - b ≠ 0 := sub_ne_zero.mpr h4
      positivity
    have h5 : 0 < (1 + α) / 2 * (a - b) ^ 2 := mul_pos (by linarith) this
    have h6 : 0 ≤ (1 - α) / 2 * (a + b) ^ 2 := mul_nonneg (by linarith) (sq_nonneg _)
    linarith

theorem alpha_const {α : ℝ} (h1 : -1 < α) : (1 : XR) / (1 + fin α) = fin (1 / (1 + α)) := by
  rw [one_eq, fin_add, fin_div _ (by linarith)]

theorem two_alpha (α : ℝ) : (2 : XR) * fin α = fin (2 * α) := by rw [lit_eq, fin_mul]

theorem Dual.sqrt_zero : Dual.sqrt ⟨fin 0, fin 0⟩ = ⟨fin 0, nan⟩ := by
  simp only [Dual.sqrt, zero_mul_div_zero]
  rw [fin_sqrt le_rfl, Real.sqrt_zero]

theorem alpha_rad_zero (α s t : ℝ) :
    (Dual.sq ⟨fin 0, fin s⟩ + Dual.sq ⟨fin 0, fin t⟩ - Dual.cmul (2 * fin α) ⟨fin 0, fin s⟩ * ⟨fin 0, fin t⟩ : Dual) =
      ⟨fin 0, fin 0⟩ := by
  simp [Dual.cmul, Dual.sub_def, Dual.add_def, Dual.mul_def, Dual.sq]

theorem sum_sq_pos {a b : ℝ} (h : ¬ (a = 0 ∧ b = 0)) : 0 < a ^ 2 + b ^ 2 := by
  by_cases ha : a = 0
  · have hb : b ≠ 0 := fun hb => h ⟨ha, hb⟩
    positivity
  · positivity

theorem RAlpha.adSystem {α : ℝ} (h1 : -1 < α) (h2 : α < 1) : ADSystem (RAlpha.sysD α) (RAlpha.sys α) where
  val_conj _ _ := rfl
  val_disj _ _ := rfl
  nan_conj a b h := by
    show _ * (a.tan + b.tan - _) = nan
    rcases h with h | h <;> rw [h] <;> simp
  nan_disj a b h := by
    show _ * (a.tan + b.tan + _) = nan
    rcases h with h | h <;> rw [h] <;> simp
  conj_ad d e f g h x hd he hz hh := by
    refine (((hd.add he).sub (((hd.sq.add he.sq).sub ((hd.cmul (2 * α)).mul he)).sqrt
      (ad_radicand_pos h1 h2 hz))).cmul (1 / (1 + α))).congr (fun v => ?_) (fun y => ?_)
    · simp only [RAlpha.sysD, alpha_const h1, two_alpha]
    · have := hh y
      rw [show (RAlpha.sys α).conj = RAlpha.conj α from rfl, RAlpha.conj_fin h1 h2.le, fin_inj] at this
      exact this.symm
  disj_ad d e f g h x hd he hz hh := by
    refine (((hd.add he).add (((hd.sq.add he.sq).sub ((hd.cmul (2 * α)).mul he)).sqrt
      (ad_radicand_pos h1 h2 hz))).cmul (1 / (1 + α))).congr (fun v => ?_) (fun y => ?_)
    · simp only [RAlpha.sysD, alpha_const h1, two_alpha]
    · have := hh y
      rw [show (RAlpha.sys α).disj = RAlpha.disj α from rfl, RAlpha.disj_fin h1 h2.le, fin_inj] at this
      exact this.symm
  conj_zero s t := by
    show _ * (_ - (Dual.sqrt (_ : Dual)).tan) = nan
    rw [alpha_rad_zero, Dual.sqrt_zero]; simp
  disj_zero s t := by
    show _ * (_ + (Dual.sqrt (_ : Dual)).tan) = nan
    rw [alpha_rad_zero, Dual.sqrt_zero]; simp

theorem RAlphaM.adSystem {m α : ℝ} (hm : 0 ≤ m) (h1 : -1 < α) (h2 : α < 1) :
    ADSystem (RAlphaM.sysD m α) (RAlphaM.sys m α) where
  val_conj _ _ := rfl
  val_disj _ _ := rfl
  nan_conj a b h := by
    show _ * (a.tan + b.tan - _) * _ + _ = nan
    rcases h with h | h <;> rw [h] <;> simp
  nan_disj a b h := by
    show _ * (a.tan + b.tan + _) * _ + _ = nan
    rcases h with h | h <;> rw [h] <;> simp
  conj_ad d e f g h x hd he hz hh := by
    refine ((((hd.add he).sub (((hd.sq.add he.sq).sub ((hd.cmul (2 * α)).mul he)).sqrt
      (ad_radicand_pos h1 h2 hz))).cmul (1 / (1 + α))).mul
      ((hd.sq.add he.sq).rpow (sum_sq_pos hz) (m / 2))).congr (fun v => ?_) (fun y => ?_)
    · simp only [RAlphaM.sysD, alpha_const h1, two_alpha]
    · have := hh y
      rw [show (RAlphaM.sys m α).conj = RAlphaM.conj m α from rfl, RAlphaM.conj_fin h1 h2.le (Or.inr hm), fin_inj] at this
      exact this.symm
  disj_ad d e f g h x hd he hz hh := by
    refine ((((hd.add he).add (((hd.sq.add he.sq).sub ((hd.cmul (2 * α)).mul he)).sqrt
      (ad_radicand_pos h1 h2 hz))).cmul (1 / (1 + α))).mul
      ((hd.sq.add he.sq).rpow (sum_sq_pos hz) (m / 2))).congr (fun v => ?_) (fun y => ?_)
    · simp only [RAlphaM.sysD, alpha_const h1, two_alpha]
    · have := hh y
      rw [show (RAlphaM.sys m α).disj = RAlphaM.disj m α from rfl, RAlphaM.disj_dual, fin_neg, fin_neg,
        RAlphaM.conj_fin h1 h2.le (Or.inr hm), fin_neg, fin_inj] at this
      rw [← this]
      ring_nf
  conj_zero s t := by
    show (_ * (_ - (Dual.sqrt (_ : Dual)).tan)) * _ + _ = nan
    rw [alpha_rad_zero, Dual.sqrt_zero]; simp
  disj_zero s t := by
    show (_ * (_ + (Dual.sqrt (_ : Dual)).tan)) * _ + _ = nan
    rw [alpha_rad_zero, Dual.sqrt_zero]; simp

theorem sum_pow_pos {p : ℕ} (hp : p % 2 = 0) {a b : ℝ} (h : ¬ (a = 0 ∧ b = 0)) : 0 < a ^ p + b ^ p := by
  have e : Even p := Nat.even_iff.mpr hp
  by_cases ha : a = 0
  · have hb : b ≠ 0 := fun hb => h ⟨ha, hb⟩
    linarith [e.pow_nonneg a, e.pow_pos hb]
  · linarith [e.pow_nonneg b, e.pow_pos ha]

theorem rp_rad_zero {p : ℕ} (hp0 : 2 ≤ p) (s t : ℝ) :
    (Dual.npow ⟨fin 0, fin s⟩ p + Dual.npow ⟨fin 0, fin t⟩ p : Dual) = ⟨fin 0, fin 0⟩ := by
  simp only [Dual.npow, Dual.add_def, fin_npow, fin_mul, fin_add]
  rw [zero_pow (by omega), zero_pow (by omega)]
  simp

theorem rpow_zero_tan {p : ℕ} (hp0 : 2 ≤ p) : (Dual.rpow ⟨fin 0, fin 0⟩ (1 / (p : ℝ))).tan = nan := by
  have hp : (2 : ℝ) ≤ p := by exact_mod_cast hp0
  have h0 : (1 / (p : ℝ)) ≠ 0 := by positivity
  have h1 : 1 / (p : ℝ) - 1 < 0 := by
    rw [sub_neg, div_lt_one (by linarith)]; linarith
  have h2 : XR.rpow (fin 0) (1 / (p : ℝ) - 1) = pinf := by simp only [XR.rpow, lt_irrefl, if_false]; rw [if_pos ⟨trivial, h1⟩]
  show fin 0 * (if 1 / (p : ℝ) = 0 then 0 else fin (1 / (p : ℝ)) * XR.rpow (fin 0) (1 / (p : ℝ) - 1)) = nan
  rw [if_neg h0, h2]
  have h3 : fin (1 / (p : ℝ)) * pinf = pinf := by
    show infSign _ = _
    simp only [infSign]; rw [if_pos (by positivity)]
  rw [h3]
  show infSign 0 = _
  simp [infSign]

theorem RP.adSystem {p : ℕ} (hp : p % 2 = 0) (hp0 : 2 ≤ p) : ADSystem (RP.sysD p) (RP.sys p) where
  val_conj _ _ := by simp [RP.sysD, RP.sys, RP.conj, Dual.rpow, Dual.npow, Dual.add_def, Dual.sub_def, XR.zpow]
  val_disj _ _ := by simp [RP.sysD, RP.sys, RP.disj, Dual.rpow, Dual.npow, Dual.add_def, XR.zpow]
  nan_conj a b h := by
    show (a.tan + b.tan - _) = nan
    rcases h with h | h <;> rw [h] <;> simp
  nan_disj a b h := by
    show (a.tan + b.tan + _) = nan
    rcases h with h | h <;> rw [h] <;> simp
  conj_ad d e f g h x hd he hz hh := by
    refine ((hd.add he).sub (((hd.npow p).add (he.npow p)).rpow (sum_pow_pos hp hz) (1 / (p : ℝ)))).congr
      (fun v => rfl) (fun y => ?_)
    have := hh y
    rw [show (RP.sys p).conj = RP.conj p from rfl, RP.conj_fin hp, fin_inj] at this
    exact this.symm
  disj_ad d e f g h x hd he hz hh := by
    refine ((hd.add he).add (((hd.npow p).add (he.npow p)).rpow (sum_pow_pos hp hz) (1 / (p : ℝ)))).congr
      (fun v => rfl) (fun y => ?_)
    have := hh y
    rw [show (RP.sys p).disj = RP.disj p from rfl, RP.disj_fin hp, fin_inj] at this
    exact this.symm
  conj_zero s t := by
    show (_ - (Dual.rpow (_ : Dual) _).tan) = nan
    rw [rp_rad_zero hp0, rpow_zero_tan hp0]; simp
  disj_zero s t := by
    show (_ + (Dual.rpow (_ : Dual) _).tan) = nan
    rw [rp_rad_zero hp0, rpow_zero_tan hp0]; simp

section
variable {n : ℕ} {S : RFunD} {P : RFun} {d e : Pt n → Dual} {f g h : Pt n → ℝ} {x : Pt n} {p q : Prop}

theorem Outcome.conj (hS : ADSystem S P) (h1 : Outcome p d f x) (h2 : Outcome q e g x)
    (hh : ∀ y, P.conj (fin (f y)) (fin (g y)) = fin (h y)) :
    Outcome (p ∧ q ∧ ¬ (f x = 0 ∧ g x = 0)) (fun v => S.conj (d v) (e v)) h x := by
  refine ⟨fun hp => hS.conj_ad d e f g h x (h1.1 hp.1) (h2.1 hp.2.1) hp.2.2 hh, fun hp v => ?_⟩
  have hv : (S.conj (d v) (e v)).val = fin (h x) := by rw [hS.val_conj, h1.val, h2.val, hh]
  have ht : (S.conj (d v) (e v)).tan = nan := by
    by_cases h3 : p
    · by_cases h4 : q
      · have h5 : f x = 0 ∧ g x = 0 := by
          by_contra h5; exact hp ⟨h3, h4, h5⟩
        obtain ⟨f', -, h6⟩ := h1.1 h3
        obtain ⟨g', -, h7⟩ := h2.1 h4
        rw [h6, h7, h5.1, h5.2]
        exact hS.conj_zero _ _
      · exact hS.nan_conj _ _ (Or.inr (by rw [h2.2 h4 v]))
    · exact hS.nan_conj _ _ (Or.inl (by rw [h1.2 h3 v]))
  show S.conj (d v) (e v) = _
  rw [← hv, ← ht]

theorem Outcome.disj (hS : ADSystem S P) (h1 : Outcome p d f x) (h2 : Outcome q e g x)
    (hh : ∀ y, P.disj (fin (f y)) (fin (g y)) = fin (h y)) :
    Outcome (p ∧ q ∧ ¬ (f x = 0 ∧ g x = 0)) (fun v => S.disj (d v) (e v)) h x := by
  refine ⟨fun hp => hS.disj_ad d e f g h x (h1.1 hp.1) (h2.1 hp.2.1) hp.2.2 hh, fun hp v => ?_⟩
  have hv : (S.disj (d v) (e v)).val = fin (h x) := by rw [hS.val_disj, h1.val, h2.val, hh]
  have ht : (S.disj (d v) (e v)).tan = nan := by
    by_cases h3 : p
    · by_cases h4 : q
      · have h5 : f x = 0 ∧ g x = 0 := by
          by_contra h5; exact hp ⟨h3, h4, h5⟩
        obtain ⟨f', -, h6⟩ := h1.1 h3
        obtain ⟨g', -, h7⟩ := h2.1 h4
        rw [h6, h7, h5.1, h5.2]
        exact hS.disj_zero _ _
      · exact hS.nan_disj _ _ (Or.inr (by rw [h2.2 h4 v]))
    · exact hS.nan_disj _ _ (Or.inl (by rw [h1.2 h3 v]))
  show S.disj (d v) (e v) = _
  rw [← hv, ← ht]

end

theorem csg_outcome {ι : Type*} {n : ℕ} {S : RFunD} {P : RFun} (hS : ADSystem S P) (hP : SignLaw P.conj P.disj)
    (leaf : ι → ADF n) (leafD : ι → DADF n) (f : ι → Pt n → ℝ) (hf : ∀ i y, leaf i (efin y) = fin (f i y))
    (x : Pt n) (r : ι → Prop) (hr : ∀ i, Outcome (r i) (fun v => leafD i (seed x v)) (f i) x) (e : SetExpr ι) :
    ∀ h : Pt n → ℝ, (∀ y, e.build P leaf (efin y) = fin (h y)) →
      Outcome (e.regular (fun i => SignType.sign (f i x)) r) (fun v => e.buildD S leafD (seed x v)) h x := by
  have real : ∀ e : SetExpr ι, ∃ h : Pt n → ℝ, (∀ y, e.build P leaf (efin y) = fin (h y)) ∧
      (h x = 0 ↔ e.kleene (fun i => SignType.sign (f i x)) = 0) := by
    intro e
    choose h h1 h2 using fun y => csg_kleene hP leaf (efin y) (fun i => f i y) (fun i => hf i y) e
    exact ⟨h, h1, by rw [← h2 x, sign_eq_zero_iff]⟩
  induction e with
  | leaf i =>
    intro h hh
    have : h = f i := funext fun y => by
      have := (hh y).symm.trans (hf i y)
      exact fin_inj.mp this
    rw [this]
    exact hr i
  | compl e ih =>
    intro h hh
    obtain ⟨g, hg, -⟩ := real e
    have : h = fun y => -g y := funext fun y => by
      have h1 : -(e.build P leaf (efin y)) = fin (h y) := hh y
      rw [hg y, fin_neg, fin_inj] at h1
      exact h1.symm
    rw [this]
    exact (ih g hg).neg
  | union e₁ e₂ ih₁ ih₂ =>
    intro h hh
    obtain ⟨g₁, hg₁, hz₁⟩ := real e₁
    obtain ⟨g₂, hg₂, hz₂⟩ := real e₂
    refine ((ih₁ g₁ hg₁).disj hS (ih₂ g₂ hg₂) (h := h) fun y => ?_).iff ?_
    · rw [← hg₁, ← hg₂]; exact hh y
    · simp only [SetExpr.regular, hz₁, hz₂]
  | inter e₁ e₂ ih₁ ih₂ =>
    intro h hh
    obtain ⟨g₁, hg₁, hz₁⟩ := real e₁
    obtain ⟨g₂, hg₂, hz₂⟩ := real e₂
    refine ((ih₁ g₁ hg₁).conj hS (ih₂ g₂ hg₂) (h := h) fun y => ?_).iff ?_
    · rw [← hg₁, ← hg₂]; exact hh y
    · simp only [SetExpr.regular, hz₁, hz₂]
  | diff e₁ e₂ ih₁ ih₂ =>
    intro h hh
    obtain ⟨g₁, hg₁, hz₁⟩ := real e₁
    obtain ⟨g₂, hg₂, hz₂⟩ := real e₂
    refine ((ih₁ g₁ hg₁).conj hS (ih₂ g₂ hg₂).neg (h := h) fun y => ?_).iff ?_
    · rw [← fin_neg, ← hg₁, ← hg₂]; exact hh y
    · simp only [SetExpr.regular, hz₁, hz₂, neg_eq_zero]
  | impl e₁ e₂ ih₁ ih₂ =>
    intro h hh
    obtain ⟨g₁, hg₁, hz₁⟩ := real e₁
    obtain ⟨g₂, hg₂, hz₂⟩ := real e₂
    refine ((ih₁ g₁ hg₁).neg.disj hS (ih₂ g₂ hg₂) (h := h) fun y => ?_).iff ?_
    · rw [← fin_neg, ← hg₁, ← hg₂]; exact hh y
    · simp only [SetExpr.regular, hz₁, hz₂, neg_eq_zero]
  | equiv e₁ e₂ ih₁ ih₂ =>
    intro h hh
    obtain ⟨g₁, hg₁, hz₁⟩ := real e₁
    obtain ⟨g₂, hg₂, hz₂⟩ := real e₂
    choose c₁ hc₁ hs₁ using fun y => hP.or_sign (g₁ y) (-g₂ y)
    choose c₂ hc₂ hs₂ using fun y => hP.or_sign (-g₁ y) (g₂ y)
    refine (((ih₁ g₁ hg₁).disj hS (ih₂ g₂ hg₂).neg hc₁).conj hS ((ih₁ g₁ hg₁).neg.disj hS (ih₂ g₂ hg₂) hc₂)
      (h := h) fun y => ?_).iff ?_
    · rw [← hc₁, ← hc₂, ← fin_neg, ← fin_neg, ← hg₁, ← hg₂]; exact hh y
    · have hz : c₁ x = 0 ∧ c₂ x = 0 ↔ g₁ x = 0 ∧ g₂ x = 0 := by
        rw [← sign_eq_zero_iff (a := c₁ x), ← sign_eq_zero_iff (a := c₂ x), hs₁, hs₂, Left.sign_neg, Left.sign_neg,
          ← sign_eq_zero_iff (a := g₁ x), ← sign_eq_zero_iff (a := g₂ x)]
        generalize SignType.sign (g₁ x) = a
        generalize SignType.sign (g₂ x) = b
        revert a b; decide
      simp only [SetExpr.regular, hz, ← hz₁, ← hz₂, neg_eq_zero]
      tauto
  | symmDiff e₁ e₂ ih₁ ih₂ =>
    intro h hh
    obtain ⟨g₁, hg₁, hz₁⟩ := real e₁
    obtain ⟨g₂, hg₂, hz₂⟩ := real e₂
    choose c₁ hc₁ hs₁ using fun y => hP.and_sign (g₁ y) (-g₂ y)
    choose c₂ hc₂ hs₂ using fun y => hP.and_sign (-g₁ y) (g₂ y)
    refine (((ih₁ g₁ hg₁).conj hS (ih₂ g₂ hg₂).neg hc₁).disj hS ((ih₁ g₁ hg₁).neg.conj hS (ih₂ g₂ hg₂) hc₂)
      (h := h) fun y => ?_).iff ?_
    · rw [← hc₁, ← hc₂, ← fin_neg, ← fin_neg, ← hg₁, ← hg₂]; exact hh y
    · have hz : c₁ x = 0 ∧ c₂ x = 0 ↔ g₁ x = 0 ∧ g₂ x = 0 := by
        rw [← sign_eq_zero_iff (a := c₁ x), ← sign_eq_zero_iff (a := c₂ x), hs₁, hs₂, Left.sign_neg, Left.sign_neg,
          ← sign_eq_zero_iff (a := g₁ x), ← sign_eq_zero_iff (a := g₂ x)]
        generalize SignType.sign (g₁ x) = a
        generalize SignType.sign (g₂ x) = b
        revert a b; decide
      simp only [SetExpr.regular, hz, ← hz₁, ← hz₂, neg_eq_zero]
      tauto


/-! ### r1 -/

theorem r1_rad (a s t : ℝ) :
    (Dual.sq ⟨fin a, fin s⟩ + Dual.sq ⟨fin a, fin t⟩ - Dual.cmul (2 * fin 1) ⟨fin a, fin s⟩ * ⟨fin a, fin t⟩ : Dual) =
      ⟨fin 0, fin 0⟩ := by
  simp [Dual.cmul, Dual.sub_def, Dual.add_def, Dual.mul_def, Dual.sq]
  constructor <;> ring

section
variable {n : ℕ} {d e : Pt n → Dual} {f g h : Pt n → ℝ} {x : Pt n} {p q : Prop}

theorem r1_outcome (h1 : Outcome p d f x) (h2 : Outcome q e g x) :
    Outcome (p ∧ q ∧ f x ≠ g x) (fun v => (RAlpha.sysD 1).conj (d v) (e v)) (fun y => min (f y) (g y)) x ∧
    Outcome (p ∧ q ∧ f x ≠ g x) (fun v => (RAlpha.sysD 1).disj (d v) (e v)) (fun y => max (f y) (g y)) x := by
  have hc (a b : ℝ) : min a b = 1 / (1 + 1) * (a + b - Real.sqrt (a ^ 2 + b ^ 2 - 2 * 1 * a * b)) := by
    rw [show a ^ 2 + b ^ 2 - 2 * 1 * a * b = (a - b) ^ 2 by ring, Real.sqrt_sq_eq_abs]
    rcases le_total a b with h | h
    · rw [min_eq_left h, abs_of_nonpos (by linarith)]; ring
    · rw [min_eq_right h, abs_of_nonneg (by linarith)]; ring
  have hm (a b : ℝ) : max a b = 1 / (1 + 1) * (a + b + Real.sqrt (a ^ 2 + b ^ 2 - 2 * 1 * a * b)) := by
    rw [show a ^ 2 + b ^ 2 - 2 * 1 * a * b = (a - b) ^ 2 by ring, Real.sqrt_sq_eq_abs]
    rcases le_total a b with h | h
    · rw [max_eq_right h, abs_of_nonpos (by linarith)]; ring
    · rw [max_eq_left h, abs_of_nonneg (by linarith)]; ring
  have hpos (hne : f x ≠ g x) : 0 < f x ^ 2 + g x ^ 2 - 2 * 1 * f x * g x := by
    rw [show f x ^ 2 + g x ^ 2 - 2 * 1 * f x * g x = (f x - g x) ^ 2 by ring]
    have : f x - g x ≠ 0 := sub_ne_zero.mpr hne
    positivity
  have hvc (v : Pt n) : ((RAlpha.sysD 1).conj (d v) (e v)).val = fin (min (f x) (g x)) := by
    show RAlpha.conj 1 (d v).val (e v).val = _
    rw [h1.val, h2.val, RAlpha.conj_fin (by norm_num) le_rfl, hc]
  have hvd (v : Pt n) : ((RAlpha.sysD 1).disj (d v) (e v)).val = fin (max (f x) (g x)) := by
    show RAlpha.disj 1 (d v).val (e v).val = _
    rw [h1.val, h2.val, RAlpha.disj_fin (by norm_num) le_rfl, hm]
  have bad (hp : ¬ (p ∧ q ∧ f x ≠ g x)) (v : Pt n) :
      ((RAlpha.sysD 1).conj (d v) (e v)).tan = nan ∧ ((RAlpha.sysD 1).disj (d v) (e v)).tan = nan := by
    have hn (hab : (d v).tan = nan ∨ (e v).tan = nan) :
        ((RAlpha.sysD 1).conj (d v) (e v)).tan = nan ∧ ((RAlpha.sysD 1).disj (d v) (e v)).tan = nan := by
      constructor
      · show _ * ((d v).tan + (e v).tan - _) = nan
        rcases hab with h | h <;> rw [h] <;> simp
      · show _ * ((d v).tan + (e v).tan + _) = nan
        rcases hab with h | h <;> rw [h] <;> simp
    by_cases h3 : p
    · by_cases h4 : q
      · have h5 : f x = g x := by
          by_contra h5; exact hp ⟨h3, h4, h5⟩
        obtain ⟨f', -, h6⟩ := h1.1 h3
        obtain ⟨g', -, h7⟩ := h2.1 h4
        rw [h6, h7, h5]
        constructor
        · show _ * (_ - (Dual.sqrt (_ : Dual)).tan) = nan
          rw [r1_rad, Dual.sqrt_zero]; simp
        · show _ * (_ + (Dual.sqrt (_ : Dual)).tan) = nan
          rw [r1_rad, Dual.sqrt_zero]; simp
      · exact hn (Or.inr (by rw [h2.2 h4 v]))
    · exact hn (Or.inl (by rw [h1.2 h3 v]))
  refine ⟨⟨fun hp => ?_, fun hp v => ?_⟩, ⟨fun hp => ?_, fun hp v => ?_⟩⟩
  · refine ((((h1.1 hp.1).add (h2.1 hp.2.1)).sub ((((h1.1 hp.1).sq.add (h2.1 hp.2.1).sq).sub
      (((h1.1 hp.1).cmul (2 * 1)).mul (h2.1 hp.2.1))).sqrt (hpos hp.2.2))).cmul (1 / (1 + 1))).congr (fun v => ?_) (fun y => hc _ _)
    simp only [RAlpha.sysD, alpha_const (show (-1 : ℝ) < 1 by norm_num), two_alpha]
  · show (RAlpha.sysD 1).conj (d v) (e v) = _
    rw [← hvc v, ← (bad hp v).1]
  · refine ((((h1.1 hp.1).add (h2.1 hp.2.1)).add ((((h1.1 hp.1).sq.add (h2.1 hp.2.1).sq).sub
      (((h1.1 hp.1).cmul (2 * 1)).mul (h2.1 hp.2.1))).sqrt (hpos hp.2.2))).cmul (1 / (1 + 1))).congr (fun v => ?_) (fun y => hm _ _)
    simp only [RAlpha.sysD, alpha_const (show (-1 : ℝ) < 1 by norm_num), two_alpha]
  · show (RAlpha.sysD 1).disj (d v) (e v) = _
    rw [← hvd v, ← (bad hp v).2]

/-! ### rho -/

theorem hasDerivAt_blend (t : ℝ) : HasDerivAt (fun t : ℝ => t * (t - |t|)) (2 * t - 2 * |t|) t := by
  rcases lt_trichotomy t 0 with h | h | h
  · have h1 := (hasDerivAt_id t).mul ((hasDerivAt_id t).sub (hasDerivAt_abs_neg h))
    refine h1.congr_deriv ?_
    simp [abs_of_neg h]; ring
  · subst h
    have : HasFDerivAt (fun t : ℝ => t * (t - |t|)) (0 : ℝ →L[ℝ] ℝ) 0 := by
      refine Asymptotics.IsBigO.hasFDerivAt (n := 2) (Asymptotics.IsBigO.of_bound 2 (Filter.Eventually.of_forall fun t => ?_)) (by norm_num)
      simp only [sub_zero, Real.norm_eq_abs, abs_mul, abs_pow, abs_abs]
      have h3 : abs (t - |t|) ≤ 2 * |t| := by
        rw [abs_le]; constructor <;> linarith [neg_abs_le t, le_abs_self t]
      rw [sq, ← mul_assoc, mul_comm 2, mul_assoc]
      exact mul_le_mul_of_nonneg_left h3 (abs_nonneg t)
    have h2 := this.hasDerivAt
    simpa using h2
  · have h1 := (hasDerivAt_id t).mul ((hasDerivAt_id t).sub (hasDerivAt_abs_pos h))
    refine h1.congr_deriv ?_
    simp [abs_of_pos h]

theorem IsAD.blend (hd : IsAD d f x) (c : ℝ) :
    IsAD (fun v => Dual.cmul (fin c) (d v) * (d v - (d v).abs)) (fun y => c * (f y * (f y - |f y|))) x := by
  obtain ⟨f', h1, h2⟩ := hd
  refine ⟨_, ((hasDerivAt_blend (f x)).comp_hasFDerivAt x h1).const_mul c, fun v => ?_⟩
  beta_reduce
  rw [h2]
  rcases lt_trichotomy (f x) 0 with h | h | h
  · simp [Dual.cmul, Dual.mul_def, Dual.sub_def, Dual.abs, XR.jsign, h, not_lt.mpr h.le, abs_of_neg h]
    constructor <;> ring
  · simp [Dual.cmul, Dual.mul_def, Dual.sub_def, Dual.abs, XR.jsign, h]
  · simp [Dual.cmul, Dual.mul_def, Dual.sub_def, Dual.abs, XR.jsign, h, abs_of_pos h]

theorem rho_pos {ρ : ℝ} (hρ : 0 < ρ) (a b : ℝ) :
    0 < a ^ 2 + b ^ 2 + 1 / (8 * ρ) * ((a ^ 2 + b ^ 2 - ρ ^ 2) * (a ^ 2 + b ^ 2 - ρ ^ 2 - |a ^ 2 + b ^ 2 - ρ ^ 2|)) := by
  set s := a ^ 2 + b ^ 2 - ρ ^ 2 with hs
  have h0 : 0 ≤ a ^ 2 + b ^ 2 := by positivity
  rcases le_or_gt 0 s with h | h
  · rw [abs_of_nonneg h, sub_self, mul_zero, mul_zero, add_zero]
    nlinarith [sq_pos_of_pos hρ]
  · rw [abs_of_neg h]
    have h1 : 0 < s * (s - -s) := by nlinarith
    have h2 : 0 < 1 / (8 * ρ) * (s * (s - -s)) := mul_pos (by positivity) h1
    linarith

theorem rho_isAD {ρ : ℝ} (hρ : 0 < ρ) (hd : IsAD d f x) (he : IsAD e g x) :
    (∀ h : Pt n → ℝ, (∀ y, (RhoBlending ρ).conj (fin (f y)) (fin (g y)) = fin (h y)) →
      IsAD (fun v => (RhoBlending.sysD ρ).conj (d v) (e v)) h x) ∧
    (∀ h : Pt n → ℝ, (∀ y, (RhoBlending ρ).disj (fin (f y)) (fin (g y)) = fin (h y)) →
      IsAD (fun v => (RhoBlending.sysD ρ).disj (d v) (e v)) h x) := by
  have hz : (8 : ℝ) * ρ ≠ 0 := by positivity
  have hk : (1 : XR) / (8 * fin ρ) = fin (1 / (8 * ρ)) := by
    rw [one_eq, lit_eq, fin_mul, fin_div _ hz]
  have hs := (hd.sq.add he.sq).subc (ρ ^ 2)
  have hroot := ((hd.sq.add he.sq).add (hs.blend (1 / (8 * ρ)))).sqrt (rho_pos hρ (f x) (g x))
  refine ⟨fun h hh => ?_, fun h hh => ?_⟩
  · refine ((hd.add he).sub hroot).congr (fun v => ?_) (fun y => ?_)
    · simp only [RhoBlending.sysD, hk, fin_npow]
    · have := hh y
      simp only [RhoBlending, RhoBlending.conj, hk, fin_npow, fin_add, fin_sub, fin_mul, fin_abs] at this
      rw [fin_sqrt (by rw [mul_assoc]; exact (rho_pos hρ _ _).le), fin_sub, fin_inj] at this
      rw [← this, mul_assoc]
  · refine ((hd.add he).add hroot).congr (fun v => ?_) (fun y => ?_)
    · simp only [RhoBlending.sysD, hk, fin_npow]
    · have := hh y
      simp only [RhoBlending, RhoBlending.disj, hk, fin_npow, fin_add, fin_sub, fin_mul, fin_abs] at this
      rw [fin_sqrt (by rw [mul_assoc]; exact (rho_pos hρ _ _).le), fin_add, fin_inj] at this
      rw [← this, mul_assoc]

end

/-! ### composition -/

theorem Outcome.comp {m n : ℕ} {fD : DADF m} {h : Pt m → ℝ} {p : Prop} {T : Pt n → Pt m} {T' : Pt n →L[ℝ] Pt m} {x : Pt n}
    (ho : Outcome p (fun w => fD (seed (T x) w)) h (T x)) (hT : HasFDerivAt T T' x) {z : Pt n → Fin m → Dual}
    (hz : ∀ v, z v = seed (T x) (T' v)) : Outcome p (fun v => fD (z v)) (fun y => h (T y)) x := by
  refine ⟨fun hp => ?_, fun hp v => ?_⟩
  · obtain ⟨f', h1, h2⟩ := ho.1 hp
    refine ⟨f'.comp T', h1.comp x hT, fun v => ?_⟩
    beta_reduce
    rw [hz]
    exact h2 (T' v)
  · show fD (z v) = _
    rw [hz]
    exact ho.2 hp (T' v)

theorem sphereD_outcome {n : ℕ} {r : ℝ} (hr : r ≠ 0) (x : Pt n) (h : Pt n → ℝ)
    (hh : ∀ y, sphere (fin r) (efin y) = fin (h y)) :
    Outcome (x ≠ 0) (fun v => sphereD (fin r) (seed x v)) h x := by
  have h2r : 2 * r ≠ 0 := by positivity
  have hreal : ∀ y, h y = (r ^ 2 - Real.sqrt (‖y‖ ^ 2) ^ 2) / (2 * r) := by
    intro y
    have := hh y
    rw [sphere, vnorm_efin', fin_npow, fin_npow, fin_sub, lit_eq, fin_mul, fin_div _ h2r, fin_inj] at this
    rw [← this, Real.sqrt_sq (norm_nonneg y)]
  have hrad : IsAD (fun v : Pt n => (⟨∑ i, (seed x v i * seed x v i).val, ∑ i, (seed x v i * seed x v i).tan⟩ : Dual))
      (fun y : Pt n => ‖y‖ ^ 2) x := by
    refine ⟨_, (hasStrictFDerivAt_norm_sq x).hasFDerivAt, fun v => ?_⟩
    simp only [seed, Dual.mul_def, fin_mul, fin_add, fin_sum]
    congr 2
    · rw [EuclideanSpace.norm_sq_eq]
      exact Finset.sum_congr rfl fun i _ => by rw [Real.norm_eq_abs, sq_abs, sq]
    · simp [PiLp.inner_apply, Finset.mul_sum, two_mul, Finset.sum_add_distrib, mul_comm]
  refine ⟨fun hx => ?_, fun hx v => ?_⟩
  · have hx0 : 0 < ‖x‖ ^ 2 := by have := norm_pos_iff.mpr hx; positivity
    refine (((hrad.sqrt hx0).sq.subFrom (r ^ 2)).divc h2r).congr (fun v => ?_) hreal
    simp [sphereD, vnormD]
  · push Not at hx
    subst hx
    have h0 : (⟨∑ i, (seed (0 : Pt n) v i * seed 0 v i).val, ∑ i, (seed (0 : Pt n) v i * seed 0 v i).tan⟩ : Dual) =
        ⟨fin 0, fin 0⟩ := by
      simp only [seed, Dual.mul_def, fin_mul, fin_add, fin_sum]
      simp
    have hv : h 0 = r ^ 2 / (2 * r) := by rw [hreal]; simp
    show (Dual.subFrom _ (Dual.sq (Dual.sqrt _))).divc _ = _
    rw [h0, Dual.sqrt_zero, hv]
    simp [Dual.sq, Dual.subFrom, Dual.divc, fin_div _ h2r]

/-! ### cuboid -/

def NoClash : SignType → List ℝ → Prop
  | _, [] => True
  | s, a :: l => ¬ (s = 0 ∧ a = 0) ∧ NoClash (min s (SignType.sign a)) l

theorem fold_outcome {n : ℕ} {S : RFunD} {P : RFun} (hS : ADSystem S P) (hP : SignLaw P.conj P.disj) {x : Pt n}
    (L : List ((Pt n → Dual) × (Pt n → ℝ))) :
    ∀ (d : Pt n → Dual) (f : Pt n → ℝ) (p : Prop), Outcome p d f x → (∀ q ∈ L, IsAD q.1 q.2 x) →
    ∀ h : Pt n → ℝ, (∀ y, (L.map fun q => fin (q.2 y)).foldl P.conj (fin (f y)) = fin (h y)) →
    Outcome (p ∧ NoClash (SignType.sign (f x)) (L.map fun q => q.2 x))
      (fun v => (L.map fun q => q.1 v).foldl S.conj (d v)) h x := by
  induction L with
  | nil =>
    intro d f p hd _ h hh
    have : h = f := funext fun y => (fin_inj.mp (hh y)).symm
    rw [this]
    exact hd.iff (by simp [NoClash])
  | cons q L ih =>
    intro d f p hd hL h hh
    choose c hc hs using fun y => hP.and_sign (f y) (q.2 y)
    have hq : Outcome True q.1 q.2 x := ⟨fun _ => hL q (by simp), fun h => absurd trivial h⟩
    have h1 := ih _ c _ (hd.conj hS hq hc) (fun r hr => hL r (by simp [hr])) h (fun y => by
      have := hh y
      simp only [List.map_cons, List.foldl_cons] at this
      rw [hc] at this; exact this)
    refine h1.iff ?_
    rw [hs]
    simp only [List.map_cons, NoClash, sign_eq_zero_iff, true_and, and_assoc]

theorem noClash_of_pairwise (l : List ℝ) : ∀ s : SignType, (s = 0 → ∀ a ∈ l, a ≠ 0) →
    l.Pairwise (fun a b => ¬ (a = 0 ∧ b = 0)) → NoClash s l := by
  induction l with
  | nil => intros; trivial
  | cons a l ih =>
    intro s h1 h2
    rw [List.pairwise_cons] at h2
    refine ⟨fun h => h1 h.1 a (by simp) h.2, ih _ (fun h b hb => ?_) h2.2⟩
    have : s = 0 ∨ SignType.sign a = 0 := by
      have key : ∀ s t : SignType, min s t = 0 → s = 0 ∨ t = 0 := by decide
      exact key _ _ h
    rcases this with h | h
    · exact h1 h b (by simp [hb])
    · exact fun h0 => h2.1 b hb ⟨sign_eq_zero_iff.mp h, h0⟩

theorem pairwise_of_noClash (l : List ℝ) : ∀ s : SignType, 0 ≤ s → (∀ a ∈ l, 0 ≤ a) → NoClash s l →
    (s = 0 → ∀ a ∈ l, a ≠ 0) ∧ l.Pairwise (fun a b => ¬ (a = 0 ∧ b = 0)) := by
  induction l with
  | nil => intros; simp
  | cons a l ih =>
    intro s hs hl h
    have ha : 0 ≤ SignType.sign a := by
      rw [sign_nonneg_iff]; exact hl a (by simp)
    obtain ⟨h1, h2⟩ := ih _ (le_min hs ha) (fun b hb => hl b (by simp [hb])) h.2
    refine ⟨fun h0 b hb => ?_, List.pairwise_cons.mpr ⟨fun b hb hab => ?_, h2⟩⟩
    · rcases List.mem_cons.mp hb with rfl | hb
      · exact fun hb0 => h.1 ⟨h0, hb0⟩
      · refine h1 ?_ b hb
        rw [h0]; exact min_eq_left ha
    · refine h1 ?_ b hb hab.2
      rw [hab.1, sign_zero]; exact min_eq_right hs

/-- The face functions of a box. -/
def faces {n : ℕ} (lb ub x : Fin n → ℝ) : List ℝ := (List.finRange n).flatMap fun i => [ub i - x i, x i - lb i]

theorem faces_pairwise {n : ℕ} (lb ub x : Fin n → ℝ) (hlt : ∀ i, lb i < ub i) :
    (faces lb ub x).Pairwise (fun a b => ¬ (a = 0 ∧ b = 0)) ↔
      ∀ i j, OnFace lb ub x i → OnFace lb ub x j → i = j := by
  unfold faces
  rw [List.pairwise_flatMap]
  have h1 : ∀ a ∈ List.finRange n, [ub a - x a, x a - lb a].Pairwise (fun a b => ¬ (a = 0 ∧ b = 0)) := by
    intro a _
    simp only [List.pairwise_cons, List.mem_singleton, forall_eq, List.not_mem_nil, false_imp_iff, implies_true,
      List.Pairwise.nil, and_true]
    rintro ⟨h, h'⟩
    linarith [hlt a]
  rw [and_iff_right h1]
  have h2 : ∀ i j : Fin n, (∀ a ∈ [ub i - x i, x i - lb i], ∀ b ∈ [ub j - x j, x j - lb j], ¬ (a = 0 ∧ b = 0)) ↔
      ¬ (OnFace lb ub x i ∧ OnFace lb ub x j) := by
    intro i j
    have e1 : ∀ k, x k = ub k ↔ ub k - x k = 0 := fun k => by rw [sub_eq_zero, eq_comm]
    have e2 : ∀ k, x k = lb k ↔ x k - lb k = 0 := fun k => by rw [sub_eq_zero]
    simp only [OnFace, e1, e2, List.mem_cons, List.not_mem_nil, or_false, forall_eq_or_imp, forall_eq]
    tauto
  simp only [h2]
  rw [List.pairwise_iff_get]
  constructor
  · intro h i j hi hj
    by_contra hne
    have key : ∀ i j : Fin n, i < j → ¬ (OnFace lb ub x i ∧ OnFace lb ub x j) := by
      intro i j hij
      have := h ⟨i, by simp⟩ ⟨j, by simp⟩ (by simpa using hij)
      simpa using this
    rcases lt_or_gt_of_ne hne with h' | h'
    · exact key i j h' ⟨hi, hj⟩
    · exact key j i h' ⟨hj, hi⟩
  · intro h i j hij hh
    have := h _ _ hh.1 hh.2
    simp only [List.get_finRange] at this
    have := congrArg Fin.val this
    simp at this
    omega

theorem cuboidD_outcome {n : ℕ} (hn : 0 < n) {S : RFunD} {P : RFun} (hS : ADSystem S P) (hP : SignLaw P.conj P.disj)
    (e : EdgeArg n) (c : Bool) (lb ub : Fin n → ℝ) (hlb : ∀ i, cuboid.lb e c i = fin (lb i))
    (hub : ∀ i, cuboid.ub e c i = fin (ub i)) (x : Pt n) (h : Pt n → ℝ)
    (hh : ∀ y, cuboid e c P (efin y) = fin (h y)) :
    ∃ a l, faces lb ub (fun i => x i) = a :: l ∧
      Outcome (NoClash (SignType.sign a) l) (fun v => cuboidD e c S (seed x v)) h x := by
  have hx (i : Fin n) : IsAD (fun v : Pt n => seed x v i) (fun y : Pt n => y i) x :=
    ⟨EuclideanSpace.proj i, (EuclideanSpace.proj (𝕜 := ℝ) i).hasFDerivAt, fun v => rfl⟩
  set L : List ((Pt n → Dual) × (Pt n → ℝ)) := (List.finRange n).flatMap fun i =>
    [(fun v => (seed x v i).subFrom (fin (ub i)), fun y => ub i - y i),
      (fun v => (seed x v i).subc (fin (lb i)), fun y => y i - lb i)] with hL
  have hAD : ∀ q ∈ L, IsAD q.1 q.2 x := by
    intro q hq
    simp only [hL, List.mem_flatMap, List.mem_finRange, true_and, List.mem_cons, List.not_mem_nil, or_false] at hq
    obtain ⟨i, rfl | rfl⟩ := hq
    · exact (hx i).subFrom _
    · exact (hx i).subc _
  have m1 (y : Pt n) : (L.map fun q => fin (q.2 y)) =
      (List.finRange n).flatMap fun i => [cuboid.ub e c i - efin y i, efin y i - cuboid.lb e c i] := by
    simp [hL, List.map_flatMap, hub, hlb]
  have m2 (v : Pt n) : (L.map fun q => q.1 v) =
      (List.finRange n).flatMap fun i => [(seed x v i).subFrom (cuboid.ub e c i), (seed x v i).subc (cuboid.lb e c i)] := by
    simp [hL, List.map_flatMap, hub, hlb]
  have m3 : (L.map fun q => q.2 x) = faces lb ub fun i => x i := by
    simp [hL, List.map_flatMap, faces]
  rcases hLL : L with _ | ⟨q, L'⟩
  · exfalso
    have := congrArg List.length hLL
    simp [hL] at this
    omega
  refine ⟨q.2 x, L'.map fun q => q.2 x, by rw [← m3, hLL]; rfl, ?_⟩
  have hq : Outcome True q.1 q.2 x := ⟨fun _ => hAD q (by simp [hLL]), fun h => absurd trivial h⟩
  have h1 := fold_outcome hS hP L' q.1 q.2 True hq (fun r hr => hAD r (by simp [hLL, hr])) h (fun y => by
    have := hh y
    simp only [cuboid, compose, List.flatMap_cons, List.flatMap_nil, List.append_nil] at this
    rw [← m1, hLL] at this
    exact this)
  have h2 : (fun v => cuboidD e c S (seed x v)) = fun v => (L'.map fun q => q.1 v).foldl S.conj (q.1 v) := by
    funext v
    rw [cuboidD, ← m2, hLL]; rfl
  rw [h2]
  exact h1.iff (by simp)

/-! ### transformations -/

theorem Outcome.coords {m n : ℕ} {fD : DADF m} {h : Pt m → ℝ} {p : Prop} {T : Pt n → Pt m} {x : Pt n}
    (ho : Outcome p (fun w => fD (seed (T x) w)) h (T x)) {z : Pt n → Fin m → Dual}
    (hz : ∀ i, IsAD (fun v => z v i) (fun y => T y i) x) : Outcome p (fun v => fD (z v)) (fun y => h (T y)) x := by
  choose t ht hzt using hz
  refine Outcome.comp (T' := (EuclideanSpace.equiv (Fin m) ℝ).symm.toContinuousLinearMap.comp (ContinuousLinearMap.pi t))
    ho ?_ fun v => ?_
  · exact ((EuclideanSpace.equiv (Fin m) ℝ).symm.toContinuousLinearMap.hasFDerivAt).comp x (hasFDerivAt_pi.mpr ht)
  · funext i
    exact hzt i v

theorem seed_isAD {n : ℕ} (x : Pt n) (i : Fin n) : IsAD (fun v : Pt n => seed x v i) (fun y : Pt n => y i) x :=
  ⟨EuclideanSpace.proj i, (EuclideanSpace.proj (𝕜 := ℝ) i).hasFDerivAt, fun _ => rfl⟩

theorem translateD_outcome {n : ℕ} {fD : DADF n} {h : Pt n → ℝ} {p : Prop} (x y : Pt n)
    (ho : Outcome p (fun w => fD (seed (x - y) w)) h (x - y)) :
    Outcome p (fun v => translateD fD (efin y) (seed x v)) (fun z => h (z - y)) x :=
  Outcome.coords (T := fun z => z - y) ho fun i => (seed_isAD x i).subc (y i)

theorem scaleByD_outcome {n : ℕ} {fD : DADF n} {h : Pt n → ℝ} {p : Prop} {s : ℝ} (hs : s ≠ 0) (x : Pt n)
    (ho : Outcome p (fun w => fD (seed (s⁻¹ • x) w)) h (s⁻¹ • x)) :
    Outcome p (fun v => scaleByD fD (fin s) (seed x v)) (fun z => h (s⁻¹ • z) * s) x := by
  have h1 := Outcome.coords (T := fun z => s⁻¹ • z) ho (z := fun v i => (seed x v i).divc (fin s)) fun i =>
    ((seed_isAD x i).divc hs).congr (fun _ => rfl) fun y => by simp [div_eq_inv_mul]
  refine ⟨fun hp => (h1.1 hp).mulc s, fun hp v => ?_⟩
  have h2 : fD (fun i => (seed x v i).divc (fin s)) = _ := h1.2 hp v
  show Dual.mulc (fD fun i => (seed x v i).divc (fin s)) (fin s) = _
  rw [h2]
  simp [Dual.mulc]

theorem sphere_real {n : ℕ} {r : ℝ} (hr : r ≠ 0) (y : Pt n) :
    sphere (fin r) (efin y) = fin ((r ^ 2 - ‖y‖ ^ 2) / (2 * r)) := by
  have h2r : 2 * r ≠ 0 := by positivity
  rw [sphere, vnorm_efin', fin_npow, fin_npow, fin_sub, lit_eq, fin_mul, fin_div _ h2r]

theorem cylinderD_outcome {n : ℕ} {r : ℝ} (hr : r ≠ 0) (x : Pt (n + 2)) (h : Pt (n + 2) → ℝ)
    (hh : ∀ y, cylinder (fin r) (efin y) = fin (h y)) :
    Outcome (¬ (x 0 = 0 ∧ x 1 = 0)) (fun v => cylinderD (fin r) (seed x v)) h x := by
  have h1 := Outcome.coords (T := fun y : Pt (n + 2) => (!₂[y 0, y 1] : Pt 2))
    (sphereD_outcome hr (!₂[x 0, x 1] : Pt 2) _ (sphere_real hr))
    (z := fun v i => seed x v (Fin.castLE (by omega) i)) fun i => by
      have := seed_isAD x (Fin.castLE (by omega : 2 ≤ n + 2) i)
      refine this.congr (fun _ => rfl) fun y => ?_
      fin_cases i <;> rfl
  have h2 : h = fun y : Pt (n + 2) => (r ^ 2 - ‖(!₂[y 0, y 1] : Pt 2)‖ ^ 2) / (2 * r) := funext fun y => by
    have h3 := hh y
    have h4 : cylinder (fin r) (efin y) = sphere (fin r) (efin (!₂[y 0, y 1] : Pt 2)) := by
      unfold cylinder
      congr 1
      funext i
      fin_cases i <;> rfl
    rw [h4, sphere_real hr, fin_inj] at h3
    exact h3.symm
  rw [h2]
  refine h1.iff ?_
  rw [not_iff_not]
  constructor
  · intro h
    exact ⟨congrArg (fun p : Pt 2 => p 0) h, congrArg (fun p : Pt 2 => p 1) h⟩
  · rintro ⟨h, h'⟩
    ext i
    fin_cases i
    · exact h
    · exact h'

theorem xr_sum_nan {n : ℕ} (f : Fin n → XR) (i : Fin n) (h : f i = nan) : ∑ i, f i = nan := by
  rw [← Finset.add_sum_erase _ _ (Finset.mem_univ i), h, nan_add]

theorem sphereD_strict {n : ℕ} (r : XR) : Strict (sphereD (n := n) r) := by
  rintro z ⟨i, hi⟩
  have h0 : ∑ i, (z i * z i).tan = nan := xr_sum_nan _ i (by rw [Dual.mul_def]; simp [hi])
  show -((∑ i, (z i * z i).tan) * _ * _) / _ = nan
  rw [h0]; simp

theorem sphereD_primal {n : ℕ} (r : XR) : Primal (sphereD (n := n) r) (sphere r) := fun _ => rfl

theorem fold_val {S : RFunD} {P : RFun} (hS : ADSystem S P) (l : List Dual) : ∀ d : Dual,
    (l.foldl S.conj d).val = (l.map Dual.val).foldl P.conj d.val := by
  induction l with
  | nil => intro d; rfl
  | cons a l ih => intro d; simp only [List.foldl_cons, List.map_cons]; rw [ih, hS.val_conj]

theorem fold_nan {S : RFunD} {P : RFun} (hS : ADSystem S P) (l : List Dual) : ∀ d : Dual,
    (d.tan = nan ∨ ∃ a ∈ l, Dual.tan a = nan) → (l.foldl S.conj d).tan = nan := by
  induction l with
  | nil => rintro d (h | ⟨a, h, -⟩); exacts [h, absurd h (by simp)]
  | cons a l ih =>
    intro d h
    rw [List.foldl_cons]
    apply ih
    rcases h with h | ⟨b, hb, h⟩
    · exact Or.inl (hS.nan_conj _ _ (Or.inl h))
    · rcases List.mem_cons.mp hb with rfl | hb
      · exact Or.inl (hS.nan_conj _ _ (Or.inr h))
      · exact Or.inr ⟨b, hb, h⟩

theorem cuboidD_primal {n : ℕ} {S : RFunD} {P : RFun} (hS : ADSystem S P) (e : EdgeArg n) (c : Bool) :
    Primal (cuboidD e c S) (cuboid e c P) := by
  intro z
  have hm : ((List.finRange n).flatMap fun i => [(z i).subFrom (cuboid.ub e c i), (z i).subc (cuboid.lb e c i)]).map
      Dual.val = (List.finRange n).flatMap fun i => [cuboid.ub e c i - (z i).val, (z i).val - cuboid.lb e c i] := by
    simp [List.map_flatMap, Dual.subFrom, Dual.subc]
  simp only [cuboidD, cuboid, compose, List.flatMap_cons, List.flatMap_nil, List.append_nil]
  rw [← hm]
  generalize (List.finRange n).flatMap _ = l
  cases l with
  | nil => rfl
  | cons a l => exact fold_val hS l a

theorem cuboidD_strict {n : ℕ} {S : RFunD} {P : RFun} (hS : ADSystem S P) (e : EdgeArg n) (c : Bool) :
    Strict (cuboidD e c S) := by
  rintro z ⟨i, hi⟩
  have hmem : (z i).subc (cuboid.lb e c i) ∈
      (List.finRange n).flatMap fun i => [(z i).subFrom (cuboid.ub e c i), (z i).subc (cuboid.lb e c i)] := by
    rw [List.mem_flatMap]; exact ⟨i, List.mem_finRange i, by simp⟩
  unfold cuboidD
  revert hmem
  generalize (List.finRange n).flatMap _ = l
  intro hmem
  have hi' : ((z i).subc (cuboid.lb e c i)).tan = nan := hi
  cases l with
  | nil => simp at hmem
  | cons a l =>
    refine fold_nan hS l a ?_
    rcases List.mem_cons.mp hmem with h | h
    · left; rw [← h, hi']
    · exact Or.inr ⟨_, h, hi'⟩

theorem buildD_primal {ι : Type*} {n : ℕ} {S : RFunD} {P : RFun} (hS : ADSystem S P) (leaf : ι → ADF n)
    (leafD : ι → DADF n) (hl : ∀ i, Primal (leafD i) (leaf i)) (e : SetExpr ι) :
    Primal (e.buildD S leafD) (e.build P leaf) := by
  induction e with
  | leaf i => exact hl i
  | compl e ih =>
    intro z
    show -(e.buildD S leafD z).val = -(e.build P leaf _)
    rw [ih]
  | union e₁ e₂ h₁ h₂ => intro z; show (S.disj _ _).val = P.disj _ _; rw [hS.val_disj, h₁, h₂]
  | inter e₁ e₂ h₁ h₂ => intro z; show (S.conj _ _).val = P.conj _ _; rw [hS.val_conj, h₁, h₂]
  | diff e₁ e₂ h₁ h₂ =>
    intro z; show (S.conj _ (- _)).val = P.conj _ (- _); rw [hS.val_conj, h₁, Dual.neg_def, h₂]
  | impl e₁ e₂ h₁ h₂ =>
    intro z; show (S.disj (- _) _).val = P.disj (- _) _; rw [hS.val_disj, h₂, Dual.neg_def, h₁]
  | equiv e₁ e₂ h₁ h₂ =>
    intro z; show (S.conj (S.disj _ (- _)) (S.disj (- _) _)).val = P.conj (P.disj _ (- _)) (P.disj (- _) _)
    rw [hS.val_conj, hS.val_disj, hS.val_disj, Dual.neg_def, Dual.neg_def, h₁, h₂]
  | symmDiff e₁ e₂ h₁ h₂ =>
    intro z; show (S.disj (S.conj _ (- _)) (S.conj (- _) _)).val = P.disj (P.conj _ (- _)) (P.conj (- _) _)
    rw [hS.val_disj, hS.val_conj, hS.val_conj, Dual.neg_def, Dual.neg_def, h₁, h₂]

theorem buildD_strict {ι : Type*} {n : ℕ} {S : RFunD} {P : RFun} (hS : ADSystem S P)
    (leafD : ι → DADF n) (hl : ∀ i, Strict (leafD i)) (e : SetExpr ι) : Strict (e.buildD S leafD) := by
  intro z hz
  have hneg : ∀ a : Dual, a.tan = nan → (-a).tan = nan := fun a h => by rw [Dual.neg_def, h]; rfl
  induction e with
  | leaf i => exact hl i z hz
  | compl e ih => exact hneg _ ih
  | union e₁ e₂ h₁ h₂ => exact hS.nan_disj _ _ (Or.inl h₁)
  | inter e₁ e₂ h₁ h₂ => exact hS.nan_conj _ _ (Or.inl h₁)
  | diff e₁ e₂ h₁ h₂ => exact hS.nan_conj _ _ (Or.inl h₁)
  | impl e₁ e₂ h₁ h₂ => exact hS.nan_disj _ _ (Or.inl (hneg _ h₁))
  | equiv e₁ e₂ h₁ h₂ => exact hS.nan_conj _ _ (Or.inl (hS.nan_disj _ _ (Or.inl h₁)))
  | symmDiff e₁ e₂ h₁ h₂ => exact hS.nan_disj _ _ (Or.inl (hS.nan_conj _ _ (Or.inl h₁)))

theorem rad2_zero (s t : ℝ) : (Dual.sq ⟨fin 0, fin s⟩ + Dual.sq ⟨fin 0, fin t⟩ : Dual) = ⟨fin 0, fin 0⟩ := by
  simp [Dual.add_def, Dual.sq]

theorem revolutionD_outcome {fD : DADF 2} {F : ADF 2} (hprim : Primal fD F) (hst : Strict fD) {h : Pt 2 → ℝ}
    (hF : ∀ y, F (efin y) = fin (h y)) (x : Pt 3) {p : Prop}
    (ho : Outcome p (fun w => fD (seed (!₂[x 0, Real.sqrt (x 1 ^ 2 + x 2 ^ 2)]) w)) h (!₂[x 0, Real.sqrt (x 1 ^ 2 + x 2 ^ 2)])) :
    ∃ gD : DADF 3, (∀ z, revolutionD fD 0 z = .ok (gD z)) ∧
      Outcome (p ∧ ¬ (x 1 = 0 ∧ x 2 = 0)) (fun v => gD (seed x v))
        (fun y => h (!₂[y 0, Real.sqrt (y 1 ^ 2 + y 2 ^ 2)])) x := by
  refine ⟨fun z => fD ![z 0, Dual.sqrt ((z 1).sq + (z 2).sq)], fun z => by simp [revolutionD], ?_⟩
  by_cases hax : x 1 = 0 ∧ x 2 = 0
  · refine ⟨fun hp => absurd hax hp.2, fun _ v => ?_⟩
    have hz : Dual.sqrt ((seed x v 1).sq + (seed x v 2).sq) = ⟨fin 0, nan⟩ := by
      show Dual.sqrt (Dual.sq ⟨fin (x 1), _⟩ + Dual.sq ⟨fin (x 2), _⟩) = _
      rw [hax.1, hax.2, rad2_zero, Dual.sqrt_zero]
    beta_reduce
    rw [hz]
    have ht : (fD ![seed x v 0, ⟨fin 0, nan⟩]).tan = nan := hst _ ⟨1, rfl⟩
    have hv : (fD ![seed x v 0, ⟨fin 0, nan⟩]).val = fin (h (!₂[x 0, Real.sqrt (x 1 ^ 2 + x 2 ^ 2)])) := by
      rw [hprim, ← hF]
      congr 1
      funext i
      fin_cases i
      · rfl
      · simp [hax.1, hax.2, efin]
    exact Dual.ext' hv ht
  · have h1 := Outcome.coords (T := fun y : Pt 3 => (!₂[y 0, Real.sqrt (y 1 ^ 2 + y 2 ^ 2)] : Pt 2)) ho
      (z := fun v => ![seed x v 0, Dual.sqrt ((seed x v 1).sq + (seed x v 2).sq)]) fun i => by
        fin_cases i
        · exact seed_isAD x 0
        · exact ((seed_isAD x 1).sq.add (seed_isAD x 2).sq).sqrt (sum_sq_pos hax)
    exact h1.iff (by simp [hax])

theorem revolutionD_outcome₁ {fD : DADF 2} {F : ADF 2} (hprim : Primal fD F) (hst : Strict fD) {h : Pt 2 → ℝ}
    (hF : ∀ y, F (efin y) = fin (h y)) (x : Pt 3) {p : Prop}
    (ho : Outcome p (fun w => fD (seed (!₂[Real.sqrt (x 0 ^ 2 + x 2 ^ 2), x 1]) w)) h (!₂[Real.sqrt (x 0 ^ 2 + x 2 ^ 2), x 1])) :
    ∃ gD : DADF 3, (∀ z, revolutionD fD 1 z = .ok (gD z)) ∧
      Outcome (p ∧ ¬ (x 0 = 0 ∧ x 2 = 0)) (fun v => gD (seed x v))
        (fun y => h (!₂[Real.sqrt (y 0 ^ 2 + y 2 ^ 2), y 1])) x := by
  refine ⟨fun z => fD ![Dual.sqrt ((z 0).sq + (z 2).sq), z 1], fun z => by simp [revolutionD], ?_⟩
  by_cases hax : x 0 = 0 ∧ x 2 = 0
  · refine ⟨fun hp => absurd hax hp.2, fun _ v => ?_⟩
    have hz : Dual.sqrt ((seed x v 0).sq + (seed x v 2).sq) = ⟨fin 0, nan⟩ := by
      show Dual.sqrt (Dual.sq ⟨fin (x 0), _⟩ + Dual.sq ⟨fin (x 2), _⟩) = _
      rw [hax.1, hax.2, rad2_zero, Dual.sqrt_zero]
    beta_reduce
    rw [hz]
    have ht : (fD ![⟨fin 0, nan⟩, seed x v 1]).tan = nan := hst _ ⟨0, rfl⟩
    have hv : (fD ![⟨fin 0, nan⟩, seed x v 1]).val = fin (h (!₂[Real.sqrt (x 0 ^ 2 + x 2 ^ 2), x 1])) := by
      rw [hprim, ← hF]
      congr 1
      funext i
      fin_cases i
      · simp [hax.1, hax.2, efin]
      · rfl
    exact Dual.ext' hv ht
  · have h1 := Outcome.coords (T := fun y : Pt 3 => (!₂[Real.sqrt (y 0 ^ 2 + y 2 ^ 2), y 1] : Pt 2)) ho
      (z := fun v => ![Dual.sqrt ((seed x v 0).sq + (seed x v 2).sq), seed x v 1]) fun i => by
        fin_cases i
        · exact ((seed_isAD x 0).sq.add (seed_isAD x 2).sq).sqrt (sum_sq_pos hax)
        · exact seed_isAD x 1
    exact h1.iff (by simp [hax])

theorem jacfwdD_outcome {n : ℕ} {fD : DADF n} {h : Pt n → ℝ} {p : Prop} {x : Pt n}
    (ho : Outcome p (fun w => fD (seed x w)) h x) :
    (p → DifferentiableAt ℝ h x ∧ jacfwdD fD (efin x) = efin (gradient h x)) ∧
    (¬ p → ∀ k, jacfwdD fD (efin x) k = nan) := by
  have hs : ∀ k, (fun i => (⟨efin x i, if i = k then 1 else 0⟩ : Dual)) = seed x (EuclideanSpace.single k 1) := by
    intro k; funext i
    by_cases hik : i = k <;> simp [seed, hik]
  refine ⟨fun hp => ?_, fun hp k => ?_⟩
  · obtain ⟨f', h1, h2⟩ := ho.1 hp
    refine ⟨h1.differentiableAt, funext fun k => ?_⟩
    have h3 : fD (seed x (EuclideanSpace.single k 1)) = _ := h2 _
    rw [jacfwdD, hs, h3, efin_apply]
    show fin _ = _
    congr 1
    have h4 : inner ℝ (gradient h x) (EuclideanSpace.single k 1) = f' (EuclideanSpace.single k 1) := by
      rw [gradient, InnerProductSpace.toDual_symm_apply, h1.fderiv]
    rw [← h4, EuclideanSpace.inner_single_right]
    simp
  · have h3 : fD (seed x (EuclideanSpace.single k 1)) = _ := ho.2 hp _
    rw [jacfwdD, hs, h3]

theorem normalize_outcome {n : ℕ} (hn : 0 < n) {fD : DADF n} {F : ADF n} {h : Pt n → ℝ} {p : Prop} {x : Pt n}
    (hF : F (efin x) = fin (h x)) (ho : Outcome p (fun w => fD (seed x w)) h x) :
    (p → normalize1stOrder F (jacfwdD fD) (efin x) = fin (h x) / fin (Real.sqrt (h x ^ 2 + ‖gradient h x‖ ^ 2))) ∧
    (¬ p → normalize1stOrder F (jacfwdD fD) (efin x) = nan) := by
  refine ⟨fun hp => ?_, fun hp => ?_⟩
  · have := ((jacfwdD_outcome ho).1 hp).2
    simp only [normalize1stOrder]
    rw [this, vnorm_efin', hF, fin_npow, fin_npow, fin_add, fin_sqrt (by positivity)]
  · have h1 := (jacfwdD_outcome ho).2 hp
    have h2 : vnorm (jacfwdD fD (efin x)) = nan := by
      unfold vnorm
      rw [xr_sum_nan _ ⟨0, hn⟩ (by rw [h1]; simp)]; rfl
    simp only [normalize1stOrder]
    rw [h2, show (nan : XR) ^ 2 = nan by rfl, add_nan, sqrt_nan, div_nan]


theorem conj_fold_fin {P : RFun} (hP : SignLaw P.conj P.disj) (l : List ℝ) : ∀ a : ℝ,
    ∃ c : ℝ, (l.map fin).foldl P.conj (fin a) = fin c := by
  induction l with
  | nil => intro a; exact ⟨a, rfl⟩
  | cons b l ih =>
    intro a
    obtain ⟨c, hc, -⟩ := hP.and_sign a b
    obtain ⟨c', hc'⟩ := ih c
    exact ⟨c', by rw [List.map_cons, List.foldl_cons, hc, hc']⟩

theorem cuboid_fin {n : ℕ} (hn : 0 < n) {P : RFun} (hP : SignLaw P.conj P.disj) (e : EdgeArg n) (c : Bool)
    (lb ub : Fin n → ℝ) (hlb : ∀ i, cuboid.lb e c i = fin (lb i)) (hub : ∀ i, cuboid.ub e c i = fin (ub i)) (y : Pt n) :
    ∃ a : ℝ, cuboid e c P (efin y) = fin a := by
  have hm : ((List.finRange n).flatMap fun i => [cuboid.ub e c i - efin y i, efin y i - cuboid.lb e c i]) =
      (faces lb ub fun i => y i).map fin := by
    simp [faces, List.map_flatMap, hub, hlb]
  simp only [cuboid, compose, List.flatMap_cons, List.flatMap_nil, List.append_nil]
  rw [hm]
  rcases hf : faces lb ub fun i => y i with _ | ⟨a, l⟩
  · exfalso
    have := congrArg List.length hf
    simp [faces] at this
    omega
  · exact conj_fold_fin hP l a

theorem sphere_deriv_centre {n : ℕ} (r : ℝ) :
    HasFDerivAt (fun y : Pt n => (r ^ 2 - ‖y‖ ^ 2) / (2 * r)) (0 : Pt n →L[ℝ] ℝ) 0 := by
  have h1 := ((hasStrictFDerivAt_norm_sq (0 : Pt n)).hasFDerivAt.const_sub (r ^ 2)).mul_const (2 * r)⁻¹
  have h2 : (2 * r)⁻¹ • -(2 • (innerSL ℝ) (0 : Pt n)) = 0 := by simp
  rw [h2] at h1
  simpa [div_eq_mul_inv] using h1

/-- Functions bounded by `C ‖y‖ ^ (1 + m)`. -/
theorem ralpham_deriv {m α : ℝ} (hm : 0 < m) (h1 : -1 < α) (h2 : α ≤ 1) (σ : ℝ) (hσ : |σ| = 1) :
    HasFDerivAt (fun y : Pt 2 => 1 / (1 + α) * (y 0 + y 1 + σ * Real.sqrt (y 0 ^ 2 + y 1 ^ 2 - 2 * α * y 0 * y 1)) *
      (y 0 ^ 2 + y 1 ^ 2) ^ (m / 2)) (0 : Pt 2 →L[ℝ] ℝ) 0 := by
  rw [hasFDerivAt_iff_isLittleO_nhds_zero]
  have hC : 0 < 1 / (1 + α) := by apply one_div_pos.mpr; linarith
  set C := 1 / (1 + α) with hCdef
  have hbound : ∀ y : Pt 2, |C * (y 0 + y 1 + σ * Real.sqrt (y 0 ^ 2 + y 1 ^ 2 - 2 * α * y 0 * y 1)) *
      (y 0 ^ 2 + y 1 ^ 2) ^ (m / 2)| ≤ C * 4 * ‖y‖ * ‖y‖ ^ m := by
    intro y
    have hn : ‖y‖ ^ 2 = y 0 ^ 2 + y 1 ^ 2 := by
      rw [EuclideanSpace.norm_sq_eq, Fin.sum_univ_two]; simp
    have ha : |y 0| ≤ ‖y‖ := abs_le_of_sq_le_sq (by rw [hn]; nlinarith [sq_nonneg (y 1)]) (norm_nonneg y)
    have hb : |y 1| ≤ ‖y‖ := abs_le_of_sq_le_sq (by rw [hn]; nlinarith [sq_nonneg (y 0)]) (norm_nonneg y)
    have hr : Real.sqrt (y 0 ^ 2 + y 1 ^ 2 - 2 * α * y 0 * y 1) ≤ 2 * ‖y‖ := by
      rw [Real.sqrt_le_left (by positivity), mul_pow, hn]
      nlinarith [mul_nonneg (by linarith : 0 ≤ 1 + α) (sq_nonneg (y 0 - y 1)), mul_nonneg (by linarith : 0 ≤ 1 - α) (sq_nonneg (y 0 + y 1)),
        sq_nonneg (y 0 - y 1), sq_nonneg (y 0 + y 1)]
    have hp : (y 0 ^ 2 + y 1 ^ 2) ^ (m / 2) = ‖y‖ ^ m := by
      rw [← hn, ← Real.rpow_natCast, ← Real.rpow_mul (norm_nonneg y)]
      congr 1; push_cast; ring
    rw [abs_mul, abs_mul, hp, abs_of_pos hC, abs_of_nonneg (Real.rpow_nonneg (norm_nonneg y) m)]
    have h3 : |y 0 + y 1 + σ * Real.sqrt (y 0 ^ 2 + y 1 ^ 2 - 2 * α * y 0 * y 1)| ≤ 4 * ‖y‖ := by
      refine (abs_add_le _ _).trans ?_
      have := abs_add_le (y 0) (y 1)
      rw [abs_mul, hσ, one_mul, abs_of_nonneg (Real.sqrt_nonneg _)]
      linarith
    rw [mul_assoc C 4]
    exact mul_le_mul_of_nonneg_right (mul_le_mul_of_nonneg_left h3 hC.le) (Real.rpow_nonneg (norm_nonneg y) m)
  rw [Asymptotics.isLittleO_iff]
  intro c hc
  have ht : Filter.Tendsto (fun y : Pt 2 => C * 4 * ‖y‖ ^ m) (nhds 0) (nhds 0) := by
    have hcont : Continuous fun y : Pt 2 => C * 4 * ‖y‖ ^ m :=
      continuous_const.mul (continuous_norm.rpow_const fun _ => Or.inr hm.le)
    have := hcont.tendsto 0
    simpa [Real.zero_rpow hm.ne'] using this
  filter_upwards [ht.eventually (gt_mem_nhds hc)] with y hy
  have := hbound y
  simp only [zero_add, zero_apply, sub_zero, Real.norm_eq_abs]
  have h00 : C * ((0 : Pt 2) 0 + (0 : Pt 2) 1 + σ * Real.sqrt ((0 : Pt 2) 0 ^ 2 + (0 : Pt 2) 1 ^ 2 - 2 * α * (0 : Pt 2) 0 * (0 : Pt 2) 1)) *
      ((0 : Pt 2) 0 ^ 2 + (0 : Pt 2) 1 ^ 2) ^ (m / 2) = 0 := by simp
  rw [h00, sub_zero]
  refine this.trans ?_
  calc C * 4 * ‖y‖ * ‖y‖ ^ m = C * 4 * ‖y‖ ^ m * ‖y‖ := by ring
    _ ≤ c * ‖y‖ := mul_le_mul_of_nonneg_right hy.le (norm_nonneg y)

end Verif
