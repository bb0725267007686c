import Verif.Lemmas.NestedAD

/-! # Lemmas about nested differentiation of R-functions and solids -/

namespace Verif

open XR
open scoped ContDiff Topology

/-! ### symbolic zeros -/

theorem tracked_add : ∀ {k : ℕ} {d e : Nested k}, Tracked k d → Tracked k (d +ₐ e)
  | 0, _, _, _ => trivial
  | k + 1, ⟨d, s⟩, ⟨e, t⟩, h => by
    obtain ⟨s', rfl⟩ := Option.isSome_iff_exists.mp h.2
    refine ⟨tracked_add (k := k) h.1, ?_⟩
    cases t <;> rfl

theorem tracked_add_right : ∀ {k : ℕ} {d e : Nested k}, Tracked k e → Tracked k (d +ₐ e)
  | 0, _, _, _ => trivial
  | k + 1, ⟨d, s⟩, ⟨e, t⟩, h => by
    obtain ⟨s', rfl⟩ := Option.isSome_iff_exists.mp h.2
    refine ⟨tracked_add_right (k := k) h.1, ?_⟩
    cases s <;> rfl

theorem tracked_sub : ∀ {k : ℕ} {d e : Nested k}, Tracked k d → Tracked k (d -ₐ e)
  | 0, _, _, _ => trivial
  | k + 1, ⟨d, s⟩, ⟨e, t⟩, h => by
    obtain ⟨s', rfl⟩ := Option.isSome_iff_exists.mp h.2
    refine ⟨tracked_sub (k := k) h.1, ?_⟩
    cases t <;> rfl

theorem tracked_sub_right : ∀ {k : ℕ} {d e : Nested k}, Tracked k e → Tracked k (d -ₐ e)
  | 0, _, _, _ => trivial
  | k + 1, ⟨d, s⟩, ⟨e, t⟩, h => by
    obtain ⟨s', rfl⟩ := Option.isSome_iff_exists.mp h.2
    refine ⟨tracked_sub_right (k := k) h.1, ?_⟩
    cases s <;> rfl

theorem tracked_mul : ∀ {k : ℕ} {d e : Nested k}, Tracked k d → Tracked k (d *ₐ e)
  | 0, _, _, _ => trivial
  | k + 1, ⟨d, s⟩, ⟨e, t⟩, h => by
    obtain ⟨s', rfl⟩ := Option.isSome_iff_exists.mp h.2
    refine ⟨tracked_mul (k := k) h.1, ?_⟩
    cases t <;> rfl

theorem tracked_mul_right : ∀ {k : ℕ} {d e : Nested k}, Tracked k e → Tracked k (d *ₐ e)
  | 0, _, _, _ => trivial
  | k + 1, ⟨d, s⟩, ⟨e, t⟩, h => by
    obtain ⟨s', rfl⟩ := Option.isSome_iff_exists.mp h.2
    refine ⟨tracked_mul_right (k := k) h.1, ?_⟩
    cases s <;> rfl

theorem tracked_div : ∀ {k : ℕ} {d e : Nested k}, Tracked k d → Tracked k (d /ₐ e)
  | 0, _, _, _ => trivial
  | k + 1, ⟨d, s⟩, ⟨e, t⟩, h => by
    obtain ⟨s', rfl⟩ := Option.isSome_iff_exists.mp h.2
    refine ⟨tracked_div (k := k) h.1, ?_⟩
    cases t <;> rfl

theorem tracked_neg : ∀ {k : ℕ} {d : Nested k}, Tracked k d → Tracked k (ADNum.neg d)
  | 0, _, _ => trivial
  | k + 1, ⟨d, s⟩, h => by
    obtain ⟨s', rfl⟩ := Option.isSome_iff_exists.mp h.2
    exact ⟨tracked_neg (k := k) h.1, rfl⟩

theorem tracked_sqrt : ∀ {k : ℕ} {d : Nested k}, Tracked k d → Tracked k (ADNum.sqrt d)
  | 0, _, _ => trivial
  | k + 1, ⟨d, s⟩, h => by
    obtain ⟨s', rfl⟩ := Option.isSome_iff_exists.mp h.2
    exact ⟨tracked_sqrt (k := k) h.1, rfl⟩

theorem tracked_exp : ∀ {k : ℕ} {d : Nested k}, Tracked k d → Tracked k (ADNum.exp d)
  | 0, _, _ => trivial
  | k + 1, ⟨d, s⟩, h => by
    obtain ⟨s', rfl⟩ := Option.isSome_iff_exists.mp h.2
    exact ⟨tracked_exp (k := k) h.1, rfl⟩

theorem tracked_sin : ∀ {k : ℕ} {d : Nested k}, Tracked k d → Tracked k (ADNum.sin d)
  | 0, _, _ => trivial
  | k + 1, ⟨d, s⟩, h => by
    obtain ⟨s', rfl⟩ := Option.isSome_iff_exists.mp h.2
    exact ⟨tracked_sin (k := k) h.1, rfl⟩

theorem tracked_ipow (n : ℤ) : ∀ {k : ℕ} {d : Nested k}, Tracked k d → Tracked k (ADNum.ipow d n)
  | 0, _, _ => trivial
  | k + 1, ⟨d, s⟩, h => by
    obtain ⟨s', rfl⟩ := Option.isSome_iff_exists.mp h.2
    exact ⟨tracked_ipow n (k := k) h.1, rfl⟩

section

variable {E : Type*} [NormedAddCommGroup E] [NormedSpace ℝ E] {x : E} {vs : ℕ → E}

theorem Rep.value : ∀ {k : ℕ} {d : Nested k} {f : E → ℝ}, Rep x vs k d f → Verif.value k d = fin (f x)
  | 0, _, _, h => h.2
  | k + 1, d, _, h => Rep.value (k := k) (d := JVP.val d) h.1

theorem Rep.fj : ∀ {k : ℕ} {d : Nested k} {f : E → ℝ}, Rep x vs k d f → Tracked k d → f x = 0 → FJ k d
  | 0, _, f, h, _, h0 => h.2.trans (congrArg fin h0)
  | k + 1, ⟨d, s⟩, f, h, ht, h0 => by
    obtain ⟨s', rfl⟩ := Option.isSome_iff_exists.mp ht.2
    exact ⟨Rep.fj (k := k) h.1 ht.1 h0, s', _, rfl, Rep.value (k := k) h.2⟩

end

theorem poisoned_of_nan {k : ℕ} {d e : Nested k} (h : Poisoned k d) (he : ∀ b, comp b k d = nan → comp b k e = nan) :
    Poisoned k e := fun b hb => he b (h b hb)

/-! ### R-systems -/

structure NestSystem (S : (α : Type) → [ADNum α] → RFunG α) (P : RFun) : Prop where
  xr_conj : ∀ a b, (S XR).conj a b = P.conj a b
  xr_disj : ∀ a b, (S XR).disj a b = P.disj a b
  val_conj : ∀ (k : ℕ) (a b : Nested (k + 1)), JVP.val ((S (Nested (k + 1))).conj a b) = (S (Nested k)).conj (JVP.val a) (JVP.val b)
  val_disj : ∀ (k : ℕ) (a b : Nested (k + 1)), JVP.val ((S (Nested (k + 1))).disj a b) = (S (Nested k)).disj (JVP.val a) (JVP.val b)
  rep_conj : ∀ {n k : ℕ} {x : Pt n} {vs : ℕ → Pt n} (a b : Nested k) (f g h : Pt n → ℝ), Rep x vs k a f → Rep x vs k b g →
    ¬ (f x = 0 ∧ g x = 0) → (∀ y, P.conj (fin (f y)) (fin (g y)) = fin (h y)) → Rep x vs k ((S (Nested k)).conj a b) h
  rep_disj : ∀ {n k : ℕ} {x : Pt n} {vs : ℕ → Pt n} (a b : Nested k) (f g h : Pt n → ℝ), Rep x vs k a f → Rep x vs k b g →
    ¬ (f x = 0 ∧ g x = 0) → (∀ y, P.disj (fin (f y)) (fin (g y)) = fin (h y)) → Rep x vs k ((S (Nested k)).disj a b) h
  tracked_conj : ∀ (k : ℕ) (a b : Nested k), Tracked k a → Tracked k ((S (Nested k)).conj a b)
  tracked_disj : ∀ (k : ℕ) (a b : Nested k), Tracked k a → Tracked k ((S (Nested k)).disj a b)
  nan_conj : ∀ (c : ℕ → Bool) (k : ℕ) (a b : Nested k), comp c k a = nan ∨ comp c k b = nan → comp c k ((S (Nested k)).conj a b) = nan
  nan_disj : ∀ (c : ℕ → Bool) (k : ℕ) (a b : Nested k), comp c k a = nan ∨ comp c k b = nan → comp c k ((S (Nested k)).disj a b) = nan
  zero_conj : ∀ (k : ℕ) (a b : Nested k), FJ k a → FJ k b → Poisoned k ((S (Nested k)).conj a b)
  zero_disj : ∀ (k : ℕ) (a b : Nested k), FJ k a → FJ k b → Poisoned k ((S (Nested k)).disj a b)

theorem add_nan {b : ℕ → Bool} {k : ℕ} {d e : Nested k} (h : comp b k d = nan ∨ comp b k e = nan) : comp b k (d +ₐ e) = nan := by
  rw [comp_add]
  rcases h with h | h <;> rw [h]
  · exact xr_nan_add _
  · exact xr_add_nan _

theorem sub_nan {b : ℕ → Bool} {k : ℕ} {d e : Nested k} (h : comp b k d = nan ∨ comp b k e = nan) : comp b k (d -ₐ e) = nan := by
  rw [comp_sub]
  rcases h with h | h <;> rw [h]
  · exact xr_nan_sub _
  · exact xr_sub_nan _

section
variable {α : ℝ}

theorem alpha_rad {E : Type*} [NormedAddCommGroup E] [NormedSpace ℝ E] {x : E} {vs : ℕ → E} {k : ℕ} (h1 : -1 < α) (h2 : α < 1)
    {a b : Nested k} {f g : E → ℝ} (ha : Rep x vs k a f) (hb : Rep x vs k b g) (h0 : ¬ (f x = 0 ∧ g x = 0)) :
    Rep x vs k (ADNum.sqrt (ADNum.ipow a 2 +ₐ ADNum.ipow b 2 -ₐ ADNum.const (2 * fin α) *ₐ a *ₐ b))
      fun y => Real.sqrt (f y ^ 2 + g y ^ 2 - 2 * α * f y * g y) := by
  have S := rep_sound x vs k
  have h3 := S.sub (S.add (S.ipow 2 ha (Or.inl (by norm_num))) (S.ipow 2 hb (Or.inl (by norm_num))))
    (S.mul (S.mul (S.const (2 * α)) ha) hb)
  rw [two_alpha]
  refine S.congr (S.sqrt h3 ?_) ?_
  · have := ad_radicand_pos h1 h2 h0
    exact_mod_cast this
  · filter_upwards with y
    norm_cast

theorem alpha_rad_poison {k : ℕ} {a b : Nested k} (ha : FJ k a) (hb : FJ k b) :
    Poisoned k (ADNum.sqrt (ADNum.ipow a 2 +ₐ ADNum.ipow b 2 -ₐ ADNum.const (2 * fin α) *ₐ a *ₐ b)) := by
  rw [two_alpha]
  exact sqrt_poison (ZJ.sub (ZJ.add (ha.ipow 2 le_rfl) (hb.ipow 2 le_rfl)) ((ha.cmul _).mul hb))

theorem RAlpha.nestSystem (h1 : -1 < α) (h2 : α < 1) : NestSystem (RAlpha.sysG α) (RAlpha.sys α) where
  xr_conj _ _ := rfl
  xr_disj _ _ := rfl
  val_conj _ _ _ := rfl
  val_disj _ _ _ := rfl
  rep_conj {n k x vs} a b f g h ha hb h0 hh := by
    have S := rep_sound x vs k
    have := S.mul (S.const (1 / (1 + α))) (S.sub (S.add ha hb) (alpha_rad h1 h2 ha hb h0))
    simp only [RAlpha.sysG, alpha_const h1]
    refine S.congr this (Filter.Eventually.of_forall fun y => ?_)
    have := hh y
    rw [show (RAlpha.sys α).conj = RAlpha.conj α from rfl, RAlpha.conj_fin h1 h2.le, fin_inj] at this
    exact this
  rep_disj {n k x vs} a b f g h ha hb h0 hh := by
    have S := rep_sound x vs k
    have := S.mul (S.const (1 / (1 + α))) (S.add (S.add ha hb) (alpha_rad h1 h2 ha hb h0))
    simp only [RAlpha.sysG, alpha_const h1]
    refine S.congr this (Filter.Eventually.of_forall fun y => ?_)
    have := hh y
    rw [show (RAlpha.sys α).disj = RAlpha.disj α from rfl, RAlpha.disj_fin h1 h2.le, fin_inj] at this
    exact this
  tracked_conj k a b h := tracked_mul_right (tracked_sub (tracked_add h))
  tracked_disj k a b h := tracked_mul_right (tracked_add (tracked_add h))
  nan_conj c k a b h := mul_nan _ _ _ _ (Or.inr (sub_nan (Or.inl (add_nan h))))
  nan_disj c k a b h := mul_nan _ _ _ _ (Or.inr (add_nan (Or.inl (add_nan h))))
  zero_conj k a b ha hb := poisoned_of_nan (alpha_rad_poison ha hb) fun _ h => mul_nan _ _ _ _ (Or.inr (sub_nan (Or.inr h)))
  zero_disj k a b ha hb := poisoned_of_nan (alpha_rad_poison ha hb) fun _ h => mul_nan _ _ _ _ (Or.inr (add_nan (Or.inr h)))

theorem RAlphaM.nestSystem {m : ℝ} (hm : 0 ≤ m) (h1 : -1 < α) (h2 : α < 1) :
    NestSystem (RAlphaM.sysG m α) (RAlphaM.sys m α) where
  xr_conj _ _ := rfl
  xr_disj _ _ := rfl
  val_conj _ _ _ := rfl
  val_disj _ _ _ := rfl
  rep_conj {n k x vs} a b f g h ha hb h0 hh := by
    have S := rep_sound x vs k
    have h3 := S.rpow (m / 2) (S.add (S.ipow 2 ha (Or.inl (by norm_num))) (S.ipow 2 hb (Or.inl (by norm_num))))
      (by have := sum_sq_pos h0; exact_mod_cast this)
    have := S.mul (S.mul (S.const (1 / (1 + α))) (S.sub (S.add ha hb) (alpha_rad h1 h2 ha hb h0))) h3
    simp only [RAlphaM.sysG, alpha_const h1]
    refine S.congr this (Filter.Eventually.of_forall fun y => ?_)
    have := hh y
    rw [show (RAlphaM.sys m α).conj = RAlphaM.conj m α from rfl, RAlphaM.conj_fin h1 h2.le (Or.inr hm), fin_inj] at this
    rw [← this]
    norm_cast
  rep_disj {n k x vs} a b f g h ha hb h0 hh := by
    have S := rep_sound x vs k
    have h3 := S.rpow (m / 2) (S.add (S.ipow 2 ha (Or.inl (by norm_num))) (S.ipow 2 hb (Or.inl (by norm_num))))
      (by have := sum_sq_pos h0; exact_mod_cast this)
    have := S.mul (S.mul (S.const (1 / (1 + α))) (S.add (S.add ha hb) (alpha_rad h1 h2 ha hb h0))) h3
    simp only [RAlphaM.sysG, alpha_const h1]
    refine S.congr this (Filter.Eventually.of_forall fun y => ?_)
    have := hh y
    rw [show (RAlphaM.sys m α).disj = RAlphaM.disj m α from rfl, RAlphaM.disj_dual, fin_neg, fin_neg,
      RAlphaM.conj_fin h1 h2.le (Or.inr hm), fin_neg, fin_inj] at this
    rw [← this]
    norm_cast
    ring_nf
  tracked_conj k a b h := tracked_mul (tracked_mul_right (tracked_sub (tracked_add h)))
  tracked_disj k a b h := tracked_mul (tracked_mul_right (tracked_add (tracked_add h)))
  nan_conj c k a b h := mul_nan _ _ _ _ (Or.inl (mul_nan _ _ _ _ (Or.inr (sub_nan (Or.inl (add_nan h))))))
  nan_disj c k a b h := mul_nan _ _ _ _ (Or.inl (mul_nan _ _ _ _ (Or.inr (add_nan (Or.inl (add_nan h))))))
  zero_conj k a b ha hb := poisoned_of_nan (alpha_rad_poison ha hb) fun _ h =>
    mul_nan _ _ _ _ (Or.inl (mul_nan _ _ _ _ (Or.inr (sub_nan (Or.inr h)))))
  zero_disj k a b ha hb := poisoned_of_nan (alpha_rad_poison ha hb) fun _ h =>
    mul_nan _ _ _ _ (Or.inl (mul_nan _ _ _ _ (Or.inr (add_nan (Or.inr h)))))

end

theorem rp_poison {p : ℕ} (hp0 : 2 ≤ p) {k : ℕ} {a b : Nested k} (ha : FJ k a) (hb : FJ k b) :
    Poisoned k (ADNum.rpow (ADNum.ipow a p +ₐ ADNum.ipow b p) (1 / (p : ℝ))) := by
  have hp : (2 : ℝ) ≤ p := by exact_mod_cast hp0
  refine rpow_poison _ ?_ (by positivity) (ZJ.add (ha.ipow p hp0) (hb.ipow p hp0))
  rw [div_lt_one (by linarith)]; linarith

theorem RP.nestSystem {p : ℕ} (hp : p % 2 = 0) (hp0 : 2 ≤ p) : NestSystem (RP.sysG p) (RP.sys p) where
  xr_conj _ _ := rfl
  xr_disj _ _ := rfl
  val_conj _ _ _ := rfl
  val_disj _ _ _ := rfl
  rep_conj {n k x vs} a b f g h ha hb h0 hh := by
    have S := rep_sound x vs k
    have h3 := S.rpow (1 / (p : ℝ)) (S.add (S.ipow p ha (Or.inl (by positivity))) (S.ipow p hb (Or.inl (by positivity))))
      (by have := sum_pow_pos hp h0; exact_mod_cast this)
    refine S.congr (S.sub (S.add ha hb) h3) (Filter.Eventually.of_forall fun y => ?_)
    have := hh y
    rw [show (RP.sys p).conj = RP.conj p from rfl, RP.conj_fin hp, fin_inj] at this
    rw [← this]
    norm_cast
  rep_disj {n k x vs} a b f g h ha hb h0 hh := by
    have S := rep_sound x vs k
    have h3 := S.rpow (1 / (p : ℝ)) (S.add (S.ipow p ha (Or.inl (by positivity))) (S.ipow p hb (Or.inl (by positivity))))
      (by have := sum_pow_pos hp h0; exact_mod_cast this)
    refine S.congr (S.add (S.add ha hb) h3) (Filter.Eventually.of_forall fun y => ?_)
    have := hh y
    rw [show (RP.sys p).disj = RP.disj p from rfl, RP.disj_fin hp, fin_inj] at this
    rw [← this]
    norm_cast
  tracked_conj k a b h := tracked_sub (tracked_add h)
  tracked_disj k a b h := tracked_add (tracked_add h)
  nan_conj c k a b h := sub_nan (Or.inl (add_nan h))
  nan_disj c k a b h := add_nan (Or.inl (add_nan h))
  zero_conj k a b ha hb := poisoned_of_nan (rp_poison hp0 ha hb) fun _ h => sub_nan (Or.inr h)
  zero_disj k a b ha hb := poisoned_of_nan (rp_poison hp0 ha hb) fun _ h => add_nan (Or.inr h)

/-! ### outcomes -/

/-- The number `d` stands for `f` if `p` holds and has only `nan` derivatives if not. -/
def NOut {n : ℕ} (x : Pt n) (vs : ℕ → Pt n) (k : ℕ) (p : Prop) (d : Nested k) (f : Pt n → ℝ) : Prop :=
  (p → Rep x vs k d f ∧ Tracked k d) ∧ (¬ p → Poisoned k d)

section

variable {n k : ℕ} {x : Pt n} {vs : ℕ → Pt n} {p q : Prop} {d e : Nested k} {f g h : Pt n → ℝ}
  {S : (α : Type) → [ADNum α] → RFunG α} {P : RFun}

theorem NOut.iff (hd : NOut x vs k p d f) (hpq : p ↔ q) : NOut x vs k q d f := by rwa [propext hpq] at hd

theorem NOut.conj (hS : NestSystem S P) (h1 : NOut x vs k p d f) (h2 : NOut x vs k q e g)
    (hh : ∀ y, P.conj (fin (f y)) (fin (g y)) = fin (h y)) :
    NOut x vs k (p ∧ q ∧ ¬ (f x = 0 ∧ g x = 0)) ((S (Nested k)).conj d e) h := by
  refine ⟨fun hp => ⟨hS.rep_conj _ _ _ _ _ (h1.1 hp.1).1 (h2.1 hp.2.1).1 hp.2.2 hh, hS.tracked_conj _ _ _ (h1.1 hp.1).2⟩,
    fun hp => ?_⟩
  by_cases h3 : p
  · by_cases h4 : q
    · have h5 : f x = 0 ∧ g x = 0 := by
        by_contra h5; exact hp ⟨h3, h4, h5⟩
      exact hS.zero_conj _ _ _ ((h1.1 h3).1.fj (h1.1 h3).2 h5.1) ((h2.1 h4).1.fj (h2.1 h4).2 h5.2)
    · exact poisoned_of_nan (h2.2 h4) fun b hb => hS.nan_conj b _ _ _ (Or.inr hb)
  · exact poisoned_of_nan (h1.2 h3) fun b hb => hS.nan_conj b _ _ _ (Or.inl hb)

theorem NOut.disj (hS : NestSystem S P) (h1 : NOut x vs k p d f) (h2 : NOut x vs k q e g)
    (hh : ∀ y, P.disj (fin (f y)) (fin (g y)) = fin (h y)) :
    NOut x vs k (p ∧ q ∧ ¬ (f x = 0 ∧ g x = 0)) ((S (Nested k)).disj d e) h := by
  refine ⟨fun hp => ⟨hS.rep_disj _ _ _ _ _ (h1.1 hp.1).1 (h2.1 hp.2.1).1 hp.2.2 hh, hS.tracked_disj _ _ _ (h1.1 hp.1).2⟩,
    fun hp => ?_⟩
  by_cases h3 : p
  · by_cases h4 : q
    · have h5 : f x = 0 ∧ g x = 0 := by
        by_contra h5; exact hp ⟨h3, h4, h5⟩
      exact hS.zero_disj _ _ _ ((h1.1 h3).1.fj (h1.1 h3).2 h5.1) ((h2.1 h4).1.fj (h2.1 h4).2 h5.2)
    · exact poisoned_of_nan (h2.2 h4) fun b hb => hS.nan_disj b _ _ _ (Or.inr hb)
  · exact poisoned_of_nan (h1.2 h3) fun b hb => hS.nan_disj b _ _ _ (Or.inl hb)

theorem NOut.neg (h1 : NOut x vs k p d f) : NOut x vs k p (ADNum.neg d) fun y => -f y :=
  ⟨fun hp => ⟨(rep_sound x vs k).neg (h1.1 hp).1, tracked_neg (h1.1 hp).2⟩,
    fun hp => poisoned_of_nan (h1.2 hp) fun b hb => by rw [comp_neg, hb]; rfl⟩

end

theorem csg_nest {ι : Type*} {m n : ℕ} {S : (α : Type) → [ADNum α] → RFunG α} {P : RFun} (hS : NestSystem S P)
    (hP : SignLaw P.conj P.disj) (leaf : ι → ADF m) (f : ι → Pt m → ℝ) (hf : ∀ i y, leaf i (efin y) = fin (f i y))
    {k : ℕ} (x : Pt n) (vs : ℕ → Pt n) (T : Pt n → Pt m) (a : Fin m → Nested k) (leafG : ι → GADF (Nested k) m) (r : ι → Prop)
    (hr : ∀ i, NOut x vs k (r i) (leafG i a) fun y => f i (T y)) (e : SetExpr ι) :
    ∀ h : Pt m → ℝ, (∀ y, e.build P leaf (efin y) = fin (h y)) →
      NOut x vs k (e.regular (fun i => SignType.sign (f i (T x))) r) (e.buildG (S (Nested k)) leafG a) fun y => h (T y) := by
  have real : ∀ e : SetExpr ι, ∃ h : Pt m → ℝ, (∀ y, e.build P leaf (efin y) = fin (h y)) ∧
      (h (T x) = 0 ↔ e.kleene (fun i => SignType.sign (f i (T x))) = 0) := by
    intro e
    choose h h1 h2 using fun y => csg_kleene hP leaf (efin y) (fun i => f i y) (fun i => hf i y) e
    exact ⟨h, h1, by rw [← h2 (T x), sign_eq_zero_iff]⟩
  induction e with
  | leaf i =>
    intro h hh
    have : h = f i := funext fun y => by
      have := (hh y).symm.trans (hf i y)
      exact fin_inj.mp this
    rw [this]
    exact hr i
  | compl e ih =>
    intro h hh
    obtain ⟨g, hg, -⟩ := real e
    have : h = fun y => -g y := funext fun y => by
      have h1 : -(e.build P leaf (efin y)) = fin (h y) := hh y
      rw [hg y, fin_neg, fin_inj] at h1
      exact h1.symm
    rw [this]
    exact (ih g hg).neg
  | union e₁ e₂ ih₁ ih₂ =>
    intro h hh
    obtain ⟨g₁, hg₁, hz₁⟩ := real e₁
    obtain ⟨g₂, hg₂, hz₂⟩ := real e₂
    refine ((ih₁ g₁ hg₁).disj hS (ih₂ g₂ hg₂) (h := fun y => h (T y)) fun y => ?_).iff ?_
    · rw [← hg₁, ← hg₂]; exact hh (T y)
    · simp only [SetExpr.regular, hz₁, hz₂]
  | inter e₁ e₂ ih₁ ih₂ =>
    intro h hh
    obtain ⟨g₁, hg₁, hz₁⟩ := real e₁
    obtain ⟨g₂, hg₂, hz₂⟩ := real e₂
    refine ((ih₁ g₁ hg₁).conj hS (ih₂ g₂ hg₂) (h := fun y => h (T y)) fun y => ?_).iff ?_
    · rw [← hg₁, ← hg₂]; exact hh (T y)
    · simp only [SetExpr.regular, hz₁, hz₂]
  | diff e₁ e₂ ih₁ ih₂ =>
    intro h hh
    obtain ⟨g₁, hg₁, hz₁⟩ := real e₁
    obtain ⟨g₂, hg₂, hz₂⟩ := real e₂
    refine ((ih₁ g₁ hg₁).conj hS (ih₂ g₂ hg₂).neg (h := fun y => h (T y)) fun y => ?_).iff ?_
    · rw [← fin_neg, ← hg₁, ← hg₂]; exact hh (T y)
    · simp only [SetExpr.regular, hz₁, hz₂, neg_eq_zero]
  | impl e₁ e₂ ih₁ ih₂ =>
    intro h hh
    obtain ⟨g₁, hg₁, hz₁⟩ := real e₁
    obtain ⟨g₂, hg₂, hz₂⟩ := real e₂
    refine ((ih₁ g₁ hg₁).neg.disj hS (ih₂ g₂ hg₂) (h := fun y => h (T y)) fun y => ?_).iff ?_
    · rw [← fin_neg, ← hg₁, ← hg₂]; exact hh (T y)
    · simp only [SetExpr.regular, hz₁, hz₂, neg_eq_zero]
  | equiv e₁ e₂ ih₁ ih₂ =>
    intro h hh
    obtain ⟨g₁, hg₁, hz₁⟩ := real e₁
    obtain ⟨g₂, hg₂, hz₂⟩ := real e₂
    choose c₁ hc₁ hs₁ using fun y => hP.or_sign (g₁ y) (-g₂ y)
    choose c₂ hc₂ hs₂ using fun y => hP.or_sign (-g₁ y) (g₂ y)
    refine (((ih₁ g₁ hg₁).disj hS (ih₂ g₂ hg₂).neg (fun y => hc₁ (T y))).conj hS
      ((ih₁ g₁ hg₁).neg.disj hS (ih₂ g₂ hg₂) (fun y => hc₂ (T y))) (h := fun y => h (T y)) fun y => ?_).iff ?_
    · rw [← hc₁, ← hc₂, ← fin_neg, ← fin_neg, ← hg₁, ← hg₂]; exact hh (T y)
    · have hz : c₁ (T x) = 0 ∧ c₂ (T x) = 0 ↔ g₁ (T x) = 0 ∧ g₂ (T x) = 0 := by
        rw [← sign_eq_zero_iff (a := c₁ (T x)), ← sign_eq_zero_iff (a := c₂ (T x)), hs₁, hs₂, Left.sign_neg, Left.sign_neg,
          ← sign_eq_zero_iff (a := g₁ (T x)), ← sign_eq_zero_iff (a := g₂ (T x))]
        generalize SignType.sign (g₁ (T x)) = a
        generalize SignType.sign (g₂ (T x)) = b
        revert a b; decide
      simp only [SetExpr.regular, hz, ← hz₁, ← hz₂, neg_eq_zero]
      tauto
  | symmDiff e₁ e₂ ih₁ ih₂ =>
    intro h hh
    obtain ⟨g₁, hg₁, hz₁⟩ := real e₁
    obtain ⟨g₂, hg₂, hz₂⟩ := real e₂
    choose c₁ hc₁ hs₁ using fun y => hP.and_sign (g₁ y) (-g₂ y)
    choose c₂ hc₂ hs₂ using fun y => hP.and_sign (-g₁ y) (g₂ y)
    refine (((ih₁ g₁ hg₁).conj hS (ih₂ g₂ hg₂).neg (fun y => hc₁ (T y))).disj hS
      ((ih₁ g₁ hg₁).neg.conj hS (ih₂ g₂ hg₂) (fun y => hc₂ (T y))) (h := fun y => h (T y)) fun y => ?_).iff ?_
    · rw [← hc₁, ← hc₂, ← fin_neg, ← fin_neg, ← hg₁, ← hg₂]; exact hh (T y)
    · have hz : c₁ (T x) = 0 ∧ c₂ (T x) = 0 ↔ g₁ (T x) = 0 ∧ g₂ (T x) = 0 := by
        rw [← sign_eq_zero_iff (a := c₁ (T x)), ← sign_eq_zero_iff (a := c₂ (T x)), hs₁, hs₂, Left.sign_neg, Left.sign_neg,
          ← sign_eq_zero_iff (a := g₁ (T x)), ← sign_eq_zero_iff (a := g₂ (T x))]
        generalize SignType.sign (g₁ (T x)) = a
        generalize SignType.sign (g₂ (T x)) = b
        revert a b; decide
      simp only [SetExpr.regular, hz, ← hz₁, ← hz₂, neg_eq_zero]
      tauto

end Verif
