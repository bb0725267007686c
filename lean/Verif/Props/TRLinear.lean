import Verif.Props.TRConv
import Mathlib.Analysis.Convex.Strong
import Mathlib.Analysis.Convex.Deriv

/-! # C173: linear convergence of the trust region method -/

namespace Verif

open XR

local notation "⟪" x ", " y "⟫" => inner ℝ x y

section
variable {n : ℕ} {A : Type*}

open Classical in
/-- The number of accepted steps among the first `k` updates. -/
noncomputable def acceptedSteps (c : TRConf) (f : Objective n A) (s : OptStep n A) (k : ℕ) : ℕ :=
  ((Finset.range k).filter fun j => (TR.updates c f s (j + 1)).state.accepted).card

/-- The values are bounded below by `low`, and small gradients mean small errors (the inequality of Polyak and Lojasiewicz). -/
structure GradientDominated (F : Pt n → ℝ) (G : Pt n → Pt n) (low l : ℝ) : Prop where
  bound : ∀ x, low ≤ F x
  dominated : ∀ x, 2 * l * (F x - low) ≤ ‖G x‖ ^ 2

/-- The factor by which an accepted step at least shrinks the error is one minus this number. -/
noncomputable def linearRate (c : TRConf) (L β l Δ₀ e₀ : ℝ) : ℝ :=
  c.rho_accept * l * min (Δ₀ / √(2 * l * e₀)) (c.decrease_factor * min ((1 - c.rho_decrease) / (L + β)) (1 / (β + c.damping)))

theorem accepted_succ (c : TRConf) (f : Objective n A) (s : OptStep n A) (k : ℕ) :
    ((TR.updates c f s (k + 1)).state.accepted → acceptedSteps c f s (k + 1) = acceptedSteps c f s k + 1) ∧
    (¬ (TR.updates c f s (k + 1)).state.accepted → acceptedSteps c f s (k + 1) = acceptedSteps c f s k) := by
  classical
  unfold acceptedSteps
  rw [Finset.range_add_one, Finset.filter_insert]
  constructor
  · intro h
    rw [if_pos h, Finset.card_insert_of_notMem (by simp)]
  · intro h
    rw [if_neg h]

theorem accepted_le (c : TRConf) (f : Objective n A) (s : OptStep n A) (k : ℕ) : acceptedSteps c f s k ≤ k := by
  classical
  exact (Finset.card_filter_le _ _).trans (Finset.card_range k).le

/-- One update of a run which is not frozen and has not reached the tolerance. -/
theorem update_either {c : TRConf} (hc : c.Valid) (hok : c.postInit = .ok c) {f : Objective n A} {F : Pt n → ℝ} {G : Pt n → Pt n}
    {B : Pt n → Pt n →ₗ[ℝ] Pt n} (hf : SecondOrder c f G B) {L β : ℝ} (hβ : 0 < β) (hs : SmoothObjective f F G B L β)
    (hi : 1 ≤ c.increase_factor) (hd1 : c.decrease_factor ≤ 1) (hra : 0 < c.rho_accept)
    {s : OptStep n A} {x : Pt n} {Δ : ℝ} (h : Regular c f s x Δ) (hfr : c.min_tr_radius < Δ) (hg : c.tol ≤ ‖G x‖) :
    ((TR.update c f s.params s.state).state.accepted ∧ ∃ x' Δ', Regular c f (TR.update c f s.params s.state) x' Δ' ∧
      F x' ≤ F x - c.rho_accept * (1 / 2 * ‖G x‖ * min Δ (‖G x‖ / (β + c.damping))) ∧ Δ' ≤ Δ * c.increase_factor) ∨
    (¬ (TR.update c f s.params s.state).state.accepted ∧ ∃ Δ', Regular c f (TR.update c f s.params s.state) x Δ' ∧
      Δ' = max (Δ * c.decrease_factor) c.min_tr_radius) := by
  have hfr' : ¬ s.state.tr_radius ≤ fin c.min_tr_radius := by rw [h.radius, fin_le]; exact not_le.mpr hfr
  have hΔ0 : 0 < Δ := lt_of_le_of_lt hc.min_radius hfr
  obtain ⟨p, e, hp, -, -, he, hte, -, hleg, hpos, -⟩ := subproblem_regular hc hf h hfr
  obtain ⟨-, hq, hdec⟩ := hpos (hleg hg)
  have hdec := hdec β hβ (fun v => (le_abs_self _).trans (hs.curvature x v))
  have hnew : (fun i => s.params i + (TR.subproblem c f s.params s.state).p i) = efin (x + p) := by
    rw [h.params] at hp ⊢; rw [hp, add_efin]
  have hratio : TR.ratio c f s.params s.state = fin ((F x - F (x + p)) / -qmodel (G x) (B x) p) := by
    rw [TR.ratio, hnew, hp, h.params, denom_efin hf, hs.value, hs.value, fin_sub, fin_div _ hq.ne']
  obtain ⟨Δ', hΔ', hcases, hdecr, -⟩ := newRadius_fin c f s.params s.state h.radius
  have hinc : Δ ≤ Δ * c.increase_factor := by nlinarith
  by_cases ha : fin c.rho_accept ≤ TR.ratio c f s.params s.state
  · left
    rw [update_accept c f _ _ hfr' ha]
    refine ⟨trivial, x + p, Δ', ⟨hnew, hΔ', Or.inr ⟨e, he, hte⟩, by rw [hnew], by rw [hnew]⟩, ?_, ?_⟩
    · rw [hratio, fin_le, le_div_iff₀ hq] at ha
      nlinarith
    · rcases hcases with h1 | h1 | h1 <;> rw [h1]
      · exact max_le (le_trans (by nlinarith) hinc) (hfr.le.trans hinc)
      · exact max_le (min_le_left _ _) (hfr.le.trans hinc)
      · exact max_le hinc (hfr.le.trans hinc)
  · right
    have hlow : TR.ratio c f s.params s.state < fin c.rho_decrease := by
      have hle : c.rho_accept ≤ c.rho_decrease := by
        by_contra hlt
        simp [TRConf.postInit, not_le.mp hlt] at hok
      rw [hratio, fin_le] at ha
      rw [hratio, fin_lt]
      linarith
    rw [update_reject c f _ _ hfr' ha]
    exact ⟨fun h => h, Δ', ⟨h.params, hΔ', Or.inr ⟨e, he, hte⟩, by rw [h.params], by rw [h.params]⟩, hdecr hlow⟩

/-- The gradient is bounded by the error. -/
theorem gradient_le {F : Pt n → ℝ} {G : Pt n → Pt n} {L low : ℝ} (hL : 0 < L) (hF : ∀ x, HasGradientAt F (G x) x)
    (hl : ∀ x y, ‖G x - G y‖ ≤ L * ‖x - y‖) (hlow : ∀ x, low ≤ F x) (x : Pt n) : ‖G x‖ ^ 2 ≤ 2 * L * (F x - low) := by
  have h1 := (abs_le.1 (descent hF hl x (-(1 / L) • G x))).2
  have h2 := hlow (x + -(1 / L) • G x)
  rw [inner_smul_right, real_inner_self_eq_norm_sq, norm_smul, mul_pow, norm_neg, Real.norm_of_nonneg (by positivity : (0 : ℝ) ≤ 1 / L)] at h1
  have h3 : L / 2 * ((1 / L) ^ 2 * ‖G x‖ ^ 2) = 1 / L * ‖G x‖ ^ 2 / 2 := by field_simp
  rw [h3] at h1
  have h4 : 1 / L * ‖G x‖ ^ 2 / 2 ≤ F x - low := by linarith
  calc ‖G x‖ ^ 2 = 2 * L * (1 / L * ‖G x‖ ^ 2 / 2) := by field_simp
    _ ≤ 2 * L * (F x - low) := by gcongr

/-- The updates while the tolerance is not reached, if the gradient is at least `ω` of the error: the radius stays above a bound proportional
to `ω`, and whatever the decrease of accepted steps preserves holds after any number of updates. -/
theorem rate_core (c : TRConf) (hc : c.Valid) (hok : c.postInit = .ok c) (f : Objective n A) (F : Pt n → ℝ)
    (G : Pt n → Pt n) (B : Pt n → Pt n →ₗ[ℝ] Pt n) (hf : SecondOrder c f G B) (L β low : ℝ) (hβ : 0 < β) (hL : 0 < L)
    (hs : SmoothObjective f F G B L β) (hlow : ∀ x, low ≤ F x) (hrd : c.rho_decrease ≤ 1) (hi : 1 ≤ c.increase_factor)
    (hra : 0 < c.rho_accept) (hd0 : 0 < c.decrease_factor) (hd1 : c.decrease_factor < 1)
    (hmax : c.min_tr_radius ≤ c.max_tr_radius)
    (init : Vec n ⊕ OptStep n A) (x₀ : Pt n) (Δ₀ : ℝ) (hx₀ : (TR.start c f init).params = efin x₀)
    (hΔ₀ : (TR.start c f init).state.tr_radius = fin Δ₀) (hΔm : Δ₀ ≤ c.max_tr_radius)
    (hsmall₀ : c.min_tr_radius < Δ₀)
    (hsmall : c.min_tr_radius <
      c.decrease_factor * (c.tol * min ((1 - c.rho_decrease) / (L + β)) (1 / (β + c.damping))))
    (ω : ℝ → ℝ) (hω : Monotone ω) (hω0 : ∀ e, 0 ≤ e → 0 ≤ ω e) (hg : ∀ x, F x ≤ F x₀ → ω (F x - low) ≤ ‖G x‖)
    (P : ℕ → ℝ → Prop) (hP0 : P 0 (F x₀ - low))
    (hP : ∀ a e e', P a e → 0 < e → e ≤ F x₀ - low → 0 ≤ e' → e' ≤ e - c.rho_accept * (1 / 2 * ω e *
      min Δ₀ (c.decrease_factor * (ω e * min ((1 - c.rho_decrease) / (L + β)) (1 / (β + c.damping))))) → P (a + 1) e') (k : ℕ)
    (hk : ∀ j < k, fin c.tol ≤ (TR.updates c f (TR.start c f init) j).state.error) :
    ∃ (x : Pt n) (Δ : ℝ), (TR.updates c f (TR.start c f init) k).params = efin x ∧
      (TR.updates c f (TR.start c f init) k).state.error = fin ‖G x‖ ∧
      (TR.updates c f (TR.start c f init) k).state.tr_radius = fin Δ ∧ F x ≤ F x₀ ∧
      P (acceptedSteps c f (TR.start c f init) k) (F x - low) ∧
      min Δ₀ (c.decrease_factor * (c.tol * min ((1 - c.rho_decrease) / (L + β)) (1 / (β + c.damping)))) ≤ Δ ∧
      Δ ≤ Δ₀ * c.increase_factor ^ acceptedSteps c f (TR.start c f init) k *
        c.decrease_factor ^ (k - acceptedSteps c f (TR.start c f init) k) := by
  have hdp := damping_nonneg hc
  have hΔ0 : 0 < Δ₀ := lt_of_le_of_lt hc.min_radius hsmall₀
  set κ := min ((1 - c.rho_decrease) / (L + β)) (1 / (β + c.damping)) with hκ
  have hκ0 : 0 ≤ κ := le_min (div_nonneg (by linarith) (by linarith)) (by positivity)
  suffices H : ∃ (x : Pt n) (Δ : ℝ), Regular c f (TR.updates c f (TR.start c f init) k) x Δ ∧ F x ≤ F x₀ ∧
      P (acceptedSteps c f (TR.start c f init) k) (F x - low) ∧
      min Δ₀ (c.decrease_factor * (c.tol * κ)) ≤ Δ ∧ min Δ₀ (c.decrease_factor * (ω (F x - low) * κ)) ≤ Δ ∧
      Δ ≤ Δ₀ * c.increase_factor ^ acceptedSteps c f (TR.start c f init) k *
        c.decrease_factor ^ (k - acceptedSteps c f (TR.start c f init) k) by
    obtain ⟨x, Δ, h, h1, h2, h3, -, h4⟩ := H
    exact ⟨x, Δ, h.params, by rw [h.error, hf.grad, vnorm_efin'], h.radius, h1, h2, h3, h4⟩
  induction k with
  | zero =>
    refine ⟨x₀, Δ₀, regular_start hx₀ hΔ₀, le_rfl, ?_, min_le_left _ _, min_le_left _ _, ?_⟩
    · simpa [acceptedSteps] using hP0
    · simp [acceptedSteps]
  | succ k ih =>
    obtain ⟨x, Δ, h, hle, hrate, hlo1, hlo2, hup⟩ := ih fun j hj => hk j (by omega)
    have hfr : c.min_tr_radius < Δ := (lt_min hsmall₀ hsmall).trans_le hlo1
    have hgx : c.tol ≤ ‖G x‖ := by
      have := hk k (by omega)
      rwa [h.error, hf.grad, vnorm_efin', fin_le] at this
    set t := ω (F x - low) with ht
    have hex : 0 ≤ F x - low := sub_nonneg.mpr (hlow x)
    have ht0 : 0 ≤ t := hω0 _ hex
    have htg : t ≤ ‖G x‖ := hg x hle
    have hupd : TR.updates c f (TR.start c f init) (k + 1) =
      TR.update c f (TR.updates c f (TR.start c f init) k).params (TR.updates c f (TR.start c f init) k).state := rfl
    have hmx := updates_max f hc.min_radius hmax hd1.le hΔ₀ hΔm k h.radius
    have hrs : ∀ Δ', (TR.updates c f (TR.start c f init) (k + 1)).state.tr_radius = fin Δ' →
        min Δ₀ (c.decrease_factor * (c.tol * κ)) ≤ Δ' ∧ min Δ₀ (c.decrease_factor * (t * κ)) ≤ Δ' := by
      intro Δ' h'
      exact ⟨(le_min hlo1 (min_le_right _ _)).trans (radius_step_of hc hf hβ hL.le hs hrd hi hd0.le h hmx hfr hgx hc.tol.le hgx h'),
        (le_min hlo2 (min_le_right _ _)).trans (radius_step_of hc hf hβ hL.le hs hrd hi hd0.le h hmx hfr hgx ht0 htg h')⟩
    have hale := accepted_le c f (TR.start c f init) k
    rcases update_either hc hok hf hβ hs hi hd1.le hra h hfr hgx with ⟨hacc, x', Δ', h', hF, hΔ'⟩ | ⟨hacc, Δ', h', hΔ'⟩
    · rw [← hupd] at hacc h'
      rw [(accepted_succ c f _ k).1 hacc]
      have hex' : 0 ≤ F x' - low := sub_nonneg.mpr (hlow x')
      have hm : min Δ₀ (c.decrease_factor * (t * κ)) ≤ min Δ (‖G x‖ / (β + c.damping)) := by
        refine le_min hlo2 ((min_le_right _ _).trans ?_)
        refine (mul_le_of_le_one_left (by positivity) hd1.le).trans ((mul_le_mul htg (min_le_right _ _) hκ0 (norm_nonneg _)).trans
          (le_of_eq (by ring)))
      have hm0 : 0 ≤ min Δ₀ (c.decrease_factor * (t * κ)) := le_min hΔ0.le (by positivity)
      have hdec : c.rho_accept * (1 / 2 * t * min Δ₀ (c.decrease_factor * (t * κ))) ≤
          c.rho_accept * (1 / 2 * ‖G x‖ * min Δ (‖G x‖ / (β + c.damping))) := by gcongr
      have hpos : 0 < F x - low := by
        have := gradient_le hL hs.gradient hs.lipschitz hlow x
        have h2 := hc.tol
        by_contra hcon
        have : ‖G x‖ ^ 2 ≤ 0 := this.trans (mul_nonpos_of_nonneg_of_nonpos (by positivity) (not_lt.mp hcon))
        nlinarith
      have hdecF : F x' ≤ F x := by
        have : 0 ≤ c.rho_accept * (1 / 2 * t * min Δ₀ (c.decrease_factor * (t * κ))) := by positivity
        linarith
      refine ⟨x', Δ', h', hdecF.trans hle, hP _ _ _ hrate hpos (by linarith) hex' (by linarith), (hrs _ h'.radius).1, ?_, ?_⟩
      · refine le_trans (min_le_min le_rfl ?_) (hrs _ h'.radius).2
        have := hω (sub_le_sub_right hdecF low)
        gcongr
      · refine hΔ'.trans ?_
        rw [show k + 1 - (acceptedSteps c f (TR.start c f init) k + 1) = k - acceptedSteps c f (TR.start c f init) k by omega, pow_succ]
        calc Δ * c.increase_factor ≤ Δ₀ * c.increase_factor ^ acceptedSteps c f (TR.start c f init) k *
              c.decrease_factor ^ (k - acceptedSteps c f (TR.start c f init) k) * c.increase_factor := by gcongr
          _ = _ := by ring
    · rw [← hupd] at hacc h'
      rw [(accepted_succ c f _ k).2 hacc]
      refine ⟨x, Δ', h', hle, hrate, (hrs _ h'.radius).1, (hrs _ h'.radius).2, ?_⟩
      have h1 : c.min_tr_radius < Δ' := (lt_min hsmall₀ hsmall).trans_le (hrs _ h'.radius).1
      have h2 : Δ' = Δ * c.decrease_factor := by
        rcases max_choice (Δ * c.decrease_factor) c.min_tr_radius with h3 | h3
        · rw [hΔ', h3]
        · rw [hΔ', h3] at h1; exact absurd h1 (lt_irrefl _)
      rw [h2, show k + 1 - acceptedSteps c f (TR.start c f init) k = (k - acceptedSteps c f (TR.start c f init) k) + 1 by omega, pow_succ,
        ← mul_assoc]
      gcongr

/-- **C173, rate**. Let the gradient be Lipschitz continuous (constant `L`), the Hessian-vector products bounded by `β`, and let the
gradient dominate the error (constant `l`). While the tolerance is not reached every accepted step multiplies the distance of the
value from the lower bound at most by `1 - linearRate`, no value is above that of the start, and the rejected steps are limited by the accepted
ones: the radius stays between a bound proportional to the tolerance and `Δ₀ * increase_factor ^ a * decrease_factor ^ r`. -/
theorem C173_rate (c : TRConf) (hc : c.Valid) (hok : c.postInit = .ok c) (f : Objective n A) (F : Pt n → ℝ)
    (G : Pt n → Pt n) (B : Pt n → Pt n →ₗ[ℝ] Pt n) (hf : SecondOrder c f G B) (L β low l : ℝ) (hβ : 0 < β) (hL : 0 < L) (hl : 0 < l)
    (hs : SmoothObjective f F G B L β) (hg : GradientDominated F G low l) (hrd : c.rho_decrease ≤ 1) (hi : 1 ≤ c.increase_factor)
    (hra : 0 < c.rho_accept) (hd0 : 0 < c.decrease_factor) (hd1 : c.decrease_factor < 1)
    (hmax : c.min_tr_radius ≤ c.max_tr_radius)
    (init : Vec n ⊕ OptStep n A) (x₀ : Pt n) (Δ₀ : ℝ) (hx₀ : (TR.start c f init).params = efin x₀)
    (hΔ₀ : (TR.start c f init).state.tr_radius = fin Δ₀) (hΔm : Δ₀ ≤ c.max_tr_radius)
    (hsmall₀ : c.min_tr_radius < Δ₀)
    (hsmall : c.min_tr_radius <
      c.decrease_factor * (c.tol * min ((1 - c.rho_decrease) / (L + β)) (1 / (β + c.damping)))) (k : ℕ)
    (hk : ∀ j < k, fin c.tol ≤ (TR.updates c f (TR.start c f init) j).state.error) :
    ∃ (x : Pt n) (Δ : ℝ), (TR.updates c f (TR.start c f init) k).params = efin x ∧
      (TR.updates c f (TR.start c f init) k).state.error = fin ‖G x‖ ∧
      (TR.updates c f (TR.start c f init) k).state.tr_radius = fin Δ ∧ F x ≤ F x₀ ∧
      F x - low ≤ (1 - linearRate c L β l Δ₀ (F x₀ - low)) ^ acceptedSteps c f (TR.start c f init) k * (F x₀ - low) ∧
      min Δ₀ (c.decrease_factor * (c.tol * min ((1 - c.rho_decrease) / (L + β)) (1 / (β + c.damping)))) ≤ Δ ∧
      Δ ≤ Δ₀ * c.increase_factor ^ acceptedSteps c f (TR.start c f init) k *
        c.decrease_factor ^ (k - acceptedSteps c f (TR.start c f init) k) := by
  have hdp := damping_nonneg hc
  have hΔ0 : 0 < Δ₀ := lt_of_le_of_lt hc.min_radius hsmall₀
  refine rate_core c hc hok f F G B hf L β low hβ hL hs hg.bound hrd hi hra hd0 hd1 hmax init x₀ Δ₀ hx₀ hΔ₀ hΔm hsmall₀ hsmall
    (fun e => √(2 * l * e)) (fun a b h => Real.sqrt_le_sqrt (mul_le_mul_of_nonneg_left h (by positivity))) (fun e _ => Real.sqrt_nonneg _)
    (fun x _ => Real.sqrt_le_iff.mpr ⟨norm_nonneg _, hg.dominated x⟩)
    (fun a e => e ≤ (1 - linearRate c L β l Δ₀ (F x₀ - low)) ^ a * (F x₀ - low)) (by simp) ?_ k hk
  intro a e e' hPa he hle he' hdec
  set κ := min ((1 - c.rho_decrease) / (L + β)) (1 / (β + c.damping)) with hκ
  have hκ0 : 0 ≤ κ := le_min (div_nonneg (by linarith) (by linarith)) (by positivity)
  set e₀ := F x₀ - low with he₀
  set t := √(2 * l * e) with ht
  have ht0 : 0 ≤ t := Real.sqrt_nonneg _
  have ht2 : t ^ 2 = 2 * l * e := Real.sq_sqrt (by positivity)
  have h1 : t * min (Δ₀ / √(2 * l * e₀)) (c.decrease_factor * κ) ≤ min Δ₀ (c.decrease_factor * (t * κ)) := by
    refine le_min ?_ ?_
    · refine (mul_le_mul_of_nonneg_left (min_le_left _ _) ht0).trans ?_
      have htt : t ≤ √(2 * l * e₀) := Real.sqrt_le_sqrt (mul_le_mul_of_nonneg_left hle (by positivity))
      rcases (Real.sqrt_nonneg (2 * l * e₀)).eq_or_lt with h0 | h0
      · rw [← h0, div_zero, mul_zero]; exact hΔ0.le
      · rw [mul_div_assoc', div_le_iff₀ h0, mul_comm]
        gcongr
    · refine (mul_le_mul_of_nonneg_left (min_le_right _ _) ht0).trans (le_of_eq (by ring))
  have h2 : linearRate c L β l Δ₀ e₀ * e ≤ c.rho_accept * (1 / 2 * t * min Δ₀ (c.decrease_factor * (t * κ))) := by
    calc linearRate c L β l Δ₀ e₀ * e = c.rho_accept * (1 / 2 * t * (t * min (Δ₀ / √(2 * l * e₀)) (c.decrease_factor * κ))) := by
          have : linearRate c L β l Δ₀ e₀ = c.rho_accept * l * min (Δ₀ / √(2 * l * e₀)) (c.decrease_factor * κ) := rfl
          rw [this]
          linear_combination (-1 / 2 * c.rho_accept * min (Δ₀ / √(2 * l * e₀)) (c.decrease_factor * κ)) * ht2
      _ ≤ _ := by gcongr
  have hstep : e' ≤ (1 - linearRate c L β l Δ₀ e₀) * e := by linarith
  have hq : 0 ≤ 1 - linearRate c L β l Δ₀ e₀ := by
    by_contra hcon
    have := mul_neg_of_neg_of_pos (not_le.mp hcon) he
    linarith
  refine hstep.trans ?_
  rw [pow_succ', mul_assoc]
  gcongr

/-- **C173, number of updates**. The tolerance is reached after a number of updates which grows only like the logarithm of the
tolerance: at most `log (2 L e₀ / tol ^ 2) / linearRate` steps are accepted. At the point reached the error of the value is at most `tol ^ 2 / (2 l)`. -/
theorem C173_iterations (c : TRConf) (hc : c.Valid) (hok : c.postInit = .ok c) (f : Objective n A) (F : Pt n → ℝ)
    (G : Pt n → Pt n) (B : Pt n → Pt n →ₗ[ℝ] Pt n) (hf : SecondOrder c f G B) (L β low l : ℝ) (hβ : 0 < β) (hL : 0 < L) (hl : 0 < l)
    (hs : SmoothObjective f F G B L β) (hg : GradientDominated F G low l) (hrd : c.rho_decrease < 1) (hi : 1 ≤ c.increase_factor)
    (hra : 0 < c.rho_accept) (hd0 : 0 < c.decrease_factor) (hd1 : c.decrease_factor < 1)
    (hmax : c.min_tr_radius ≤ c.max_tr_radius)
    (init : Vec n ⊕ OptStep n A) (x₀ : Pt n) (Δ₀ : ℝ) (hx₀ : (TR.start c f init).params = efin x₀)
    (hΔ₀ : (TR.start c f init).state.tr_radius = fin Δ₀) (hΔm : Δ₀ ≤ c.max_tr_radius)
    (hsmall₀ : c.min_tr_radius < Δ₀)
    (hsmall : c.min_tr_radius <
      c.decrease_factor * (c.tol * min ((1 - c.rho_decrease) / (L + β)) (1 / (β + c.damping)))) :
    ∃ k, k ≤ ⌊Real.log (2 * L * (F x₀ - low) / c.tol ^ 2) / linearRate c L β l Δ₀ (F x₀ - low) *
          (1 + Real.log c.increase_factor / Real.log (1 / c.decrease_factor)) +
        Real.log (Δ₀ / min Δ₀ (c.decrease_factor * (c.tol * min ((1 - c.rho_decrease) / (L + β)) (1 / (β + c.damping))))) /
          Real.log (1 / c.decrease_factor)⌋₊ + 1 ∧
      ∃ x : Pt n, (TR.updates c f (TR.start c f init) k).params = efin x ∧ ‖G x‖ ≤ c.tol ∧
        (TR.updates c f (TR.start c f init) k).state.error = fin ‖G x‖ ∧ F x - low ≤ c.tol ^ 2 / (2 * l) := by
  have hdp := damping_nonneg hc
  have hΔ0 : 0 < Δ₀ := lt_of_le_of_lt hc.min_radius hsmall₀
  set κ := min ((1 - c.rho_decrease) / (L + β)) (1 / (β + c.damping)) with hκ
  have hκ0 : 0 < κ := lt_min (div_pos (by linarith) (by linarith)) (by positivity)
  set e₀ := F x₀ - low with he₀
  set η := linearRate c L β l Δ₀ e₀ with hη
  set Δm := min Δ₀ (c.decrease_factor * (c.tol * κ)) with hΔm'
  have htol := hc.tol
  have hΔm0 : 0 < Δm := lt_min hΔ0 (by positivity)
  have hlog : 0 < Real.log (1 / c.decrease_factor) := Real.log_pos (by rw [lt_div_iff₀ hd0]; linarith)
  set K := Real.log (2 * L * e₀ / c.tol ^ 2) / η * (1 + Real.log c.increase_factor / Real.log (1 / c.decrease_factor)) +
        Real.log (Δ₀ / Δm) / Real.log (1 / c.decrease_factor) with hK
  have key : ∃ j ≤ ⌊K⌋₊ + 1, (TR.updates c f (TR.start c f init) j).state.error ≤ fin c.tol := by
    by_contra hno
    push Not at hno
    have herr : ∀ j < ⌊K⌋₊ + 1, fin c.tol ≤ (TR.updates c f (TR.start c f init) j).state.error := by
      intro j hj
      obtain ⟨x, Δ, h⟩ := updates_regular hc hf (regular_start hx₀ hΔ₀) j
      have := hno j hj.le
      rw [h.error, hf.grad, vnorm_efin', fin_le] at this
      rw [h.error, hf.grad, vnorm_efin', fin_le]
      exact (not_le.mp this).le
    obtain ⟨x, Δ, -, h2, -, -, h4, h5, h6⟩ := C173_rate c hc hok f F G B hf L β low l hβ hL hl hs hg hrd.le hi hra hd0 hd1 hmax init x₀ Δ₀
      hx₀ hΔ₀ hΔm hsmall₀ hsmall (⌊K⌋₊ + 1) herr
    set a := acceptedSteps c f (TR.start c f init) (⌊K⌋₊ + 1) with ha
    have hale : a ≤ ⌊K⌋₊ + 1 := accepted_le _ _ _ _
    rw [← he₀, ← hη] at h4
    rw [← hκ, ← hΔm'] at h5
    have hgx : c.tol ≤ ‖G x‖ := by
      have := hno _ le_rfl
      rw [h2, fin_le] at this
      exact (not_le.mp this).le
    have hgl := gradient_le hL hs.gradient hs.lipschitz hg.bound x
    have ht2 : c.tol ^ 2 ≤ 2 * L * (F x - low) := (pow_le_pow_left₀ htol.le hgx 2).trans hgl
    have hex : 0 < F x - low := by
      by_contra hcon
      nlinarith [mul_nonneg hL.le (sub_nonneg.mpr (hg.bound x)), pow_pos htol 2]
    have he0 : 0 < e₀ := by
      by_contra hcon
      have h0 : e₀ = 0 := le_antisymm (not_lt.mp hcon) (sub_nonneg.mpr (hg.bound x₀))
      rw [h0, mul_zero] at h4
      linarith
    have hη0 : 0 < η := by
      refine mul_pos (by positivity) (lt_min (by positivity) (by positivity))
    have hexp : F x - low ≤ Real.exp (-(a * η)) * e₀ := by
      refine h4.trans ?_
      gcongr
      have h7 : 1 - η ≤ Real.exp (-η) := by linarith [Real.add_one_le_exp (-η)]
      rcases le_or_gt 0 (1 - η) with h8 | h8
      · calc (1 - η) ^ a ≤ Real.exp (-η) ^ a := pow_le_pow_left₀ h8 h7 a
          _ = Real.exp (-(a * η)) := by rw [← Real.exp_nat_mul]; ring_nf
      · refine absurd h8 (not_lt.mpr ?_)
        -- the rate is at most one
        have hη1 : η ≤ 1 := by
          have hra1 : c.rho_accept ≤ 1 := by
            have hle : c.rho_accept ≤ c.rho_decrease := by
              by_contra hlt
              simp [TRConf.postInit, not_le.mp hlt] at hok
            linarith
          have hlL : l ≤ L := by
            have := (hg.dominated x).trans hgl
            have h9 : l * (F x - low) ≤ L * (F x - low) := by linarith
            exact le_of_mul_le_mul_right h9 hex
          have hm : min (Δ₀ / √(2 * l * e₀)) (c.decrease_factor * κ) ≤ 1 / L := by
            refine (min_le_right _ _).trans ((mul_le_of_le_one_left hκ0.le hd1.le).trans ((min_le_left _ _).trans ?_))
            have hrd0 : 0 ≤ c.rho_decrease := by
              have hle : c.rho_accept ≤ c.rho_decrease := by
                by_contra hlt
                simp [TRConf.postInit, not_le.mp hlt] at hok
              linarith
            exact div_le_div₀ zero_le_one (by linarith) hL (by linarith)
          have hm0 : 0 ≤ min (Δ₀ / √(2 * l * e₀)) (c.decrease_factor * κ) := le_min (by positivity) (by positivity)
          calc η = c.rho_accept * l * min (Δ₀ / √(2 * l * e₀)) (c.decrease_factor * κ) := rfl
            _ ≤ 1 * L * (1 / L) := by gcongr
            _ = 1 := by field_simp
        linarith
    have hlog1 : a * η ≤ Real.log (2 * L * e₀ / c.tol ^ 2) := by
      rw [Real.le_log_iff_exp_le (by positivity), le_div_iff₀ (by positivity)]
      calc Real.exp (a * η) * c.tol ^ 2 ≤ Real.exp (a * η) * (2 * L * (Real.exp (-(a * η)) * e₀)) := by
            gcongr
            exact ht2.trans (by gcongr)
        _ = 2 * L * e₀ * (Real.exp (a * η) * Real.exp (-(a * η))) := by ring
        _ = 2 * L * e₀ := by rw [← Real.exp_add]; simp
    have ha1 : (a : ℝ) ≤ Real.log (2 * L * e₀ / c.tol ^ 2) / η := by rwa [le_div_iff₀ hη0]
    have hi0 : 0 ≤ Real.log c.increase_factor := Real.log_nonneg hi
    have hip : 0 < c.increase_factor := by linarith
    have hlog2 : ((⌊K⌋₊ + 1 - a : ℕ) : ℝ) * Real.log (1 / c.decrease_factor) ≤ a * Real.log c.increase_factor + Real.log (Δ₀ / Δm) := by
      have h7 : Δm ≤ Δ₀ * c.increase_factor ^ a * c.decrease_factor ^ (⌊K⌋₊ + 1 - a) := h5.trans h6
      have h8 := Real.log_le_log hΔm0 h7
      rw [Real.log_mul (by positivity) (by positivity), Real.log_mul (by positivity) (by positivity), Real.log_pow, Real.log_pow] at h8
      rw [Real.log_div hΔ0.ne' hΔm0.ne', one_div, Real.log_inv]
      linarith
    have hcount : ((⌊K⌋₊ + 1 : ℕ) : ℝ) ≤ K := by
      have h7 : ((⌊K⌋₊ + 1 - a : ℕ) : ℝ) ≤ (a * Real.log c.increase_factor + Real.log (Δ₀ / Δm)) / Real.log (1 / c.decrease_factor) := by
        rwa [le_div_iff₀ hlog]
      have h8 : ((⌊K⌋₊ + 1 : ℕ) : ℝ) = a + ((⌊K⌋₊ + 1 - a : ℕ) : ℝ) := by
        rw [← Nat.cast_add, Nat.add_sub_cancel' hale]
      rw [h8, hK]
      calc (a : ℝ) + ((⌊K⌋₊ + 1 - a : ℕ) : ℝ) ≤ a + (a * Real.log c.increase_factor + Real.log (Δ₀ / Δm)) / Real.log (1 / c.decrease_factor) := by
            gcongr
        _ = a * (1 + Real.log c.increase_factor / Real.log (1 / c.decrease_factor)) + Real.log (Δ₀ / Δm) / Real.log (1 / c.decrease_factor) := by
            ring
        _ ≤ _ := by gcongr
    have := Nat.lt_floor_add_one K
    push_cast at hcount
    linarith
  obtain ⟨j, hj, h⟩ := key
  obtain ⟨x, Δ, hr⟩ := updates_regular hc hf (regular_start hx₀ hΔ₀) j
  have he : (TR.updates c f (TR.start c f init) j).state.error = fin ‖G x‖ := by
    rw [hr.error, hf.grad, vnorm_efin']
  rw [he, fin_le] at h
  refine ⟨j, hj, x, hr.params, h, he, ?_⟩
  rw [le_div_iff₀ (by positivity)]
  have := hg.dominated x
  have h2 := pow_le_pow_left₀ (norm_nonneg _) h 2
  linarith

/-- A strongly convex function lies above its tangent plane by a quadratic. -/
theorem strongConvex_above {F : Pt n → ℝ} {G : Pt n → Pt n} {l : ℝ} (hF : ∀ x, HasGradientAt F (G x) x) (hc : StrongConvexOn Set.univ l F)
    (x y : Pt n) : F x + ⟪G x, y - x⟫ + l / 2 * ‖y - x‖ ^ 2 ≤ F y := by
  have hd : HasDerivAt (fun t : ℝ => F (x + t • (y - x))) ⟪G x, y - x⟫ 0 := by
    have hl : HasDerivAt (fun t : ℝ => x + t • (y - x)) (y - x) 0 := by
      simpa using ((hasDerivAt_id (0 : ℝ)).smul_const (y - x)).const_add x
    have h0 : HasFDerivAt F _ (x + (0 : ℝ) • (y - x)) := (hF _).hasFDerivAt
    refine (h0.comp_hasDerivAt 0 hl).congr_deriv ?_
    simp
  have h1 := hd.tendsto_slope_zero_right
  have h2 : Filter.Tendsto (fun t : ℝ => F y - F x - (1 - t) * (l / 2 * ‖y - x‖ ^ 2)) (nhdsWithin 0 (Set.Ioi 0))
      (nhds (F y - F x - (1 - 0) * (l / 2 * ‖y - x‖ ^ 2))) :=
    (Continuous.tendsto (by fun_prop) 0).mono_left nhdsWithin_le_nhds
  have h3 := le_of_tendsto_of_tendsto h1 h2 (by
    filter_upwards [Ioo_mem_nhdsGT (zero_lt_one : (0 : ℝ) < 1)] with t ht
    have h4 := hc.2 (Set.mem_univ x) (Set.mem_univ y) (sub_nonneg.mpr ht.2.le) ht.1.le (by ring)
    rw [show (1 - t) • x + t • y = x + t • (y - x) by module] at h4
    simp only [smul_eq_mul, zero_add, zero_smul, add_zero] at h4 ⊢
    rw [inv_mul_le_iff₀ ht.1, norm_sub_rev y x]
    linarith)
  linarith

/-- **C173, convex objectives**. Let the objective be convex, with a minimiser `xs`, and let all points with values not above that of the start
be closer to `xs` than `D`. While the tolerance is not reached, after `a` accepted steps the error of the value is at most
`e₀ / (1 + η e₀ a)`, where `e₀` is the error of the start. -/
theorem C173_convex (c : TRConf) (hc : c.Valid) (hok : c.postInit = .ok c) (f : Objective n A) (F : Pt n → ℝ)
    (G : Pt n → Pt n) (B : Pt n → Pt n →ₗ[ℝ] Pt n) (hf : SecondOrder c f G B) (L β D : ℝ) (hβ : 0 < β) (hL : 0 < L) (hD : 0 < D)
    (hs : SmoothObjective f F G B L β) (hconv : ConvexOn ℝ Set.univ F) (xs : Pt n) (hxs : ∀ x, F xs ≤ F x)
    (hrd : c.rho_decrease ≤ 1) (hi : 1 ≤ c.increase_factor)
    (hra : 0 < c.rho_accept) (hd0 : 0 < c.decrease_factor) (hd1 : c.decrease_factor < 1)
    (hmax : c.min_tr_radius ≤ c.max_tr_radius)
    (init : Vec n ⊕ OptStep n A) (x₀ : Pt n) (hlevel : ∀ x, F x ≤ F x₀ → ‖x - xs‖ ≤ D) (Δ₀ : ℝ) (hx₀ : (TR.start c f init).params = efin x₀)
    (hΔ₀ : (TR.start c f init).state.tr_radius = fin Δ₀) (hΔm : Δ₀ ≤ c.max_tr_radius)
    (hsmall₀ : c.min_tr_radius < Δ₀)
    (hsmall : c.min_tr_radius <
      c.decrease_factor * (c.tol * min ((1 - c.rho_decrease) / (L + β)) (1 / (β + c.damping)))) (k : ℕ)
    (hk : ∀ j < k, fin c.tol ≤ (TR.updates c f (TR.start c f init) j).state.error) :
    ∃ (x : Pt n) (Δ : ℝ), (TR.updates c f (TR.start c f init) k).params = efin x ∧
      (TR.updates c f (TR.start c f init) k).state.error = fin ‖G x‖ ∧
      (TR.updates c f (TR.start c f init) k).state.tr_radius = fin Δ ∧ F x ≤ F x₀ ∧
      F x - F xs ≤ (F x₀ - F xs) / (1 + c.rho_accept / (2 * D ^ 2) * min (Δ₀ * D / (F x₀ - F xs)) (c.decrease_factor *
        min ((1 - c.rho_decrease) / (L + β)) (1 / (β + c.damping))) * (F x₀ - F xs) * acceptedSteps c f (TR.start c f init) k) ∧
      min Δ₀ (c.decrease_factor * (c.tol * min ((1 - c.rho_decrease) / (L + β)) (1 / (β + c.damping)))) ≤ Δ ∧
      Δ ≤ Δ₀ * c.increase_factor ^ acceptedSteps c f (TR.start c f init) k *
        c.decrease_factor ^ (k - acceptedSteps c f (TR.start c f init) k) := by
  have hdp := damping_nonneg hc
  have hΔ0 : 0 < Δ₀ := lt_of_le_of_lt hc.min_radius hsmall₀
  have he₀ : 0 ≤ F x₀ - F xs := sub_nonneg.mpr (hxs x₀)
  set κ := min ((1 - c.rho_decrease) / (L + β)) (1 / (β + c.damping)) with hκ
  have hκ0 : 0 ≤ κ := le_min (div_nonneg (by linarith) (by linarith)) (by positivity)
  set e₀ := F x₀ - F xs with he₀'
  set μ := min (Δ₀ * D / e₀) (c.decrease_factor * κ) with hμ
  have hμ0 : 0 ≤ μ := le_min (by positivity) (by positivity)
  set η := c.rho_accept / (2 * D ^ 2) * μ with hη
  have hη0 : 0 ≤ η := by positivity
  have hab : ∀ x y, F x + ⟪G x, y - x⟫ ≤ F y := fun x y => by
    have := strongConvex_above hs.gradient (strongConvexOn_zero.mpr hconv) x y
    simpa using this
  have hgr : ∀ x, F x ≤ F x₀ → (F x - F xs) / D ≤ ‖G x‖ := fun x hx => by
    rw [div_le_iff₀ hD]
    have h1 := hab x xs
    have h2 := (abs_le.1 (abs_real_inner_le_norm (G x) (xs - x))).1
    have h3 : ‖G x‖ * ‖xs - x‖ ≤ ‖G x‖ * D := by
      rw [norm_sub_rev]
      exact mul_le_mul_of_nonneg_left (hlevel x hx) (norm_nonneg _)
    linarith
  obtain ⟨x, Δ, h1, h2, h3, h4, h5, h6⟩ := rate_core c hc hok f F G B hf L β (F xs) hβ hL hs hxs hrd hi hra hd0 hd1 hmax init x₀ Δ₀ hx₀ hΔ₀ hΔm hsmall₀
    hsmall (fun e => e / D) (fun a b h => by dsimp only; gcongr) (fun e he => by positivity) hgr
    (fun a e => e * (1 + η * e₀ * a) ≤ e₀) (by simp [he₀']) (by
      intro a e e' hPa he hle he' hdec
      have hm : e / D * μ ≤ min Δ₀ (c.decrease_factor * (e / D * κ)) := by
        refine le_min ((mul_le_mul_of_nonneg_left (min_le_left _ _) (by positivity)).trans ?_)
          ((mul_le_mul_of_nonneg_left (min_le_right _ _) (by positivity)).trans (le_of_eq (by ring)))
        have h0 : 0 < e₀ := he.trans_le hle
        calc e / D * (Δ₀ * D / e₀) = Δ₀ * (e / e₀) := by field_simp
          _ ≤ Δ₀ * 1 := by
            gcongr
            exact (div_le_one h0).mpr hle
          _ = Δ₀ := mul_one _
      have hstep : e' ≤ e - η * e ^ 2 := by
        refine hdec.trans ?_
        have : η * e ^ 2 = c.rho_accept * (1 / 2 * (e / D) * (e / D * μ)) := by
          rw [hη]; field_simp
        rw [this]
        gcongr
      have hηe : η * e ≤ 1 := by
        by_contra hcon
        have : e * (1 - η * e) < 0 := mul_neg_of_pos_of_neg he (by linarith)
        nlinarith
      have hs0 : 0 ≤ 1 + η * e₀ * (a + 1 : ℕ) := by positivity
      refine (mul_le_mul_of_nonneg_right hstep hs0).trans ?_
      have h7 : 0 ≤ (e₀ - e * (1 + η * e₀ * a)) * (1 - η * e) := mul_nonneg (by linarith) (by linarith)
      have h8 : 0 ≤ (η * e) ^ 2 * e₀ := by positivity
      push_cast
      nlinarith) k hk
  refine ⟨x, Δ, h1, h2, h3, h4, ?_, h6⟩
  rw [le_div_iff₀ (by positivity)]
  exact h5

/-- **C173, strongly convex objectives**. If the objective is strongly convex (constant `l`) and `xs` is its minimiser, the gradient dominates the error, the
number of updates grows like the logarithm of the tolerance, and the point reached is closer to `xs` than `tol / l`. -/
theorem C173_strongly_convex (c : TRConf) (hc : c.Valid) (hok : c.postInit = .ok c) (f : Objective n A) (F : Pt n → ℝ)
    (G : Pt n → Pt n) (B : Pt n → Pt n →ₗ[ℝ] Pt n) (hf : SecondOrder c f G B) (L β l : ℝ) (hβ : 0 < β) (hL : 0 < L) (hl : 0 < l)
    (hs : SmoothObjective f F G B L β) (hconv : StrongConvexOn Set.univ l F) (xs : Pt n) (hxs : ∀ x, F xs ≤ F x)
    (hrd : c.rho_decrease < 1) (hi : 1 ≤ c.increase_factor)
    (hra : 0 < c.rho_accept) (hd0 : 0 < c.decrease_factor) (hd1 : c.decrease_factor < 1)
    (hmax : c.min_tr_radius ≤ c.max_tr_radius)
    (init : Vec n ⊕ OptStep n A) (x₀ : Pt n) (Δ₀ : ℝ) (hx₀ : (TR.start c f init).params = efin x₀)
    (hΔ₀ : (TR.start c f init).state.tr_radius = fin Δ₀) (hΔm : Δ₀ ≤ c.max_tr_radius)
    (hsmall₀ : c.min_tr_radius < Δ₀)
    (hsmall : c.min_tr_radius <
      c.decrease_factor * (c.tol * min ((1 - c.rho_decrease) / (L + β)) (1 / (β + c.damping)))) :
    GradientDominated F G (F xs) l ∧
    ∃ k, k ≤ ⌊Real.log (2 * L * (F x₀ - F xs) / c.tol ^ 2) / linearRate c L β l Δ₀ (F x₀ - F xs) *
          (1 + Real.log c.increase_factor / Real.log (1 / c.decrease_factor)) +
        Real.log (Δ₀ / min Δ₀ (c.decrease_factor * (c.tol * min ((1 - c.rho_decrease) / (L + β)) (1 / (β + c.damping))))) /
          Real.log (1 / c.decrease_factor)⌋₊ + 1 ∧
      ∃ x : Pt n, (TR.updates c f (TR.start c f init) k).params = efin x ∧ ‖G x‖ ≤ c.tol ∧
        (TR.updates c f (TR.start c f init) k).state.error = fin ‖G x‖ ∧ F x - F xs ≤ c.tol ^ 2 / (2 * l) ∧ ‖x - xs‖ ≤ c.tol / l := by
  have hab := strongConvex_above hs.gradient hconv
  have hcs : ∀ x y, -(‖G x‖ * ‖y - x‖) ≤ ⟪G x, y - x⟫ := fun x y => (abs_le.1 (abs_real_inner_le_norm (G x) (y - x))).1
  have hg : GradientDominated F G (F xs) l := by
    refine ⟨hxs, fun x => ?_⟩
    have h1 := hab x xs
    have h2 := hcs x xs
    nlinarith [sq_nonneg (‖G x‖ - l * ‖xs - x‖)]
  refine ⟨hg, ?_⟩
  obtain ⟨k, hk, x, h1, h2, h3, h4⟩ := C173_iterations c hc hok f F G B hf L β (F xs) l hβ hL hl hs hg hrd hi hra hd0 hd1 hmax init x₀ Δ₀ hx₀ hΔ₀
    hΔm hsmall₀ hsmall
  refine ⟨k, hk, x, h1, h2, h3, h4, ?_⟩
  rw [le_div_iff₀ hl, mul_comm]
  have hG : G xs = 0 := by
    have h5 := gradient_le hL hs.gradient hs.lipschitz hxs xs
    rw [sub_self, mul_zero] at h5
    exact norm_eq_zero.mp (pow_eq_zero_iff two_ne_zero |>.mp (le_antisymm h5 (sq_nonneg _)))
  have h5 := hab xs x
  have h6 := hab x xs
  have h7 := hcs x xs
  rw [hG, inner_zero_left] at h5
  rw [norm_sub_rev xs x] at h6 h7
  rcases (norm_nonneg (x - xs)).eq_or_lt with h0 | h0
  · rw [← h0, mul_zero]; exact hc.tol.le
  · have : l * ‖x - xs‖ * ‖x - xs‖ ≤ ‖G x‖ * ‖x - xs‖ := by nlinarith
    exact (le_of_mul_le_mul_right this h0).trans h2

/-- The sample objective is strongly convex. -/
theorem sampleObjective_convex : StrongConvexOn Set.univ 2 fun x : Pt 2 => x 0 * x 0 + 3 * (x 1 * x 1) := by
  refine ⟨convex_univ, fun x _ y _ a b ha hb hab => ?_⟩
  obtain rfl : a = 1 - b := by linarith
  simp only [EuclideanSpace.norm_sq_eq, Fin.sum_univ_two, PiLp.add_apply, PiLp.smul_apply, PiLp.sub_apply, smul_eq_mul, Real.norm_eq_abs, sq_abs]
  nlinarith [mul_nonneg ha hb, sq_nonneg (x 1 - y 1), mul_nonneg (mul_nonneg ha hb) (sq_nonneg (x 1 - y 1))]

/-- The default configuration finds the minimum of `x₀² + 3 x₁²` from every start. -/
example (x₀ : Pt 2) : ∃ k, ∃ x : Pt 2,
    (TR.updates .default sampleObjective (TR.start .default sampleObjective (.inl (efin x₀))) k).params = efin x ∧
      ‖sampleHessian x‖ ≤ 1e-2 ∧ ‖x - 0‖ ≤ 1e-2 / 2 := by
  obtain ⟨-, k, -, x, h1, h2, -, -, h3⟩ := C173_strongly_convex .default default_valid default_ok sampleObjective _ _ _
    sampleObjective_contract 6 6 2 (by norm_num) (by norm_num) (by norm_num) sampleObjective_smooth sampleObjective_convex 0
    (fun x => by simp; nlinarith [mul_self_nonneg (x 0), mul_self_nonneg (x 1)]) (by norm_num [TRConf.default])
    (by norm_num [TRConf.default]) (by norm_num [TRConf.default]) (by norm_num [TRConf.default])
    (by norm_num [TRConf.default]) (by norm_num [TRConf.default]) (.inl (efin x₀)) x₀ 1
    rfl rfl (by norm_num [TRConf.default]) (by norm_num [TRConf.default])
    (by norm_num [TRConf.default, TRConf.damping])
  exact ⟨k, x, h1, h2, h3⟩

/-- The bound for convex objectives after the first update from `(1, 1)`: all points with values of at most four are closer to zero than two. -/
example : ∃ x : Pt 2, (TR.updates .default sampleObjective (TR.start .default sampleObjective (.inl (efin !₂[1, 1]))) 1).params = efin x ∧
    x 0 * x 0 + 3 * (x 1 * x 1) ≤ 4 := by
  obtain ⟨x, Δ, h1, -, -, h2, -⟩ := C173_convex .default default_valid default_ok sampleObjective _ _ _
    sampleObjective_contract 6 6 2 (by norm_num) (by norm_num) (by norm_num) sampleObjective_smooth
    (strongConvexOn_zero.mp (sampleObjective_convex.mono (by norm_num))) 0
    (fun x => by simp; nlinarith [mul_self_nonneg (x 0), mul_self_nonneg (x 1)]) (by norm_num [TRConf.default])
    (by norm_num [TRConf.default]) (by norm_num [TRConf.default]) (by norm_num [TRConf.default])
    (by norm_num [TRConf.default]) (by norm_num [TRConf.default]) (.inl (efin !₂[1, 1])) !₂[1, 1]
    (fun x hx => by
      rw [sub_zero, EuclideanSpace.norm_eq, Fin.sum_univ_two]
      refine Real.sqrt_le_iff.mpr ⟨by norm_num, ?_⟩
      simp only [Real.norm_eq_abs, sq_abs]
      norm_num at hx
      nlinarith [mul_self_nonneg (x 1)]) 1
    rfl rfl (by norm_num [TRConf.default]) (by norm_num [TRConf.default])
    (by norm_num [TRConf.default, TRConf.damping]) 1 (by
      intro j hj
      obtain rfl : j = 0 := by omega
      show fin (1e-2) ≤ vnorm (sampleObjective.grad (efin !₂[1, 1]))
      rw [sampleObjective_contract.grad, vnorm_efin', fin_le, EuclideanSpace.norm_eq]
      refine Real.le_sqrt_of_sq_le ?_
      norm_num [Fin.sum_univ_two, sampleHessian])
  refine ⟨x, h1, h2.trans ?_⟩
  norm_num

end

end Verif
