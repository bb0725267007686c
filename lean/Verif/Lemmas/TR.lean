import Verif.Props.Steihaug
import Mathlib.Analysis.Normed.Module.FiniteDimension

/-! # Finite data in `TR.update` -/

namespace Verif

open XR

local notation "⟪" x ", " y "⟫" => inner ℝ x y

section
variable {n : ℕ} {A : Type*}

theorem update_frozen (c : TRConf) (f : Objective n A) (params : Vec n) (s : TrState n A)
    (h : s.tr_radius ≤ fin c.min_tr_radius) : TR.update c f params s = ⟨params, s⟩ := by
  simp only [TR.update, if_pos h]

/-- The ratio of the actual and the predicted decrease. -/
noncomputable def TR.ratio (c : TRConf) (f : Objective n A) (params : Vec n) (s : TrState n A) : XR :=
  (f.value params - f.value fun i => params i + (TR.subproblem c f params s).p i) /
    TR.denom c f params (TR.subproblem c f params s).p

noncomputable def TR.newRadius (c : TRConf) (f : Objective n A) (params : Vec n) (s : TrState n A) : XR :=
  updateTrRadius s.tr_radius c.max_tr_radius c.min_tr_radius (TR.ratio c f params s)
    (TR.subproblem c f params s).step_length c.rho_increase c.rho_decrease c.increase_factor c.decrease_factor

theorem update_accept (c : TRConf) (f : Objective n A) (params : Vec n) (s : TrState n A)
    (h : ¬ s.tr_radius ≤ fin c.min_tr_radius) (ha : fin c.rho_accept ≤ TR.ratio c f params s) :
    TR.update c f params s =
      ⟨fun i => params i + (TR.subproblem c f params s).p i,
        { iter_num := s.iter_num + 1, accepted := True,
          value := f.value fun i => params i + (TR.subproblem c f params s).p i,
          grad := f.grad fun i => params i + (TR.subproblem c f params s).p i,
          error := vnorm (f.grad fun i => params i + (TR.subproblem c f params s).p i),
          rho := TR.ratio c f params s, tr_radius := TR.newRadius c f params s,
          aux := f.aux fun i => params i + (TR.subproblem c f params s).p i,
          subproblem_result := TR.subproblem c f params s }⟩ := by
  have ha' : fin c.rho_accept ≤
    (f.value params - f.value fun i => params i + (TR.subproblem c f params s).p i) /
      TR.denom c f params (TR.subproblem c f params s).p := ha
  simp only [TR.update, if_neg h, if_pos ha']
  rfl

theorem update_reject (c : TRConf) (f : Objective n A) (params : Vec n) (s : TrState n A)
    (h : ¬ s.tr_radius ≤ fin c.min_tr_radius) (ha : ¬ fin c.rho_accept ≤ TR.ratio c f params s) :
    TR.update c f params s =
      ⟨params,
        { iter_num := s.iter_num + 1, accepted := False, value := f.value params, grad := f.grad params,
          error := vnorm (f.grad params), rho := TR.ratio c f params s, tr_radius := TR.newRadius c f params s,
          aux := f.aux params, subproblem_result := TR.subproblem c f params s }⟩ := by
  have ha' : ¬ fin c.rho_accept ≤
    (f.value params - f.value fun i => params i + (TR.subproblem c f params s).p i) /
      TR.denom c f params (TR.subproblem c f params s).p := ha
  simp only [TR.update, if_neg h, if_neg ha']
  rfl

/-- The tolerance of the sub-problem. -/
theorem eps_fin {c : TRConf} {f : Objective n A} {params : Vec n} {g : Pt n} (hg : f.grad params = efin g) :
    ∃ F : ℝ, F ≤ ‖g‖ ∧ ∀ s : TrState n A,
      (s.subproblem_result.eps = pinf → TR.eps c f params s = fin (max c.tol F)) ∧
      ∀ e, s.subproblem_result.eps = fin e → TR.eps c f params s = fin (max c.tol (min e F)) := by
  have h1 : ∃ q : ℝ, minimum (fin (1 / 2)) (rpow (fin ‖g‖) c.forcing_parameter) = fin q ∧ q ≤ 1 / 2 := by
    rcases (norm_nonneg g).eq_or_lt with h | h
    · rw [← h]
      by_cases hθ : c.forcing_parameter < 0
      · refine ⟨1 / 2, ?_, le_rfl⟩
        have : rpow (fin 0) c.forcing_parameter = pinf := by simp [rpow, hθ]
        rw [this]
        have : fin (1 / 2) ≤ pinf := trivial
        simp only [minimum, if_pos this]
      · rw [fin_rpow' le_rfl (not_lt.mp hθ), fin_min]
        exact ⟨_, rfl, min_le_left _ _⟩
    · rw [fin_rpow h, fin_min]
      exact ⟨_, rfl, min_le_left _ _⟩
  obtain ⟨q, hq, hq2⟩ := h1
  refine ⟨q * ‖g‖, by nlinarith [norm_nonneg g], fun s => ⟨fun h => ?_, fun e h => ?_⟩⟩
  · simp only [TR.eps, hg, vnorm_efin', hq, fin_mul, h]
    have : ¬ pinf ≤ fin (q * ‖g‖) := id
    simp only [minimum, if_neg this, fin_max]
  · simp only [TR.eps, hg, vnorm_efin', hq, fin_mul, h, fin_min, fin_max]

theorem damped_efin {c : TRConf} {f : Objective n A} {G : Pt n → Pt n} {B : Pt n → Pt n →ₗ[ℝ] Pt n}
    (hf : SecondOrder c f G B) (x v : Pt n) :
    TR.dampedHvp c f (efin x) (efin v) = efin ((B x + c.damping • LinearMap.id : Pt n →ₗ[ℝ] Pt n) v) := by
  unfold TR.dampedHvp TRConf.damping
  cases c.damping_factor with
  | none => simp [hf.hvp]
  | some t => simp [hf.hvp, addScalarMul_efin]

theorem denom_efin {c : TRConf} {f : Objective n A} {G : Pt n → Pt n} {B : Pt n → Pt n →ₗ[ℝ] Pt n}
    (hf : SecondOrder c f G B) (x p : Pt n) :
    TR.denom c f (efin x) (efin p) = fin (-qmodel (G x) (B x) p) := by
  simp [TR.denom, hf.grad, hf.hvp, vdot_efin, qmodel]

theorem qmodel_damped (g : Pt n) (H : Pt n →ₗ[ℝ] Pt n) (t : ℝ) (p : Pt n) :
    qmodel g (H + t • LinearMap.id : Pt n →ₗ[ℝ] Pt n) p = qmodel g H p + 1 / 2 * (t * ‖p‖ ^ 2) := by
  simp [qmodel, inner_add_right, inner_smul_right]
  ring

theorem damping_nonneg {c : TRConf} (hc : c.Valid) : 0 ≤ c.damping := by
  unfold TRConf.damping
  rcases h : c.damping_factor with _ | t
  · simp
  · exact hc.damping t h

/-- Every linear map of a Euclidean space has bounded curvature. -/
theorem curv_bound (H : Pt n →ₗ[ℝ] Pt n) : ∃ β : ℝ, 0 < β ∧ ∀ x, ⟪x, H x⟫ ≤ β * ‖x‖ ^ 2 := by
  refine ⟨‖LinearMap.toContinuousLinearMap H‖ + 1, by positivity, fun x => ?_⟩
  have h1 : ‖H x‖ ≤ ‖LinearMap.toContinuousLinearMap H‖ * ‖x‖ := (LinearMap.toContinuousLinearMap H).le_opNorm x
  calc ⟪x, H x⟫ ≤ ‖x‖ * ‖H x‖ := real_inner_le_norm _ _
    _ ≤ ‖x‖ * (‖LinearMap.toContinuousLinearMap H‖ * ‖x‖) := by gcongr
    _ ≤ (‖LinearMap.toContinuousLinearMap H‖ + 1) * ‖x‖ ^ 2 := by nlinarith [sq_nonneg ‖x‖]

/-- States met in runs: finite parameters and radius, finite or initial tolerance. -/
structure Regular (c : TRConf) (f : Objective n A) (s : OptStep n A) (x : Pt n) (Δ : ℝ) : Prop where
  params : s.params = efin x
  radius : s.state.tr_radius = fin Δ
  eps : s.state.subproblem_result.eps = pinf ∨ ∃ e, s.state.subproblem_result.eps = fin e ∧ c.tol ≤ e
  value : s.state.value = f.value (efin x)
  error : s.state.error = vnorm (f.grad (efin x))

/-- What the sub-problem gives in a regular state which is not frozen. -/
theorem subproblem_regular {c : TRConf} (hc : c.Valid) {f : Objective n A} {G : Pt n → Pt n}
    {B : Pt n → Pt n →ₗ[ℝ] Pt n} (hf : SecondOrder c f G B) {s : OptStep n A} {x : Pt n} {Δ : ℝ}
    (h : Regular c f s x Δ) (hΔ : c.min_tr_radius < Δ) :
    ∃ (p : Pt n) (e : ℝ), (TR.subproblem c f s.params s.state).p = efin p ∧
      (TR.subproblem c f s.params s.state).step_length = fin ‖p‖ ∧ ‖p‖ ≤ Δ ∧
      (TR.subproblem c f s.params s.state).eps = fin e ∧ c.tol ≤ e ∧
      (∀ e', s.state.subproblem_result.eps = fin e' → e ≤ e') ∧
      (c.tol ≤ ‖G x‖ → e ≤ ‖G x‖) ∧
      (e ≤ ‖G x‖ → 0 < (TR.subproblem c f s.params s.state).iter_num ∧ 0 < -qmodel (G x) (B x) p ∧
        ∀ β, 0 < β → (∀ v, ⟪v, B x v⟫ ≤ β * ‖v‖ ^ 2) →
          1 / 2 * ‖G x‖ * min Δ (‖G x‖ / (β + c.damping)) ≤ -qmodel (G x) (B x) p) ∧
      (‖G x‖ < e → p = 0) := by
  have hΔ0 : 0 < Δ := lt_of_le_of_lt hc.min_radius hΔ
  have hg : f.grad s.params = efin (G x) := by rw [h.params, hf.grad]
  obtain ⟨F, hF, h12⟩ := eps_fin (c := c) hg
  obtain ⟨h1, h2⟩ := h12 s.state
  obtain ⟨e, he, hte, hle, hleg⟩ : ∃ e, TR.eps c f s.params s.state = fin e ∧ c.tol ≤ e ∧
      (∀ e', s.state.subproblem_result.eps = fin e' → e ≤ e') ∧ (c.tol ≤ ‖G x‖ → e ≤ ‖G x‖) := by
    rcases h.eps with hp | ⟨e0, hp, ht⟩
    · refine ⟨_, h1 hp, le_max_left _ _, fun e' he' => ?_, fun ht => max_le ht hF⟩
      rw [hp] at he'
      cases he'
    · refine ⟨_, h2 e0 hp, le_max_left _ _, fun e' he' => ?_, fun ht => max_le ht ((min_le_right _ _).trans hF)⟩
      rw [hp, fin_inj] at he'
      subst he'
      exact max_le ht (min_le_left _ _)
  have he0 : 0 < e := lt_of_lt_of_le hc.tol hte
  have hH : ∀ v, TR.dampedHvp c f s.params (efin v) = efin ((B x + c.damping • LinearMap.id : Pt n →ₗ[ℝ] Pt n) v) := by
    intro v; rw [h.params, damped_efin hf]
  have hsub : TR.subproblem c f s.params s.state =
      steihaug (efin (G x)) (TR.dampedHvp c f s.params) (fin Δ) (fin e) c.maxiter_steihaug := by
    rw [TR.subproblem, hg, h.radius, he]
  have hsym : ∀ u v, ⟪(B x + c.damping • LinearMap.id : Pt n →ₗ[ℝ] Pt n) u, v⟫ =
      ⟪u, (B x + c.damping • LinearMap.id : Pt n →ₗ[ℝ] Pt n) v⟫ := by
    intro u v
    simp [inner_add_left, inner_add_right, inner_smul_left, inner_smul_right, hf.symm]
  obtain ⟨p, hp, hlen, hpΔ⟩ := C61_in_region Δ e hΔ0 he0 (TR.dampedHvp c f s.params) _ hH (G x) c.maxiter_steihaug
  have hd := damping_nonneg hc
  refine ⟨p, e, by rw [hsub]; exact hp, by rw [hsub]; exact hlen, hpΔ, by rw [hsub]; rfl, hte, hle, hleg, fun hge => ?_,
    fun hlt => ?_⟩
  · have hdec : ∀ β, 0 < β → (∀ v, ⟪v, B x v⟫ ≤ β * ‖v‖ ^ 2) →
        1 / 2 * ‖G x‖ * min Δ (‖G x‖ / (β + c.damping)) ≤ -qmodel (G x) (B x) p ∧ 0 < -qmodel (G x) (B x) p := by
      intro β hβ hb
      obtain ⟨p', hp', hd1, hd2⟩ := C62_decrease Δ e (β + c.damping) hΔ0 he0 (by positivity)
        (TR.dampedHvp c f s.params) _ hH hsym (fun v => by
          simp only [LinearMap.add_apply, LinearMap.smul_apply, LinearMap.id_apply, inner_add_right, inner_smul_right,
            real_inner_self_eq_norm_sq]
          nlinarith [hb v]) (G x) hge c.maxiter_steihaug hc.steihaug
      have : p' = p := efin_inj.mp (hp'.symm.trans hp)
      subst this
      rw [qmodel_damped] at hd1 hd2
      have : 0 ≤ c.damping * ‖p'‖ ^ 2 := by positivity
      exact ⟨by linarith, by linarith⟩
    obtain ⟨β, hβ, hb⟩ := curv_bound (B x)
    have hpos := (hdec β hβ hb).2
    refine ⟨?_, hpos, fun β hβ hb => (hdec β hβ hb).1⟩
    by_contra hit
    have hit0 : (TR.subproblem c f s.params s.state).iter_num = 0 := by omega
    rw [hsub] at hit0
    -- no iteration means that the step is zero
    have hz : steihaug.final (efin (G x)) (TR.dampedHvp c f s.params) (fin Δ) (fin e) c.maxiter_steihaug =
        steihaug.init (efin (G x)) := by
      have hit1 : (steihaug.final (efin (G x)) (TR.dampedHvp c f s.params) (fin Δ) (fin e)
        c.maxiter_steihaug).iter_num = 0 := hit0
      rw [final_eq] at hit1 ⊢
      cases hl : iterLimit n c.maxiter_steihaug with
      | zero => simp [whileLoop]
      | succ k =>
        rw [hl] at hit1
        simp only [whileLoop] at hit1 ⊢
        split at hit1
        · exfalso
          have hmono : ∀ (k : ℕ) (st : CgState n), st.iter_num ≤ (whileLoop (steihaug.condition (fin Δ) (fin e))
              (steihaug.step (TR.dampedHvp c f s.params) (fin Δ)) k st).iter_num := by
            intro k
            induction k with
            | zero => intro st; simp [whileLoop]
            | succ k ih =>
              intro st
              simp only [whileLoop]
              split
              · have h4 := ih (steihaug.step (TR.dampedHvp c f s.params) (fin Δ) st)
                simp only [steihaug.step] at h4 ⊢
                omega
              · exact le_rfl
          have h3 := hmono k (steihaug.step (TR.dampedHvp c f s.params) (fin Δ) (steihaug.init (efin (G x))))
          rw [hit1] at h3
          exact absurd h3 (by simp [steihaug.step])
        · next hcond => rw [if_neg hcond]
    have hp0 : p = 0 := by
      have : (steihaug.final (efin (G x)) (TR.dampedHvp c f s.params) (fin Δ) (fin e) c.maxiter_steihaug).z =
        efin p := hp
      rw [hz] at this
      simp only [steihaug.init, zero_efin] at this
      exact (efin_inj.mp this).symm
    rw [hp0] at hpos
    simp [qmodel] at hpos
  · have : ¬ steihaug.condition (fin Δ) (fin e) (steihaug.init (efin (G x))) := by
      rw [condition_inside (inside_init hΔ0 (G x))]
      exact not_le.mpr hlt
    have hz : steihaug.final (efin (G x)) (TR.dampedHvp c f s.params) (fin Δ) (fin e) c.maxiter_steihaug =
        steihaug.init (efin (G x)) := by
      rw [final_eq]
      cases iterLimit n c.maxiter_steihaug with
      | zero => simp [whileLoop]
      | succ k => simp only [whileLoop, if_neg this]
    have hp' : (steihaug.final (efin (G x)) (TR.dampedHvp c f s.params) (fin Δ) (fin e) c.maxiter_steihaug).z =
        efin p := hp
    rw [hz] at hp'
    simp only [steihaug.init, zero_efin] at hp'
    exact (efin_inj.mp hp').symm

/-- The new radius for a finite radius. -/
theorem newRadius_fin (c : TRConf) (f : Objective n A) (params : Vec n) (s : TrState n A) {Δ : ℝ}
    (hΔ : s.tr_radius = fin Δ) :
    ∃ Δ', TR.newRadius c f params s = fin Δ' ∧ (Δ' = max (Δ * c.decrease_factor) c.min_tr_radius ∨
      Δ' = max (min (Δ * c.increase_factor) c.max_tr_radius) c.min_tr_radius ∨ Δ' = max Δ c.min_tr_radius) ∧
      (TR.ratio c f params s < fin c.rho_decrease → Δ' = max (Δ * c.decrease_factor) c.min_tr_radius) ∧
      (TR.ratio c f params s = nan → Δ' = max Δ c.min_tr_radius) := by
  rw [TR.newRadius, hΔ, updateTrRadius]
  by_cases h1 : TR.ratio c f params s < fin c.rho_decrease
  · refine ⟨_, by rw [if_pos h1, fin_mul, fin_max], Or.inl rfl, fun _ => rfl, fun h => ?_⟩
    rw [h] at h1; simp at h1
  · by_cases h2 : fin c.rho_increase < TR.ratio c f params s ∧
      isclose 1e-5 1e-8 (TR.subproblem c f params s).step_length (fin Δ)
    · refine ⟨_, by rw [if_neg h1, if_pos h2, fin_mul, fin_min, fin_max], Or.inr (Or.inl rfl), fun h => absurd h h1,
        fun h => ?_⟩
      rw [h] at h2; simp at h2
    · exact ⟨_, by rw [if_neg h1, if_neg h2, fin_max], Or.inr (Or.inr rfl), fun h => absurd h h1, fun _ => rfl⟩

/-- One update in a regular state. -/
theorem update_regular {c : TRConf} (hc : c.Valid) {f : Objective n A} {G : Pt n → Pt n}
    {B : Pt n → Pt n →ₗ[ℝ] Pt n} (hf : SecondOrder c f G B) {s : OptStep n A} {x : Pt n} {Δ : ℝ}
    (h : Regular c f s x Δ) :
    ∃ x' Δ', Regular c f (TR.update c f s.params s.state) x' Δ' := by
  by_cases hΔ : Δ ≤ c.min_tr_radius
  · rw [update_frozen c f s.params s.state (by rw [h.radius, fin_le]; exact hΔ)]
    exact ⟨x, Δ, h⟩
  · have hfr : ¬ s.state.tr_radius ≤ fin c.min_tr_radius := by rw [h.radius, fin_le]; exact hΔ
    obtain ⟨p, e, hp, -, -, he, hte, -⟩ := subproblem_regular hc hf h (not_le.mp hΔ)
    obtain ⟨Δ', hΔ', -⟩ := newRadius_fin c f s.params s.state h.radius
    have hnew : (fun i => s.params i + (TR.subproblem c f s.params s.state).p i) = efin (x + p) := by
      rw [h.params] at hp ⊢; rw [hp, add_efin]
    by_cases ha : fin c.rho_accept ≤ TR.ratio c f s.params s.state
    · rw [update_accept c f _ _ hfr ha]
      exact ⟨x + p, Δ', ⟨hnew, hΔ', Or.inr ⟨e, he, hte⟩, by rw [hnew], by rw [hnew]⟩⟩
    · rw [update_reject c f _ _ hfr ha]
      exact ⟨x, Δ', ⟨h.params, hΔ', Or.inr ⟨e, he, hte⟩, by rw [h.params], by rw [h.params]⟩⟩

theorem regular_start {c : TRConf} {f : Objective n A} {init : Vec n ⊕ OptStep n A} {x : Pt n} {Δ : ℝ}
    (hx : (TR.start c f init).params = efin x) (hΔ : (TR.start c f init).state.tr_radius = fin Δ) :
    Regular c f (TR.start c f init) x Δ := by
  refine ⟨hx, hΔ, Or.inl rfl, ?_, ?_⟩
  · rw [← hx]; cases init <;> rfl
  · rw [← hx]; cases init <;> rfl

theorem updates_regular {c : TRConf} (hc : c.Valid) {f : Objective n A} {G : Pt n → Pt n}
    {B : Pt n → Pt n →ₗ[ℝ] Pt n} (hf : SecondOrder c f G B) {s : OptStep n A} {x : Pt n} {Δ : ℝ}
    (h : Regular c f s x Δ) (k : ℕ) : ∃ x' Δ', Regular c f (TR.updates c f s k) x' Δ' := by
  induction k with
  | zero => exact ⟨x, Δ, h⟩
  | succ k ih =>
    obtain ⟨x', Δ', h'⟩ := ih
    exact update_regular hc hf h'

end

end Verif
