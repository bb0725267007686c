import Verif.Lemmas.TR

/-! # Properties of the trust region method -/

namespace Verif

open XR

local notation "⟪" x ", " y "⟫" => inner ℝ x y

section
variable {n : ℕ} {A : Type*}

/-! ## C58 -/

/-- The radius stays within its bounds for every objective, also one with non-finite values, gradients or
Hessian-vector products. -/
theorem C58_radius (c : TRConf) (f : Objective n A) (hmin : 0 ≤ c.min_tr_radius)
    (hmax : c.min_tr_radius ≤ c.max_tr_radius) (hdec : c.decrease_factor ≤ 1) (s : OptStep n A) (Δ : ℝ)
    (hs : s.state.tr_radius = fin Δ) (h1 : c.min_tr_radius ≤ Δ) (h2 : Δ ≤ c.max_tr_radius) (k : ℕ) :
    ∃ Δ', (TR.updates c f s k).state.tr_radius = fin Δ' ∧ c.min_tr_radius ≤ Δ' ∧ Δ' ≤ c.max_tr_radius := by
  induction k with
  | zero => exact ⟨Δ, hs, h1, h2⟩
  | succ k ih =>
    obtain ⟨Δ', hΔ', h1', h2'⟩ := ih
    by_cases hfr : (TR.updates c f s k).state.tr_radius ≤ fin c.min_tr_radius
    · rw [TR.updates, update_frozen _ _ _ _ hfr]
      exact ⟨Δ', hΔ', h1', h2'⟩
    · obtain ⟨Δ'', hΔ'', hcases, -⟩ := newRadius_fin c f (TR.updates c f s k).params _ hΔ'
      have hrad : (TR.updates c f s (k + 1)).state.tr_radius = fin Δ'' := by
        rw [TR.updates]
        by_cases ha : fin c.rho_accept ≤ TR.ratio c f (TR.updates c f s k).params (TR.updates c f s k).state
        · rw [update_accept _ _ _ _ hfr ha]; exact hΔ''
        · rw [update_reject _ _ _ _ hfr ha]; exact hΔ''
      refine ⟨Δ'', hrad, ?_⟩
      have h0 : 0 ≤ Δ' := hmin.trans h1'
      rcases hcases with h | h | h
      · rw [h]
        refine ⟨le_max_right _ _, max_le ?_ hmax⟩
        nlinarith
      · rw [h]
        exact ⟨le_max_right _ _, max_le (min_le_right _ _) hmax⟩
      · rw [h]
        exact ⟨le_max_right _ _, max_le h2' hmax⟩

example (f : Objective 3 Unit) (s : OptStep 3 Unit) (hs : s.state.tr_radius = fin (1 / 2)) (k : ℕ) :
    ∃ Δ', (TR.updates .default f s k).state.tr_radius = fin Δ' ∧ 1e-4 ≤ Δ' ∧ Δ' ≤ 2 :=
  C58_radius .default f (by norm_num [TRConf.default]) (by norm_num [TRConf.default]) (by norm_num [TRConf.default]) s _ hs
    (by norm_num [TRConf.default]) (by norm_num [TRConf.default]) k

/-- In particular for runs which begin with `init_state`. -/
theorem C58_run (c : TRConf) (f : Objective n A) (hmin : 0 ≤ c.min_tr_radius)
    (hdec : c.decrease_factor ≤ 1) (h1 : c.min_tr_radius ≤ c.init_tr_radius) (h2 : c.init_tr_radius ≤ c.max_tr_radius)
    (params : Vec n) (k : ℕ) :
    ∃ Δ', (TR.updates c f (TR.start c f (.inl params)) k).state.tr_radius = fin Δ' ∧
      c.min_tr_radius ≤ Δ' ∧ Δ' ≤ c.max_tr_radius :=
  C58_radius c f hmin (h1.trans h2) hdec _ c.init_tr_radius rfl h1 h2 k

/-- The default configuration meets the hypotheses. -/
example (f : Objective 3 Unit) (params : Vec 3) (k : ℕ) :
    ∃ Δ', (TR.updates .default f (TR.start .default f (.inl params)) k).state.tr_radius = fin Δ' ∧
      1e-4 ≤ Δ' ∧ Δ' ≤ 2 :=
  C58_run .default f (by norm_num [TRConf.default]) (by norm_num [TRConf.default]) (by norm_num [TRConf.default])
    (by norm_num [TRConf.default]) params k

/-! ## C59 -/

/-- If a ratio `(old - new) / pred` with positive `pred` is at least `a`, then `new ≤ old - a * pred`. -/
theorem le_of_ratio {old new : XR} {a D : ℝ} (hD : 0 < D) (h : fin a ≤ (old - new) / fin D) :
    new ≤ old - fin (a * D) := by
  have hinf : (pinf : XR) / fin D = pinf := by show XR.div _ _ = _; simp [XR.div, not_lt.mpr hD.le]
  have hninf : (ninf : XR) / fin D = ninf := by show XR.div _ _ = _; simp [XR.div, not_lt.mpr hD.le]
  cases old with
  | nan => simp at h
  | ninf =>
    cases new with
    | nan => simp at h
    | ninf => rw [show (ninf : XR) - ninf = nan from rfl] at h; simp at h
    | pinf => rw [show (ninf : XR) - pinf = ninf from rfl, hninf] at h; exact h.elim
    | fin b => rw [show (ninf : XR) - fin b = ninf from rfl, hninf] at h; exact h.elim
  | pinf =>
    rw [show (pinf : XR) - fin (a * D) = pinf from rfl]
    cases new with
    | nan => simp at h
    | ninf => trivial
    | pinf => rw [show (pinf : XR) - pinf = nan from rfl] at h; simp at h
    | fin b => trivial
  | fin v =>
    rw [fin_sub]
    cases new with
    | nan => simp at h
    | ninf => trivial
    | pinf => rw [show fin v - (pinf : XR) = ninf from rfl, hninf] at h; exact h.elim
    | fin b =>
      rw [fin_sub, fin_div _ hD.ne', fin_le, le_div_iff₀ hD] at h
      rw [fin_le]
      linarith

/-- In a run of the solver from any finite start, an accepted step `p` gives a decrease of the objective by at least
`rho_accept` times the decrease predicted by the quadratic model, which is positive. The value of the objective may be
anything, also `nan` or infinite. -/
theorem C59_accepted (c : TRConf) (hc : c.Valid) (f : Objective n A) (G : Pt n → Pt n) (B : Pt n → Pt n →ₗ[ℝ] Pt n)
    (hf : SecondOrder c f G B) (init : Vec n ⊕ OptStep n A) (x₀ : Pt n) (Δ₀ : ℝ)
    (hx₀ : (TR.start c f init).params = efin x₀) (hΔ₀ : (TR.start c f init).state.tr_radius = fin Δ₀) (k : ℕ)
    (hfr : ¬ (TR.updates c f (TR.start c f init) k).state.tr_radius ≤ fin c.min_tr_radius)
    (hacc : (TR.updates c f (TR.start c f init) (k + 1)).state.accepted) :
    ∃ x p : Pt n, (TR.updates c f (TR.start c f init) k).params = efin x ∧
      (TR.updates c f (TR.start c f init) (k + 1)).params = efin (x + p) ∧
      0 < -qmodel (G x) (B x) p ∧
      f.value (efin (x + p)) ≤ f.value (efin x) - fin (c.rho_accept * -qmodel (G x) (B x) p) ∧
      (TR.updates c f (TR.start c f init) (k + 1)).state.value = f.value (efin (x + p)) := by
  obtain ⟨x, Δ, h⟩ := updates_regular hc hf (regular_start hx₀ hΔ₀) k
  set s := TR.updates c f (TR.start c f init) k with hs
  have hΔ : c.min_tr_radius < Δ := by
    rw [h.radius, fin_le] at hfr; exact not_le.mp hfr
  obtain ⟨p, e, hp, -, -, -, -, -, -, hpos, hzero⟩ := subproblem_regular hc hf h hΔ
  have hnew : (fun i => s.params i + (TR.subproblem c f s.params s.state).p i) = efin (x + p) := by
    rw [h.params] at hp ⊢; rw [hp, add_efin]
  have hratio : TR.ratio c f s.params s.state =
      (f.value (efin x) - f.value (efin (x + p))) / fin (-qmodel (G x) (B x) p) := by
    rw [TR.ratio, hnew, hp, h.params, denom_efin hf]
  have hupd : TR.updates c f (TR.start c f init) (k + 1) = TR.update c f s.params s.state := rfl
  by_cases ha : fin c.rho_accept ≤ TR.ratio c f s.params s.state
  · have hge : e ≤ ‖G x‖ := by
      by_contra hlt
      have hp0 := hzero (not_le.mp hlt)
      rw [hratio, hp0] at ha
      have hq : qmodel (G x) (B x) (0 : Pt n) = 0 := by simp [qmodel]
      rw [hq, neg_zero, add_zero] at ha
      have : (f.value (efin x) - f.value (efin x)) / fin 0 = nan := by
        cases f.value (efin x) with
        | nan => simp
        | pinf => rw [show (pinf : XR) - pinf = nan from rfl]; simp
        | ninf => rw [show (ninf : XR) - ninf = nan from rfl]; simp
        | fin v => simp
      rw [this] at ha
      exact not_le_nan _ ha
    have hq := (hpos hge).2.1
    refine ⟨x, p, h.params, ?_, hq, ?_, ?_⟩
    · rw [hupd, update_accept c f _ _ hfr ha]; exact hnew
    · rw [hratio] at ha
      exact le_of_ratio hq ha
    · rw [hupd, update_accept c f _ _ hfr ha]
      simp only [hnew]
  · exfalso
    rw [hupd, update_reject c f _ _ hfr ha] at hacc
    exact hacc

/-- In a run of the solver from any finite start, an update either leaves the parameters as they are, or moves them by a
step whose length is at most the trust radius in force before the update. The length of the step of the sub-problem is
recorded in the state. -/
theorem C61_run (c : TRConf) (hc : c.Valid) (f : Objective n A) (G : Pt n → Pt n) (B : Pt n → Pt n →ₗ[ℝ] Pt n)
    (hf : SecondOrder c f G B) (init : Vec n ⊕ OptStep n A) (x₀ : Pt n) (Δ₀ : ℝ)
    (hx₀ : (TR.start c f init).params = efin x₀) (hΔ₀ : (TR.start c f init).state.tr_radius = fin Δ₀) (k : ℕ) :
    ∃ (x x' : Pt n) (Δ : ℝ), (TR.updates c f (TR.start c f init) k).params = efin x ∧
      (TR.updates c f (TR.start c f init) k).state.tr_radius = fin Δ ∧
      (TR.updates c f (TR.start c f init) (k + 1)).params = efin x' ∧
      (x' = x ∨ ‖x' - x‖ ≤ Δ ∧
        (TR.updates c f (TR.start c f init) (k + 1)).state.subproblem_result.step_length = fin ‖x' - x‖) := by
  obtain ⟨x, Δ, h⟩ := updates_regular hc hf (regular_start hx₀ hΔ₀) k
  set s := TR.updates c f (TR.start c f init) k with hs
  have hupd : TR.updates c f (TR.start c f init) (k + 1) = TR.update c f s.params s.state := rfl
  by_cases hfr : s.state.tr_radius ≤ fin c.min_tr_radius
  · refine ⟨x, x, Δ, h.params, h.radius, ?_, Or.inl rfl⟩
    rw [hupd]
    simp only [TR.update, if_pos hfr]
    exact h.params
  have hΔ : c.min_tr_radius < Δ := by
    rw [h.radius, fin_le] at hfr; exact not_le.mp hfr
  obtain ⟨p, e, hp, hlen, hle, -⟩ := subproblem_regular hc hf h hΔ
  by_cases ha : fin c.rho_accept ≤ TR.ratio c f s.params s.state
  · refine ⟨x, x + p, Δ, h.params, h.radius, ?_, Or.inr ⟨by simpa using hle, ?_⟩⟩
    · rw [hupd, update_accept c f _ _ hfr ha]
      show (fun i => s.params i + (TR.subproblem c f s.params s.state).p i) = _
      rw [h.params] at hp ⊢; rw [hp, add_efin]
    · rw [hupd, update_accept c f _ _ hfr ha]
      simpa using hlen
  · refine ⟨x, x, Δ, h.params, h.radius, ?_, Or.inl rfl⟩
    rw [hupd, update_reject c f _ _ hfr ha]
    exact h.params

/-- An accepted step: the parameters move by the step of the sub-problem, and value, gradient, error and auxiliary data are
those at the new parameters. The objective may have any values, also `nan`. -/
theorem C59_fields (c : TRConf) (f : Objective n A) (params : Vec n) (s : TrState n A)
    (hfr : ¬ s.tr_radius ≤ fin c.min_tr_radius) (hacc : (TR.update c f params s).state.accepted) :
    (TR.update c f params s).params =
      (fun i => params i + (TR.update c f params s).state.subproblem_result.p i) ∧
    (TR.update c f params s).state.value = f.value (TR.update c f params s).params ∧
    (TR.update c f params s).state.grad = f.grad (TR.update c f params s).params ∧
    (TR.update c f params s).state.error = vnorm (f.grad (TR.update c f params s).params) ∧
    (TR.update c f params s).state.aux = f.aux (TR.update c f params s).params ∧
    (TR.update c f params s).state.iter_num = s.iter_num + 1 := by
  by_cases ha : fin c.rho_accept ≤ TR.ratio c f params s
  · rw [update_accept c f params s hfr ha]
    exact ⟨rfl, rfl, rfl, rfl, rfl, rfl⟩
  · rw [update_reject c f params s hfr ha] at hacc
    exact absurd hacc id

theorem le_refl_of_ne_nan {a : XR} (h : a ≠ nan) : a ≤ a := by
  cases a with
  | nan => exact absurd rfl h
  | ninf => trivial
  | pinf => trivial
  | fin r => rw [fin_le]

theorem le_sub_le {a b : XR} {d : ℝ} (hd : 0 ≤ d) (h : a ≤ b - fin d) : a ≤ b := by
  cases b with
  | nan => simp at h
  | ninf => exact h
  | pinf => exact h
  | fin r =>
    cases a with
    | nan => simp at h
    | ninf => trivial
    | pinf => exact h
    | fin t => rw [fin_sub, fin_le] at h; rw [fin_le]; linarith

theorem le_trans' {a b c : XR} (h1 : a ≤ b) (h2 : b ≤ c) : a ≤ c := by
  cases a <;> cases b <;> cases c <;>
    first
    | trivial
    | exact absurd h1 id
    | exact absurd h2 id
    | skip
  rename_i a b c
  rw [fin_le] at *
  exact h1.trans h2

/-- The objective values never increase along a run. -/
theorem C59_monotone (c : TRConf) (hc : c.Valid) (hra : 0 ≤ c.rho_accept) (f : Objective n A) (G : Pt n → Pt n)
    (B : Pt n → Pt n →ₗ[ℝ] Pt n) (hf : SecondOrder c f G B) (init : Vec n ⊕ OptStep n A) (x₀ : Pt n) (Δ₀ : ℝ)
    (hx₀ : (TR.start c f init).params = efin x₀) (hΔ₀ : (TR.start c f init).state.tr_radius = fin Δ₀)
    (hv : f.value (efin x₀) ≠ nan) (k : ℕ) :
    f.value (TR.updates c f (TR.start c f init) (k + 1)).params ≤
      f.value (TR.updates c f (TR.start c f init) k).params := by
  have key : ∀ k, f.value (TR.updates c f (TR.start c f init) k).params ≠ nan →
      f.value (TR.updates c f (TR.start c f init) (k + 1)).params ≤
        f.value (TR.updates c f (TR.start c f init) k).params := by
    intro k hk
    set s := TR.updates c f (TR.start c f init) k with hs
    have hupd : TR.updates c f (TR.start c f init) (k + 1) = TR.update c f s.params s.state := rfl
    by_cases hfr : s.state.tr_radius ≤ fin c.min_tr_radius
    · rw [hupd, update_frozen c f _ _ hfr]
      exact le_refl_of_ne_nan hk
    · by_cases ha : fin c.rho_accept ≤ TR.ratio c f s.params s.state
      · obtain ⟨x, p, e1, e2, hpos, hle, -⟩ := C59_accepted c hc f G B hf init x₀ Δ₀ hx₀ hΔ₀ k hfr
          (by rw [hupd, update_accept c f _ _ hfr ha]; trivial)
        rw [e2, hs, e1]
        exact le_sub_le (by positivity) hle
      · rw [hupd, update_reject c f _ _ hfr ha]
        exact le_refl_of_ne_nan hk
  refine key k ?_
  induction k with
  | zero =>
    show f.value (TR.start c f init).params ≠ nan
    rw [hx₀]; exact hv
  | succ k ih =>
    intro hn
    have := key k ih
    rw [hn] at this
    exact not_nan_le _ this

/-- An objective to which these apply: `x₀² + 3 x₁²`. -/
noncomputable def sampleObjective : Objective 2 Unit where
  value v := v 0 * v 0 + fin 3 * (v 1 * v 1)
  aux _ := ()
  grad v := ![fin 2 * v 0, fin 6 * v 1]
  hvp _ v := ![fin 2 * v 0, fin 6 * v 1]

/-- Its Hessian. -/
noncomputable def sampleHessian : Pt 2 →ₗ[ℝ] Pt 2 where
  toFun x := !₂[2 * x 0, 6 * x 1]
  map_add' x y := by ext i; fin_cases i <;> simp [mul_add]
  map_smul' a x := by
    ext i; fin_cases i
    · simp; ring
    · simp; ring

theorem sampleObjective_contract : SecondOrder .default sampleObjective sampleHessian fun _ => sampleHessian where
  grad x := by funext i; fin_cases i <;> simp [sampleObjective, sampleHessian, efin]
  hvp x v := by funext i; fin_cases i <;> simp [sampleObjective, sampleHessian, efin, TR.hvp, TRConf.default]
  symm x u v := by simp [sampleHessian, PiLp.inner_apply, Fin.sum_univ_two]; ring

theorem default_valid : TRConf.default.Valid :=
  ⟨by norm_num [TRConf.default], by norm_num [TRConf.default], by simp [TRConf.default], by simp [TRConf.default]⟩

example (x₀ : Pt 2) (k : ℕ) :
    sampleObjective.value (TR.updates .default sampleObjective (TR.start .default sampleObjective (.inl (efin x₀))) (k + 1)).params ≤
    sampleObjective.value (TR.updates .default sampleObjective (TR.start .default sampleObjective (.inl (efin x₀))) k).params :=
  C59_monotone .default default_valid (by norm_num [TRConf.default]) _ _ _ sampleObjective_contract _ x₀ 1 rfl rfl
    (by simp [sampleObjective, efin]) k

example (x₀ : Pt 2) (k : ℕ) : ∃ (x x' : Pt 2) (Δ : ℝ),
    (TR.updates .default sampleObjective (TR.start .default sampleObjective (.inl (efin x₀))) k).params = efin x ∧
    (TR.updates .default sampleObjective (TR.start .default sampleObjective (.inl (efin x₀))) (k + 1)).params = efin x' ∧
    (x' = x ∨ ‖x' - x‖ ≤ Δ) ∧
    (TR.updates .default sampleObjective (TR.start .default sampleObjective (.inl (efin x₀))) k).state.tr_radius = fin Δ := by
  obtain ⟨x, x', Δ, h1, h2, h3, h4⟩ :=
    C61_run .default default_valid _ _ _ sampleObjective_contract (.inl (efin x₀)) x₀ 1 rfl rfl k
  exact ⟨x, x', Δ, h1, h3, h4.imp_right And.left, h2⟩

/-! ## C60 -/

/-- A rejected step leaves everything but the counters, the ratio and the radius at the old iterate. -/
theorem C60_rejected (c : TRConf) (f : Objective n A) (params : Vec n) (s : TrState n A)
    (hfr : ¬ s.tr_radius ≤ fin c.min_tr_radius) (hrej : ¬ (TR.update c f params s).state.accepted) :
    (TR.update c f params s).params = params ∧
    (TR.update c f params s).state.value = f.value params ∧
    (TR.update c f params s).state.grad = f.grad params ∧
    (TR.update c f params s).state.error = vnorm (f.grad params) ∧
    (TR.update c f params s).state.aux = f.aux params ∧
    (TR.update c f params s).state.iter_num = s.iter_num + 1 := by
  by_cases ha : fin c.rho_accept ≤ TR.ratio c f params s
  · rw [update_accept _ _ _ _ hfr ha] at hrej
    exact absurd trivial hrej
  · rw [update_reject _ _ _ _ hfr ha]
    exact ⟨rfl, rfl, rfl, rfl, rfl, rfl⟩

/-- The radius is decreased on rejection unless the ratio is `nan`. Missing: the case of a `nan` ratio, in which the
radius stays, see `C60_counterexample`. -/
theorem C60_radius_partial (c : TRConf) (hok : c.postInit = .ok c) (f : Objective n A) (params : Vec n)
    (s : TrState n A) (Δ : ℝ) (hΔ : s.tr_radius = fin Δ) (hfr : c.min_tr_radius < Δ)
    (hrej : ¬ (TR.update c f params s).state.accepted) (hnan : (TR.update c f params s).state.rho ≠ nan) :
    (TR.update c f params s).state.tr_radius = fin (max (Δ * c.decrease_factor) c.min_tr_radius) := by
  have hfr' : ¬ s.tr_radius ≤ fin c.min_tr_radius := by rw [hΔ, fin_le]; exact not_le.mpr hfr
  have hle : c.rho_accept ≤ c.rho_decrease := by
    by_contra hlt
    simp [TRConf.postInit, not_le.mp hlt] at hok
  by_cases ha : fin c.rho_accept ≤ TR.ratio c f params s
  · rw [update_accept _ _ _ _ hfr' ha] at hrej
    exact absurd trivial hrej
  · rw [update_reject _ _ _ _ hfr' ha] at hnan ⊢
    have hnan' : TR.ratio c f params s ≠ nan := hnan
    obtain ⟨Δ', hΔ', -, hdec, -⟩ := newRadius_fin c f params s hΔ
    show TR.newRadius c f params s = _
    rw [hΔ', hdec]
    cases hr : TR.ratio c f params s with
    | nan => exact absurd hr hnan'
    | ninf => trivial
    | pinf => rw [hr] at ha; exact absurd trivial ha
    | fin r => rw [hr, fin_le] at ha; rw [fin_lt]; linarith

/-- With a `nan` ratio the radius is not decreased. -/
theorem C60_nan (c : TRConf) (f : Objective n A) (params : Vec n)
    (s : TrState n A) (Δ : ℝ) (hΔ : s.tr_radius = fin Δ) (hfr : c.min_tr_radius < Δ)
    (hnan : (f.value fun i => params i + (TR.subproblem c f params s).p i) = nan) :
    ¬ (TR.update c f params s).state.accepted ∧ (TR.update c f params s).state.tr_radius = fin Δ := by
  have hfr' : ¬ s.tr_radius ≤ fin c.min_tr_radius := by rw [hΔ, fin_le]; exact not_le.mpr hfr
  have hr : TR.ratio c f params s = nan := by rw [TR.ratio, hnan]; simp
  have ha : ¬ fin c.rho_accept ≤ TR.ratio c f params s := by rw [hr]; simp
  rw [update_reject _ _ _ _ hfr' ha]
  refine ⟨id, ?_⟩
  obtain ⟨Δ', hΔ', -, -, hn⟩ := newRadius_fin c f params s hΔ
  show TR.newRadius c f params s = _
  rw [hΔ', hn hr, max_eq_left hfr.le]

/-- An objective with value `0` at the origin and `nan` elsewhere. -/
noncomputable def nanObjective : Objective 1 Unit where
  value v := open Classical in if v = efin 0 then 0 else nan
  aux _ := ()
  grad _ := efin !₂[1]
  hvp _ _ := efin 0

theorem nanObjective_contract : SecondOrder .default nanObjective (fun _ => !₂[1]) fun _ => 0 where
  grad x := rfl
  hvp x v := by simp [nanObjective, TR.hvp, TRConf.default]
  symm x u v := by simp

/-! ## C64 -/

/-- At a point whose gradient is not below the tolerance, the sub-problem does at least one iteration and its step is
not zero; its tolerance lies between `tol` and the gradient norm. -/
theorem C64_step (c : TRConf) (hc : c.Valid) (f : Objective n A) (G : Pt n → Pt n) (B : Pt n → Pt n →ₗ[ℝ] Pt n)
    (hf : SecondOrder c f G B) (init : Vec n ⊕ OptStep n A) (x₀ : Pt n) (Δ₀ : ℝ)
    (hx₀ : (TR.start c f init).params = efin x₀) (hΔ₀ : (TR.start c f init).state.tr_radius = fin Δ₀) (k : ℕ)
    (hfr : ¬ (TR.updates c f (TR.start c f init) k).state.tr_radius ≤ fin c.min_tr_radius)
    (htol : fin c.tol ≤ (TR.updates c f (TR.start c f init) k).state.error) :
    let r := (TR.updates c f (TR.start c f init) (k + 1)).state.subproblem_result
    fin c.tol ≤ r.eps ∧ r.eps ≤ (TR.updates c f (TR.start c f init) k).state.error ∧ 0 < r.iter_num ∧
      ∃ p : Pt n, r.p = efin p ∧ p ≠ 0 := by
  obtain ⟨x, Δ, h⟩ := updates_regular hc hf (regular_start hx₀ hΔ₀) k
  set s := TR.updates c f (TR.start c f init) k with hs
  have hΔ : c.min_tr_radius < Δ := by
    rw [h.radius, fin_le] at hfr; exact not_le.mp hfr
  obtain ⟨p, e, hp, -, -, he, hte, -, hleg, hpos, -⟩ := subproblem_regular hc hf h hΔ
  have herr : s.state.error = fin ‖G x‖ := by rw [h.error, hf.grad, vnorm_efin']
  have hr : (TR.updates c f (TR.start c f init) (k + 1)).state.subproblem_result =
      TR.subproblem c f s.params s.state := by
    show (TR.update c f s.params s.state).state.subproblem_result = _
    by_cases ha : fin c.rho_accept ≤ TR.ratio c f s.params s.state
    · rw [update_accept c f _ _ hfr ha]
    · rw [update_reject c f _ _ hfr ha]
  rw [herr, fin_le] at htol
  simp only [hr, he, herr, fin_le]
  refine ⟨hte, hleg htol, (hpos (hleg htol)).1, p, hp, ?_⟩
  rintro rfl
  have := (hpos (hleg htol)).2.1
  simp [qmodel] at this

/-- The tolerances never increase along a run and are never below `tol`. -/
theorem C64_tolerances (c : TRConf) (hc : c.Valid) (f : Objective n A) (G : Pt n → Pt n)
    (B : Pt n → Pt n →ₗ[ℝ] Pt n) (hf : SecondOrder c f G B) (init : Vec n ⊕ OptStep n A) (x₀ : Pt n) (Δ₀ : ℝ)
    (hx₀ : (TR.start c f init).params = efin x₀) (hΔ₀ : (TR.start c f init).state.tr_radius = fin Δ₀) (k : ℕ) :
    (TR.updates c f (TR.start c f init) (k + 1)).state.subproblem_result.eps ≤
      (TR.updates c f (TR.start c f init) k).state.subproblem_result.eps ∧
    fin c.tol ≤ (TR.updates c f (TR.start c f init) k).state.subproblem_result.eps := by
  obtain ⟨x, Δ, h⟩ := updates_regular hc hf (regular_start hx₀ hΔ₀) k
  set s := TR.updates c f (TR.start c f init) k with hs
  have h2 : fin c.tol ≤ s.state.subproblem_result.eps := by
    rcases h.eps with he | ⟨e, he, ht⟩
    · rw [he]; trivial
    · rw [he, fin_le]; exact ht
  refine ⟨?_, h2⟩
  show (TR.update c f s.params s.state).state.subproblem_result.eps ≤ _
  by_cases hfr : s.state.tr_radius ≤ fin c.min_tr_radius
  · rw [update_frozen c f _ _ hfr]
    refine le_refl_of_ne_nan ?_
    intro hn
    rw [hn] at h2
    exact not_le_nan _ h2
  · have hΔ : c.min_tr_radius < Δ := by
      rw [h.radius, fin_le] at hfr; exact not_le.mp hfr
    obtain ⟨p, e, hp, -, -, he, hte, hle, -⟩ := subproblem_regular hc hf h hΔ
    have hr : (TR.update c f s.params s.state).state.subproblem_result = TR.subproblem c f s.params s.state := by
      by_cases ha : fin c.rho_accept ≤ TR.ratio c f s.params s.state
      · rw [update_accept c f _ _ hfr ha]
      · rw [update_reject c f _ _ hfr ha]
    rw [hr, he]
    rcases h.eps with he' | ⟨e', he', -⟩
    · rw [he']; trivial
    · rw [he', fin_le]
      exact hle e' he'

/-- The first step from `(1, 1)` is not zero. -/
example : ∃ p : Pt 2, (TR.updates .default sampleObjective
    (TR.start .default sampleObjective (.inl (efin !₂[1, 1]))) 1).state.subproblem_result.p = efin p ∧ p ≠ 0 := by
  refine (C64_step .default default_valid _ _ _ sampleObjective_contract (.inl (efin !₂[1, 1])) !₂[1, 1] 1 rfl rfl 0
    ?_ ?_).2.2.2
  · show ¬ fin 1 ≤ fin (1e-4)
    rw [fin_le]; norm_num
  · show fin (1e-2) ≤ vnorm (sampleObjective.grad (efin !₂[1, 1]))
    rw [sampleObjective_contract.grad, vnorm_efin', fin_le, EuclideanSpace.norm_eq]
    refine Real.le_sqrt_of_sq_le ?_
    norm_num [Fin.sum_univ_two, sampleHessian]

/-! ## C65 -/

/-- The run has stopped: the gradient is small or the radius minimal. -/
def Stopped (c : TRConf) (s : OptStep n A) : Prop :=
  s.state.error ≤ fin c.tol ∨ s.state.tr_radius ≤ fin c.min_tr_radius

/-- One update of a run which has not stopped, for objectives which are bounded below. -/
theorem update_progress {c : TRConf} (hc : c.Valid) (hok : c.postInit = .ok c) {f : Objective n A} {G : Pt n → Pt n}
    {B : Pt n → Pt n →ₗ[ℝ] Pt n} (hf : SecondOrder c f G B) {β flow : ℝ} (hβ : 0 < β)
    (hb : ∀ x v, ⟪v, B x v⟫ ≤ β * ‖v‖ ^ 2)
    (hv : ∀ x : Pt n, f.value (efin x) = pinf ∨ ∃ v, f.value (efin x) = fin v ∧ flow ≤ v)
    (hmin : 0 < c.min_tr_radius) (hra : 0 < c.rho_accept) {s : OptStep n A} {x : Pt n} {Δ V : ℝ}
    (h : Regular c f s x Δ) (hV : f.value (efin x) = fin V) (hns : ¬ Stopped c s) :
    (∃ x' Δ' V', Regular c f (TR.update c f s.params s.state) x' Δ' ∧ f.value (efin x') = fin V' ∧
      V' ≤ V - c.rho_accept * (1 / 2 * c.tol * min c.min_tr_radius (c.tol / (β + c.damping)))) ∨
    (Regular c f (TR.update c f s.params s.state) x (max (Δ * c.decrease_factor) c.min_tr_radius)) := by
  have hfr : ¬ s.state.tr_radius ≤ fin c.min_tr_radius := fun h' => hns (Or.inr h')
  have hΔ : c.min_tr_radius < Δ := by
    rw [h.radius, fin_le] at hfr; exact not_le.mp hfr
  have hg : c.tol < ‖G x‖ := by
    have : ¬ s.state.error ≤ fin c.tol := fun h' => hns (Or.inl h')
    rw [h.error, hf.grad, vnorm_efin', fin_le] at this
    exact not_le.mp this
  obtain ⟨p, e, hp, -, -, he, hte, -, hleg, hpos, -⟩ := subproblem_regular hc hf h hΔ
  obtain ⟨-, hq, hdec⟩ := hpos (hleg hg.le)
  have hdec := hdec β hβ (hb x)
  have hnew : (fun i => s.params i + (TR.subproblem c f s.params s.state).p i) = efin (x + p) := by
    rw [h.params] at hp ⊢; rw [hp, add_efin]
  have hratio : TR.ratio c f s.params s.state =
      (f.value (efin x) - f.value (efin (x + p))) / fin (-qmodel (G x) (B x) p) := by
    rw [TR.ratio, hnew, hp, h.params, denom_efin hf]
  have hd := damping_nonneg hc
  obtain ⟨Δ', hΔ', -, hdecr, -⟩ := newRadius_fin c f s.params s.state h.radius
  by_cases ha : fin c.rho_accept ≤ TR.ratio c f s.params s.state
  · left
    have hle : f.value (efin (x + p)) ≤ fin V - fin (c.rho_accept * -qmodel (G x) (B x) p) := by
      rw [← hV]; rw [hratio] at ha; exact le_of_ratio hq ha
    rcases hv (x + p) with hinf | ⟨V', hV', -⟩
    · rw [hinf, fin_sub] at hle; exact hle.elim
    · refine ⟨x + p, Δ', V', ?_, hV', ?_⟩
      · rw [update_accept c f _ _ hfr ha]
        exact ⟨hnew, hΔ', Or.inr ⟨e, he, hte⟩, by rw [hnew], by rw [hnew]⟩
      · rw [hV', fin_sub, fin_le] at hle
        have h1 : 1 / 2 * c.tol * min c.min_tr_radius (c.tol / (β + c.damping)) ≤
            1 / 2 * ‖G x‖ * min Δ (‖G x‖ / (β + c.damping)) := by
          have ht := hc.tol
          gcongr
        nlinarith
  · right
    have hlow : TR.ratio c f s.params s.state < fin c.rho_decrease := by
      have hle : c.rho_accept ≤ c.rho_decrease := by
        by_contra hlt
        simp [TRConf.postInit, not_le.mp hlt] at hok
      rw [hratio, hV] at ha ⊢
      rcases hv (x + p) with hinf | ⟨V', hV', -⟩
      · rw [hinf, show fin V - (pinf : XR) = ninf from rfl]
        show XR.div _ _ < _
        simp only [XR.div, if_neg (not_lt.mpr hq.le)]
        trivial
      · rw [hV', fin_sub, fin_div _ hq.ne', fin_le] at ha
        rw [hV', fin_sub, fin_div _ hq.ne', fin_lt]
        linarith
    have := hdecr hlow
    subst this
    rw [update_reject c f _ _ hfr ha]
    exact ⟨h.params, hΔ', Or.inr ⟨e, he, hte⟩, by rw [h.params], by rw [h.params]⟩

/-- The radius of a run stays below its maximum. -/
theorem updates_max {c : TRConf} (f : Objective n A) (hmin : 0 ≤ c.min_tr_radius)
    (hmax : c.min_tr_radius ≤ c.max_tr_radius) (hdec : c.decrease_factor ≤ 1) {s : OptStep n A} {Δ : ℝ}
    (hs : s.state.tr_radius = fin Δ) (h2 : Δ ≤ c.max_tr_radius) (k : ℕ) {Δ' : ℝ}
    (h : (TR.updates c f s k).state.tr_radius = fin Δ') : Δ' ≤ c.max_tr_radius := by
  by_cases h1 : c.min_tr_radius ≤ Δ
  · obtain ⟨Δ'', e, -, h3⟩ := C58_radius c f hmin hmax hdec s Δ hs h1 h2 k
    rw [h, fin_inj] at e
    rw [e]; exact h3
  · have hfr : ∀ k, TR.updates c f s k = s := by
      intro k
      induction k with
      | zero => rfl
      | succ k ih => rw [TR.updates, ih, update_frozen _ _ _ _ (by rw [hs, fin_le]; exact (not_le.mp h1).le)]
    rw [hfr, hs, fin_inj] at h
    rw [← h]; exact h2

theorem updates_add (c : TRConf) (f : Objective n A) (s : OptStep n A) (j k : ℕ) :
    TR.updates c f s (j + k) = TR.updates c f (TR.updates c f s j) k := by
  induction k with
  | zero => rfl
  | succ k ih => rw [← Nat.add_assoc, TR.updates, ih, TR.updates]

/-- Within `R` updates the run stops or a step is accepted. -/
theorem progress_or_stop {c : TRConf} (hc : c.Valid) (hok : c.postInit = .ok c) {f : Objective n A} {G : Pt n → Pt n}
    {B : Pt n → Pt n →ₗ[ℝ] Pt n} (hf : SecondOrder c f G B) {β flow : ℝ} (hβ : 0 < β)
    (hb : ∀ x v, ⟪v, B x v⟫ ≤ β * ‖v‖ ^ 2)
    (hv : ∀ x : Pt n, f.value (efin x) = pinf ∨ ∃ v, f.value (efin x) = fin v ∧ flow ≤ v)
    (hmin : 0 < c.min_tr_radius) (hra : 0 < c.rho_accept) (R : ℕ) :
    ∀ (s : OptStep n A) (x : Pt n) (Δ V : ℝ), Regular c f s x Δ → f.value (efin x) = fin V →
    Δ * c.decrease_factor ^ R ≤ c.min_tr_radius →
    (∃ j ≤ R, Stopped c (TR.updates c f s j)) ∨
    ∃ j, j + 1 ≤ R ∧ ∃ x' Δ' V', Regular c f (TR.updates c f s (j + 1)) x' Δ' ∧ f.value (efin x') = fin V' ∧
      V' ≤ V - c.rho_accept * (1 / 2 * c.tol * min c.min_tr_radius (c.tol / (β + c.damping))) := by
  induction R with
  | zero =>
    intro s x Δ V h hV hΔ
    left
    refine ⟨0, le_rfl, Or.inr ?_⟩
    show s.state.tr_radius ≤ _
    rw [h.radius, fin_le]
    simpa using hΔ
  | succ R ih =>
    intro s x Δ V h hV hΔ
    by_cases hst : Stopped c s
    · exact Or.inl ⟨0, Nat.zero_le _, hst⟩
    · rcases update_progress hc hok hf hβ hb hv hmin hra h hV hst with ⟨x', Δ', V', h', hV', hle⟩ | h'
      · exact Or.inr ⟨0, by omega, x', Δ', V', h', hV', hle⟩
      · have h1 : TR.updates c f s 1 = TR.update c f s.params s.state := rfl
        rw [← h1] at h'
        by_cases hcl : Δ * c.decrease_factor ≤ c.min_tr_radius
        · left
          refine ⟨1, by omega, Or.inr ?_⟩
          rw [h'.radius, fin_le, max_eq_right hcl]
        · rw [max_eq_left (not_le.mp hcl).le] at h'
          rcases ih _ x _ V h' hV (by rw [mul_assoc, ← pow_succ']; exact hΔ) with ⟨j, hj, hs⟩ | ⟨j, hj, x', Δ', V', h3, h4⟩
          · left
            refine ⟨1 + j, by omega, ?_⟩
            rw [updates_add]; exact hs
          · right
            refine ⟨1 + j, by omega, x', Δ', V', ?_, h4⟩
            rw [show 1 + j + 1 = 1 + (j + 1) by omega, updates_add]
            exact h3

/-- From the `k`-th update on, a run for an objective which is bounded below and has bounded curvature stops after a bounded
number of updates. -/
theorem stops_after (c : TRConf) (hc : c.Valid) (hok : c.postInit = .ok c) (f : Objective n A) (G : Pt n → Pt n)
    (B : Pt n → Pt n →ₗ[ℝ] Pt n) (hf : SecondOrder c f G B) (β flow : ℝ) (hβ : 0 < β)
    (hb : ∀ x v, ⟪v, B x v⟫ ≤ β * ‖v‖ ^ 2)
    (hv : ∀ x : Pt n, f.value (efin x) = pinf ∨ ∃ v, f.value (efin x) = fin v ∧ flow ≤ v)
    (hmin : 0 < c.min_tr_radius) (hmax : c.min_tr_radius ≤ c.max_tr_radius) (hra : 0 < c.rho_accept)
    (hdec0 : 0 < c.decrease_factor) (hdec1 : c.decrease_factor < 1)
    (init : Vec n ⊕ OptStep n A) (Δ₀ : ℝ) (hΔ₀ : (TR.start c f init).state.tr_radius = fin Δ₀)
    (hΔm : Δ₀ ≤ c.max_tr_radius) (k₀ : ℕ) (x₀ : Pt n) (Δ₁ V₀ : ℝ)
    (hreg : Regular c f (TR.updates c f (TR.start c f init) k₀) x₀ Δ₁) (hV₀ : f.value (efin x₀) = fin V₀) :
    ∃ k, k ≤ (⌊(V₀ - flow) / (c.rho_accept * (1 / 2 * c.tol * min c.min_tr_radius (c.tol / (β + c.damping))))⌋₊ + 1) *
        ⌈Real.log (c.max_tr_radius / c.min_tr_radius) / Real.log (1 / c.decrease_factor)⌉₊ ∧
      Stopped c (TR.updates c f (TR.start c f init) (k₀ + k)) := by
  set R := ⌈Real.log (c.max_tr_radius / c.min_tr_radius) / Real.log (1 / c.decrease_factor)⌉₊ with hR
  set δ := c.rho_accept * (1 / 2 * c.tol * min c.min_tr_radius (c.tol / (β + c.damping))) with hδ
  have hd := damping_nonneg hc
  have ht := hc.tol
  have hδ0 : 0 < δ := by
    have : 0 < min c.min_tr_radius (c.tol / (β + c.damping)) := lt_min hmin (by positivity)
    positivity
  have hmaxpos : 0 < c.max_tr_radius := lt_of_lt_of_le hmin hmax
  have hRdec : c.max_tr_radius * c.decrease_factor ^ R ≤ c.min_tr_radius := by
    have hlog : 0 < Real.log (1 / c.decrease_factor) := Real.log_pos (by rw [lt_div_iff₀ hdec0]; linarith)
    have h1 : Real.log (c.max_tr_radius / c.min_tr_radius) ≤ R * Real.log (1 / c.decrease_factor) := by
      rw [← div_le_iff₀ hlog]; exact Nat.le_ceil _
    rw [← Real.log_pow, Real.log_le_log_iff (by positivity) (by positivity), one_div, inv_pow, div_le_iff₀ hmin] at h1
    have h2 : 0 < c.decrease_factor ^ R := by positivity
    calc c.max_tr_radius * c.decrease_factor ^ R ≤
          ((c.decrease_factor ^ R)⁻¹ * c.min_tr_radius) * c.decrease_factor ^ R := by gcongr
      _ = c.min_tr_radius := by field_simp
  -- induction over the number of accepted steps which may still happen
  have main : ∀ (a k : ℕ) (x : Pt n) (Δ V : ℝ), Regular c f (TR.updates c f (TR.start c f init) k) x Δ →
      f.value (efin x) = fin V → V - flow < (a + 1) * δ →
      ∃ j ≤ (a + 1) * R, Stopped c (TR.updates c f (TR.start c f init) (k + j)) := by
    intro a
    induction a with
    | zero =>
      intro k x Δ V h hV hgap
      have hΔ := updates_max f hmin.le hmax hdec1.le hΔ₀ hΔm k h.radius
      rcases progress_or_stop hc hok hf hβ hb hv hmin hra R _ x Δ V h hV
        (le_trans (by gcongr) hRdec) with ⟨j, hj, hs⟩ | ⟨j, hj, x', Δ', V', h', hV', hle⟩
      · exact ⟨j, by omega, by rw [updates_add]; exact hs⟩
      · exfalso
        rcases hv x' with hinf | ⟨v, hv', hlow⟩
        · rw [hV'] at hinf; cases hinf
        · rw [hV', fin_inj] at hv'
          subst hv'
          norm_num at hgap
          linarith
    | succ a ih =>
      intro k x Δ V h hV hgap
      have hΔ := updates_max f hmin.le hmax hdec1.le hΔ₀ hΔm k h.radius
      rcases progress_or_stop hc hok hf hβ hb hv hmin hra R _ x Δ V h hV
        (le_trans (by gcongr) hRdec) with ⟨j, hj, hs⟩ | ⟨j, hj, x', Δ', V', h', hV', hle⟩
      · refine ⟨j, hj.trans (Nat.le_mul_of_pos_left _ (by omega)), by rw [updates_add]; exact hs⟩
      · rw [← updates_add] at h'
        obtain ⟨i, hi, hs⟩ := ih _ x' Δ' V' h' hV' (by push_cast at hgap; linarith)
        refine ⟨j + 1 + i, ?_, ?_⟩
        · have : (a + 1 + 1) * R = R + (a + 1) * R := by ring
          omega
        · rw [← Nat.add_assoc]; exact hs
  obtain ⟨j, hj, hs⟩ := main ⌊(V₀ - flow) / δ⌋₊ k₀ x₀ Δ₁ V₀ hreg hV₀ (by
    have := Nat.lt_floor_add_one ((V₀ - flow) / δ)
    rwa [div_lt_iff₀ hδ0] at this)
  exact ⟨j, hj, hs⟩

/-- A run for an objective which is bounded below (trial values may be `+inf`) and has bounded curvature stops after a
number of updates which depends only on the configuration, the curvature and the gap between start and lower bound. -/
theorem C65_stops (c : TRConf) (hc : c.Valid) (hok : c.postInit = .ok c) (f : Objective n A) (G : Pt n → Pt n)
    (B : Pt n → Pt n →ₗ[ℝ] Pt n) (hf : SecondOrder c f G B) (β flow : ℝ) (hβ : 0 < β)
    (hb : ∀ x v, ⟪v, B x v⟫ ≤ β * ‖v‖ ^ 2)
    (hv : ∀ x : Pt n, f.value (efin x) = pinf ∨ ∃ v, f.value (efin x) = fin v ∧ flow ≤ v)
    (hmin : 0 < c.min_tr_radius) (hmax : c.min_tr_radius ≤ c.max_tr_radius) (hra : 0 < c.rho_accept)
    (hdec0 : 0 < c.decrease_factor) (hdec1 : c.decrease_factor < 1)
    (init : Vec n ⊕ OptStep n A) (x₀ : Pt n) (Δ₀ V₀ : ℝ)
    (hx₀ : (TR.start c f init).params = efin x₀) (hΔ₀ : (TR.start c f init).state.tr_radius = fin Δ₀)
    (hΔm : Δ₀ ≤ c.max_tr_radius) (hV₀ : f.value (efin x₀) = fin V₀) :
    ∃ k, k ≤ (⌊(V₀ - flow) / (c.rho_accept * (1 / 2 * c.tol * min c.min_tr_radius (c.tol / (β + c.damping))))⌋₊ + 1) *
        ⌈Real.log (c.max_tr_radius / c.min_tr_radius) / Real.log (1 / c.decrease_factor)⌉₊ ∧
      ((TR.updates c f (TR.start c f init) k).state.error ≤ fin c.tol ∨
        (TR.updates c f (TR.start c f init) k).state.tr_radius ≤ fin c.min_tr_radius) := by
  obtain ⟨k, hk, hs⟩ := stops_after c hc hok f G B hf β flow hβ hb hv hmin hmax hra hdec0 hdec1 init Δ₀ hΔ₀ hΔm 0 x₀ Δ₀ V₀
    (regular_start hx₀ hΔ₀) hV₀
  exact ⟨k, hk, by rw [Nat.zero_add] at hs; exact hs⟩

theorem default_ok : TRConf.default.postInit = .ok .default := by
  simp [TRConf.postInit, TRConf.default]

/-- The sample objective is bounded below by `0` and has curvature at most `6`. -/
example (x₀ : Pt 2) : ∃ k,
    (TR.updates .default sampleObjective (TR.start .default sampleObjective (.inl (efin x₀))) k).state.error ≤
      fin (1e-2) ∨
    (TR.updates .default sampleObjective (TR.start .default sampleObjective (.inl (efin x₀))) k).state.tr_radius ≤
      fin (1e-4) := by
  have hval : ∀ x : Pt 2, sampleObjective.value (efin x) = fin (x 0 * x 0 + 3 * (x 1 * x 1)) := by
    intro x; simp [sampleObjective, efin]
  obtain ⟨k, -, h⟩ := C65_stops .default default_valid default_ok sampleObjective _ _ sampleObjective_contract 6 0
    (by norm_num)
    (fun x v => by
      simp [sampleHessian, PiLp.inner_apply, Fin.sum_univ_two, EuclideanSpace.norm_sq_eq]
      nlinarith [sq_nonneg (v.ofLp 0)])
    (fun x => Or.inr ⟨_, hval x, by nlinarith [mul_self_nonneg (x 0), mul_self_nonneg (x 1)]⟩) (by norm_num [TRConf.default]) (by norm_num [TRConf.default])
    (by norm_num [TRConf.default]) (by norm_num [TRConf.default]) (by norm_num [TRConf.default])
    (.inl (efin x₀)) x₀ 1 _ rfl rfl (by norm_num [TRConf.default]) (hval x₀)
  exact ⟨k, h⟩

/-! ## C66 -/

/-- At the minimal radius any number of updates changes nothing. -/
theorem C66_frozen (c : TRConf) (f : Objective n A) (s : OptStep n A)
    (h : s.state.tr_radius ≤ fin c.min_tr_radius) (k : ℕ) : TR.updates c f s k = s := by
  induction k with
  | zero => rfl
  | succ k ih => rw [TR.updates, ih, update_frozen _ _ _ _ h]

example (f : Objective 3 Unit) (s : OptStep 3 Unit) (hs : s.state.tr_radius = fin (1 / 20000)) (k : ℕ) :
    TR.updates .default f s k = s :=
  C66_frozen .default f s (by rw [hs, fin_le]; norm_num [TRConf.default]) k

/-- Initialising again sets the radius to its initial value. -/
theorem C66_restart (c : TRConf) (f : Objective n A) (s : OptStep n A)
    (h : s.state.tr_radius ≤ fin c.min_tr_radius) :
    (TR.initState c f (.inr s)).tr_radius = fin c.init_tr_radius := by
  simp only [TR.initState, if_pos h]

/-- The radius `1e-4` of the default configuration. -/
example : (fin (1e-4) : XR) ≤ fin TRConf.default.min_tr_radius := by
  rw [fin_le]; norm_num [TRConf.default]

/-! ## C67 -/

/-- A trial value `+inf` is survived: the step is rejected and the radius decreased.
Missing: the same for `nan`, which is false, see `C67_counterexample`. -/
theorem C67_inf_partial (c : TRConf) (hc : c.Valid) (f : Objective n A) (G : Pt n → Pt n)
    (B : Pt n → Pt n →ₗ[ℝ] Pt n) (hf : SecondOrder c f G B) (hdec : c.decrease_factor < 1)
    (init : Vec n ⊕ OptStep n A) (x₀ : Pt n) (Δ₀ : ℝ)
    (hx₀ : (TR.start c f init).params = efin x₀) (hΔ₀ : (TR.start c f init).state.tr_radius = fin Δ₀) (k : ℕ) (Δ V : ℝ)
    (hΔ : (TR.updates c f (TR.start c f init) k).state.tr_radius = fin Δ) (hfr : c.min_tr_radius < Δ)
    (htol : fin c.tol ≤ (TR.updates c f (TR.start c f init) k).state.error)
    (hV : (TR.updates c f (TR.start c f init) k).state.value = fin V)
    (hinf : (f.value fun i => (TR.updates c f (TR.start c f init) k).params i +
      (TR.updates c f (TR.start c f init) (k + 1)).state.subproblem_result.p i) = pinf) :
    ¬ (TR.updates c f (TR.start c f init) (k + 1)).state.accepted ∧
    (TR.updates c f (TR.start c f init) (k + 1)).params = (TR.updates c f (TR.start c f init) k).params ∧
    ∃ Δ' < Δ, (TR.updates c f (TR.start c f init) (k + 1)).state.tr_radius = fin Δ' := by
  obtain ⟨x, Δ₁, h⟩ := updates_regular hc hf (regular_start hx₀ hΔ₀) k
  set s := TR.updates c f (TR.start c f init) k with hs
  have : Δ₁ = Δ := by rw [h.radius, fin_inj] at hΔ; exact hΔ
  subst this
  have hfr' : ¬ s.state.tr_radius ≤ fin c.min_tr_radius := by rw [hΔ, fin_le]; exact not_le.mpr hfr
  have hr : (TR.updates c f (TR.start c f init) (k + 1)).state.subproblem_result =
      TR.subproblem c f s.params s.state := by
    show (TR.update c f s.params s.state).state.subproblem_result = _
    by_cases ha : fin c.rho_accept ≤ TR.ratio c f s.params s.state
    · rw [update_accept c f _ _ hfr' ha]
    · rw [update_reject c f _ _ hfr' ha]
  rw [hr] at hinf
  obtain ⟨p, e, hp, -, -, he, hte, -, hleg, hpos, -⟩ := subproblem_regular hc hf h hfr
  rw [h.error, hf.grad, vnorm_efin', fin_le] at htol
  have hq := (hpos (hleg htol)).2.1
  have hratio : TR.ratio c f s.params s.state = ninf := by
    rw [TR.ratio, hinf, hp, h.params, denom_efin hf, ← h.value, hV, show fin V - (pinf : XR) = ninf from rfl]
    show XR.div _ _ = _
    simp only [XR.div, if_neg (not_lt.mpr hq.le)]
  have ha : ¬ fin c.rho_accept ≤ TR.ratio c f s.params s.state := by rw [hratio]; exact id
  obtain ⟨Δ', hΔ', -, hdecr, -⟩ := newRadius_fin c f s.params s.state h.radius
  have hΔeq := hdecr (by rw [hratio]; trivial)
  show ¬ (TR.update c f s.params s.state).state.accepted ∧ (TR.update c f s.params s.state).params = s.params ∧ _
  refine ⟨?_, ?_, Δ', ?_, ?_⟩
  · rw [update_reject c f _ _ hfr' ha]; exact id
  · rw [update_reject c f _ _ hfr' ha]
  · rw [hΔeq]
    refine max_lt ?_ hfr
    have : 0 < Δ₁ := lt_of_le_of_lt hc.min_radius hfr
    nlinarith
  · show (TR.update c f s.params s.state).state.tr_radius = _
    rw [update_reject c f _ _ hfr' ha]; exact hΔ'

/-- A trial value `nan` stops all progress: the step is rejected, but the radius stays and so the same step is tried
again, for ever. -/
theorem C67_nan_stuck (c : TRConf) (hc : c.Valid) (f : Objective n A) (G : Pt n → Pt n)
    (B : Pt n → Pt n →ₗ[ℝ] Pt n) (hf : SecondOrder c f G B)
    (init : Vec n ⊕ OptStep n A) (x₀ : Pt n) (Δ₀ : ℝ)
    (hx₀ : (TR.start c f init).params = efin x₀) (hΔ₀ : (TR.start c f init).state.tr_radius = fin Δ₀) (k : ℕ) (Δ : ℝ)
    (hΔ : (TR.updates c f (TR.start c f init) k).state.tr_radius = fin Δ) (hfr : c.min_tr_radius < Δ)
    (hnan : (f.value fun i => (TR.updates c f (TR.start c f init) k).params i +
      (TR.updates c f (TR.start c f init) (k + 1)).state.subproblem_result.p i) = nan) (j : ℕ) :
    (TR.updates c f (TR.start c f init) (k + j)).params = (TR.updates c f (TR.start c f init) k).params ∧
    (TR.updates c f (TR.start c f init) (k + j)).state.tr_radius = fin Δ ∧
    (TR.updates c f (TR.start c f init) (k + j + 1)).state.subproblem_result =
      (TR.updates c f (TR.start c f init) (k + 1)).state.subproblem_result := by
  have hsubp : ∀ i, ¬ (TR.updates c f (TR.start c f init) i).state.tr_radius ≤ fin c.min_tr_radius →
      (TR.updates c f (TR.start c f init) (i + 1)).state.subproblem_result =
      TR.subproblem c f (TR.updates c f (TR.start c f init) i).params (TR.updates c f (TR.start c f init) i).state := by
    intro i hi
    set s := TR.updates c f (TR.start c f init) i with hs
    show (TR.update c f s.params s.state).state.subproblem_result = _
    by_cases ha : fin c.rho_accept ≤ TR.ratio c f s.params s.state
    · rw [update_accept c f _ _ hi ha]
    · rw [update_reject c f _ _ hi ha]
  have hfr0 : ¬ (TR.updates c f (TR.start c f init) k).state.tr_radius ≤ fin c.min_tr_radius := by
    rw [hΔ, fin_le]; exact not_le.mpr hfr
  induction j with
  | zero => exact ⟨rfl, hΔ, rfl⟩
  | succ j ih =>
    obtain ⟨ih1, ih2, ih3⟩ := ih
    have hfrj : ¬ (TR.updates c f (TR.start c f init) (k + j)).state.tr_radius ≤ fin c.min_tr_radius := by
      rw [ih2, fin_le]; exact not_le.mpr hfr
    obtain ⟨x, Δ₁, h⟩ := updates_regular hc hf (regular_start hx₀ hΔ₀) (k + j)
    have hsub := hsubp _ hfrj
    set s := TR.updates c f (TR.start c f init) (k + j) with hs
    have hupd : TR.updates c f (TR.start c f init) (k + j + 1) = TR.update c f s.params s.state := rfl
    have hnan' : (f.value fun i => s.params i + (TR.subproblem c f s.params s.state).p i) = nan := by
      rw [← hsub, ih3, ih1]; exact hnan
    obtain ⟨hrej, hrad⟩ := C60_nan c f s.params s.state Δ ih2 hfr hnan'
    obtain ⟨hpar, -⟩ := C60_rejected c f s.params s.state hfrj hrej
    have hrad' : (TR.updates c f (TR.start c f init) (k + j + 1)).state.tr_radius = fin Δ := by rw [hupd]; exact hrad
    have hpar' : (TR.updates c f (TR.start c f init) (k + j + 1)).params = s.params := by rw [hupd]; exact hpar
    refine ⟨by rw [← ih1]; exact hpar', hrad', ?_⟩
    have hfr1 : ¬ (TR.updates c f (TR.start c f init) (k + j + 1)).state.tr_radius ≤ fin c.min_tr_radius := by
      rw [hrad', fin_le]; exact not_le.mpr hfr
    show (TR.updates c f (TR.start c f init) (k + j + 1 + 1)).state.subproblem_result = _
    rw [hsubp _ hfr1, ← ih3, hsub, TR.subproblem, TR.subproblem, hpar', hrad', ih2]
    -- the tolerance does not change either
    have hg : f.grad s.params = efin (G x) := by rw [h.params, hf.grad]
    obtain ⟨F, -, hF⟩ := eps_fin (c := c) hg
    obtain ⟨hF1, hF2⟩ := hF s.state
    have hepseq : TR.eps c f s.params (TR.updates c f (TR.start c f init) (k + j + 1)).state =
        TR.eps c f s.params s.state := by
      have hres : (TR.updates c f (TR.start c f init) (k + j + 1)).state.subproblem_result.eps =
          TR.eps c f s.params s.state := by rw [hsub]; rfl
      rcases h.eps with he | ⟨e, he, -⟩
      · rw [hF1 he] at hres ⊢
        rw [(hF _).2 _ hres]
        congr 1
        rcases le_total c.tol F with h1 | h1 <;> simp [h1]
      · rw [hF2 e he] at hres ⊢
        rw [(hF _).2 _ hres]
        congr 1
        rcases le_total e F with h1 | h1 <;> rcases le_total c.tol e with h2 | h2 <;>
          rcases le_total c.tol F with h3 | h3 <;> simp [h1, h2, h3]
    rw [hepseq]

/-- The hypotheses of `C67_nan_stuck` are met by the default configuration at the origin of `nanObjective`. -/
theorem nanObjective_trial :
    (nanObjective.value fun i =>
      (TR.updates .default nanObjective (TR.start .default nanObjective (.inl (efin 0))) 0).params i +
      (TR.updates .default nanObjective (TR.start .default nanObjective (.inl (efin 0))) 1).state.subproblem_result.p i) =
      nan := by
  obtain ⟨p, hp, hp0⟩ := (C64_step .default default_valid _ _ _ nanObjective_contract (.inl (efin 0)) 0 1 rfl rfl 0
    (by
      show ¬ fin 1 ≤ fin (1e-4)
      rw [fin_le]; norm_num)
    (by
      show fin (1e-2) ≤ vnorm (efin !₂[1])
      rw [vnorm_efin', fin_le, EuclideanSpace.norm_eq]
      refine Real.le_sqrt_of_sq_le ?_
      norm_num)).2.2.2
  simp only [Nat.zero_add] at hp
  rw [hp]
  show nanObjective.value (fun i => efin 0 i + efin p i) = nan
  rw [add_efin, zero_add]
  simp only [nanObjective, efin_inj, if_neg hp0]

/-- The radius after a rejection with a `nan` trial value is the old one, not the decreased one. -/
theorem C60_counterexample :
    ∃ (f : Objective 1 Unit) (s : OptStep 1 Unit), s.state.tr_radius = fin 1 ∧
      ¬ (TR.update .default f s.params s.state).state.accepted ∧
      (TR.update .default f s.params s.state).state.tr_radius = fin 1 ∧
      (TR.update .default f s.params s.state).state.tr_radius ≠
        fin (max (1 * TRConf.default.decrease_factor) TRConf.default.min_tr_radius) := by
  have h := C67_nan_stuck .default default_valid _ _ _ nanObjective_contract (.inl (efin 0)) 0 1 rfl rfl 0 1 rfl
    (by norm_num [TRConf.default]) nanObjective_trial 1
  have hrad : (TR.update .default nanObjective (TR.start .default nanObjective (.inl (efin 0))).params
    (TR.start .default nanObjective (.inl (efin 0))).state).state.tr_radius = fin 1 := h.2.1
  refine ⟨nanObjective, TR.start .default nanObjective (.inl (efin 0)), rfl, ?_, hrad, ?_⟩
  · refine (C60_nan .default nanObjective _ _ 1 rfl (by norm_num [TRConf.default]) ?_).1
    have hsub : (TR.updates .default nanObjective (TR.start .default nanObjective (.inl (efin 0)))
        1).state.subproblem_result = TR.subproblem .default nanObjective
          (TR.start .default nanObjective (.inl (efin 0))).params
          (TR.start .default nanObjective (.inl (efin 0))).state := by
      have hfr : ¬ (TR.start .default nanObjective (.inl (efin 0))).state.tr_radius ≤ fin TRConf.default.min_tr_radius := by
        show ¬ fin 1 ≤ fin (1e-4)
        rw [fin_le]; norm_num
      show (TR.update .default nanObjective (TR.start .default nanObjective (.inl (efin 0))).params
        (TR.start .default nanObjective (.inl (efin 0))).state).state.subproblem_result = _
      by_cases ha : fin TRConf.default.rho_accept ≤ TR.ratio .default nanObjective
          (TR.start .default nanObjective (.inl (efin 0))).params (TR.start .default nanObjective (.inl (efin 0))).state
      · rw [update_accept _ _ _ _ hfr ha]
      · rw [update_reject _ _ _ _ hfr ha]
    rw [← hsub]
    exact nanObjective_trial
  · rw [hrad]
    norm_num [TRConf.default]

/-- With an objective which is `nan` at the trial point all later updates try the same point again. -/
theorem C67_counterexample :
    ∃ (f : Objective 1 Unit) (params : Vec 1), ∀ j : ℕ,
      (TR.updates .default f (TR.start .default f (.inl params)) j).params = params ∧
      (TR.updates .default f (TR.start .default f (.inl params)) j).state.tr_radius = fin 1 ∧
      (TR.updates .default f (TR.start .default f (.inl params)) (j + 1)).state.subproblem_result.p =
        (TR.updates .default f (TR.start .default f (.inl params)) 1).state.subproblem_result.p := by
  refine ⟨nanObjective, efin 0, fun j => ?_⟩
  have h := C67_nan_stuck .default default_valid _ _ _ nanObjective_contract (.inl (efin 0)) 0 1 rfl rfl 0 1 rfl
    (by norm_num [TRConf.default]) nanObjective_trial j
  rw [Nat.zero_add] at h
  exact ⟨h.1, h.2.1, by rw [h.2.2]⟩

/-- An objective with value `0` at the origin and `+inf` elsewhere: its first trial fails and the radius drops. -/
example : ∃ Δ' < (1 : ℝ), (TR.updates .default { nanObjective with value := fun v => open Classical in if v = efin 0 then 0 else pinf }
    (TR.start .default { nanObjective with value := fun v => open Classical in if v = efin 0 then 0 else pinf }
      (.inl (efin 0))) 1).state.tr_radius = fin Δ' := by
  set f : Objective 1 Unit := { nanObjective with value := fun v => open Classical in if v = efin 0 then 0 else pinf } with hf
  have hcon : SecondOrder .default f (fun _ => !₂[1]) fun _ => 0 :=
    ⟨nanObjective_contract.grad, nanObjective_contract.hvp, nanObjective_contract.symm⟩
  have htol : fin TRConf.default.tol ≤ (TR.updates .default f (TR.start .default f (.inl (efin 0))) 0).state.error := by
    show fin (1e-2) ≤ vnorm (efin !₂[1])
    rw [vnorm_efin', fin_le, EuclideanSpace.norm_eq]
    refine Real.le_sqrt_of_sq_le ?_
    norm_num
  obtain ⟨p, hp, hp0⟩ := (C64_step .default default_valid f _ _ hcon (.inl (efin 0)) 0 1 rfl rfl 0
    (by
      show ¬ fin 1 ≤ fin (1e-4)
      rw [fin_le]; norm_num) htol).2.2.2
  refine (C67_inf_partial .default default_valid f _ _ hcon (by norm_num [TRConf.default]) (.inl (efin 0)) 0 1 rfl rfl
    0 1 0 rfl (by norm_num [TRConf.default]) htol ?_ ?_).2.2
  · show f.value (efin 0) = fin 0
    simp [hf]
  · simp only [Nat.zero_add] at hp ⊢
    rw [hp]
    show f.value (fun i => efin 0 i + efin p i) = pinf
    rw [add_efin, zero_add]
    simp only [hf, efin_inj, if_neg hp0]

/-! ## C68 -/

/-- Initialisation on an `OptStep`. -/
theorem C68_resume (c : TRConf) (f : Objective n A) (s : OptStep n A) :
    (TR.initState c f (.inr s)).iter_num = s.state.iter_num ∧
    (s.state.tr_radius ≤ fin c.min_tr_radius → (TR.initState c f (.inr s)).tr_radius = fin c.init_tr_radius) ∧
    (¬ s.state.tr_radius ≤ fin c.min_tr_radius → (TR.initState c f (.inr s)).tr_radius = s.state.tr_radius) ∧
    (TR.initState c f (.inr s)).value = f.value s.params ∧
    (TR.initState c f (.inr s)).grad = f.grad s.params ∧
    (TR.initState c f (.inr s)).error = vnorm (f.grad s.params) := by
  refine ⟨rfl, fun h => ?_, fun h => ?_, rfl, rfl, rfl⟩
  · simp only [TR.initState, if_pos h]
  · simp only [TR.initState, if_neg h]

/-- Initialisation on parameters. -/
theorem C68_fresh (c : TRConf) (f : Objective n A) (params : Vec n) :
    (TR.initState c f (.inl params)).iter_num = 0 ∧
    (TR.initState c f (.inl params)).tr_radius = fin c.init_tr_radius ∧
    (TR.initState c f (.inl params)).value = f.value params ∧
    (TR.initState c f (.inl params)).grad = f.grad params ∧
    (TR.initState c f (.inl params)).error = vnorm (f.grad params) :=
  ⟨rfl, rfl, rfl, rfl, rfl⟩

/-- A run which is interrupted and resumed while its radius is above the minimum and its parameters are finite keeps its
iteration counter, value, gradient and error; only the tolerance of the sub-problem starts anew. -/
theorem C68_interrupted (c : TRConf) (hc : c.Valid) (f : Objective n A) (G : Pt n → Pt n) (B : Pt n → Pt n →ₗ[ℝ] Pt n)
    (hf : SecondOrder c f G B) (x₀ : Pt n) (k : ℕ)
    (hfr : ¬ (TR.updates c f (TR.start c f (.inl (efin x₀))) k).state.tr_radius ≤ fin c.min_tr_radius) :
    let s := TR.updates c f (TR.start c f (.inl (efin x₀))) k
    (TR.start c f (.inr s)).params = s.params ∧
    (TR.start c f (.inr s)).state.iter_num = s.state.iter_num ∧
    (TR.start c f (.inr s)).state.tr_radius = s.state.tr_radius ∧
    (TR.start c f (.inr s)).state.value = s.state.value ∧
    (TR.start c f (.inr s)).state.error = s.state.error := by
  intro s
  obtain ⟨x, Δ, h⟩ := updates_regular hc hf (regular_start (init := .inl (efin x₀)) (x := x₀) rfl rfl) k
  obtain ⟨h1, -, h3, h4, h5, h6⟩ := C68_resume c f s
  refine ⟨rfl, h1, h3 hfr, ?_, ?_⟩
  · show (TR.initState c f (.inr s)).value = _
    rw [h4, h.params, h.value]
  · show (TR.initState c f (.inr s)).error = _
    rw [h6, h.params, h.error]

/-- Resuming immediately. -/
example : (TR.start .default sampleObjective (.inr (TR.start .default sampleObjective (.inl (efin !₂[1, 1]))))).params =
    efin !₂[1, 1] := rfl

/-! ## C69 -/

/-- The constructor fails exactly for `rho_accept > rho_decrease`. -/
theorem C69_check (c : TRConf) :
    (c.postInit = .error .valueError ↔ c.rho_accept > c.rho_decrease) ∧
    (c.postInit = .ok c ↔ c.rho_accept ≤ c.rho_decrease) := by
  unfold TRConf.postInit
  by_cases h : c.rho_decrease < c.rho_accept
  · simp [h]
  · simp [h, not_lt.mp h]

/-- A configuration which is refused. -/
example : ({ TRConf.default with rho_accept := 1 / 2 }).postInit = .error .valueError :=
  (C69_check _).1.mpr (by norm_num [TRConf.default])

end

end Verif
