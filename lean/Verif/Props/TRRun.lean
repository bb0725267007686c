import Verif.Model.TRRun
import Verif.Props.TRConv

/-! # Property C121: the main loop of the trust region solver -/

namespace Verif

open XR

local notation "⟪" x ", " y "⟫" => inner ℝ x y

section
variable {n : ℕ} {A : Type*}

theorem TR.loop_spec (c : TRConf) (f : Objective n A) (m : ℕ) (s : OptStep n A) :
    ∃ k ≤ m, TR.loop c f m s = TR.updates c f s k ∧
      (∀ j < k, fin c.tol < (TR.updates c f s j).state.error) ∧
      (k < m → ¬ fin c.tol < (TR.updates c f s k).state.error) := by
  induction m generalizing s with
  | zero => exact ⟨0, le_rfl, rfl, by simp, by simp⟩
  | succ m ih =>
    by_cases h : fin c.tol < s.state.error
    · obtain ⟨k, hk, e, h1, h2⟩ := ih (TR.update c f s.params s.state)
      have hu : ∀ j, TR.updates c f (TR.update c f s.params s.state) j = TR.updates c f s (1 + j) := by
        intro j
        rw [updates_add]
        rfl
      refine ⟨1 + k, by omega, ?_, fun j hj => ?_, fun hlt => ?_⟩
      · rw [TR.loop, if_pos h, e, hu]
      · rcases j with _ | j
        · exact h
        · have := h1 j (by omega)
          rwa [hu, Nat.add_comm] at this
      · have := h2 (by omega)
        rwa [hu] at this
    · exact ⟨0, Nat.zero_le _, by rw [TR.loop, if_neg h]; rfl, by simp, fun _ => h⟩

/-- **C121, loop**. For every objective: `run` returns the state after `k` updates, where `1 ≤ k ≤ maxiter` (no update if
`maxiter` is zero). After every earlier update, though not necessarily before the first, the error exceeded the tolerance; at
the end it does not, unless the iterations are used up. The error reported at the end is the norm of `optimality_fun`. -/
theorem C121_loop (c : TRConf) (f : Objective n A) (init : Vec n ⊕ OptStep n A) :
    (c.maxiter = 0 → TR.run c f init = TR.start c f init) ∧
    (0 < c.maxiter → ∃ k, 1 ≤ k ∧ k ≤ c.maxiter ∧ TR.run c f init = TR.updates c f (TR.start c f init) k ∧
      (∀ j, 1 ≤ j → j < k → fin c.tol < (TR.updates c f (TR.start c f init) j).state.error) ∧
      (k < c.maxiter → ¬ fin c.tol < (TR.run c f init).state.error)) ∧
    (TR.run c f init).state.error = vnorm (TR.optimalityFun f (TR.run c f init).params) := by
  have h1 : 0 < c.maxiter → ∃ k, 1 ≤ k ∧ k ≤ c.maxiter ∧ TR.run c f init = TR.updates c f (TR.start c f init) k ∧
      (∀ j, 1 ≤ j → j < k → fin c.tol < (TR.updates c f (TR.start c f init) j).state.error) ∧
      (k < c.maxiter → ¬ fin c.tol < (TR.run c f init).state.error) := by
    intro h
    obtain ⟨m, hm⟩ : ∃ m, c.maxiter = m + 1 := ⟨c.maxiter - 1, by omega⟩
    obtain ⟨k, hk, e, h1, h2⟩ := TR.loop_spec c f m
      (TR.update c f (TR.start c f init).params (TR.start c f init).state)
    have hu : ∀ j, TR.updates c f (TR.update c f (TR.start c f init).params (TR.start c f init).state) j =
        TR.updates c f (TR.start c f init) (1 + j) := by
      intro j
      rw [updates_add]
      rfl
    have hrun : TR.run c f init = TR.updates c f (TR.start c f init) (1 + k) := by
      rw [TR.run, hm]
      simp only
      rw [e, hu]
    refine ⟨1 + k, by omega, by omega, hrun, fun j hj hjk => ?_, fun hlt => ?_⟩
    · have := h1 (j - 1) (by omega)
      rwa [hu, show 1 + (j - 1) = j by omega] at this
    · have := h2 (by omega)
      rwa [hu, ← hrun] at this
  have h0 : c.maxiter = 0 → TR.run c f init = TR.start c f init := by
    intro h
    rw [TR.run, h]
  refine ⟨h0, h1, ?_⟩
  have herr : ∀ k, (TR.updates c f (TR.start c f init) k).state.error =
      vnorm (TR.optimalityFun f (TR.updates c f (TR.start c f init) k).params) := by
    intro k
    induction k with
    | zero => cases init <;> rfl
    | succ k ih =>
      set s := TR.updates c f (TR.start c f init) k
      have hupd : TR.updates c f (TR.start c f init) (k + 1) = TR.update c f s.params s.state := rfl
      rw [hupd]
      by_cases hfr : s.state.tr_radius ≤ fin c.min_tr_radius
      · rw [update_frozen _ _ _ _ hfr]; exact ih
      · by_cases ha : fin c.rho_accept ≤ TR.ratio c f s.params s.state
        · rw [update_accept _ _ _ _ hfr ha]; rfl
        · rw [update_reject _ _ _ _ hfr ha]; rfl
  rcases Nat.eq_zero_or_pos c.maxiter with h | h
  · rw [h0 h]; exact herr 0
  · obtain ⟨k, -, -, e, -⟩ := h1 h
    rw [e]; exact herr k

/-- With the defaults at most one hundred updates are made. -/
example (init : Vec 2 ⊕ OptStep 2 Unit) : ∃ k, 1 ≤ k ∧ k ≤ 100 ∧
    TR.run .default sampleObjective init = TR.updates .default sampleObjective (TR.start .default sampleObjective init) k := by
  obtain ⟨k, h1, h2, h3, -⟩ := (C121_loop .default sampleObjective init).2.1 (by norm_num [TRConf.default])
  exact ⟨k, h1, h2, h3⟩

/-- **C121, not a number**. A gradient norm which is not a number ends the run after the first update: it counts as
converged. -/
theorem C121_nan (c : TRConf) (f : Objective n A) (init : Vec n ⊕ OptStep n A) (hm : 0 < c.maxiter)
    (h : (TR.updates c f (TR.start c f init) 1).state.error = nan) :
    TR.run c f init = TR.updates c f (TR.start c f init) 1 := by
  obtain ⟨k, h1, -, e, h2, -⟩ := (C121_loop c f init).2.1 hm
  rcases Nat.eq_or_lt_of_le h1 with h3 | h3
  · rw [e, ← h3]
  · have := h2 1 le_rfl h3
    rw [h] at this
    exact absurd this (not_lt_nan _)

/-- An objective whose gradient is not a number. -/
example : (TR.updates .default (⟨fun _ => 0, fun _ => (), fun _ _ => nan, fun _ _ => 0⟩ : Objective 1 Unit)
    (TR.start .default ⟨fun _ => 0, fun _ => (), fun _ _ => nan, fun _ _ => 0⟩ (.inl 0)) 1).state.error = nan := by
  have h := (C121_loop { TRConf.default with maxiter := 0 }
    (⟨fun _ => 0, fun _ => (), fun _ _ => nan, fun _ _ => 0⟩ : Objective 1 Unit) (.inl 0)).2.2
  have hv : vnorm (fun _ : Fin 1 => nan) = nan := by simp [vnorm]
  have herr : ∀ s : OptStep 1 Unit, s.state.error = nan →
      (TR.update .default (⟨fun _ => 0, fun _ => (), fun _ _ => nan, fun _ _ => 0⟩ : Objective 1 Unit) s.params
        s.state).state.error = nan := by
    intro s hs
    by_cases hfr : s.state.tr_radius ≤ fin TRConf.default.min_tr_radius
    · rw [update_frozen _ _ _ _ hfr]; exact hs
    · by_cases ha : fin TRConf.default.rho_accept ≤ TR.ratio .default
          (⟨fun _ => 0, fun _ => (), fun _ _ => nan, fun _ _ => 0⟩ : Objective 1 Unit) s.params s.state
      · rw [update_accept _ _ _ _ hfr ha]; exact hv
      · rw [update_reject _ _ _ _ hfr ha]; exact hv
  exact herr _ hv

/-- **C121, convergence**. Under the assumptions of C115, `run` with `maxiter` above an explicit number returns a point at which
the gradient norm is at most `tol`, and reports this norm. -/
theorem C121_run_converges (c : TRConf) (hc : c.Valid) (hok : c.postInit = .ok c) (f : Objective n A) (F : Pt n → ℝ)
    (G : Pt n → Pt n) (B : Pt n → Pt n →ₗ[ℝ] Pt n) (hf : SecondOrder c f G B) (L β flow : ℝ) (hβ : 0 < β) (hL : 0 ≤ L)
    (hs : SmoothObjective f F G B L β) (hlow : ∀ x, flow ≤ F x) (hrd : c.rho_decrease ≤ 1) (hi : 1 ≤ c.increase_factor)
    (hra : 0 < c.rho_accept) (hd0 : 0 < c.decrease_factor) (hd1 : c.decrease_factor < 1) (hmin : 0 < c.min_tr_radius)
    (hmax : c.min_tr_radius ≤ c.max_tr_radius)
    (init : Vec n ⊕ OptStep n A) (x₀ : Pt n) (Δ₀ : ℝ) (hx₀ : (TR.start c f init).params = efin x₀)
    (hΔ₀ : (TR.start c f init).state.tr_radius = fin Δ₀) (hΔm : Δ₀ ≤ c.max_tr_radius)
    (hsmall₀ : c.min_tr_radius < Δ₀)
    (hsmall : c.min_tr_radius <
      c.decrease_factor * (c.tol * min ((1 - c.rho_decrease) / (L + β)) (1 / (β + c.damping))))
    (hiter : 1 + (⌊(F x₀ - flow) / (c.rho_accept * (1 / 2 * c.tol * min c.min_tr_radius (c.tol / (β + c.damping))))⌋₊ + 1) *
        ⌈Real.log (c.max_tr_radius / c.min_tr_radius) / Real.log (1 / c.decrease_factor)⌉₊ ≤ c.maxiter) :
    ∃ x : Pt n, (TR.run c f init).params = efin x ∧ ‖G x‖ ≤ c.tol ∧ (TR.run c f init).state.error = fin ‖G x‖ := by
  obtain ⟨k, hk1, hkm, hrun, hbefore, hend⟩ := (C121_loop c f init).2.1 (by omega)
  have hreg := regular_start (c := c) (f := f) hx₀ hΔ₀
  obtain ⟨x, Δ, hr⟩ := updates_regular hc hf hreg k
  have he : (TR.run c f init).state.error = fin ‖G x‖ := by rw [hrun, hr.error, hf.grad, vnorm_efin']
  refine ⟨x, by rw [hrun]; exact hr.params, ?_, he⟩
  by_contra hlt
  push Not at hlt
  -- the error exceeds the tolerance after every update
  have hall : ∀ j, 1 ≤ j → j ≤ k → fin c.tol < (TR.updates c f (TR.start c f init) j).state.error := by
    intro j h1 h2
    rcases Nat.eq_or_lt_of_le h2 with h3 | h3
    · rw [h3, ← hrun, he, fin_lt]; exact hlt
    · exact hbefore j h1 h3
  have hkeq : k = c.maxiter := by
    by_contra hne
    refine hend (by omega) ?_
    rw [he, fin_lt]; exact hlt
  -- nor was the gradient below the tolerance at the start, because then nothing would have moved
  obtain ⟨x₁, Δ₁, hr₁⟩ := updates_regular hc hf hreg 1
  have h0 : c.tol ≤ ‖G x₀‖ := by
    by_contra hno
    push Not at hno
    obtain ⟨p, e, hp, -, -, -, hte, -, -, -, hzero⟩ := subproblem_regular hc hf hreg hsmall₀
    have hp0 := hzero (hno.trans_le hte)
    have hfr : ¬ (TR.start c f init).state.tr_radius ≤ fin c.min_tr_radius := by
      rw [hΔ₀, fin_le]; exact not_le.mpr hsmall₀
    have hx₁ : efin x₁ = efin x₀ := by
      rw [← hr₁.params]
      show (TR.update c f (TR.start c f init).params (TR.start c f init).state).params = _
      by_cases ha : fin c.rho_accept ≤ TR.ratio c f (TR.start c f init).params (TR.start c f init).state
      · rw [update_accept _ _ _ _ hfr ha]
        show (fun i => (TR.start c f init).params i + _) = _
        rw [hp, hp0, hx₀, add_efin, add_zero]
      · rw [update_reject _ _ _ _ hfr ha]
        exact hx₀
    have := hall 1 le_rfl hk1
    rw [hr₁.error, hx₁, hf.grad, vnorm_efin', fin_lt] at this
    exact absurd this (not_lt.mpr hno.le)
  have herr : ∀ j ≤ k, fin c.tol ≤ (TR.updates c f (TR.start c f init) j).state.error := by
    intro j hj
    obtain ⟨y, Δ', h⟩ := updates_regular hc hf hreg j
    rw [h.error, hf.grad, vnorm_efin', fin_le]
    rcases Nat.eq_zero_or_pos j with rfl | hpos
    · have : efin y = efin x₀ := by rw [← h.params]; exact hx₀
      have := efin_inj.mp this
      rw [this]; exact h0
    · have := hall j hpos hj
      rw [h.error, hf.grad, vnorm_efin', fin_lt] at this
      exact this.le
  -- the value has not grown in the first update
  have hV : F x₁ ≤ F x₀ := by
    have := C59_monotone c hc hra.le f G B hf init x₀ Δ₀ hx₀ hΔ₀ (by rw [hs.value]; simp) 0
    rw [hr₁.params, hs.value] at this
    change fin (F x₁) ≤ f.value (TR.start c f init).params at this
    rwa [hx₀, hs.value, fin_le] at this
  obtain ⟨j, hj, hst⟩ := stops_after c hc hok f G B hf β flow hβ
    (fun x v => (le_abs_self _).trans (hs.curvature x v)) (fun x => Or.inr ⟨F x, hs.value x, hlow x⟩) hmin hmax hra hd0
    hd1 init Δ₀ hΔ₀ hΔm 1 x₁ Δ₁ (F x₁) hr₁ (hs.value x₁)
  have hjk : 1 + j ≤ k := by
    rw [hkeq]
    refine le_trans (Nat.add_le_add_left (hj.trans ?_) 1) hiter
    have ht := hc.tol
    have hdp := damping_nonneg hc
    have : 0 < min c.min_tr_radius (c.tol / (β + c.damping)) := lt_min hmin (by positivity)
    refine Nat.mul_le_mul_right _ (Nat.add_le_add_right (Nat.floor_mono ?_) 1)
    gcongr
  rcases hst with h | h
  · obtain ⟨y, Δ', hy⟩ := updates_regular hc hf hreg (1 + j)
    have := hall (1 + j) (by omega) hjk
    rw [hy.error, hf.grad, vnorm_efin', fin_lt] at this
    rw [hy.error, hf.grad, vnorm_efin', fin_le] at h
    linarith
  · obtain ⟨Δ', e, hle⟩ := C115_radius c hc f F G B hf L β hβ hL hs hrd hi hd0.le hd1.le hmax init x₀ Δ₀ hx₀ hΔ₀ hΔm
      (1 + j) fun i hi => herr i (by omega)
    rw [e, fin_le] at h
    exact absurd h (not_le.mpr ((lt_min hsmall₀ hsmall).trans_le hle))

/-- With enough iterations the default solver minimises the sample objective from every starting point. -/
example (x₀ : Pt 2) : ∃ m₀, ∀ m, m₀ ≤ m → ∃ x : Pt 2,
    (TR.run { TRConf.default with maxiter := m } sampleObjective (.inl (efin x₀))).params = efin x ∧
      ‖sampleHessian x‖ ≤ 1e-2 := by
  refine ⟨1 + (⌊(x₀ 0 * x₀ 0 + 3 * (x₀ 1 * x₀ 1) - 0) / (TRConf.default.rho_accept * (1 / 2 * TRConf.default.tol *
    min TRConf.default.min_tr_radius (TRConf.default.tol / (6 + TRConf.default.damping))))⌋₊ + 1) *
    ⌈Real.log (TRConf.default.max_tr_radius / TRConf.default.min_tr_radius) /
      Real.log (1 / TRConf.default.decrease_factor)⌉₊, fun m hm => ?_⟩
  obtain ⟨x, h1, h2, -⟩ := C121_run_converges { TRConf.default with maxiter := m }
    ⟨default_valid.tol, default_valid.min_radius, default_valid.damping, default_valid.steihaug⟩
    (by simp [TRConf.postInit, TRConf.default]) sampleObjective _ _ _
    ⟨sampleObjective_contract.grad, sampleObjective_contract.hvp, sampleObjective_contract.symm⟩
    6 6 0 (by norm_num) (by norm_num) sampleObjective_smooth
    (fun x => by nlinarith [mul_self_nonneg (x 0), mul_self_nonneg (x 1)]) (by norm_num [TRConf.default])
    (by norm_num [TRConf.default]) (by norm_num [TRConf.default]) (by norm_num [TRConf.default])
    (by norm_num [TRConf.default]) (by norm_num [TRConf.default]) (by norm_num [TRConf.default]) (.inl (efin x₀)) x₀ 1
    rfl rfl (by norm_num [TRConf.default]) (by norm_num [TRConf.default])
    (by norm_num [TRConf.default, TRConf.damping]) hm
  exact ⟨x, h1, h2⟩

end

end Verif
