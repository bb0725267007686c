import Verif.Props.TRConv
import Mathlib.Analysis.Calculus.LineDeriv.Basic

/-! # C174: the trust region method with a gradient which is not the gradient of the values -/

namespace Verif

open XR

local notation "⟪" x ", " y "⟫" => inner ℝ x y

variable {n : ℕ} {A : Type*}

/-- The step of the sub-problem for a small radius: steepest descent to the boundary. -/
theorem steihaug_small (Δ ε β : ℝ) (hΔ : 0 < Δ) (hε : 0 < ε) (hβ : 0 < β) (hvp : Vec n → Vec n) (H : Pt n →ₗ[ℝ] Pt n)
    (hH : ∀ x, hvp (efin x) = efin (H x)) (hb : ∀ v, ⟪v, H v⟫ ≤ β * ‖v‖ ^ 2) (g : Pt n) (hg : ε ≤ ‖g‖) (hs : β * Δ ≤ ‖g‖)
    (m : Option ℕ) (hm : m ≠ some 0) :
    (steihaug (efin g) hvp (fin Δ) (fin ε) m).p = efin (-(Δ / ‖g‖) • g) := by
  have hg0 : 0 < ‖g‖ := hε.trans_le hg
  have hn : n ≠ 0 := by
    rintro rfl
    rw [Subsingleton.elim g 0, norm_zero] at hg0
    exact lt_irrefl _ hg0
  have hcond : steihaug.condition (fin Δ) (fin ε) (steihaug.init (efin g)) := (condition_inside (inside_init hΔ g)).mpr hg
  obtain ⟨τ, hτ, hlim⟩ : ∃ τ : ℝ, 0 < τ ∧ Limit Δ (steihaug.step hvp (fin Δ) (steihaug.init (efin g))) (0 + τ • -g) := by
    obtain ⟨-, -, h | ⟨τ, hτ, h, -⟩⟩ := step_inside hε hH (inside_init hΔ g) hcond
    · exfalso
      obtain ⟨hpos, α, β', hα, -, hin⟩ := h
      have h1 := hin.lt
      have h2 := hb (-g)
      rw [norm_neg] at h2
      have h3 : 1 / β ≤ α := by
        rw [hα, div_le_div_iff₀ hβ hpos]
        linarith
      have h4 : 0 < α := lt_of_lt_of_le (by positivity) h3
      rw [zero_add, norm_smul, norm_neg, Real.norm_of_nonneg h4.le] at h1
      have h5 : 1 / β * ‖g‖ ≤ α * ‖g‖ := by gcongr
      have h6 : Δ ≤ 1 / β * ‖g‖ := by
        rw [one_div, ← div_eq_inv_mul, le_div_iff₀ hβ]
        linarith
      linarith
    · exact ⟨τ, hτ, h⟩
  have hstop : ∀ k, whileLoop (steihaug.condition (fin Δ) (fin ε)) (steihaug.step hvp (fin Δ)) k
      (steihaug.step hvp (fin Δ) (steihaug.init (efin g))) = steihaug.step hvp (fin Δ) (steihaug.init (efin g)) := by
    intro k
    cases k with
    | zero => rfl
    | succ k => rw [whileLoop, if_neg (condition_limit hlim)]
  have hz : (steihaug (efin g) hvp (fin Δ) (fin ε) m).p = efin (0 + τ • -g) := by
    rw [← hlim.hz]
    show (steihaug.final (efin g) hvp (fin Δ) (fin ε) m).z = _
    rw [final_eq]
    obtain ⟨k, hk⟩ : ∃ k, iterLimit n m = k + 1 := by
      refine Nat.exists_eq_succ_of_ne_zero ?_
      unfold iterLimit
      cases m with
      | none => simp [hn]
      | some k => simpa using hm
    rw [hk, whileLoop, if_pos hcond, hstop]
  have hnorm := hlim.norm
  rw [zero_add, norm_smul, norm_neg, Real.norm_of_nonneg hτ.le] at hnorm
  rw [hz, zero_add, smul_neg, ← neg_smul, ← hnorm, mul_div_assoc, div_self hg0.ne', mul_one]

section
variable {c : TRConf} (hc : c.Valid) {f : Objective n A} {G : Pt n → Pt n} {B : Pt n → Pt n →ₗ[ℝ] Pt n} (hf : SecondOrder c f G B)
  {F : Pt n → ℝ} (hF : ∀ y, f.value (efin y) = fin (F y)) {x γ : Pt n} (hγ : HasGradientAt F γ x) (htol : c.tol ≤ ‖G x‖)
include hc hf hF hγ htol

theorem ratio_limit {ε : ℝ} (hε : 0 < ε) : ∃ r > 0, ∀ (s : OptStep n A) (Δ : ℝ), Regular c f s x Δ → c.min_tr_radius < Δ → Δ ≤ r →
    (TR.subproblem c f s.params s.state).p = efin (-(Δ / ‖G x‖) • G x) ∧
    ∃ ρ, TR.ratio c f s.params s.state = fin ρ ∧ |ρ - ⟪γ, G x⟫ / ‖G x‖ ^ 2| ≤ ε := by
  have hg0 : 0 < ‖G x‖ := hc.tol.trans_le htol
  obtain ⟨β, hβ, hb⟩ := curv_bound (B x)
  have hd := damping_nonneg hc
  set w : Pt n := -(1 / ‖G x‖) • G x with hw
  set κ : ℝ := ⟪w, B x w⟫ with hκ
  set q : ℝ := ⟪γ, G x⟫ / ‖G x‖ ^ 2 with hq
  -- the ratio as function of the radius
  have hline : HasDerivAt (fun t : ℝ => F (x + t • w)) ⟪γ, w⟫ 0 := by
    have h : HasFDerivAt F _ x := hasGradientAt_iff_hasFDerivAt.mp hγ
    have : HasDerivAt (fun t : ℝ => F (x + t • w)) _ 0 := h.hasLineDerivAt w
    simpa using this
  have hγw : ⟪γ, w⟫ = -(q * ‖G x‖) := by
    rw [hw, hq, inner_smul_right]
    field_simp
  have hlim : Filter.Tendsto (fun t : ℝ => (F x - F (x + t • w)) / t / (‖G x‖ - 1 / 2 * t * κ)) (nhdsWithin 0 (Set.Ioi 0)) (nhds q) := by
    have h1 : Filter.Tendsto (fun t : ℝ => (F (x + t • w) - F x) / t) (nhdsWithin 0 (Set.Ioi 0)) (nhds ⟪γ, w⟫) := by
      have := (hasDerivAt_iff_tendsto_slope.mp hline).mono_left (nhdsWithin_mono _ fun t (ht : 0 < t) => ht.ne')
      refine this.congr fun t => ?_
      rw [slope_def_field]
      simp
    have h2 : Filter.Tendsto (fun t : ℝ => ‖G x‖ - 1 / 2 * t * κ) (nhdsWithin 0 (Set.Ioi 0)) (nhds ‖G x‖) := by
      have : Continuous fun t : ℝ => ‖G x‖ - 1 / 2 * t * κ := by fun_prop
      have := (this.tendsto 0).mono_left (nhdsWithin_le_nhds (s := Set.Ioi 0))
      simpa using this
    have h3 := (h1.neg.div h2 hg0.ne')
    rw [hγw, neg_neg, mul_div_assoc, div_self hg0.ne', mul_one] at h3
    refine h3.congr fun t => ?_
    simp only [Pi.div_apply]
    rw [← neg_div, neg_sub]
  have hpos : ∀ᶠ t in nhdsWithin (0 : ℝ) (Set.Ioi 0), 0 < ‖G x‖ - 1 / 2 * t * κ := by
    have : Continuous fun t : ℝ => ‖G x‖ - 1 / 2 * t * κ := by fun_prop
    have h := (this.tendsto 0).eventually (lt_mem_nhds (a := 0) (by simpa using hg0))
    exact h.filter_mono nhdsWithin_le_nhds
  have hball := hlim.eventually (Metric.closedBall_mem_nhds q hε)
  obtain ⟨r0, hr0, h0⟩ := mem_nhdsGT_iff_exists_Ioc_subset.mp (hball.and hpos)
  have hr0' : 0 < r0 := hr0
  refine ⟨min r0 (‖G x‖ / (β + c.damping)), lt_min hr0' (by positivity), fun s Δ h hΔ hle => ?_⟩
  have hΔ0 : 0 < Δ := lt_of_le_of_lt hc.min_radius hΔ
  obtain ⟨-, e, -, -, -, he, hte, -, hleg, -, -⟩ := subproblem_regular hc hf h hΔ
  have hg : f.grad s.params = efin (G x) := by rw [h.params, hf.grad]
  have he' : TR.eps c f s.params s.state = fin e := he
  have hsub : (TR.subproblem c f s.params s.state).p = efin (-(Δ / ‖G x‖) • G x) := by
    rw [TR.subproblem, hg, h.radius, he']
    refine steihaug_small Δ e (β + c.damping) hΔ0 (hc.tol.trans_le hte) (by positivity) _
      (B x + c.damping • LinearMap.id : Pt n →ₗ[ℝ] Pt n) (fun v => by rw [h.params, damped_efin hf]) (fun v => ?_) (G x) (hleg htol) ?_
      _ hc.steihaug
    · simp only [LinearMap.add_apply, LinearMap.smul_apply, LinearMap.id_apply, inner_add_right, inner_smul_right,
        real_inner_self_eq_norm_sq]
      nlinarith [hb v]
    · have := hle.trans (min_le_right _ _)
      rw [le_div_iff₀ (by positivity)] at this
      linarith
  have hp : -(Δ / ‖G x‖) • G x = Δ • w := by
    rw [hw, smul_smul]
    congr 1
    field_simp
  refine ⟨hsub, ?_⟩
  obtain ⟨h1, h2⟩ := h0 ⟨hΔ0, hle.trans (min_le_left _ _)⟩
  refine ⟨_, ?_, by rw [← Real.dist_eq]; exact h1⟩
  have hden : TR.denom c f s.params (efin (Δ • w)) = fin (Δ * (‖G x‖ - 1 / 2 * Δ * κ)) := by
    rw [h.params, denom_efin hf]
    congr 1
    have h3 : ⟪G x, w⟫ = -‖G x‖ := by
      rw [hw, inner_smul_right, real_inner_self_eq_norm_sq]
      field_simp
    have h4 : ⟪Δ • w, B x (Δ • w)⟫ = Δ * (Δ * κ) := by
      rw [map_smul, inner_smul_left, inner_smul_right, ← hκ, conj_trivial]
    rw [qmodel, h4, inner_smul_right, h3]
    ring
  rw [TR.ratio, hsub, hp, hden]
  have hnew : (fun i => s.params i + efin (Δ • w) i) = efin (x + Δ • w) := by rw [h.params, add_efin]
  rw [hnew, h.params, hF, hF, fin_sub, fin_div _ (by positivity), ← div_div]

/-- **C174, small radii.** Near a point at which the gradient `G` which the method gets exceeds the tolerance, the steps are steepest
descent steps to the boundary, and the ratio of actual and predicted decrease tends to the quotient `<γ, G> / <G, G>`, where `γ` is the
gradient of the values; it is one if the gradient is right. -/
theorem C174_ratio {ε : ℝ} (hε : 0 < ε) : ∃ r > 0, ∀ (s : OptStep n A) (Δ : ℝ), Regular c f s x Δ → c.min_tr_radius < Δ → Δ ≤ r →
    (TR.update c f s.params s.state).state.subproblem_result.p = efin (-(Δ / ‖G x‖) • G x) ∧
    ∃ ρ, (TR.update c f s.params s.state).state.rho = fin ρ ∧ |ρ - ⟪γ, G x⟫ / ‖G x‖ ^ 2| ≤ ε := by
  obtain ⟨r, hr, h⟩ := ratio_limit hc hf hF hγ htol hε
  refine ⟨r, hr, fun s Δ hs hΔ hle => ?_⟩
  obtain ⟨h1, ρ, h2, h3⟩ := h s Δ hs hΔ hle
  have hfr : ¬ s.state.tr_radius ≤ fin c.min_tr_radius := by rw [hs.radius, fin_le]; exact not_le.mpr hΔ
  by_cases ha : fin c.rho_accept ≤ TR.ratio c f s.params s.state
  · rw [update_accept c f _ _ hfr ha]
    exact ⟨h1, ρ, h2, h3⟩
  · rw [update_reject c f _ _ hfr ha]
    exact ⟨h1, ρ, h2, h3⟩

/-- **C174, progress.** If this quotient exceeds `rho_accept`, all steps with a small radius are accepted. -/
theorem C174_accepted (hq : c.rho_accept < ⟪γ, G x⟫ / ‖G x‖ ^ 2) : ∃ r > 0, ∀ (s : OptStep n A) (Δ : ℝ), Regular c f s x Δ →
    c.min_tr_radius < Δ → Δ ≤ r → (TR.update c f s.params s.state).state.accepted ∧
      (TR.update c f s.params s.state).params = efin (x - (Δ / ‖G x‖) • G x) := by
  obtain ⟨r, hr, h⟩ := ratio_limit hc hf hF hγ htol (half_pos (sub_pos.mpr hq))
  refine ⟨r, hr, fun s Δ hs hΔ hle => ?_⟩
  obtain ⟨h1, ρ, h2, h3⟩ := h s Δ hs hΔ hle
  have hfr : ¬ s.state.tr_radius ≤ fin c.min_tr_radius := by rw [hs.radius, fin_le]; exact not_le.mpr hΔ
  rw [update_accept c f _ _ hfr (by rw [h2, fin_le]; linarith [(abs_le.mp h3).1])]
  refine ⟨trivial, ?_⟩
  show (fun i => s.params i + (TR.subproblem c f s.params s.state).p i) = _
  rw [h1, hs.params, add_efin, neg_smul, ← sub_eq_add_neg]

/-- **C174, stagnation.** If the quotient is below `rho_accept`, the method never leaves the point once its radius is small: all steps
are rejected, and the radius decreases until the method stops, although the gradient exceeds the tolerance. -/
theorem C174_stuck (hok : c.postInit = .ok c) (hd0 : 0 ≤ c.decrease_factor) (hd1 : c.decrease_factor < 1)
    (hq : ⟪γ, G x⟫ / ‖G x‖ ^ 2 < c.rho_accept) : ∃ r > 0, ∀ (s : OptStep n A) (Δ : ℝ), Regular c f s x Δ → Δ ≤ r →
    (∀ k, (TR.updates c f s k).params = efin x ∧ ∃ Δ', (TR.updates c f s k).state.tr_radius = fin Δ' ∧
      Δ' ≤ max c.min_tr_radius (Δ * c.decrease_factor ^ k)) ∧
    (0 < c.min_tr_radius → ∃ K, ∀ k ≥ K, (TR.updates c f s k).state.tr_radius ≤ fin c.min_tr_radius) := by
  obtain ⟨r, hr, h⟩ := ratio_limit hc hf hF hγ htol (half_pos (sub_pos.mpr hq))
  have hacc : c.rho_accept ≤ c.rho_decrease := by
    by_contra hlt
    rw [TRConf.postInit, if_pos (not_le.mp hlt)] at hok
    cases hok
  refine ⟨r, hr, fun s Δ hs hle => ?_⟩
  have key : ∀ k, ∃ Δ', Regular c f (TR.updates c f s k) x Δ' ∧ Δ' ≤ max c.min_tr_radius (Δ * c.decrease_factor ^ k) := by
    intro k
    induction k with
    | zero => exact ⟨Δ, hs, by simp⟩
    | succ k ih =>
      obtain ⟨Δk, hk, hb⟩ := ih
      by_cases hmin : Δk ≤ c.min_tr_radius
      · refine ⟨Δk, ?_, hmin.trans (le_max_left _ _)⟩
        rw [TR.updates, update_frozen c f _ _ (by rw [hk.radius, fin_le]; exact hmin)]
        exact hk
      · have hmin' := not_le.mp hmin
        have hΔk : Δk ≤ Δ * c.decrease_factor ^ k := by
          rcases le_max_iff.mp hb with h' | h'
          · exact absurd h' hmin
          · exact h'
        have hΔ0 : 0 < Δk := lt_of_le_of_lt hc.min_radius hmin'
        have hpow : c.decrease_factor ^ k ≤ 1 := pow_le_one₀ hd0 hd1.le
        have hΔ : 0 ≤ Δ := by
          by_contra hn
          have : Δ * c.decrease_factor ^ k ≤ 0 := mul_nonpos_of_nonpos_of_nonneg (not_le.mp hn).le (by positivity)
          linarith
        have hle' : Δk ≤ r := hΔk.trans ((mul_le_of_le_one_right hΔ hpow).trans hle)
        obtain ⟨-, ρ, h2, h3⟩ := h _ Δk hk hmin' hle'
        have hρ : ρ < c.rho_accept := by linarith [(abs_le.mp h3).2]
        have hfr : ¬ (TR.updates c f s k).state.tr_radius ≤ fin c.min_tr_radius := by rw [hk.radius, fin_le]; exact hmin
        have hrej : ¬ fin c.rho_accept ≤ TR.ratio c f (TR.updates c f s k).params (TR.updates c f s k).state := by
          rw [h2, fin_le]
          exact not_le.mpr hρ
        obtain ⟨Δ', e1, -, e2, -⟩ := newRadius_fin c f (TR.updates c f s k).params (TR.updates c f s k).state hk.radius
        obtain ⟨-, e, -, -, -, he, hte, -⟩ := subproblem_regular hc hf hk hmin'
        refine ⟨Δ', ?_, ?_⟩
        · rw [TR.updates, update_reject c f _ _ hfr hrej]
          exact ⟨hk.params, e1, Or.inr ⟨e, he, hte⟩, by rw [hk.params], by rw [hk.params]⟩
        · rw [e2 (by rw [h2, fin_lt]; linarith), max_comm, pow_succ, ← mul_assoc]
          exact max_le_max le_rfl (mul_le_mul_of_nonneg_right hΔk hd0)
  refine ⟨fun k => ?_, fun hmin => ?_⟩
  · obtain ⟨Δ', h1, h2⟩ := key k
    exact ⟨h1.params, Δ', h1.radius, h2⟩
  · have hlim : Filter.Tendsto (fun k => Δ * c.decrease_factor ^ k) Filter.atTop (nhds 0) := by
      simpa using (tendsto_pow_atTop_nhds_zero_of_lt_one hd0 hd1).const_mul Δ
    obtain ⟨K, hK⟩ := Filter.eventually_atTop.mp (hlim.eventually (ge_mem_nhds hmin))
    refine ⟨K, fun k hk => ?_⟩
    obtain ⟨Δ', h1, h2⟩ := key k
    rw [h1.radius, fin_le]
    exact h2.trans (max_le le_rfl (hK k hk))

end

/-- An objective whose gradient has the wrong sign. -/
noncomputable def wrongSign : Objective 1 Unit where
  value x := -x 0
  aux _ := ()
  grad _ := efin !₂[1]
  hvp _ _ := efin 0

theorem wrongSign_contract : SecondOrder .default wrongSign (fun _ => !₂[1]) fun _ => 0 where
  grad _ := rfl
  hvp _ _ := by
    rw [TR.hvp, if_neg (by simp [TRConf.default])]
    rfl
  symm _ _ _ := by simp

theorem wrongSign_gradient (x : Pt 1) : HasGradientAt (fun y : Pt 1 => -y 0) (-!₂[1]) x := by
  rw [hasGradientAt_iff_hasFDerivAt]
  have : ((InnerProductSpace.toDual ℝ (Pt 1)) (-!₂[1])) = -(EuclideanSpace.proj (𝕜 := ℝ) (0 : Fin 1)) := by
    ext v
    simp [PiLp.inner_apply]
  rw [this]
  exact (EuclideanSpace.proj (𝕜 := ℝ) (0 : Fin 1) : Pt 1 →L[ℝ] ℝ).hasFDerivAt.fun_neg

/-- Non-vacuity: with the default configuration the method stays where it is and stops after finitely many steps. -/
example (x : Pt 1) : ∃ r > 0, ∀ (s : OptStep 1 Unit) (Δ : ℝ), Regular .default wrongSign s x Δ → Δ ≤ r →
    (∀ k, (TR.updates .default wrongSign s k).params = efin x) ∧
    ∃ K, ∀ k ≥ K, (TR.updates .default wrongSign s k).state.tr_radius ≤ fin (1e-4) := by
  obtain ⟨r, hr, h⟩ := C174_stuck default_valid wrongSign_contract (F := fun y => -y 0) (fun y => rfl) (wrongSign_gradient x)
    (by norm_num [TRConf.default, EuclideanSpace.norm_eq]) default_ok (by norm_num [TRConf.default]) (by norm_num [TRConf.default])
    (by norm_num [TRConf.default, EuclideanSpace.norm_eq, PiLp.inner_apply])
  refine ⟨r, hr, fun s Δ hs hle => ⟨fun k => ((h s Δ hs hle).1 k).1, ?_⟩⟩
  simpa [TRConf.default] using (h s Δ hs hle).2 (by norm_num [TRConf.default])

/-- Non-vacuity: a point of the quadratic objective at which the right gradient is not small. -/
example : ∃ r > 0, ∀ (s : OptStep 2 Unit) (Δ : ℝ), Regular .default sampleObjective s !₂[1, 0] Δ → 1e-4 < Δ → Δ ≤ r →
    (TR.update .default sampleObjective s.params s.state).state.accepted := by
  have hg : sampleHessian !₂[1, 0] ≠ 0 := fun h => by
    have := congrFun (congrArg WithLp.ofLp h) 0
    simp [sampleHessian] at this
  obtain ⟨r, hr, h⟩ := C174_accepted default_valid sampleObjective_contract (F := fun x => x 0 * x 0 + 3 * (x 1 * x 1)) (x := !₂[1, 0])
    sampleObjective_smooth.value (sampleObjective_smooth.gradient _)
    (by
      norm_num [TRConf.default, EuclideanSpace.norm_eq, sampleHessian]
      exact Real.le_sqrt_of_sq_le (by norm_num))
    (by
      rw [real_inner_self_eq_norm_sq, div_self (by have := norm_pos_iff.mpr hg; positivity)]
      norm_num [TRConf.default])
  exact ⟨r, hr, fun s Δ hs h1 h2 => (h s Δ hs (by simpa [TRConf.default] using h1) h2).1⟩

/-- There are such states: the first one. -/
example (x : Pt 1) : Regular .default wrongSign (TR.start .default wrongSign (.inl (efin x))) x 1 :=
  regular_start rfl rfl

end Verif
