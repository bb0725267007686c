import Verif.Props.TR
import Mathlib.Analysis.Calculus.Gradient.Basic
import Mathlib.Analysis.Calculus.MeanValue
import Mathlib.Analysis.Calculus.Deriv.Pow

/-! # The trust region method reaches its tolerance -/

namespace Verif

open XR

local notation "⟪" x ", " y "⟫" => inner ℝ x y

section
variable {n : ℕ} {A : Type*}

/-- The objective is a differentiable real function with Lipschitz continuous gradient, and the Hessian-vector products
used by the method (which may be approximations) are bounded. -/
structure SmoothObjective (f : Objective n A) (F : Pt n → ℝ) (G : Pt n → Pt n) (B : Pt n → Pt n →ₗ[ℝ] Pt n) (L β : ℝ) :
    Prop where
  value : ∀ x, f.value (efin x) = fin (F x)
  gradient : ∀ x, HasGradientAt F (G x) x
  lipschitz : ∀ x y, ‖G x - G y‖ ≤ L * ‖x - y‖
  curvature : ∀ x v, |⟪v, B x v⟫| ≤ β * ‖v‖ ^ 2

/-- The error of the linear model. -/
theorem descent {F : Pt n → ℝ} {G : Pt n → Pt n} {L : ℝ} (hF : ∀ x, HasGradientAt F (G x) x)
    (hL : ∀ x y, ‖G x - G y‖ ≤ L * ‖x - y‖) (x p : Pt n) : |F (x + p) - F x - ⟪G x, p⟫| ≤ L / 2 * ‖p‖ ^ 2 := by
  have hl : ∀ t : ℝ, HasDerivAt (fun t : ℝ => x + t • p) p t := by
    intro t
    simpa using ((hasDerivAt_id t).smul_const p).const_add x
  have hd : ∀ t : ℝ, HasDerivAt (fun t : ℝ => F (x + t • p) - F x - t * ⟪G x, p⟫) (⟪G (x + t • p) - G x, p⟫) t := by
    intro t
    have h1 : HasDerivAt (fun t : ℝ => F (x + t • p)) ⟪G (x + t • p), p⟫ t := by
      exact ((hF (x + t • p)).hasFDerivAt.comp_hasDerivAt t (hl t)).congr_deriv (by simp)
    have h2 := (h1.sub_const (F x)).fun_sub ((hasDerivAt_id t).mul_const ⟪G x, p⟫)
    refine h2.congr_deriv ?_
    rw [inner_sub_left, one_mul]
  have hq : ∀ t : ℝ, HasDerivAt (fun t : ℝ => L / 2 * ‖p‖ ^ 2 * t ^ 2) (L * ‖p‖ ^ 2 * t) t := by
    intro t
    refine ((hasDerivAt_pow 2 t).const_mul (L / 2 * ‖p‖ ^ 2)).congr_deriv ?_
    norm_num
    ring
  have := image_norm_le_of_norm_deriv_right_le_deriv_boundary (a := 0) (b := 1)
    (f := fun t : ℝ => F (x + t • p) - F x - t * ⟪G x, p⟫) (f' := fun t => ⟪G (x + t • p) - G x, p⟫)
    (B := fun t : ℝ => L / 2 * ‖p‖ ^ 2 * t ^ 2) (B' := fun t => L * ‖p‖ ^ 2 * t)
    (fun t _ => (hd t).continuousAt.continuousWithinAt) (fun t _ => (hd t).hasDerivWithinAt) (by simp) hq
    (fun t ht => by
      have h1 := hL (x + t • p) x
      rw [add_sub_cancel_left, norm_smul, Real.norm_of_nonneg ht.1] at h1
      calc ‖⟪G (x + t • p) - G x, p⟫‖ ≤ ‖G (x + t • p) - G x‖ * ‖p‖ := norm_inner_le_norm _ _
        _ ≤ L * (t * ‖p‖) * ‖p‖ := by gcongr
        _ = L * ‖p‖ ^ 2 * t := by ring) (x := 1) ⟨zero_le_one, le_rfl⟩
  simpa [Real.norm_eq_abs] using this

/-- If the ratio is not below `rho_decrease` the radius does not shrink. -/
theorem newRadius_ge (c : TRConf) (f : Objective n A) (params : Vec n) (s : TrState n A) {Δ Δ' : ℝ}
    (hΔ : s.tr_radius = fin Δ) (h0 : 0 ≤ Δ) (hm : Δ ≤ c.max_tr_radius) (hi : 1 ≤ c.increase_factor)
    (h' : TR.newRadius c f params s = fin Δ') (h : ¬ TR.ratio c f params s < fin c.rho_decrease) : Δ ≤ Δ' := by
  rw [TR.newRadius, hΔ, updateTrRadius, if_neg h] at h'
  by_cases h2 : fin c.rho_increase < TR.ratio c f params s ∧
      isclose 1e-5 1e-8 (TR.subproblem c f params s).step_length (fin Δ)
  · rw [if_pos h2, fin_mul, fin_min, fin_max, fin_inj] at h'
    rw [← h']
    exact le_max_of_le_left (le_min (by nlinarith) hm)
  · rw [if_neg h2, fin_max, fin_inj] at h'
    rw [← h']
    exact le_max_left _ _

/-- The radius below which every step is good while the gradient exceeds the tolerance. -/
noncomputable def goodRadius (c : TRConf) (L β : ℝ) : ℝ :=
  c.tol * min ((1 - c.rho_decrease) / (L + β)) (1 / (β + c.damping))

/-- One update at a point with a gradient of at least `t` keeps the radius above a bound proportional to `t`. -/
theorem radius_step_of {c : TRConf} (hc : c.Valid) {f : Objective n A} {F : Pt n → ℝ} {G : Pt n → Pt n}
    {B : Pt n → Pt n →ₗ[ℝ] Pt n} (hf : SecondOrder c f G B) {L β : ℝ} (hβ : 0 < β) (hL : 0 ≤ L)
    (hs : SmoothObjective f F G B L β) (hrd : c.rho_decrease ≤ 1) (hi : 1 ≤ c.increase_factor)
    (hd0 : 0 ≤ c.decrease_factor) {s : OptStep n A}
    {x : Pt n} {Δ Δ' : ℝ} (h : Regular c f s x Δ) (hm : Δ ≤ c.max_tr_radius) (hfr : c.min_tr_radius < Δ)
    (hg : c.tol ≤ ‖G x‖) {t : ℝ} (ht0 : 0 ≤ t) (htg : t ≤ ‖G x‖) (h' : (TR.update c f s.params s.state).state.tr_radius = fin Δ') :
    min Δ (c.decrease_factor * (t * min ((1 - c.rho_decrease) / (L + β)) (1 / (β + c.damping)))) ≤ Δ' := by
  have hfr' : ¬ s.state.tr_radius ≤ fin c.min_tr_radius := by rw [h.radius, fin_le]; exact not_le.mpr hfr
  have hnr : TR.newRadius c f s.params s.state = fin Δ' := by
    rw [← h']
    by_cases ha : fin c.rho_accept ≤ TR.ratio c f s.params s.state
    · rw [update_accept c f _ _ hfr' ha]
    · rw [update_reject c f _ _ hfr' ha]
  have hΔ0 : 0 < Δ := lt_of_le_of_lt hc.min_radius hfr
  have ht := hc.tol
  have hdp := damping_nonneg hc
  by_cases hlow : TR.ratio c f s.params s.state < fin c.rho_decrease
  · obtain ⟨Δ'', e, -, h2, -⟩ := newRadius_fin c f s.params s.state h.radius
    rw [hnr, fin_inj] at e
    rw [e, h2 hlow]
    refine le_max_of_le_left ((min_le_right _ _).trans ?_)
    rw [mul_comm Δ]
    refine mul_le_mul_of_nonneg_left ?_ hd0
    by_contra hsmall
    push Not at hsmall
    refine absurd hlow ?_
    obtain ⟨p, e, hp, -, hpΔ, he, hte, -, hleg, hpos, -⟩ := subproblem_regular hc hf h hfr
    obtain ⟨-, hq, hdec⟩ := hpos (hleg hg)
    have hdec := hdec β hβ (fun v => (le_abs_self _).trans (hs.curvature x v))
    have hnew : (fun i => s.params i + (TR.subproblem c f s.params s.state).p i) = efin (x + p) := by
      rw [h.params] at hp ⊢; rw [hp, add_efin]
    have hratio : TR.ratio c f s.params s.state = fin ((F x - F (x + p)) / -qmodel (G x) (B x) p) := by
      rw [TR.ratio, hnew, hp, h.params, denom_efin hf, hs.value, hs.value, fin_sub, fin_div _ hq.ne']
    rw [hratio, fin_lt, not_lt, le_div_iff₀ hq]
    have hg0 : 0 < ‖G x‖ := ht.trans_le hg
    have hΔ1 : Δ ≤ ‖G x‖ * ((1 - c.rho_decrease) / (L + β)) := by
      refine hsmall.le.trans ?_
      refine (mul_le_mul_of_nonneg_left (min_le_left _ _) ht0).trans (mul_le_mul_of_nonneg_right htg ?_)
      exact div_nonneg (by linarith) (by linarith)
    have hΔ2 : Δ ≤ ‖G x‖ / (β + c.damping) := by
      refine hsmall.le.trans ?_
      refine (mul_le_mul_of_nonneg_left (min_le_right _ _) ht0).trans ?_
      rw [mul_one_div]
      gcongr
    rw [min_eq_left hΔ2] at hdec
    have hmod : |F (x + p) - F x - qmodel (G x) (B x) p| ≤ (L + β) / 2 * ‖p‖ ^ 2 := by
      have h1 := descent hs.gradient hs.lipschitz x p
      have h2 := hs.curvature x p
      have : F (x + p) - F x - qmodel (G x) (B x) p = (F (x + p) - F x - ⟪G x, p⟫) + -(1 / 2 * ⟪p, B x p⟫) := by
        rw [qmodel]; ring
      rw [this]
      refine (abs_add_le _ _).trans ?_
      rw [abs_neg, abs_mul, abs_of_pos (by norm_num : (0 : ℝ) < 1 / 2)]
      linarith
    have hp2 : ‖p‖ ^ 2 ≤ Δ ^ 2 := pow_le_pow_left₀ (norm_nonneg _) hpΔ 2
    have hLb : 0 < L + β := by linarith
    rw [mul_div_assoc', le_div_iff₀ hLb] at hΔ1
    have h3 : (L + β) / 2 * ‖p‖ ^ 2 ≤ (1 - c.rho_decrease) * -qmodel (G x) (B x) p := by
      calc (L + β) / 2 * ‖p‖ ^ 2 ≤ (L + β) / 2 * Δ ^ 2 := by gcongr
        _ = 1 / 2 * Δ * (Δ * (L + β)) := by ring
        _ ≤ 1 / 2 * Δ * (‖G x‖ * (1 - c.rho_decrease)) := by gcongr
        _ = (1 - c.rho_decrease) * (1 / 2 * ‖G x‖ * Δ) := by ring
        _ ≤ (1 - c.rho_decrease) * -qmodel (G x) (B x) p := by
          exact mul_le_mul_of_nonneg_left hdec (by linarith)
    have h4 := (abs_le.1 hmod).2
    linarith
  · exact (min_le_left _ _).trans (newRadius_ge c f _ _ h.radius hΔ0.le hm hi hnr hlow)

/-- One update of a run which has not reached the tolerance keeps the radius above a bound. -/
theorem radius_step {c : TRConf} (hc : c.Valid) {f : Objective n A} {F : Pt n → ℝ} {G : Pt n → Pt n}
    {B : Pt n → Pt n →ₗ[ℝ] Pt n} (hf : SecondOrder c f G B) {L β : ℝ} (hβ : 0 < β) (hL : 0 ≤ L)
    (hs : SmoothObjective f F G B L β) (hrd : c.rho_decrease ≤ 1) (hi : 1 ≤ c.increase_factor)
    (hd0 : 0 ≤ c.decrease_factor) {s : OptStep n A}
    {x : Pt n} {Δ Δ' : ℝ} (h : Regular c f s x Δ) (hm : Δ ≤ c.max_tr_radius) (hfr : c.min_tr_radius < Δ)
    (hg : c.tol ≤ ‖G x‖) (h' : (TR.update c f s.params s.state).state.tr_radius = fin Δ') :
    min Δ (c.decrease_factor * goodRadius c L β) ≤ Δ' :=
  radius_step_of hc hf hβ hL hs hrd hi hd0 h hm hfr hg hc.tol.le hg h'

/-! ## C115 -/

/-- **C115, radius**. As long as no gradient is below the tolerance the radius stays above a bound which depends only on
the configuration, the smoothness of the objective and the initial radius. -/
theorem C115_radius (c : TRConf) (hc : c.Valid) (f : Objective n A) (F : Pt n → ℝ) (G : Pt n → Pt n)
    (B : Pt n → Pt n →ₗ[ℝ] Pt n) (hf : SecondOrder c f G B) (L β : ℝ) (hβ : 0 < β) (hL : 0 ≤ L)
    (hs : SmoothObjective f F G B L β) (hrd : c.rho_decrease ≤ 1) (hi : 1 ≤ c.increase_factor)
    (hd0 : 0 ≤ c.decrease_factor) (hd1 : c.decrease_factor ≤ 1)
    (hmax : c.min_tr_radius ≤ c.max_tr_radius)
    (init : Vec n ⊕ OptStep n A) (x₀ : Pt n) (Δ₀ : ℝ) (hx₀ : (TR.start c f init).params = efin x₀)
    (hΔ₀ : (TR.start c f init).state.tr_radius = fin Δ₀) (hΔm : Δ₀ ≤ c.max_tr_radius) (k : ℕ)
    (hk : ∀ j < k, fin c.tol ≤ (TR.updates c f (TR.start c f init) j).state.error) :
    ∃ Δ, (TR.updates c f (TR.start c f init) k).state.tr_radius = fin Δ ∧
      min Δ₀ (c.decrease_factor * (c.tol * min ((1 - c.rho_decrease) / (L + β)) (1 / (β + c.damping)))) ≤ Δ := by
  induction k with
  | zero => exact ⟨Δ₀, hΔ₀, min_le_left _ _⟩
  | succ k ih =>
    obtain ⟨Δ, e, hle⟩ := ih fun j hj => hk j (by omega)
    obtain ⟨x, Δ', h⟩ := updates_regular hc hf (regular_start hx₀ hΔ₀) k
    have : Δ' = Δ := by have := h.radius; rw [e, fin_inj] at this; exact this.symm
    subst this
    have hupd : TR.updates c f (TR.start c f init) (k + 1) =
      TR.update c f (TR.updates c f (TR.start c f init) k).params (TR.updates c f (TR.start c f init) k).state := rfl
    by_cases hfr : Δ' ≤ c.min_tr_radius
    · rw [hupd, update_frozen _ _ _ _ (by rw [e, fin_le]; exact hfr)]
      exact ⟨Δ', e, hle⟩
    · obtain ⟨x', Δ'', h'⟩ := update_regular hc hf h
      have hg : c.tol ≤ ‖G x‖ := by
        have := hk k (by omega)
        rwa [h.error, hf.grad, vnorm_efin', fin_le] at this
      have := radius_step hc hf hβ hL hs hrd hi hd0 h
        (updates_max f hc.min_radius hmax hd1 hΔ₀ hΔm k h.radius) (not_le.mp hfr) hg h'.radius
      refine ⟨Δ'', h'.radius, le_trans (le_min hle (min_le_right _ _)) this⟩

/-- **C115**. Let the objective be bounded below, differentiable with Lipschitz continuous gradient (constant `L`), and the
Hessian-vector products bounded by `β`. If `min_tr_radius` is below the initial radius and below
`decrease_factor * tol * min ((1 - rho_decrease) / (L + β)) (1 / (β + damping))`, every run finds, after a number of updates
bounded explicitly, a point at which the gradient norm is at most `tol`. -/
theorem C115_reaches_tolerance (c : TRConf) (hc : c.Valid) (hok : c.postInit = .ok c) (f : Objective n A) (F : Pt n → ℝ)
    (G : Pt n → Pt n) (B : Pt n → Pt n →ₗ[ℝ] Pt n) (hf : SecondOrder c f G B) (L β flow : ℝ) (hβ : 0 < β) (hL : 0 ≤ L)
    (hs : SmoothObjective f F G B L β) (hlow : ∀ x, flow ≤ F x) (hrd : c.rho_decrease ≤ 1) (hi : 1 ≤ c.increase_factor)
    (hra : 0 < c.rho_accept) (hd0 : 0 < c.decrease_factor) (hd1 : c.decrease_factor < 1) (hmin : 0 < c.min_tr_radius)
    (hmax : c.min_tr_radius ≤ c.max_tr_radius)
    (init : Vec n ⊕ OptStep n A) (x₀ : Pt n) (Δ₀ : ℝ) (hx₀ : (TR.start c f init).params = efin x₀)
    (hΔ₀ : (TR.start c f init).state.tr_radius = fin Δ₀) (hΔm : Δ₀ ≤ c.max_tr_radius)
    (hsmall₀ : c.min_tr_radius < Δ₀)
    (hsmall : c.min_tr_radius <
      c.decrease_factor * (c.tol * min ((1 - c.rho_decrease) / (L + β)) (1 / (β + c.damping)))) :
    ∃ k, k ≤ (⌊(F x₀ - flow) / (c.rho_accept * (1 / 2 * c.tol * min c.min_tr_radius (c.tol / (β + c.damping))))⌋₊ + 1) *
        ⌈Real.log (c.max_tr_radius / c.min_tr_radius) / Real.log (1 / c.decrease_factor)⌉₊ ∧
      ∃ x : Pt n, (TR.updates c f (TR.start c f init) k).params = efin x ∧ ‖G x‖ ≤ c.tol ∧
        (TR.updates c f (TR.start c f init) k).state.error = fin ‖G x‖ := by
  classical
  obtain ⟨k, hk, hst⟩ := C65_stops c hc hok f G B hf β flow hβ
    (fun x v => (le_abs_self _).trans (hs.curvature x v)) (fun x => Or.inr ⟨F x, hs.value x, hlow x⟩) hmin hmax hra hd0
    hd1 init x₀ Δ₀ (F x₀) hx₀ hΔ₀ hΔm (hs.value x₀)
  have key : ∃ j ≤ k, (TR.updates c f (TR.start c f init) j).state.error ≤ fin c.tol := by
    by_contra hno
    push Not at hno
    have herr : ∀ j ≤ k, fin c.tol ≤ (TR.updates c f (TR.start c f init) j).state.error := by
      intro j hj
      obtain ⟨x, Δ, h⟩ := updates_regular hc hf (regular_start hx₀ hΔ₀) j
      have := hno j hj
      rw [h.error, hf.grad, vnorm_efin', fin_le] at this
      rw [h.error, hf.grad, vnorm_efin', fin_le]
      exact (not_le.mp this).le
    obtain ⟨Δ, e, hle⟩ := C115_radius c hc f F G B hf L β hβ hL hs hrd hi hd0.le hd1.le hmax init x₀ Δ₀ hx₀ hΔ₀ hΔm k
      fun j hj => herr j hj.le
    rcases hst with h | h
    · exact hno k le_rfl h
    · rw [e, fin_le] at h
      exact absurd h (not_le.mpr ((lt_min hsmall₀ hsmall).trans_le hle))
  obtain ⟨j, hj, h⟩ := key
  obtain ⟨x, Δ, hr⟩ := updates_regular hc hf (regular_start hx₀ hΔ₀) j
  have he : (TR.updates c f (TR.start c f init) j).state.error = fin ‖G x‖ := by
    rw [hr.error, hf.grad, vnorm_efin']
  rw [he, fin_le] at h
  exact ⟨j, hj.trans hk, x, hr.params, h, he⟩

/-- The sample objective `x₀² + 3 x₁²` meets the requirements with the default configuration. -/
theorem sampleObjective_smooth :
    SmoothObjective sampleObjective (fun x => x 0 * x 0 + 3 * (x 1 * x 1)) (fun x => sampleHessian x) (fun _ => sampleHessian)
      6 6 where
  value x := by simp [sampleObjective, efin]
  gradient x := by
    rw [hasGradientAt_iff_hasFDerivAt]
    have h0 : HasFDerivAt (fun y : Pt 2 => y 0) (EuclideanSpace.proj (0 : Fin 2) : Pt 2 →L[ℝ] ℝ) x :=
      (EuclideanSpace.proj (0 : Fin 2) : Pt 2 →L[ℝ] ℝ).hasFDerivAt
    have h1 : HasFDerivAt (fun y : Pt 2 => y 1) (EuclideanSpace.proj (1 : Fin 2) : Pt 2 →L[ℝ] ℝ) x :=
      (EuclideanSpace.proj (1 : Fin 2) : Pt 2 →L[ℝ] ℝ).hasFDerivAt
    refine ((h0.fun_mul h0).fun_add ((h1.fun_mul h1).const_mul 3)).congr_fderiv ?_
    ext v
    simp [sampleHessian, PiLp.inner_apply, Fin.sum_univ_two]
    ring
  lipschitz x y := by
    rw [← map_sub, EuclideanSpace.norm_eq, EuclideanSpace.norm_eq, Fin.sum_univ_two, Fin.sum_univ_two]
    refine Real.sqrt_le_iff.2 ⟨by positivity, ?_⟩
    rw [mul_pow, Real.sq_sqrt (by positivity)]
    simp [sampleHessian, mul_pow]
    nlinarith [sq_nonneg (x.ofLp 0 - y.ofLp 0), sq_nonneg (x.ofLp 1 - y.ofLp 1)]
  curvature x v := by
    simp only [sampleHessian, PiLp.inner_apply, Fin.sum_univ_two, EuclideanSpace.norm_sq_eq, LinearMap.coe_mk,
      AddHom.coe_mk]
    rw [abs_le]
    simp
    constructor <;> nlinarith [sq_nonneg (v.ofLp 0), sq_nonneg (v.ofLp 1)]

example (x₀ : Pt 2) : ∃ k, ∃ x : Pt 2,
    (TR.updates .default sampleObjective (TR.start .default sampleObjective (.inl (efin x₀))) k).params = efin x ∧
      ‖sampleHessian x‖ ≤ 1e-2 := by
  obtain ⟨k, -, x, h1, h2, -⟩ := C115_reaches_tolerance .default default_valid default_ok sampleObjective _ _ _
    sampleObjective_contract 6 6 0 (by norm_num) (by norm_num) sampleObjective_smooth
    (fun x => by nlinarith [mul_self_nonneg (x 0), mul_self_nonneg (x 1)]) (by norm_num [TRConf.default])
    (by norm_num [TRConf.default]) (by norm_num [TRConf.default]) (by norm_num [TRConf.default])
    (by norm_num [TRConf.default]) (by norm_num [TRConf.default]) (by norm_num [TRConf.default]) (.inl (efin x₀)) x₀ 1
    rfl rfl (by norm_num [TRConf.default]) (by norm_num [TRConf.default])
    (by norm_num [TRConf.default, TRConf.damping])
  exact ⟨k, x, h1, h2⟩

end

end Verif
