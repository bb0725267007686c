import Verif.Props.Krylov
import Verif.Props.TRConv
import Mathlib.Analysis.InnerProductSpace.Calculus
import Mathlib.Analysis.Calculus.Deriv.MeanValue

/-! # Local convergence of the trust region method -/

namespace Verif

open XR

local notation "⟪" x ", " y "⟫" => inner ℝ x y

section
variable {n : ℕ} {A : Type*}

/-- Spec: a neighbourhood of a stationary point in which the objective has positive definite (at least `l`), Lipschitz
continuous (constant `M`) second derivatives. -/
structure RegularMinimiser (f : Objective n A) (F : Pt n → ℝ) (G : Pt n → Pt n) (B : Pt n → Pt n →L[ℝ] Pt n) (xs : Pt n)
    (R l M : ℝ) : Prop where
  value : ∀ x ∈ Metric.ball xs R, f.value (efin x) = fin (F x)
  gradient : ∀ x ∈ Metric.ball xs R, HasGradientAt F (G x) x
  hessian : ∀ x ∈ Metric.ball xs R, HasFDerivAt G (B x) x
  lipschitz : ∀ x ∈ Metric.ball xs R, ∀ y ∈ Metric.ball xs R, ‖B x - B y‖ ≤ M * ‖x - y‖
  definite : ∀ x ∈ Metric.ball xs R, ∀ v, l * ‖v‖ ^ 2 ≤ ⟪v, B x v⟫
  stationary : G xs = 0

theorem hasDerivAt_segment (x v : Pt n) (t : ℝ) : HasDerivAt (fun t : ℝ => x + t • v) v t := by
  simpa using ((hasDerivAt_id t).smul_const v).const_add x

theorem segment_mem {xs x v : Pt n} {R t : ℝ} (hx : x ∈ Metric.ball xs R) (hv : x + v ∈ Metric.ball xs R) (h0 : 0 ≤ t)
    (h1 : t ≤ 1) : x + t • v ∈ Metric.ball xs R := by
  have := (convex_ball xs R).add_smul_sub_mem hx hv ⟨h0, h1⟩
  rwa [add_sub_cancel_left] at this

/-- The error of the linear model of the gradient, in a ball. -/
theorem gradient_model {G : Pt n → Pt n} {B : Pt n → Pt n →L[ℝ] Pt n} {xs : Pt n} {R M : ℝ}
    (hG : ∀ x ∈ Metric.ball xs R, HasFDerivAt G (B x) x)
    (hL : ∀ x ∈ Metric.ball xs R, ∀ y ∈ Metric.ball xs R, ‖B x - B y‖ ≤ M * ‖x - y‖) {x v : Pt n}
    (hx : x ∈ Metric.ball xs R) (hv : x + v ∈ Metric.ball xs R) {s : ℝ} (hs0 : 0 ≤ s) (hs1 : s ≤ 1) :
    ‖G (x + s • v) - G x - s • B x v‖ ≤ M / 2 * ‖v‖ ^ 2 * s ^ 2 := by
  have hd : ∀ t ∈ Set.Icc (0 : ℝ) 1,
      HasDerivAt (fun t : ℝ => G (x + t • v) - G x - t • B x v) (B (x + t • v) v - B x v) t := by
    intro t ht
    have h1 : HasDerivAt (fun t : ℝ => G (x + t • v)) (B (x + t • v) v) t :=
      (hG _ (segment_mem hx hv ht.1 ht.2)).comp_hasDerivAt t (hasDerivAt_segment x v t)
    have h2 : HasDerivAt (fun t : ℝ => t • B x v) (B x v) t := by
      simpa using (hasDerivAt_id t).smul_const (B x v)
    exact (h1.sub_const (G x)).fun_sub h2
  have hB : ∀ t : ℝ, HasDerivAt (fun t : ℝ => M / 2 * ‖v‖ ^ 2 * t ^ 2) (M * t * ‖v‖ ^ 2) t := by
    intro t
    refine ((hasDerivAt_pow 2 t).const_mul (M / 2 * ‖v‖ ^ 2)).congr_deriv ?_
    simp
    ring
  have := image_norm_le_of_norm_deriv_right_le_deriv_boundary (a := 0) (b := 1)
    (f := fun t : ℝ => G (x + t • v) - G x - t • B x v) (f' := fun t => B (x + t • v) v - B x v)
    (B := fun t : ℝ => M / 2 * ‖v‖ ^ 2 * t ^ 2) (B' := fun t => M * t * ‖v‖ ^ 2)
    (fun t ht => (hd t ht).continuousAt.continuousWithinAt)
    (fun t ht => (hd t ⟨ht.1, ht.2.le⟩).hasDerivWithinAt) (by simp) (fun t => hB t)
    (fun t ht => by
      have h1 : ‖B (x + t • v) v - B x v‖ ≤ ‖B (x + t • v) - B x‖ * ‖v‖ := (B (x + t • v) - B x).le_opNorm v
      have h2 := hL _ (segment_mem hx hv ht.1 ht.2.le) x hx
      rw [add_sub_cancel_left, norm_smul, Real.norm_of_nonneg ht.1] at h2
      calc ‖B (x + t • v) v - B x v‖ ≤ ‖B (x + t • v) - B x‖ * ‖v‖ := h1
        _ ≤ M * (t * ‖v‖) * ‖v‖ := by gcongr
        _ = M * t * ‖v‖ ^ 2 := by ring) ⟨hs0, hs1⟩
  simpa using this

/-- The error of the quadratic model, in a ball. -/
theorem value_model {F : Pt n → ℝ} {G : Pt n → Pt n} {B : Pt n → Pt n →L[ℝ] Pt n} {xs : Pt n} {R M : ℝ}
    (hF : ∀ x ∈ Metric.ball xs R, HasGradientAt F (G x) x) (hG : ∀ x ∈ Metric.ball xs R, HasFDerivAt G (B x) x)
    (hL : ∀ x ∈ Metric.ball xs R, ∀ y ∈ Metric.ball xs R, ‖B x - B y‖ ≤ M * ‖x - y‖) {x v : Pt n}
    (hx : x ∈ Metric.ball xs R) (hv : x + v ∈ Metric.ball xs R) :
    |F (x + v) - F x - qmodel (G x) (B x) v| ≤ M / 6 * ‖v‖ ^ 3 := by
  have hd : ∀ t ∈ Set.Icc (0 : ℝ) 1,
      HasDerivAt (fun t : ℝ => F (x + t • v) - F x - (t * ⟪G x, v⟫ + 1 / 2 * t ^ 2 * ⟪v, B x v⟫))
        (⟪G (x + t • v) - G x - t • B x v, v⟫) t := by
    intro t ht
    have h1 : HasDerivAt (fun t : ℝ => F (x + t • v)) ⟪G (x + t • v), v⟫ t := by
      exact ((hF _ (segment_mem hx hv ht.1 ht.2)).hasFDerivAt.comp_hasDerivAt t (hasDerivAt_segment x v t)).congr_deriv
        (by simp)
    have h2 := (h1.sub_const (F x)).fun_sub (((hasDerivAt_id t).mul_const ⟪G x, v⟫).fun_add
      (((hasDerivAt_pow 2 t).const_mul (1 / 2)).mul_const ⟪v, B x v⟫))
    refine h2.congr_deriv ?_
    rw [inner_sub_left, inner_sub_left, inner_smul_left, conj_trivial, real_inner_comm v (B x v)]
    simp
    ring
  have hB : ∀ t : ℝ, HasDerivAt (fun t : ℝ => M / 6 * ‖v‖ ^ 3 * t ^ 3) (M / 2 * ‖v‖ ^ 2 * t ^ 2 * ‖v‖) t := by
    intro t
    refine ((hasDerivAt_pow 3 t).const_mul (M / 6 * ‖v‖ ^ 3)).congr_deriv ?_
    norm_num
    ring
  have := image_norm_le_of_norm_deriv_right_le_deriv_boundary (a := 0) (b := 1)
    (f := fun t : ℝ => F (x + t • v) - F x - (t * ⟪G x, v⟫ + 1 / 2 * t ^ 2 * ⟪v, B x v⟫))
    (f' := fun t => ⟪G (x + t • v) - G x - t • B x v, v⟫)
    (B := fun t : ℝ => M / 6 * ‖v‖ ^ 3 * t ^ 3) (B' := fun t => M / 2 * ‖v‖ ^ 2 * t ^ 2 * ‖v‖)
    (fun t ht => (hd t ht).continuousAt.continuousWithinAt)
    (fun t ht => (hd t ⟨ht.1, ht.2.le⟩).hasDerivWithinAt) (by simp) (fun t => hB t)
    (fun t ht => by
      refine (norm_inner_le_norm _ _).trans ?_
      exact mul_le_mul_of_nonneg_right (gradient_model hG hL hx hv ht.1 ht.2.le) (norm_nonneg _))
    (x := 1) ⟨zero_le_one, le_rfl⟩
  simpa [Real.norm_eq_abs, qmodel] using this

/-- Near the stationary point the gradient bounds the distance. -/
theorem dist_le_gradient {f : Objective n A} {F : Pt n → ℝ} {G : Pt n → Pt n} {B : Pt n → Pt n →L[ℝ] Pt n} {xs : Pt n}
    {R l M : ℝ} (h : RegularMinimiser f F G B xs R l M) {x : Pt n} (hx : x ∈ Metric.ball xs R) :
    l * ‖x - xs‖ ≤ ‖G x‖ := by
  have hR : xs ∈ Metric.ball xs R := Metric.mem_ball_self (lt_of_le_of_lt dist_nonneg hx)
  set v := x - xs with hv
  have hxv : xs + v = x := by rw [hv]; abel
  have hd : ∀ t ∈ Set.Icc (0 : ℝ) 1, HasDerivAt (fun t : ℝ => ⟪G (xs + t • v), v⟫) ⟪B (xs + t • v) v, v⟫ t := by
    intro t ht
    have h1 : HasDerivAt (fun t : ℝ => G (xs + t • v)) (B (xs + t • v) v) t :=
      (h.hessian _ (segment_mem hR (by rw [hxv]; exact hx) ht.1 ht.2)).comp_hasDerivAt t (hasDerivAt_segment xs v t)
    simpa using h1.inner ℝ (hasDerivAt_const t v)
  obtain ⟨t, ht, e⟩ := exists_hasDerivAt_eq_slope (fun t : ℝ => ⟪G (xs + t • v), v⟫) (fun t => ⟪B (xs + t • v) v, v⟫)
    (zero_lt_one' ℝ) (fun t ht => (hd t ht).continuousAt.continuousWithinAt) fun t ht => hd t ⟨ht.1.le, ht.2.le⟩
  simp only [one_smul, zero_smul, add_zero, hxv, h.stationary, inner_zero_left, sub_zero, div_one] at e
  have h1 := h.definite _ (segment_mem hR (by rw [hxv]; exact hx) ht.1.le ht.2.le) v
  rw [real_inner_comm, e] at h1
  have h2 := real_inner_le_norm (G x) v
  rcases (norm_nonneg v).eq_or_lt with h0 | h0
  · rw [← h0, mul_zero]; exact norm_nonneg _
  · exact le_of_mul_le_mul_right (by nlinarith) h0

/-- The tolerance of the sub-problem never exceeds the one given by the forcing sequence. -/
theorem eps_le {c : TRConf} {f : Objective n A} {params : Vec n} {g : Pt n} (hg : f.grad params = efin g) (h0 : 0 < ‖g‖)
    (s : TrState n A) (hs : s.subproblem_result.eps = pinf ∨ ∃ e, s.subproblem_result.eps = fin e) :
    ∃ e, TR.eps c f params s = fin e ∧ c.tol ≤ e ∧
      e ≤ max c.tol (min (1 / 2) (‖g‖ ^ c.forcing_parameter) * ‖g‖) := by
  rcases hs with h | ⟨e, h⟩
  · refine ⟨max c.tol (min (1 / 2) (‖g‖ ^ c.forcing_parameter) * ‖g‖), ?_, le_max_left _ _, le_rfl⟩
    simp only [TR.eps, hg, vnorm_efin', fin_rpow h0, fin_min, fin_mul, h]
    have : ¬ pinf ≤ fin (min (1 / 2) (‖g‖ ^ c.forcing_parameter) * ‖g‖) := id
    simp only [minimum, if_neg this, fin_max]
  · refine ⟨max c.tol (min e (min (1 / 2) (‖g‖ ^ c.forcing_parameter) * ‖g‖)), ?_, le_max_left _ _,
      max_le_max le_rfl (min_le_right _ _)⟩
    simp only [TR.eps, hg, vnorm_efin', fin_rpow h0, fin_min, fin_mul, h, fin_max]

/-- The step of the sub-problem for a positive definite Hessian whose Newton step fits into the region. -/
theorem steihaug_newton (Δ ε : ℝ) (hε : 0 < ε) (hvp : Vec n → Vec n) (H : Pt n →ₗ[ℝ] Pt n)
    (hH : ∀ x, hvp (efin x) = efin (H x)) (hsym : ∀ x y, ⟪H x, y⟫ = ⟪x, H y⟫) {l : ℝ} (hl : 0 < l)
    (hlow : ∀ v, l * ‖v‖ ^ 2 ≤ ⟪v, H v⟫) (g : Pt n) (hgΔ : ‖g‖ < l * Δ) (m : Option ℕ) (hm : ∀ k, m = some k → n ≤ k) :
    ∃ p : Pt n, (steihaug (efin g) hvp (fin Δ) (fin ε) m).p = efin p ∧ l * ‖p‖ ≤ ‖g‖ ∧ ‖g + H p‖ < ε ∧
      ⟪g + H p, p⟫ = 0 := by
  have hpos : ∀ v, v ≠ 0 → 0 < ⟪v, H v⟫ := fun v hv =>
    lt_of_lt_of_le (by have := norm_pos_iff.mpr hv; positivity) (hlow v)
  have hinj : Function.Injective H := by
    rw [← LinearMap.ker_eq_bot, LinearMap.ker_eq_bot']
    intro v hv
    by_contra h
    have := hpos v h
    rw [hv, inner_zero_right] at this
    exact lt_irrefl _ this
  obtain ⟨q, hq⟩ := (LinearMap.injective_iff_surjective.mp hinj) (-g)
  have hqn : l * ‖q‖ ≤ ‖g‖ := by
    have h1 := hlow q
    have h2 := real_inner_le_norm q (H q)
    rw [hq, norm_neg] at h2
    rw [hq] at h1
    rcases (norm_nonneg q).eq_or_lt with h0 | h0
    · rw [← h0, mul_zero]; exact norm_nonneg _
    · exact le_of_mul_le_mul_right (by nlinarith) h0
  have hqΔ : ‖q‖ < Δ := lt_of_mul_lt_mul_left (hqn.trans_lt hgΔ) hl.le
  have hΔ : 0 < Δ := lt_of_le_of_lt (norm_nonneg _) hqΔ
  obtain ⟨p, hp, hpq, hres⟩ := C101_newton Δ ε hε hvp H hH hsym hpos g q hq hqΔ m hm
  refine ⟨p, hp, (mul_le_mul_of_nonneg_left hpq hl.le).trans hqn, hres, ?_⟩
  obtain ⟨p', k, hp', -, hne, -, h⟩ := steihaug_cg Δ ε hΔ hε hvp H hH g m
  obtain rfl : p' = p := efin_inj.mp (hp'.symm.trans hp)
  rcases h with ⟨e, -, hκ⟩ | ⟨hn, -⟩
  · have hr : ∀ i < k, (cg g H i).1 ≠ 0 := fun i hi => norm_pos_iff.mp (hε.trans_le (hne i hi))
    have h1 := (cgIter_mono g H hsym hpos k hr).1 _ (cg_orthogonal g H hsym k hκ hr).2.2.1
    rw [cg_residual, ← e] at h1
    exact h1
  · exact absurd hn (hpq.trans_lt hqΔ).ne

/-- One update near a regular minimiser. -/
theorem update_local {c : TRConf} (hc : c.Valid) (hok : c.postInit = .ok c) (hi : 1 ≤ c.increase_factor)
    (hm : ∀ k, c.maxiter_steihaug = some k → n ≤ k) {f : Objective n A} {F : Pt n → ℝ} {G : Pt n → Pt n}
    {B : Pt n → Pt n →L[ℝ] Pt n} (hf : SecondOrder c f G fun x => (B x : Pt n →ₗ[ℝ] Pt n)) {xs : Pt n} {R l M : ℝ}
    (hl : 0 < l) (hM : 0 ≤ M) (h : RegularMinimiser f F G B xs R l M) {s : OptStep n A} {x : Pt n} {Δ : ℝ}
    (hs : Regular c f s x Δ) (hfr : c.min_tr_radius < Δ) (hmax : Δ ≤ c.max_tr_radius) (hx : x ∈ Metric.ball xs R)
    (htol : c.tol ≤ ‖G x‖) (hgΔ : ‖G x‖ < l * Δ) (hgR : 2 * ‖G x‖ < l * R)
    (hgM : M * ‖G x‖ ≤ 3 * l ^ 2 * (1 - c.rho_decrease)) :
    ∃ x' Δ', Regular c f (TR.update c f s.params s.state) x' Δ' ∧ (TR.update c f s.params s.state).state.accepted ∧
      Δ ≤ Δ' ∧ x' ∈ Metric.ball xs R ∧
      ‖G x'‖ ≤ max c.tol (min (1 / 2) (‖G x‖ ^ c.forcing_parameter) * ‖G x‖) + c.damping / l * ‖G x‖ +
        M / (2 * l ^ 2) * ‖G x‖ ^ 2 := by
  have hg0 : 0 < ‖G x‖ := hc.tol.trans_le htol
  have hΔ0 : 0 < Δ := lt_of_le_of_lt hc.min_radius hfr
  have hdamp := damping_nonneg hc
  have hg : f.grad s.params = efin (G x) := by rw [hs.params, hf.grad]
  obtain ⟨e, he, hte, hle⟩ := eps_le (c := c) hg hg0 s.state (hs.eps.imp id fun ⟨e, h, _⟩ => ⟨e, h⟩)
  have he0 : 0 < e := hc.tol.trans_le hte
  set H : Pt n →ₗ[ℝ] Pt n := (B x : Pt n →ₗ[ℝ] Pt n) + c.damping • LinearMap.id with hHdef
  have hH : ∀ v, TR.dampedHvp c f s.params (efin v) = efin (H v) := by
    intro v; rw [hs.params, damped_efin hf]
  have hHv : ∀ v, H v = B x v + c.damping • v := fun v => by simp [hHdef]
  have hsub : TR.subproblem c f s.params s.state =
      steihaug (efin (G x)) (TR.dampedHvp c f s.params) (fin Δ) (fin e) c.maxiter_steihaug := by
    rw [TR.subproblem, hg, hs.radius, he]
  have hsym : ∀ u v, ⟪H u, v⟫ = ⟪u, H v⟫ := by
    intro u v
    have := hf.symm x u v
    simp only [ContinuousLinearMap.coe_coe] at this
    rw [hHv, hHv, inner_add_left, inner_add_right, inner_smul_left, inner_smul_right, conj_trivial, this]
  obtain ⟨p, hp, hpn, hres, horth⟩ := steihaug_newton Δ e he0 (TR.dampedHvp c f s.params) H hH hsym hl (fun v => by
    have := h.definite x hx v
    rw [hHv, inner_add_right, inner_smul_right, real_inner_self_eq_norm_sq]
    nlinarith [sq_nonneg ‖v‖, mul_nonneg hdamp (sq_nonneg ‖v‖)]) (G x) hgΔ c.maxiter_steihaug hm
  obtain ⟨p', e', hp', hlen, -, he', -, -, hleg, hposq, -⟩ := subproblem_regular hc hf hs hfr
  obtain rfl : p' = p := by
    rw [hsub] at hp'
    exact efin_inj.mp (hp'.symm.trans hp)
  obtain ⟨-, hq, -⟩ := hposq (hleg htol)
  have hq' : 0 < -qmodel (G x) (B x) p' := hq
  -- the predicted decrease
  have hpred : l / 2 * ‖p'‖ ^ 2 ≤ -qmodel (G x) (B x) p' := by
    rw [hHv, inner_add_left, inner_add_left, inner_smul_left, conj_trivial, real_inner_self_eq_norm_sq,
      real_inner_comm p' (B x p')] at horth
    have := h.definite x hx p'
    rw [qmodel]
    nlinarith [mul_nonneg hdamp (sq_nonneg ‖p'‖)]
  -- the new point lies in the ball
  have hdist := dist_le_gradient h hx
  have hx' : x + p' ∈ Metric.ball xs R := by
    rw [Metric.mem_ball, dist_eq_norm, show x + p' - xs = (x - xs) + p' by abel]
    refine lt_of_le_of_lt (norm_add_le _ _) ?_
    refine lt_of_mul_lt_mul_left (a := l) ?_ hl.le
    rw [mul_add]
    linarith
  have hnew : (fun i => s.params i + (TR.subproblem c f s.params s.state).p i) = efin (x + p') := by
    rw [hs.params] at hp' ⊢; rw [hp', add_efin]
  have hratio : TR.ratio c f s.params s.state = fin ((F x - F (x + p')) / -qmodel (G x) (B x) p') := by
    rw [TR.ratio, hnew, hp', hs.params, denom_efin hf, h.value _ hx', h.value _ hx, fin_sub, fin_div _ hq.ne']
    rfl
  have hgood : c.rho_decrease ≤ (F x - F (x + p')) / -qmodel (G x) (B x) p' := by
    rw [le_div_iff₀ hq']
    have h1 := (abs_le.mp (value_model h.gradient h.hessian h.lipschitz hx hx')).2
    have hp0 := norm_nonneg p'
    have h2 : M / 6 * ‖p'‖ ^ 3 ≤ (1 - c.rho_decrease) * (l / 2 * ‖p'‖ ^ 2) := by
      have h3 : M * ‖p'‖ ≤ 3 * l * (1 - c.rho_decrease) := by
        refine le_of_mul_le_mul_left ?_ hl
        calc l * (M * ‖p'‖) = M * (l * ‖p'‖) := by ring
          _ ≤ M * ‖G x‖ := mul_le_mul_of_nonneg_left hpn hM
          _ ≤ _ := hgM
          _ = _ := by ring
      have := mul_le_mul_of_nonneg_right h3 (by positivity : 0 ≤ ‖p'‖ ^ 2 / 6)
      nlinarith
    have hrd : 0 ≤ 1 - c.rho_decrease := by
      by_contra hneg
      push Not at hneg
      have : 3 * l ^ 2 * (1 - c.rho_decrease) < 0 := mul_neg_of_pos_of_neg (by positivity) hneg
      nlinarith [mul_nonneg hM hg0.le]
    have h3 := mul_le_mul_of_nonneg_left hpred hrd
    linarith
  have hra : c.rho_accept ≤ c.rho_decrease := by
    by_contra hcon
    rw [TRConf.postInit, if_pos (not_le.mp hcon)] at hok
    cases hok
  have hfr' : ¬ s.state.tr_radius ≤ fin c.min_tr_radius := by rw [hs.radius, fin_le]; exact not_le.mpr hfr
  have hacc : fin c.rho_accept ≤ TR.ratio c f s.params s.state := by rw [hratio, fin_le]; exact hra.trans hgood
  obtain ⟨Δ', hΔ', -⟩ := newRadius_fin c f s.params s.state hs.radius
  have hΔΔ : Δ ≤ Δ' := newRadius_ge c f _ _ hs.radius hΔ0.le hmax hi hΔ' (by rw [hratio, fin_lt]; exact not_lt.mpr hgood)
  rw [update_accept c f _ _ hfr' hacc]
  refine ⟨x + p', Δ', ⟨hnew, hΔ', Or.inr ⟨e, by rw [hsub]; rfl, hte⟩, by rw [hnew], by rw [hnew]⟩, trivial, hΔΔ, hx', ?_⟩
  -- the new gradient
  have h1 := gradient_model h.hessian h.lipschitz hx hx' zero_le_one le_rfl
  rw [one_smul, one_smul, one_pow, mul_one] at h1
  have hp2 : ‖p'‖ ≤ ‖G x‖ / l := by rw [le_div_iff₀ hl]; linarith
  have e1 : G (x + p') = (G (x + p') - G x - B x p') + (G x + H p') - c.damping • p' := by
    rw [hHv]; abel
  calc ‖G (x + p')‖ ≤ ‖G (x + p') - G x - B x p'‖ + ‖G x + H p'‖ + ‖c.damping • p'‖ := by
        conv_lhs => rw [e1]
        exact (norm_sub_le _ _).trans (add_le_add (norm_add_le _ _) le_rfl)
    _ ≤ M / 2 * (‖G x‖ / l) ^ 2 + e + c.damping * (‖G x‖ / l) := by
        rw [norm_smul, Real.norm_of_nonneg hdamp]
        refine add_le_add (add_le_add (h1.trans ?_) hres.le) (by gcongr)
        gcongr
    _ = e + c.damping / l * ‖G x‖ + M / (2 * l ^ 2) * ‖G x‖ ^ 2 := by field_simp; ring
    _ ≤ _ := by gcongr

/-! ## C146 -/

/-- **C146, one update**. Let the objective have a stationary point `xs` near which the Hessian is Lipschitz continuous
(constant `M`) and at least `l > 0`. If the current point is near `xs` and the gradient there, not below the tolerance, is
small compared with `l` times the radius of the trust region, the step is accepted, the radius does not shrink, and the new
gradient is bounded by the tolerance of the sub-problem plus a multiple of the square of the old one: with the
forcing parameter `θ` and without damping, convergence of the order `min (1 + θ) 2` down to the tolerance. -/
theorem C146_step (c : TRConf) (hc : c.Valid) (hok : c.postInit = .ok c) (hi : 1 ≤ c.increase_factor)
    (hd1 : c.decrease_factor ≤ 1) (hmin : c.min_tr_radius ≤ c.max_tr_radius)
    (hm : ∀ k, c.maxiter_steihaug = some k → n ≤ k) (f : Objective n A) (F : Pt n → ℝ) (G : Pt n → Pt n)
    (B : Pt n → Pt n →L[ℝ] Pt n) (hf : SecondOrder c f G fun x => (B x : Pt n →ₗ[ℝ] Pt n)) (xs : Pt n) (R l M : ℝ)
    (hl : 0 < l) (hM : 0 ≤ M) (h : RegularMinimiser f F G B xs R l M)
    (init : Vec n ⊕ OptStep n A) (x₀ : Pt n) (Δ₀ : ℝ) (hx₀ : (TR.start c f init).params = efin x₀)
    (hΔ₀ : (TR.start c f init).state.tr_radius = fin Δ₀) (hΔm : Δ₀ ≤ c.max_tr_radius) (k : ℕ) (x : Pt n) (Δ : ℝ)
    (hx : (TR.updates c f (TR.start c f init) k).params = efin x)
    (hΔ : (TR.updates c f (TR.start c f init) k).state.tr_radius = fin Δ) (hfr : c.min_tr_radius < Δ)
    (hxR : ‖x - xs‖ < R) (htol : c.tol ≤ ‖G x‖) (hgΔ : ‖G x‖ < l * Δ) (hgR : 2 * ‖G x‖ < l * R)
    (hgM : M * ‖G x‖ ≤ 3 * l ^ 2 * (1 - c.rho_decrease)) :
    (TR.updates c f (TR.start c f init) (k + 1)).state.accepted ∧
    ∃ (x' : Pt n) (Δ' : ℝ), (TR.updates c f (TR.start c f init) (k + 1)).params = efin x' ∧
      (TR.updates c f (TR.start c f init) (k + 1)).state.tr_radius = fin Δ' ∧ Δ ≤ Δ' ∧ ‖x' - xs‖ ≤ ‖G x'‖ / l ∧
      ‖G x'‖ ≤ max c.tol (min (1 / 2) (‖G x‖ ^ c.forcing_parameter) * ‖G x‖) + c.damping / l * ‖G x‖ +
        M / (2 * l ^ 2) * ‖G x‖ ^ 2 := by
  obtain ⟨x1, Δ1, hr⟩ := updates_regular hc hf (regular_start hx₀ hΔ₀) k
  obtain rfl : x1 = x := efin_inj.mp (hr.params.symm.trans hx)
  obtain rfl : Δ1 = Δ := fin_inj.mp (hr.radius.symm.trans hΔ)
  obtain ⟨x', Δ', hr', hacc, hΔΔ, hx', hbd⟩ := update_local hc hok hi hm hf hl hM h hr hfr
    (updates_max f hc.min_radius hmin hd1 hΔ₀ hΔm k hr.radius) (by rwa [Metric.mem_ball, dist_eq_norm]) htol hgΔ hgR hgM
  refine ⟨hacc, x', Δ', hr'.params, hr'.radius, hΔΔ, ?_, hbd⟩
  rw [le_div_iff₀ hl, mul_comm]
  exact dist_le_gradient h hx'

/-- **C146, all updates**. Once the run is at such a point and the gradient is at most `δ`, all further steps are accepted
until the gradient falls below the tolerance, and the gradient decreases by the factor `3/4` at least in every step
until it is below twice the tolerance. -/
theorem C146_basin (c : TRConf) (hc : c.Valid) (hok : c.postInit = .ok c) (hi : 1 ≤ c.increase_factor)
    (hd1 : c.decrease_factor ≤ 1) (hmin : c.min_tr_radius ≤ c.max_tr_radius)
    (hm : ∀ k, c.maxiter_steihaug = some k → n ≤ k) (f : Objective n A) (F : Pt n → ℝ) (G : Pt n → Pt n)
    (B : Pt n → Pt n →L[ℝ] Pt n) (hf : SecondOrder c f G fun x => (B x : Pt n →ₗ[ℝ] Pt n)) (xs : Pt n) (R l M δ : ℝ)
    (hl : 0 < l) (hM : 0 ≤ M) (h : RegularMinimiser f F G B xs R l M)
    (init : Vec n ⊕ OptStep n A) (x₀ : Pt n) (Δ₀ : ℝ) (hx₀ : (TR.start c f init).params = efin x₀)
    (hΔ₀ : (TR.start c f init).state.tr_radius = fin Δ₀) (hΔm : Δ₀ ≤ c.max_tr_radius) (k : ℕ) (x : Pt n) (Δ : ℝ)
    (hx : (TR.updates c f (TR.start c f init) k).params = efin x)
    (hΔ : (TR.updates c f (TR.start c f init) k).state.tr_radius = fin Δ) (hfr : c.min_tr_radius < Δ)
    (hxR : ‖x - xs‖ < R) (hg : ‖G x‖ ≤ δ) (hδtol : 2 * c.tol ≤ δ) (hδΔ : δ < l * Δ) (hδR : 2 * δ < l * R)
    (hδM : c.damping / l + M * δ / (2 * l ^ 2) ≤ 1 / 4) (hrd : c.rho_decrease ≤ 5 / 6) (j : ℕ)
    (htol : ∀ i < j, fin c.tol ≤ (TR.updates c f (TR.start c f init) (k + i)).state.error) :
    (∀ i < j, (TR.updates c f (TR.start c f init) (k + i + 1)).state.accepted) ∧
    ∃ x' : Pt n, (TR.updates c f (TR.start c f init) (k + j)).params = efin x' ∧
      (TR.updates c f (TR.start c f init) (k + j)).state.error = fin ‖G x'‖ ∧ ‖x' - xs‖ ≤ ‖G x'‖ / l ∧
      ‖G x'‖ ≤ max (2 * c.tol) ((3 / 4) ^ j * ‖G x‖) := by
  have hdl : 0 ≤ c.damping / l := div_nonneg (damping_nonneg hc) hl.le
  have ht := hc.tol
  have hδ0 : 0 < δ := by linarith
  have hMδ : M * δ ≤ 3 * l ^ 2 * (1 - c.rho_decrease) := by
    have h1 : M * δ / (2 * l ^ 2) ≤ 1 / 4 := by linarith
    rw [div_le_iff₀ (by positivity)] at h1
    have h2 : 0 < l ^ 2 := by positivity
    nlinarith
  have key : (∀ i < j, (TR.updates c f (TR.start c f init) (k + i + 1)).state.accepted) ∧
      ∃ x' Δ', Regular c f (TR.updates c f (TR.start c f init) (k + j)) x' Δ' ∧ Δ ≤ Δ' ∧ x' ∈ Metric.ball xs R ∧
        ‖G x'‖ ≤ max (2 * c.tol) ((3 / 4) ^ j * ‖G x‖) := by
    induction j with
    | zero =>
      obtain ⟨x1, Δ1, hr⟩ := updates_regular hc hf (regular_start hx₀ hΔ₀) k
      obtain rfl : x1 = x := efin_inj.mp (hr.params.symm.trans hx)
      obtain rfl : Δ1 = Δ := fin_inj.mp (hr.radius.symm.trans hΔ)
      refine ⟨fun i hi => absurd hi (Nat.not_lt_zero i), x1, Δ1, hr, le_rfl, by rwa [Metric.mem_ball, dist_eq_norm], ?_⟩
      rw [pow_zero, one_mul]
      exact le_max_right _ _
    | succ j ih =>
      obtain ⟨hacc, x1, Δ1, hr, hΔ1, hx1, hb⟩ := ih fun i hi => htol i (by omega)
      have hg1 : c.tol ≤ ‖G x1‖ := by
        have := htol j (by omega)
        rwa [hr.error, hf.grad, vnorm_efin', fin_le] at this
      have hgδ : ‖G x1‖ ≤ δ := by
        refine hb.trans (max_le hδtol ?_)
        have : (3 / 4 : ℝ) ^ j ≤ 1 := pow_le_one₀ (by norm_num) (by norm_num)
        nlinarith [norm_nonneg (G x)]
      obtain ⟨x', Δ', hr', ha, hΔΔ, hx', hbd⟩ := update_local hc hok hi hm hf hl hM h hr (hfr.trans_le hΔ1)
        (updates_max f hc.min_radius hmin hd1 hΔ₀ hΔm (k + j) hr.radius) hx1 hg1
        (hgδ.trans_lt (hδΔ.trans_le (mul_le_mul_of_nonneg_left hΔ1 hl.le))) (by linarith)
        ((mul_le_mul_of_nonneg_left hgδ hM).trans hMδ)
      refine ⟨fun i hi => ?_, x', Δ', hr', hΔ1.trans hΔΔ, hx', ?_⟩
      · rcases Nat.lt_succ_iff_lt_or_eq.mp hi with h' | rfl
        · exact hacc i h'
        · exact ha
      · have h0 := norm_nonneg (G x1)
        have h1 : c.damping / l * ‖G x1‖ + M / (2 * l ^ 2) * ‖G x1‖ ^ 2 ≤ 1 / 4 * ‖G x1‖ := by
          have : M / (2 * l ^ 2) * ‖G x1‖ ≤ M * δ / (2 * l ^ 2) := by
            rw [div_mul_eq_mul_div]
            gcongr
          nlinarith
        have h2 : min (1 / 2) (‖G x1‖ ^ c.forcing_parameter) * ‖G x1‖ ≤ 1 / 2 * ‖G x1‖ :=
          mul_le_mul_of_nonneg_right (min_le_left _ _) h0
        have h3 : ‖G x'‖ ≤ max c.tol (1 / 2 * ‖G x1‖) + 1 / 4 * ‖G x1‖ := by
          have := max_le_max (le_refl c.tol) h2
          linarith
        by_cases hcase : ‖G x1‖ ≤ 2 * c.tol
        · refine le_max_of_le_left (h3.trans ?_)
          rw [max_eq_left (by linarith)]
          linarith
        · push Not at hcase
          rw [max_eq_right (by linarith)] at h3
          have h4 : ‖G x1‖ ≤ (3 / 4) ^ j * ‖G x‖ := (le_max_iff.mp hb).resolve_left (not_le.mpr hcase)
          refine le_max_of_le_right ?_
          rw [pow_succ]
          linarith
  obtain ⟨hacc, x', Δ', hr, -, hx', hb⟩ := key
  refine ⟨hacc, x', hr.params, by rw [hr.error, hf.grad, vnorm_efin'], ?_, hb⟩
  rw [le_div_iff₀ hl, mul_comm]
  exact dist_le_gradient h hx'

/-- The objective `x² / 2 + x³ / 6` with its derivatives. -/
noncomputable def cubicObjective : Objective 1 Unit where
  value := fun v => v 0 * v 0 / 2 + v 0 * v 0 * v 0 / 6
  aux := fun _ => ()
  grad := fun v i => v i + v 0 * v i / 2
  hvp := fun x v i => v i + x 0 * v i

noncomputable def cubicHessian (x : Pt 1) : Pt 1 →L[ℝ] Pt 1 := (1 + x 0) • ContinuousLinearMap.id ℝ (Pt 1)

theorem cubicObjective_contract :
    SecondOrder .default cubicObjective (fun x => (1 + x 0 / 2) • x) fun x => (cubicHessian x : Pt 1 →ₗ[ℝ] Pt 1) where
  grad x := by
    funext i
    have h2 : ∀ a : ℝ, fin a / fin 2 = fin (a / 2) := fun a => fin_div a two_ne_zero
    simp [cubicObjective, efin, h2]
    ring
  hvp x v := by
    funext i
    simp [TR.hvp, TRConf.default, cubicObjective, cubicHessian, efin]
    ring
  symm x u v := by simp [cubicHessian, inner_smul_left, inner_smul_right]

theorem cubicObjective_regular :
    RegularMinimiser cubicObjective (fun x => x 0 * x 0 / 2 + x 0 * x 0 * x 0 / 6) (fun x => (1 + x 0 / 2) • x) cubicHessian
      0 (1 / 2) (1 / 2) 1 where
  value x _ := by
    have h2 : ∀ a : ℝ, fin a / fin 2 = fin (a / 2) := fun a => fin_div a two_ne_zero
    have h6 : ∀ a : ℝ, fin a / fin 6 = fin (a / 6) := fun a => fin_div a (by norm_num)
    simp [cubicObjective, efin, h2, h6]
  gradient x _ := by
    rw [hasGradientAt_iff_hasFDerivAt]
    have h0 : HasFDerivAt (fun y : Pt 1 => y 0) (EuclideanSpace.proj (0 : Fin 1) : Pt 1 →L[ℝ] ℝ) x :=
      (EuclideanSpace.proj (0 : Fin 1) : Pt 1 →L[ℝ] ℝ).hasFDerivAt
    have := ((h0.fun_mul h0).mul_const (1 / 2)).fun_add (((h0.fun_mul h0).fun_mul h0).mul_const (1 / 6))
    refine (this.congr_fderiv ?_).congr_of_eventuallyEq (Filter.Eventually.of_forall fun y => ?_)
    · ext v
      simp [PiLp.inner_apply]
      ring
    · simp; ring
  hessian x _ := by
    have h0 : HasFDerivAt (fun y : Pt 1 => 1 + y 0 / 2) ((1 / 2 : ℝ) • (EuclideanSpace.proj (0 : Fin 1) : Pt 1 →L[ℝ] ℝ)) x := by
      have := ((EuclideanSpace.proj (0 : Fin 1) : Pt 1 →L[ℝ] ℝ).hasFDerivAt (x := x)).const_mul (1 / 2)
      refine (this.const_add 1).congr_of_eventuallyEq (Filter.Eventually.of_forall fun y => ?_)
      simp; ring
    refine (h0.smul (hasFDerivAt_id x)).congr_fderiv ?_
    ext v i
    fin_cases i
    simp [cubicHessian]
    ring
  lipschitz x _ y _ := by
    have e : cubicHessian x - cubicHessian y = (x 0 - y 0) • ContinuousLinearMap.id ℝ (Pt 1) := by
      ext v i
      simp [cubicHessian]
      ring
    rw [e, norm_smul, one_mul]
    refine (mul_le_of_le_one_right (norm_nonneg _) ContinuousLinearMap.norm_id_le).trans ?_
    simpa using PiLp.norm_apply_le (x - y) 0
  definite x hx v := by
    rw [Metric.mem_ball, dist_zero_right] at hx
    have h1 := PiLp.norm_apply_le x 0
    rw [Real.norm_eq_abs] at h1
    have h2 := (abs_le.mp (h1.trans hx.le)).1
    simp only [cubicHessian, smul_apply, ContinuousLinearMap.id_apply, inner_smul_right,
      real_inner_self_eq_norm_sq]
    nlinarith [sq_nonneg ‖v‖]
  stationary := by simp

/-- From `1/16`, with default parameters: as long as the tolerance `1e-2` is not reached all steps are accepted. -/
example (j : ℕ) (htol : ∀ i < j, fin 1e-2 ≤
      (TR.updates .default cubicObjective (TR.start .default cubicObjective (.inl (efin !₂[1/16]))) (0 + i)).state.error) :
    (∀ i < j, (TR.updates .default cubicObjective
      (TR.start .default cubicObjective (.inl (efin !₂[1/16]))) (0 + i + 1)).state.accepted) := by
  have hn : ‖(!₂[1/16] : Pt 1)‖ = 1 / 16 := by
    rw [EuclideanSpace.norm_eq, Fin.sum_univ_one, Real.sqrt_sq (norm_nonneg _)]
    norm_num
  refine (C146_basin .default default_valid default_ok ?_ ?_ ?_ ?_ cubicObjective _ _ _ cubicObjective_contract 0 (1 / 2)
    (1 / 2) 1 (1 / 10) (by norm_num) zero_le_one cubicObjective_regular (.inl (efin !₂[1/16])) (!₂[1/16]) 1 rfl rfl ?_ 0
    (!₂[1/16]) 1 rfl rfl ?_ ?_ ?_ ?_ ?_ ?_ ?_ ?_ j htol).1
  case refine_4 => intro k hk; cases hk
  case refine_7 => rw [sub_zero, hn]; norm_num
  case refine_8 => rw [norm_smul, hn]; norm_num
  all_goals norm_num [TRConf.default, TRConf.damping]

end

end Verif
