import Verif.Props.RSystems
import Mathlib.Analysis.SpecialFunctions.Sqrt
import Mathlib.Analysis.SpecialFunctions.Pow.Deriv
import Mathlib.Analysis.Calculus.Deriv.Abs
import Mathlib.Analysis.InnerProductSpace.Calculus
import Mathlib.Analysis.Calculus.ContDiff.Defs

/-! # Property C118: smoothness of the R-function systems of `/repo/magpi/r_fun.py` -/

namespace Verif

open XR Filter Topology
open scoped ContDiff

/-- The binary operation `op` returns a finite value on all finite arguments, namely `c`. -/
def ComputesReal (op : XR → XR → XR) (c : ℝ × ℝ → ℝ) : Prop :=
  ∀ a b : ℝ, op (fin a) (fin b) = fin (c (a, b))

theorem ne_zero_pair {x : ℝ × ℝ} (h : x ≠ 0) : 0 < x.1 ^ 2 + x.2 ^ 2 := by
  have : x.1 ≠ 0 ∨ x.2 ≠ 0 := by
    by_contra hc
    push Not at hc
    exact h (Prod.ext hc.1 hc.2)
  rcases this with h | h
  · have := sq_pos_of_ne_zero h; positivity
  · have := sq_pos_of_ne_zero h; positivity

theorem alpha_radicand_pos {α : ℝ} (h1 : -1 < α) (h2 : α < 1) {x : ℝ × ℝ} (h : x ≠ 0) :
    0 < x.1 ^ 2 + x.2 ^ 2 - 2 * α * x.1 * x.2 := by
  have h0 := ne_zero_pair h
  rcases le_total 0 (x.1 * x.2) with h3 | h3
  · nlinarith [sq_nonneg (x.1 - x.2), mul_nonneg h3 (by linarith : (0 : ℝ) ≤ 1 - α), sq_nonneg (x.1 + x.2),
      mul_pos (by linarith : (0 : ℝ) < 1 - α) h0, mul_nonneg (by linarith : (0 : ℝ) ≤ 1 + α) (sq_nonneg (x.1 - x.2))]
  · nlinarith [sq_nonneg (x.1 - x.2), sq_nonneg (x.1 + x.2),
      mul_pos (by linarith : (0 : ℝ) < 1 + α) h0, mul_nonneg (by linarith : (0 : ℝ) ≤ 1 - α) (sq_nonneg (x.1 + x.2))]

/-- A function whose restriction to a line is `v + k (t + σ |t|)` is not differentiable. -/
theorem not_diff_of_abs {c : ℝ × ℝ → ℝ} {x e : ℝ × ℝ} {v k l : ℝ} (hl : l ≠ 0)
    (h : ∀ t : ℝ, c (x + t • e) = v + k * t + l * |t|) : ¬ DifferentiableAt ℝ c x := by
  intro hd
  have h1 : DifferentiableAt ℝ (fun t : ℝ => c (x + t • e)) 0 := by
    have hd' : DifferentiableAt ℝ c (x + (0 : ℝ) • e) := by simpa using hd
    exact hd'.comp (0 : ℝ) (by fun_prop)
  have h2 : (fun t : ℝ => |t|) = fun t : ℝ => (c (x + t • e) - v - k * t) / l := by
    funext t
    rw [h t]
    field_simp
    ring
  refine not_differentiableAt_abs_zero ?_
  show DifferentiableAt ℝ (fun t : ℝ => |t|) 0
  rw [h2]
  exact ((h1.sub_const v).sub (by fun_prop)).div_const l

noncomputable def alphaFun (α σ : ℝ) (x : ℝ × ℝ) : ℝ :=
  1 / (1 + α) * (x.1 + x.2 + σ * Real.sqrt (x.1 ^ 2 + x.2 ^ 2 - 2 * α * x.1 * x.2))

theorem alphaFun_analytic {α : ℝ} (h1 : -1 < α) (h2 : α < 1) (σ : ℝ) {x : ℝ × ℝ} (h : x ≠ 0) :
    ContDiffAt ℝ ω (alphaFun α σ) x := by
  unfold alphaFun
  have h3 : ContDiffAt ℝ ω (fun x : ℝ × ℝ => Real.sqrt (x.1 ^ 2 + x.2 ^ 2 - 2 * α * x.1 * x.2)) x := by
    refine ContDiffAt.sqrt ?_ (alpha_radicand_pos h1 h2 h).ne'
    fun_prop
  fun_prop

theorem alphaFun_not_diff {α : ℝ} (h1 : -1 < α) {σ : ℝ} (hσ : σ ≠ 0) :
    ¬ DifferentiableAt ℝ (alphaFun α σ) 0 := by
  have h3 : 1 + α ≠ 0 := by linarith
  refine not_diff_of_abs (e := (1, 0)) (v := 0) (k := 1 / (1 + α)) (l := 1 / (1 + α) * σ)
    (mul_ne_zero (one_div_ne_zero h3) hσ) fun t => ?_
  simp [alphaFun, Real.sqrt_sq_eq_abs]
  ring

theorem RAlpha.computes {α : ℝ} (h1 : -1 < α) (h2 : α ≤ 1) :
    ComputesReal (RAlpha.sys α).conj (alphaFun α (-1)) ∧ ComputesReal (RAlpha.sys α).disj (alphaFun α 1) := by
  refine ⟨fun a b => ?_, fun a b => ?_⟩
  · rw [show (RAlpha.sys α).conj = RAlpha.conj α from rfl, RAlpha.conj_fin h1 h2]
    simp only [alphaFun]
    congr 1
    ring
  · rw [show (RAlpha.sys α).disj = RAlpha.disj α from rfl, RAlpha.disj_fin h1 h2]
    simp only [alphaFun]
    congr 1
    ring

/-- C118. The systems `RAlpha(alpha)` with `-1 < alpha < 1` (`r0` among them) are analytic in every point but the
origin, where they are not differentiable. -/
theorem C118_ralpha (α : ℝ) (S : RFun) (hS : RAlpha α = .ok S) (hα : α < 1) :
    ∃ c d : ℝ × ℝ → ℝ, ComputesReal S.conj c ∧ ComputesReal S.disj d ∧
      (∀ x, x ≠ 0 → AnalyticAt ℝ c x ∧ AnalyticAt ℝ d x) ∧
      ¬ DifferentiableAt ℝ c 0 ∧ ¬ DifferentiableAt ℝ d 0 := by
  obtain ⟨rfl, h1, h2⟩ := ralpha_ok hS
  exact ⟨_, _, (RAlpha.computes h1 h2).1, (RAlpha.computes h1 h2).2,
    fun x hx => ⟨(alphaFun_analytic h1 hα _ hx).analyticAt, (alphaFun_analytic h1 hα _ hx).analyticAt⟩,
    alphaFun_not_diff h1 (by norm_num), alphaFun_not_diff h1 (by norm_num)⟩

/-- Non-vacuity: `r0 = RAlpha(0.0)`. -/
example : ∃ S, RAlpha 0 = .ok S ∧ (0 : ℝ) < 1 := by
  obtain ⟨S, h⟩ := (C01_ralpha_sign_law 0).2.mpr (by norm_num)
  exact ⟨S, h, by norm_num⟩

/-- C118. The system `r1 = RAlpha(1.0)` is not differentiable exactly on the diagonal `a = b`. -/
theorem C118_r1 (S : RFun) (hS : RAlpha 1 = .ok S) :
    ∃ c d : ℝ × ℝ → ℝ, ComputesReal S.conj c ∧ ComputesReal S.disj d ∧
      (∀ x : ℝ × ℝ, x.1 ≠ x.2 → AnalyticAt ℝ c x ∧ AnalyticAt ℝ d x) ∧
      (∀ x : ℝ × ℝ, x.1 = x.2 → ¬ DifferentiableAt ℝ c x ∧ ¬ DifferentiableAt ℝ d x) := by
  obtain ⟨rfl, h1, h2⟩ := ralpha_ok hS
  have hsq (x : ℝ × ℝ) : x.1 ^ 2 + x.2 ^ 2 - 2 * 1 * x.1 * x.2 = (x.1 - x.2) ^ 2 := by ring
  have ha (σ : ℝ) (x : ℝ × ℝ) (hx : x.1 ≠ x.2) : ContDiffAt ℝ ω (alphaFun 1 σ) x := by
    unfold alphaFun
    have h3 : ContDiffAt ℝ ω (fun x : ℝ × ℝ => Real.sqrt (x.1 ^ 2 + x.2 ^ 2 - 2 * 1 * x.1 * x.2)) x := by
      refine ContDiffAt.sqrt ?_ ?_
      · fun_prop
      · rw [hsq]; exact pow_ne_zero _ (sub_ne_zero.mpr hx)
    fun_prop
  have hn (σ : ℝ) (hσ : σ ≠ 0) (x : ℝ × ℝ) (hx : x.1 = x.2) : ¬ DifferentiableAt ℝ (alphaFun 1 σ) x := by
    refine not_diff_of_abs (e := (1, 0)) (v := x.1) (k := 1 / 2) (l := 1 / 2 * σ)
      (mul_ne_zero (by norm_num) hσ) fun t => ?_
    unfold alphaFun
    rw [hsq, Real.sqrt_sq_eq_abs]
    simp only [Prod.fst_add, Prod.snd_add, Prod.smul_fst, Prod.smul_snd,
      smul_eq_mul, mul_one, mul_zero, add_zero, ← hx, add_sub_cancel_left]
    ring
  exact ⟨_, _, (RAlpha.computes h1 h2).1, (RAlpha.computes h1 h2).2,
    fun x hx => ⟨(ha _ x hx).analyticAt, (ha _ x hx).analyticAt⟩,
    fun x hx => ⟨hn _ (by norm_num) x hx, hn _ (by norm_num) x hx⟩⟩

/-- Non-vacuity: the constructor accepts `1.0`. -/
example : ∃ S, RAlpha 1 = .ok S := (C01_ralpha_sign_law 1).2.mpr (by norm_num)

/-! ## `RP` -/

noncomputable def pFun (p : ℕ) (σ : ℝ) (x : ℝ × ℝ) : ℝ := x.1 + x.2 + σ * pRoot p x.1 x.2

/-- C118. The systems `RP(p)`, `p` even and positive, are analytic in every point but the origin, where they are
not differentiable. In particular `rp4` is not "analytic everywhere", as the comment r_fun.py:198 says. -/
theorem C118_rp (p : ℕ) (hp : RP p = .ok (p : ℤ)) (hp0 : 0 < p) :
    ∃ c d : ℝ × ℝ → ℝ, ComputesReal (RP.sys p).conj c ∧ ComputesReal (RP.sys p).disj d ∧
      (∀ x, x ≠ 0 → AnalyticAt ℝ c x ∧ AnalyticAt ℝ d x) ∧
      ¬ DifferentiableAt ℝ c 0 ∧ ¬ DifferentiableAt ℝ d 0 := by
  have hev : p % 2 = 0 := by
    unfold RP at hp
    split at hp
    · omega
    · cases hp
  have hp2 : 2 ≤ p := by omega
  have ha (σ : ℝ) (x : ℝ × ℝ) (hx : x ≠ 0) : ContDiffAt ℝ ω (pFun p σ) x := by
    have h0 : 0 < x.1 ^ p + x.2 ^ p := by
      have h := ne_zero_pair hx
      have e1 := even_pow_nonneg hev x.1
      have e2 := even_pow_nonneg hev x.2
      by_contra hc
      have f1 : x.1 ^ p = 0 := by linarith
      have f2 : x.2 ^ p = 0 := by linarith
      rw [pow_eq_zero_iff (by omega)] at f1 f2
      rw [f1, f2] at h
      norm_num at h
    have h3 : ContDiffAt ℝ ω (fun x : ℝ × ℝ => (x.1 ^ p + x.2 ^ p) ^ (1 / (p : ℝ))) x := by
      refine ContDiffAt.rpow_const_of_ne ?_ h0.ne'
      fun_prop
    show ContDiffAt ℝ ω (fun x : ℝ × ℝ => x.1 + x.2 + σ * (x.1 ^ p + x.2 ^ p) ^ (1 / (p : ℝ))) x
    fun_prop
  have hn (σ : ℝ) (hσ : σ ≠ 0) : ¬ DifferentiableAt ℝ (pFun p σ) 0 := by
    refine not_diff_of_abs (e := (1, 0)) (v := 0) (k := 1) (l := σ) hσ fun t => ?_
    have : pRoot p t 0 = |t| := by
      rw [pRoot_comm]
      have : pRoot p 0 t = pRoot p 0 |t| := by
        unfold pRoot
        rw [(Nat.even_iff.mpr hev).pow_abs]
      rw [this, pRoot_zero_left hp2 (abs_nonneg t)]
    simp [pFun, this]
  refine ⟨pFun p (-1), pFun p 1, fun a b => ?_, fun a b => ?_,
    fun x hx => ⟨(ha _ x hx).analyticAt, (ha _ x hx).analyticAt⟩, hn _ (by norm_num), hn _ (by norm_num)⟩
  · rw [show (RP.sys p).conj = RP.conj p from rfl, RP.conj_fin hev]
    simp only [pFun]
    congr 1
    ring
  · rw [show (RP.sys p).disj = RP.disj p from rfl, RP.disj_fin hev]
    simp only [pFun]
    congr 1
    ring

/-- Non-vacuity: `rp4`. -/
example : RP (4 : ℕ) = .ok ((4 : ℕ) : ℤ) ∧ 0 < 4 := by decide

/-! ## `RAlphaM` -/

noncomputable def alphaMFun (m α σ : ℝ) (x : ℝ × ℝ) : ℝ :=
  alphaFun α σ x * (x.1 ^ 2 + x.2 ^ 2) ^ (m / 2)

theorem alphaFun_bound {α : ℝ} (h1 : -1 < α) (h2 : α ≤ 1) {σ : ℝ} (hσ : |σ| ≤ 1) (x : ℝ × ℝ) :
    |alphaFun α σ x| ≤ 4 / (1 + α) * ‖x‖ := by
  have h3 : 0 < 1 + α := by linarith
  have e1 : |x.1| ≤ ‖x‖ := norm_fst_le x
  have e2 : |x.2| ≤ ‖x‖ := norm_snd_le x
  have hn := norm_nonneg x
  have e3 : Real.sqrt (x.1 ^ 2 + x.2 ^ 2 - 2 * α * x.1 * x.2) ≤ 2 * ‖x‖ := by
    rw [Real.sqrt_le_iff]
    refine ⟨by positivity, ?_⟩
    have f1 : x.1 ^ 2 ≤ ‖x‖ ^ 2 := by rw [← sq_abs]; exact pow_le_pow_left₀ (abs_nonneg _) e1 2
    have f2 : x.2 ^ 2 ≤ ‖x‖ ^ 2 := by rw [← sq_abs]; exact pow_le_pow_left₀ (abs_nonneg _) e2 2
    have f3 : |α * (x.1 * x.2)| ≤ 1 * (‖x‖ * ‖x‖) := by
      rw [abs_mul, abs_mul]
      exact mul_le_mul (abs_le.mpr ⟨h1.le, h2⟩) (mul_le_mul e1 e2 (abs_nonneg _) hn) (by positivity) (by norm_num)
    have := (abs_le.mp f3).1
    nlinarith
  unfold alphaFun
  rw [abs_mul, abs_of_pos (one_div_pos.mpr h3), div_mul_eq_mul_div, div_mul_eq_mul_div, one_mul]
  refine div_le_div_of_nonneg_right ?_ h3.le
  have e4 : |σ * Real.sqrt (x.1 ^ 2 + x.2 ^ 2 - 2 * α * x.1 * x.2)| ≤ 2 * ‖x‖ := by
    rw [abs_mul, abs_of_nonneg (Real.sqrt_nonneg _)]
    calc |σ| * _ ≤ 1 * (2 * ‖x‖) := mul_le_mul hσ e3 (Real.sqrt_nonneg _) (by norm_num)
      _ = _ := one_mul _
  calc _ ≤ |x.1 + x.2| + _ := abs_add_le _ _
    _ ≤ (|x.1| + |x.2|) + 2 * ‖x‖ := add_le_add (abs_add_le _ _) e4
    _ ≤ _ := by linarith

theorem alphaMFun_deriv_zero {m α : ℝ} (hm : 0 < m) (h1 : -1 < α) (h2 : α ≤ 1) {σ : ℝ} (hσ : |σ| ≤ 1) :
    HasFDerivAt (alphaMFun m α σ) (0 : ℝ × ℝ →L[ℝ] ℝ) 0 := by
  rw [hasFDerivAt_iff_isLittleO_nhds_zero]
  have h0 : alphaMFun m α σ 0 = 0 := by simp [alphaMFun, alphaFun]
  simp only [zero_add, h0, sub_zero, zero_apply]
  have hO : (alphaFun α σ) =O[𝓝 0] (fun x : ℝ × ℝ => x) :=
    Asymptotics.IsBigO.of_bound (4 / (1 + α)) (Eventually.of_forall fun x => alphaFun_bound h1 h2 hσ x)
  have ho : (fun x : ℝ × ℝ => (x.1 ^ 2 + x.2 ^ 2) ^ (m / 2)) =o[𝓝 0] (fun _ => (1 : ℝ)) := by
    rw [Asymptotics.isLittleO_one_iff]
    have hc : ContinuousAt (fun x : ℝ × ℝ => (x.1 ^ 2 + x.2 ^ 2) ^ (m / 2)) 0 := by
      refine ContinuousAt.rpow_const (by fun_prop) (Or.inr (by linarith))
    have := hc.tendsto
    simpa [Real.zero_rpow (by linarith : m / 2 ≠ 0)] using this
  have := hO.norm_right.mul_isLittleO ho
  have h2 : (alphaMFun m α σ) =o[𝓝 0] fun x : ℝ × ℝ => ‖x‖ :=
    this.congr_right fun x => mul_one _
  exact h2.of_norm_right

/-- C118. The systems `RAlphaM(m, alpha)` with `m > 0` are differentiable at the origin, with derivative zero; for
`alpha < 1` they are analytic in every other point. -/
theorem C118_ralpham (m α : ℝ) (hm : 0 < m) (S : RFun) (hS : RAlphaM m α = .ok S) :
    ∃ c d : ℝ × ℝ → ℝ, ComputesReal S.conj c ∧ ComputesReal S.disj d ∧
      (α < 1 → ∀ x, x ≠ 0 → AnalyticAt ℝ c x ∧ AnalyticAt ℝ d x) ∧
      HasFDerivAt c (0 : ℝ × ℝ →L[ℝ] ℝ) 0 ∧ HasFDerivAt d (0 : ℝ × ℝ →L[ℝ] ℝ) 0 := by
  have hb : S = RAlphaM.sys m α ∧ -1 < α ∧ α ≤ 1 := by
    unfold RAlphaM at hS
    split at hS
    · rename_i h'; cases hS; exact ⟨rfl, h'⟩
    · cases hS
  obtain ⟨rfl, h1, h2⟩ := hb
  have ha (hα : α < 1) (σ : ℝ) (x : ℝ × ℝ) (hx : x ≠ 0) : ContDiffAt ℝ ω (alphaMFun m α σ) x := by
    have h3 : ContDiffAt ℝ ω (fun x : ℝ × ℝ => (x.1 ^ 2 + x.2 ^ 2) ^ (m / 2)) x := by
      refine ContDiffAt.rpow_const_of_ne ?_ (ne_zero_pair hx).ne'
      fun_prop
    exact (alphaFun_analytic h1 hα σ hx).mul h3
  refine ⟨alphaMFun m α (-1), alphaMFun m α 1, fun a b => ?_, fun a b => ?_,
    fun hα x hx => ⟨(ha hα _ x hx).analyticAt, (ha hα _ x hx).analyticAt⟩,
    alphaMFun_deriv_zero hm h1 h2 (by norm_num), alphaMFun_deriv_zero hm h1 h2 (by norm_num)⟩
  · rw [show (RAlphaM.sys m α).conj = RAlphaM.conj m α from rfl, RAlphaM.conj_fin h1 h2 (Or.inr hm.le)]
    simp only [alphaMFun, alphaFun]
    congr 1
    ring
  · rw [show (RAlphaM.sys m α).disj = RAlphaM.disj m α from rfl, RAlphaM.disj_dual, fin_neg, fin_neg,
      RAlphaM.conj_fin h1 h2 (Or.inr hm.le), fin_neg]
    simp only [alphaMFun, alphaFun]
    congr 1
    ring_nf

/-- Non-vacuity: `RAlphaM(1, 0)`. -/
example : ∃ S, RAlphaM 1 0 = .ok S ∧ (0 : ℝ) < 1 := by
  refine ⟨RAlphaM.sys 1 0, ?_, by norm_num⟩
  unfold RAlphaM
  rw [if_pos (by norm_num)]

/-! ## `RhoBlending` -/

theorem blend_hasDerivAt (t : ℝ) : HasDerivAt (fun t : ℝ => t * (t - |t|)) (2 * (t - |t|)) t := by
  rcases lt_trichotomy t 0 with h | rfl | h
  · have h1 : HasDerivAt (fun t : ℝ => 2 * t ^ 2) (2 * (t - |t|)) t := by
      have := (hasDerivAt_pow 2 t).const_mul 2
      exact this.congr_deriv (by rw [abs_of_neg h]; push_cast; ring)
    refine h1.congr_of_eventuallyEq ?_
    filter_upwards [gt_mem_nhds h] with s hs
    rw [abs_of_neg hs]; ring
  · rw [hasDerivAt_iff_isLittleO_nhds_zero]
    simp only [zero_add, abs_zero, sub_self, mul_zero, sub_zero, smul_zero]
    have hO : (fun t : ℝ => t) =O[𝓝 0] (fun t : ℝ => t) := Asymptotics.isBigO_refl _ _
    have ho : (fun t : ℝ => t - |t|) =o[𝓝 0] (fun _ => (1 : ℝ)) := by
      rw [Asymptotics.isLittleO_one_iff]
      have hc : Continuous (fun t : ℝ => t - |t|) := by fun_prop
      simpa using hc.tendsto 0
    simpa using hO.mul_isLittleO ho
  · have h1 : HasDerivAt (fun _ : ℝ => (0 : ℝ)) (2 * (t - |t|)) t :=
      (hasDerivAt_const t (0 : ℝ)).congr_deriv (by rw [abs_of_pos h]; ring)
    refine h1.congr_of_eventuallyEq ?_
    filter_upwards [lt_mem_nhds h] with s hs
    rw [abs_of_pos hs]; ring

theorem blend_contDiff : ContDiff ℝ 1 (fun t : ℝ => t * (t - |t|)) := by
  rw [contDiff_one_iff_deriv]
  refine ⟨fun t => (blend_hasDerivAt t).differentiableAt, ?_⟩
  rw [show deriv (fun t : ℝ => t * (t - |t|)) = fun t => 2 * (t - |t|) from
    funext fun t => (blend_hasDerivAt t).deriv]
  fun_prop

noncomputable def rhoRad (ρ : ℝ) (x : ℝ × ℝ) : ℝ :=
  x.1 ^ 2 + x.2 ^ 2 + 1 / (8 * ρ) *
    ((x.1 ^ 2 + x.2 ^ 2 - ρ ^ 2) * (x.1 ^ 2 + x.2 ^ 2 - ρ ^ 2 - |x.1 ^ 2 + x.2 ^ 2 - ρ ^ 2|))

theorem rhoRad_pos {ρ : ℝ} (hρ : 0 < ρ) (x : ℝ × ℝ) : 0 < rhoRad ρ x := by
  unfold rhoRad
  have hu : 0 ≤ x.1 ^ 2 + x.2 ^ 2 := by positivity
  generalize x.1 ^ 2 + x.2 ^ 2 = u at *
  have hc : 0 < 1 / (8 * ρ) := by positivity
  rcases le_or_gt 0 (u - ρ ^ 2) with h | h
  · rw [abs_of_nonneg h]
    have : 0 < ρ ^ 2 := by positivity
    simp
    linarith
  · rw [abs_of_neg h]
    have : 0 < (u - ρ ^ 2) * (u - ρ ^ 2 - -(u - ρ ^ 2)) := by nlinarith
    have := mul_pos hc this
    linarith

theorem rhoRad_contDiff (ρ : ℝ) : ContDiff ℝ 1 (rhoRad ρ) := by
  unfold rhoRad
  have h : ContDiff ℝ 1 (fun x : ℝ × ℝ =>
      (x.1 ^ 2 + x.2 ^ 2 - ρ ^ 2) * (x.1 ^ 2 + x.2 ^ 2 - ρ ^ 2 - |x.1 ^ 2 + x.2 ^ 2 - ρ ^ 2|)) :=
    blend_contDiff.comp (f := fun x : ℝ × ℝ => x.1 ^ 2 + x.2 ^ 2 - ρ ^ 2) (by fun_prop)
  fun_prop

theorem rhoRad_analytic {ρ : ℝ} {x : ℝ × ℝ} (hx : x.1 ^ 2 + x.2 ^ 2 ≠ ρ ^ 2) : ContDiffAt ℝ ω (rhoRad ρ) x := by
  unfold rhoRad
  have h : ContDiffAt ℝ ω (fun x : ℝ × ℝ => |x.1 ^ 2 + x.2 ^ 2 - ρ ^ 2|) x := by
    simp only [← Real.sqrt_sq_eq_abs]
    exact ContDiffAt.sqrt (by fun_prop) (pow_ne_zero _ (sub_ne_zero.mpr hx))
  fun_prop

/-- C118. `RhoBlending(rho)` with `rho > 0` is continuously differentiable everywhere, the origin included, and
analytic off the circle of radius `rho`. -/
theorem C118_rho_blending (ρ : ℝ) (hρ : 0 < ρ) :
    ∃ c d : ℝ × ℝ → ℝ, ComputesReal (RhoBlending ρ).conj c ∧ ComputesReal (RhoBlending ρ).disj d ∧
      ContDiff ℝ 1 c ∧ ContDiff ℝ 1 d ∧
      ∀ x : ℝ × ℝ, x.1 ^ 2 + x.2 ^ 2 ≠ ρ ^ 2 → AnalyticAt ℝ c x ∧ AnalyticAt ℝ d x := by
  have hz : (8 : ℝ) * ρ ≠ 0 := by positivity
  have hs : ContDiff ℝ 1 (fun x => Real.sqrt (rhoRad ρ x)) :=
    (rhoRad_contDiff ρ).sqrt fun x => (rhoRad_pos hρ x).ne'
  have hr (a b : ℝ) : a ^ 2 + b ^ 2 + 1 / (8 * ρ) * (a ^ 2 + b ^ 2 - ρ ^ 2) *
      (a ^ 2 + b ^ 2 - ρ ^ 2 - |a ^ 2 + b ^ 2 - ρ ^ 2|) = rhoRad ρ (a, b) := by
    simp only [rhoRad]; ring
  refine ⟨fun x => x.1 + x.2 - Real.sqrt (rhoRad ρ x), fun x => x.1 + x.2 + Real.sqrt (rhoRad ρ x),
    fun a b => ?_, fun a b => ?_, by fun_prop, by fun_prop, fun x hx => ?_⟩
  · show RhoBlending.conj ρ _ _ = _
    simp only [RhoBlending.conj, one_eq, lit_eq, fin_npow, fin_add, fin_sub, fin_mul, fin_div _ hz, fin_abs, hr]
    rw [fin_sqrt (rhoRad_pos hρ _).le, fin_sub]
  · show RhoBlending.disj ρ _ _ = _
    simp only [RhoBlending.disj, one_eq, lit_eq, fin_npow, fin_add, fin_sub, fin_mul, fin_div _ hz, fin_abs, hr]
    rw [fin_sqrt (rhoRad_pos hρ _).le, fin_add]
  · have h := (rhoRad_analytic hx).sqrt (rhoRad_pos hρ x).ne'
    refine ⟨ContDiffAt.analyticAt ?_, ContDiffAt.analyticAt ?_⟩ <;> fun_prop

/-- Non-vacuity: radius one half. -/
example : (0 : ℝ) < 1 / 2 := by norm_num

end Verif
