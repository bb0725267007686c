import Mathlib.Analysis.Calculus.ContDiff.Basic
import Mathlib.Analysis.Calculus.ContDiff.Operations
import Mathlib.Analysis.Calculus.FDeriv.Symmetric
import Mathlib.Analysis.Calculus.MeanValue
import Mathlib.Analysis.Normed.Module.FiniteDimension
import Mathlib.Analysis.SpecialFunctions.Exp
import Mathlib.Analysis.SpecialFunctions.Exponential
import Mathlib.Tactic
import Verif.Props.Ode
import Verif.Props.QuadError

/-!
# C113, C114: convergence of `odeint`
-/

namespace Verif

open Set

/-- Spec: `ts` starts at `t0`, does not decrease, ends at `T` at the latest and has steps of at most `h`. -/
def TimeGrid (ts : List ℝ) (t0 T h : ℝ) : Prop :=
  ts.head? = some t0 ∧ (∀ t ∈ ts, t ≤ T) ∧ ts.IsChain fun s t => s ≤ t ∧ t - s ≤ h

section
variable {E : Type*} [NormedAddCommGroup E] [NormedSpace ℝ E]

omit [NormedSpace ℝ E] in
/-- One-step methods: local errors of order `p + 1` add up to a global error of order `p`. -/
theorem one_step_error {df : E → ℝ → E} {method : OdeMethod E} {Y : ℝ → E} {t0 T h L C ρ : ℝ} {p : ℕ} (hL : 0 ≤ L)
    (hC : 0 ≤ C)
    (hstab : ∀ s t y, t0 ≤ s → s ≤ t → t ≤ T → t - s ≤ h → ‖y - Y s‖ ≤ ρ →
      ‖method df y t (t - s) - method df (Y s) t (t - s)‖ ≤ Real.exp (L * (t - s)) * ‖y - Y s‖)
    (hcons : ∀ s t, t0 ≤ s → s ≤ t → t ≤ T → t - s ≤ h → ‖method df (Y s) t (t - s) - Y t‖ ≤ C * (t - s) ^ (p + 1))
    (hsmall : C * h ^ p * (T - t0) * Real.exp (L * (T - t0)) ≤ ρ) {ts : List ℝ} (hts : TimeGrid ts t0 T h) :
    ∀ i < ts.length, ‖(odeint df (Y t0) ts method).getD i 0 - Y (ts.getD i 0)‖ ≤
      C * h ^ p * (ts.getD i 0 - t0) * Real.exp (L * (ts.getD i 0 - t0)) := by
  have key : ∀ (ts : List ℝ) (s : ℝ) (y : E), ts.head? = some s → t0 ≤ s → (∀ t ∈ ts, t ≤ T) →
      ts.IsChain (fun s t => s ≤ t ∧ t - s ≤ h) → ‖y - Y s‖ ≤ C * h ^ p * (s - t0) * Real.exp (L * (s - t0)) →
      ∀ i < ts.length, ‖(odeint df y ts method).getD i 0 - Y (ts.getD i 0)‖ ≤
        C * h ^ p * (ts.getD i 0 - t0) * Real.exp (L * (ts.getD i 0 - t0)) := by
    intro ts
    induction ts with
    | nil => intro s y h0; simp at h0
    | cons s ts ih =>
      intro s' y h0 hs hT hch hy i hi
      simp only [List.head?_cons, Option.some.injEq] at h0
      subst h0
      cases i with
      | zero => simpa [odeint] using hy
      | succ i =>
        cases ts with
        | nil => simp at hi
        | cons t ts =>
          rw [List.isChain_cons_cons] at hch
          obtain ⟨⟨hst, hh⟩, hch⟩ := hch
          have htT : t ≤ T := hT t (by simp)
          have hh0 : 0 ≤ h := le_trans (by linarith) hh
          simp only [odeint_cons, List.getD_cons_succ]
          refine ih t _ rfl (hs.trans hst) (fun t ht => hT t (by simp [ht])) hch ?_ i (by simpa using hi)
          have hρ : ‖y - Y s‖ ≤ ρ := by
            refine hy.trans (le_trans ?_ hsmall)
            have h1 : C * h ^ p * (s - t0) ≤ C * h ^ p * (T - t0) :=
              mul_le_mul_of_nonneg_left (by linarith) (by positivity)
            have h2 : Real.exp (L * (s - t0)) ≤ Real.exp (L * (T - t0)) :=
              Real.exp_le_exp.mpr (mul_le_mul_of_nonneg_left (by linarith) hL)
            exact mul_le_mul h1 h2 (Real.exp_nonneg _) (mul_nonneg (by positivity) (by linarith))
          have e : method df y t (t - s) - Y t =
            (method df y t (t - s) - method df (Y s) t (t - s)) + (method df (Y s) t (t - s) - Y t) := by abel
          rw [e]
          refine (norm_add_le _ _).trans ((add_le_add (hstab s t y hs hst htT hh hρ) (hcons s t hs hst htT hh)).trans ?_)
          have b1 : Real.exp (L * (t - s)) * ‖y - Y s‖ ≤ C * h ^ p * (s - t0) * Real.exp (L * (t - t0)) := by
            refine (mul_le_mul_of_nonneg_left hy (Real.exp_nonneg _)).trans (le_of_eq ?_)
            rw [show L * (t - t0) = L * (t - s) + L * (s - t0) by ring, Real.exp_add]
            ring
          have b2 : C * (t - s) ^ (p + 1) ≤ C * h ^ p * (t - s) * Real.exp (L * (t - t0)) := by
            have h1 : (t - s) ^ p ≤ h ^ p := pow_le_pow_left₀ (by linarith) hh p
            have h2 : 1 ≤ Real.exp (L * (t - t0)) := Real.one_le_exp (mul_nonneg hL (by linarith))
            calc C * (t - s) ^ (p + 1) = C * (t - s) ^ p * (t - s) := by rw [pow_succ]; ring
              _ ≤ C * h ^ p * (t - s) :=
                mul_le_mul_of_nonneg_right (mul_le_mul_of_nonneg_left h1 hC) (by linarith)
              _ ≤ C * h ^ p * (t - s) * Real.exp (L * (t - t0)) :=
                le_mul_of_one_le_right (mul_nonneg (by positivity) (by linarith)) h2
          refine (add_le_add b1 b2).trans (le_of_eq ?_)
          ring
  exact key ts t0 (Y t0) hts.1 le_rfl hts.2.1 hts.2.2 (by simp)

/-- Bounds of the dynamics and its derivative near a trajectory. -/
structure Tube (f : E → ℝ → E) (Y : ℝ → E) (t0 T L B : ℝ) : Prop where
  L_nonneg : 0 ≤ L
  B_nonneg : 0 ≤ B
  lip : ∀ s ∈ Icc t0 T, ∀ y ∈ Metric.closedBall (Y s) 1, ∀ z ∈ Metric.closedBall (Y s) 1,
    ∀ τ ∈ Icc t0 (T + 2), ∀ τ' ∈ Icc t0 (T + 2), ‖f y τ - f z τ'‖ ≤ L * (‖y - z‖ + |τ - τ'|)
  bound : ∀ s ∈ Icc t0 T, ∀ y ∈ Metric.closedBall (Y s) 1, ∀ τ ∈ Icc t0 (T + 2), ‖f y τ‖ ≤ B

theorem exists_tube [FiniteDimensional ℝ E] {f : E → ℝ → E} (hf : ContDiff ℝ 1 fun p : E × ℝ => f p.1 p.2) {Y : ℝ → E}
    {t0 T : ℝ} (hY : ContinuousOn Y (Icc t0 T)) : ∃ L B, Tube f Y t0 T L B := by
  have : ProperSpace E := FiniteDimensional.proper ℝ E
  have hd : Differentiable ℝ fun p : E × ℝ => f p.1 p.2 := hf.differentiable (by norm_num)
  set K : Set (ℝ × E × ℝ) := Icc t0 T ×ˢ Metric.closedBall (0 : E) 1 ×ˢ Icc t0 (T + 2) with hK
  have hKc : IsCompact K := isCompact_Icc.prod ((isCompact_closedBall 0 1).prod isCompact_Icc)
  have hcont : ContinuousOn (fun q : ℝ × E × ℝ => ((Y q.1 + q.2.1, q.2.2) : E × ℝ)) K := by
    refine ContinuousOn.prodMk (ContinuousOn.add (hY.comp continuous_fst.continuousOn fun q hq => hq.1) ?_) ?_ <;>
      fun_prop
  obtain ⟨L, hL⟩ := hKc.exists_bound_of_continuousOn
    ((hf.continuous_fderiv (by norm_num)).comp_continuousOn hcont)
  obtain ⟨B, hB⟩ := hKc.exists_bound_of_continuousOn (hf.continuous.comp_continuousOn hcont)
  have mem : ∀ s ∈ Icc t0 T, ∀ y ∈ Metric.closedBall (Y s) 1, ∀ τ ∈ Icc t0 (T + 2), (s, y - Y s, τ) ∈ K := by
    intro s hs y hy τ hτ
    refine ⟨hs, ?_, hτ⟩
    rw [mem_closedBall_zero_iff, ← dist_eq_norm]
    exact hy
  refine ⟨max L 0, max B 0, le_max_right _ _, le_max_right _ _, ?_, ?_⟩
  · intro s hs y hy z hz τ hτ τ' hτ'
    have hconv : Convex ℝ (Metric.closedBall (Y s) 1 ×ˢ Icc t0 (T + 2)) := (convex_closedBall _ _).prod (convex_Icc _ _)
    have := hconv.norm_image_sub_le_of_norm_hasFDerivWithin_le (f := fun p : E × ℝ => f p.1 p.2)
      (f' := fun p => fderiv ℝ (fun p : E × ℝ => f p.1 p.2) p) (C := L) (x := (z, τ')) (y := (y, τ))
      (fun p _ => (hd p).hasFDerivAt.hasFDerivWithinAt) (fun p hp => ?_) ⟨hz, hτ'⟩ ⟨hy, hτ⟩
    · refine this.trans (mul_le_mul (le_max_left _ _) ?_ (norm_nonneg _) (le_max_right _ _))
      rw [Prod.norm_def]
      exact max_le (le_add_of_nonneg_right (abs_nonneg _)) (le_add_of_nonneg_left (norm_nonneg _))
    · have := hL _ (mem s hs p.1 hp.1 p.2 hp.2)
      simpa using this
  · intro s hs y hy τ hτ
    have := hB _ (mem s hs y hy τ hτ)
    exact (by simpa using this : ‖f y τ‖ ≤ B).trans (le_max_left _ _)

section
variable {f : E → ℝ → E} {Y : ℝ → E} {t0 T L B : ℝ}

omit [NormedSpace ℝ E] in
theorem Tube.near (hT : Tube f Y t0 T L B) {s : ℝ} {y a : E} {δ : ℝ} (hy : ‖y - Y s‖ ≤ 1 / 2) (ha : ‖a‖ ≤ δ * B)
    (hB : δ * B ≤ 1 / 2) : y + a ∈ Metric.closedBall (Y s) 1 := by
  have _ := hT
  rw [Metric.mem_closedBall, dist_eq_norm, show y + a - Y s = (y - Y s) + a by abel]
  exact (norm_add_le _ _).trans (by linarith)

/-- The stages of `rk4` near the trajectory. -/
theorem Tube.stages (hT : Tube f Y t0 T L B) {s t : ℝ} (hs : t0 ≤ s) (hst : s ≤ t) (htT : t ≤ T) (h1 : t - s ≤ 1)
    (hB : (t - s) * B ≤ 1 / 2) {y : E} (hy : ‖y - Y s‖ ≤ 1 / 2) :
    ∃ k₁ k₂ k₃ k₄ : E, k₁ = f y t ∧ k₂ = f (y + ((t - s) / 2) • k₁) (t + (t - s) / 2) ∧
      k₃ = f (y + ((t - s) / 2) • k₂) (t + (t - s) / 2) ∧ k₄ = f (y + (t - s) • k₃) (t + (t - s)) ∧
      rk4 f y t (t - s) = y + ((t - s) / 6) • (k₁ + (2 : ℝ) • k₂ + (2 : ℝ) • k₃ + k₄) ∧
      ‖k₁‖ ≤ B ∧ ‖k₂‖ ≤ B ∧ ‖k₃‖ ≤ B ∧ ‖k₄‖ ≤ B := by
  set δ := t - s with hδ
  have hδ0 : 0 ≤ δ := by linarith
  have hsI : s ∈ Icc t0 T := ⟨hs, hst.trans htT⟩
  have small : ∀ (c : ℝ) (k : E), 0 ≤ c → c ≤ δ → ‖k‖ ≤ B → ‖c • k‖ ≤ δ * B := by
    intro c k h0 hc hk
    rw [norm_smul, Real.norm_of_nonneg h0]
    exact mul_le_mul hc hk (norm_nonneg _) hδ0
  have b1 : ‖f y t‖ ≤ B := hT.bound s hsI y (by
    have := hT.near (a := 0) (δ := δ) hy (by simpa using mul_nonneg hδ0 hT.B_nonneg) hB
    simpa using this) t ⟨by linarith, by linarith⟩
  have m1 := hT.near hy (small (δ / 2) (f y t) (by linarith) (by linarith) b1) hB
  have b2 : ‖f (y + (δ / 2) • f y t) (t + δ / 2)‖ ≤ B := hT.bound s hsI _ m1 _ ⟨by linarith, by linarith⟩
  have m2 := hT.near hy (small (δ / 2) _ (by linarith) (by linarith) b2) hB
  have b3 : ‖f (y + (δ / 2) • f (y + (δ / 2) • f y t) (t + δ / 2)) (t + δ / 2)‖ ≤ B :=
    hT.bound s hsI _ m2 _ ⟨by linarith, by linarith⟩
  have m3 := hT.near hy (small δ _ hδ0 le_rfl b3) hB
  have b4 := hT.bound s hsI _ m3 (t + δ) ⟨by linarith, by linarith⟩
  refine ⟨_, _, _, _, rfl, rfl, rfl, rfl, ?_, b1, b2, b3, b4⟩
  simp only [rk4]
  have e : ∀ k : E, (1 / 2 : ℝ) • δ • k = (δ / 2) • k := fun k => by rw [smul_smul]; congr 1; ring
  simp only [e]
  module

theorem Tube.rk4_stab (hT : Tube f Y t0 T L B) {s t : ℝ} (hs : t0 ≤ s) (hst : s ≤ t) (htT : t ≤ T) (h1 : t - s ≤ 1)
    (hB : (t - s) * B ≤ 1 / 2) {y : E} (hy : ‖y - Y s‖ ≤ 1 / 2) :
    ‖rk4 f y t (t - s) - rk4 f (Y s) t (t - s)‖ ≤ Real.exp (L * (t - s)) * ‖y - Y s‖ := by
  obtain ⟨k₁, k₂, k₃, k₄, e1, e2, e3, e4, e, b1, b2, b3, b4⟩ := hT.stages hs hst htT h1 hB hy
  obtain ⟨l₁, l₂, l₃, l₄, e1', e2', e3', e4', e', b1', b2', b3', b4'⟩ := hT.stages hs hst htT h1 hB (y := Y s) (by simp)
  set δ := t - s with hδ
  have hδ0 : 0 ≤ δ := by linarith
  have hL := hT.L_nonneg
  have hsI : s ∈ Icc t0 T := ⟨hs, hst.trans htT⟩
  have small : ∀ (c : ℝ) (k : E), 0 ≤ c → c ≤ δ → ‖k‖ ≤ B → ‖c • k‖ ≤ δ * B := by
    intro c k h0 hc hk
    rw [norm_smul, Real.norm_of_nonneg h0]
    exact mul_le_mul hc hk (norm_nonneg _) hδ0
  have hy' : ‖Y s - Y s‖ ≤ 1 / 2 := by simp
  have stage : ∀ (c τ : ℝ) (k l : E), 0 ≤ c → c ≤ δ → ‖k‖ ≤ B → ‖l‖ ≤ B → τ ∈ Icc t0 (T + 2) →
      ‖f (y + c • k) τ - f (Y s + c • l) τ‖ ≤ L * (‖y - Y s‖ + c * ‖k - l‖) := by
    intro c τ k l h0 hc hk hl hτ
    have := hT.lip s hsI _ (hT.near hy (small c k h0 hc hk) hB) _ (hT.near hy' (small c l h0 hc hl) hB) τ hτ τ hτ
    rw [sub_self, abs_zero, add_zero] at this
    refine this.trans (mul_le_mul_of_nonneg_left ?_ hL)
    rw [show y + c • k - (Y s + c • l) = (y - Y s) + c • (k - l) by rw [smul_sub]; abel]
    refine (norm_add_le _ _).trans ?_
    rw [norm_smul, Real.norm_of_nonneg h0]
  set ε := ‖y - Y s‖ with hε
  have hε0 : 0 ≤ ε := norm_nonneg _
  have d1 : ‖k₁ - l₁‖ ≤ L * ε := by
    have := stage 0 t 0 0 le_rfl hδ0 (by simpa using hT.B_nonneg) (by simpa using hT.B_nonneg) ⟨by linarith, by linarith⟩
    simp only [smul_zero, add_zero, zero_mul] at this
    rwa [e1, e1']
  have d2 : ‖k₂ - l₂‖ ≤ L * (ε + δ / 2 * (L * ε)) := by
    rw [e2, e2']
    refine (stage (δ / 2) _ k₁ l₁ (by linarith) (by linarith) b1 b1' ⟨by linarith, by linarith⟩).trans ?_
    gcongr
  have d3 : ‖k₃ - l₃‖ ≤ L * (ε + δ / 2 * (L * (ε + δ / 2 * (L * ε)))) := by
    rw [e3, e3']
    refine (stage (δ / 2) _ k₂ l₂ (by linarith) (by linarith) b2 b2' ⟨by linarith, by linarith⟩).trans ?_
    gcongr
  have d4 : ‖k₄ - l₄‖ ≤ L * (ε + δ * (L * (ε + δ / 2 * (L * (ε + δ / 2 * (L * ε)))))) := by
    rw [e4, e4']
    refine (stage δ _ k₃ l₃ (by linarith) (by linarith) b3 b3' ⟨by linarith, by linarith⟩).trans ?_
    gcongr
  have hexp : 1 + L * δ + (L * δ) ^ 2 / 2 + (L * δ) ^ 3 / 6 + (L * δ) ^ 4 / 24 ≤ Real.exp (L * δ) := by
    have := Real.sum_le_exp_of_nonneg (mul_nonneg hL hδ0) 5
    simp only [Finset.sum_range_succ, Finset.sum_range_zero, Nat.factorial] at this
    norm_num at this
    linarith
  rw [e, e']
  have e5 : y + (δ / 6) • (k₁ + (2 : ℝ) • k₂ + (2 : ℝ) • k₃ + k₄) -
      (Y s + (δ / 6) • (l₁ + (2 : ℝ) • l₂ + (2 : ℝ) • l₃ + l₄)) =
      (y - Y s) + (δ / 6) • ((k₁ - l₁) + (2 : ℝ) • (k₂ - l₂) + (2 : ℝ) • (k₃ - l₃) + (k₄ - l₄)) := by module
  rw [e5]
  have hsum : ‖(k₁ - l₁) + (2 : ℝ) • (k₂ - l₂) + (2 : ℝ) • (k₃ - l₃) + (k₄ - l₄)‖ ≤
      ‖k₁ - l₁‖ + 2 * ‖k₂ - l₂‖ + 2 * ‖k₃ - l₃‖ + ‖k₄ - l₄‖ := by
    refine (norm_add_le _ _).trans (add_le_add ((norm_add_le _ _).trans (add_le_add ((norm_add_le _ _).trans
      (add_le_add le_rfl ?_)) ?_)) le_rfl) <;> rw [norm_smul] <;> simp
  refine (norm_add_le _ _).trans ?_
  rw [norm_smul, Real.norm_of_nonneg (by linarith)]
  calc ε + δ / 6 * ‖(k₁ - l₁) + (2 : ℝ) • (k₂ - l₂) + (2 : ℝ) • (k₃ - l₃) + (k₄ - l₄)‖
      ≤ ε + δ / 6 * (L * ε + 2 * (L * (ε + δ / 2 * (L * ε))) + 2 * (L * (ε + δ / 2 * (L * (ε + δ / 2 * (L * ε))))) +
        L * (ε + δ * (L * (ε + δ / 2 * (L * (ε + δ / 2 * (L * ε))))))) := by
        gcongr
        refine hsum.trans ?_
        gcongr
    _ = (1 + L * δ + (L * δ) ^ 2 / 2 + (L * δ) ^ 3 / 6 + (L * δ) ^ 4 / 24) * ε := by ring
    _ ≤ Real.exp (L * δ) * ε := by gcongr

theorem Tube.euler_stab (hT : Tube f Y t0 T L B) {s t : ℝ} (hs : t0 ≤ s) (hst : s ≤ t) (htT : t ≤ T)
    {y : E} (hy : ‖y - Y s‖ ≤ 1 / 2) :
    ‖explicitEuler f y t (t - s) - explicitEuler f (Y s) t (t - s)‖ ≤ Real.exp (L * (t - s)) * ‖y - Y s‖ := by
  have hsI : s ∈ Icc t0 T := ⟨hs, hst.trans htT⟩
  have ht : t ∈ Icc t0 (T + 2) := ⟨by linarith, by linarith⟩
  have := hT.lip s hsI y (by rw [Metric.mem_closedBall, dist_eq_norm]; linarith) (Y s) (by simp) t ht t ht
  rw [sub_self, abs_zero, add_zero] at this
  simp only [explicitEuler]
  rw [show y + (t - s) • f y t - (Y s + (t - s) • f (Y s) t) = (y - Y s) + (t - s) • (f y t - f (Y s) t) by
    rw [smul_sub]; abel]
  refine (norm_add_le _ _).trans ?_
  rw [norm_smul, Real.norm_of_nonneg (by linarith)]
  have h1 : (t - s) * ‖f y t - f (Y s) t‖ ≤ (t - s) * (L * ‖y - Y s‖) := mul_le_mul_of_nonneg_left this (by linarith)
  have h2 : L * (t - s) + 1 ≤ Real.exp (L * (t - s)) := Real.add_one_le_exp _
  nlinarith [norm_nonneg (y - Y s)]

/-- The solution stays close to its tangent. -/
theorem Tube.solution (hT : Tube f Y t0 T L B) (hY : ∀ t ∈ Icc t0 T, HasDerivAt Y (f (Y t) t) t) {s t : ℝ} (hs : t0 ≤ s)
    (hst : s ≤ t) (htT : t ≤ T) (hB : (t - s) * B ≤ 1 / 2) :
    ‖Y t - Y s‖ ≤ (t - s) * B ∧ ‖Y t - Y s - (t - s) • f (Y s) s‖ ≤ L * (B + 1) * (t - s) ^ 2 := by
  have hmem : ∀ τ, s ≤ τ → τ ≤ t → τ ∈ Icc t0 T := fun τ h1 h2 => ⟨hs.trans h1, h2.trans htT⟩
  have hfB : ∀ τ, s ≤ τ → τ ≤ t → ‖f (Y τ) τ‖ ≤ B := fun τ h1 h2 =>
    hT.bound τ (hmem τ h1 h2) _ (by simp) τ ⟨hs.trans h1, by linarith⟩
  have h1 : ∀ τ ∈ Icc s t, ‖Y τ - Y s‖ ≤ B * (τ - s) :=
    norm_image_sub_le_of_norm_deriv_le_segment' (fun τ hτ => (hY τ (hmem τ hτ.1 hτ.2)).hasDerivWithinAt)
      (fun τ hτ => hfB τ hτ.1 hτ.2.le)
  refine ⟨by rw [mul_comm]; exact h1 t ⟨hst, le_rfl⟩, ?_⟩
  have hd : ∀ τ ∈ Icc s t, HasDerivWithinAt (fun τ => Y τ - (τ - s) • f (Y s) s) (f (Y τ) τ - f (Y s) s) (Icc s t) τ := by
    intro τ hτ
    have h2 := (((hasDerivAt_id τ).sub_const s).smul_const (f (Y s) s))
    simp only [id, one_smul] at h2
    exact ((hY τ (hmem τ hτ.1 hτ.2)).fun_sub h2).hasDerivWithinAt
  have := norm_image_sub_le_of_norm_deriv_le_segment' hd (C := L * (B + 1) * (t - s)) (fun τ hτ => ?_) t ⟨hst, le_rfl⟩
  · simp only [sub_self, zero_smul, sub_zero] at this
    rw [show Y t - Y s - (t - s) • f (Y s) s = Y t - (t - s) • f (Y s) s - Y s by abel]
    refine this.trans (le_of_eq (by ring))
  · have hb := h1 τ ⟨hτ.1, hτ.2.le⟩
    have hb' : ‖Y τ - Y s‖ ≤ B * (t - s) := hb.trans (mul_le_mul_of_nonneg_left (by linarith [hτ.2]) hT.B_nonneg)
    refine (hT.lip s (hmem s le_rfl hst) (Y τ) (by rw [Metric.mem_closedBall, dist_eq_norm]; linarith) (Y s) (by simp)
      τ ⟨by linarith [hτ.1], by linarith [hτ.2]⟩ s ⟨hs, by linarith⟩).trans ?_
    rw [mul_assoc]
    refine mul_le_mul_of_nonneg_left ?_ hT.L_nonneg
    rw [abs_of_nonneg (by linarith [hτ.1])]
    have := hτ.2
    linarith

theorem Tube.rk4_cons (hT : Tube f Y t0 T L B) (hY : ∀ t ∈ Icc t0 T, HasDerivAt Y (f (Y t) t) t) {s t : ℝ} (hs : t0 ≤ s)
    (hst : s ≤ t) (htT : t ≤ T) (h1 : t - s ≤ 1) (hB : (t - s) * B ≤ 1 / 2) :
    ‖rk4 f (Y s) t (t - s) - Y t‖ ≤ (L * (B + 2) + L * (B + 1)) * (t - s) ^ (1 + 1) := by
  obtain ⟨k₁, k₂, k₃, k₄, e1, e2, e3, e4, e, b1, b2, b3, b4⟩ := hT.stages hs hst htT h1 hB (y := Y s) (by simp)
  have hsol := (hT.solution hY hs hst htT hB).2
  set δ := t - s with hδ
  have hδ0 : 0 ≤ δ := by linarith
  have hsI : s ∈ Icc t0 T := ⟨hs, hst.trans htT⟩
  have stage : ∀ (c τ : ℝ) (k : E), 0 ≤ c → c ≤ δ → ‖k‖ ≤ B → t ≤ τ → τ ≤ t + δ →
      ‖f (Y s + c • k) τ - f (Y s) s‖ ≤ L * (B + 2) * δ := by
    intro c τ k h0 hc hk h1 h2
    have hck : ‖c • k‖ ≤ δ * B := by
      rw [norm_smul, Real.norm_of_nonneg h0]
      exact mul_le_mul hc hk (norm_nonneg _) hδ0
    refine (hT.lip s hsI _ (hT.near (y := Y s) (by simp) hck hB) (Y s) (by simp) τ ⟨by linarith, by linarith⟩ s
      ⟨hs, by linarith⟩).trans ?_
    rw [add_sub_cancel_left, abs_of_nonneg (by linarith), mul_assoc]
    refine mul_le_mul_of_nonneg_left ?_ hT.L_nonneg
    linarith
  have d1 : ‖k₁ - f (Y s) s‖ ≤ L * (B + 2) * δ := by
    have := stage 0 t 0 le_rfl hδ0 (by simpa using hT.B_nonneg) le_rfl (by linarith)
    simp only [smul_zero, add_zero] at this
    rwa [e1]
  have d2 : ‖k₂ - f (Y s) s‖ ≤ L * (B + 2) * δ := by
    rw [e2]; exact stage _ _ _ (by linarith) (by linarith) b1 (by linarith) (by linarith)
  have d3 : ‖k₃ - f (Y s) s‖ ≤ L * (B + 2) * δ := by
    rw [e3]; exact stage _ _ _ (by linarith) (by linarith) b2 (by linarith) (by linarith)
  have d4 : ‖k₄ - f (Y s) s‖ ≤ L * (B + 2) * δ := by
    rw [e4]; exact stage _ _ _ (by linarith) (by linarith) b3 (by linarith) (by linarith)
  set g := f (Y s) s
  have e5 : Y s + (δ / 6) • (k₁ + (2 : ℝ) • k₂ + (2 : ℝ) • k₃ + k₄) - Y t =
      (δ / 6) • ((k₁ - g) + (2 : ℝ) • (k₂ - g) + (2 : ℝ) • (k₃ - g) + (k₄ - g)) - (Y t - Y s - δ • g) := by module
  have hsum : ‖(k₁ - g) + (2 : ℝ) • (k₂ - g) + (2 : ℝ) • (k₃ - g) + (k₄ - g)‖ ≤
      ‖k₁ - g‖ + 2 * ‖k₂ - g‖ + 2 * ‖k₃ - g‖ + ‖k₄ - g‖ := by
    refine (norm_add_le _ _).trans (add_le_add ((norm_add_le _ _).trans (add_le_add ((norm_add_le _ _).trans
      (add_le_add le_rfl ?_)) ?_)) le_rfl) <;> rw [norm_smul] <;> simp
  rw [e, e5]
  refine (norm_sub_le _ _).trans ?_
  rw [norm_smul, Real.norm_of_nonneg (by linarith)]
  have : δ / 6 * ‖(k₁ - g) + (2 : ℝ) • (k₂ - g) + (2 : ℝ) • (k₃ - g) + (k₄ - g)‖ ≤ δ / 6 * (6 * (L * (B + 2) * δ)) :=
    mul_le_mul_of_nonneg_left (by linarith) (by linarith)
  calc _ ≤ δ / 6 * (6 * (L * (B + 2) * δ)) + L * (B + 1) * δ ^ 2 := add_le_add this hsol
    _ = _ := by ring

theorem Tube.euler_cons (hT : Tube f Y t0 T L B) (hY : ∀ t ∈ Icc t0 T, HasDerivAt Y (f (Y t) t) t) {s t : ℝ} (hs : t0 ≤ s)
    (hst : s ≤ t) (htT : t ≤ T) (hB : (t - s) * B ≤ 1 / 2) :
    ‖explicitEuler f (Y s) t (t - s) - Y t‖ ≤ (L * (B + 2) + L * (B + 1)) * (t - s) ^ (1 + 1) := by
  have hsol := (hT.solution hY hs hst htT hB).2
  set δ := t - s with hδ
  have hδ0 : 0 ≤ δ := by linarith
  have h1 := hT.lip s ⟨hs, hst.trans htT⟩ (Y s) (by simp) (Y s) (by simp) t ⟨by linarith, by linarith⟩ s ⟨hs, by linarith⟩
  rw [sub_self, norm_zero, zero_add, ← hδ, abs_of_nonneg hδ0] at h1
  simp only [explicitEuler]
  rw [show Y s + δ • f (Y s) t - Y t = δ • (f (Y s) t - f (Y s) s) - (Y t - Y s - δ • f (Y s) s) by
    rw [smul_sub]; abel]
  refine (norm_sub_le _ _).trans ?_
  rw [norm_smul, Real.norm_of_nonneg hδ0]
  have h2 : δ * ‖f (Y s) t - f (Y s) s‖ ≤ δ * (L * δ) := mul_le_mul_of_nonneg_left h1 hδ0
  have h3 : δ * (L * δ) ≤ L * (B + 2) * δ ^ 2 := by
    have := mul_nonneg hT.L_nonneg (sq_nonneg δ)
    nlinarith [mul_nonneg this hT.B_nonneg]
  calc _ ≤ L * (B + 2) * δ ^ 2 + L * (B + 1) * δ ^ 2 := add_le_add (h2.trans h3) hsol
    _ = _ := by ring

end

/-! ## C113 -/

/-- Spec: with the method, `odeint` has order `p` along the solution `Y`: on all time grids whose steps are at most `h`, `h` small
enough, all errors are at most `C h^p`. -/
def OdeOrder (method : OdeMethod E) (f : E → ℝ → E) (Y : ℝ → E) (t0 T : ℝ) (p : ℕ) : Prop :=
  ∃ C h₀, 0 < h₀ ∧ ∀ h, 0 < h → h ≤ h₀ → ∀ ts : List ℝ, TimeGrid ts t0 T h → ∀ i < ts.length,
    ‖(odeint f (Y t0) ts method).getD i 0 - Y (ts.getD i 0)‖ ≤ C * h ^ p

omit [NormedSpace ℝ E] in
theorem odeOrder_of {method : OdeMethod E} {f : E → ℝ → E} {Y : ℝ → E} {t0 T L C h₁ : ℝ} {p : ℕ} (hp : 1 ≤ p) (hL : 0 ≤ L)
    (hC : 0 ≤ C) (hh : 0 < h₁)
    (hstab : ∀ s t y, t0 ≤ s → s ≤ t → t ≤ T → t - s ≤ h₁ → ‖y - Y s‖ ≤ 1 / 2 →
      ‖method f y t (t - s) - method f (Y s) t (t - s)‖ ≤ Real.exp (L * (t - s)) * ‖y - Y s‖)
    (hcons : ∀ s t, t0 ≤ s → s ≤ t → t ≤ T → t - s ≤ h₁ → ‖method f (Y s) t (t - s) - Y t‖ ≤ C * (t - s) ^ (p + 1)) :
    OdeOrder method f Y t0 T p := by
  set K := C * |T - t0| * Real.exp (L * |T - t0|) with hK
  have hK0 : 0 ≤ K := by positivity
  refine ⟨K, min (min h₁ 1) (1 / (2 * (K + 1))), lt_min (lt_min hh one_pos) (by positivity), fun h hpos hh' ts hts i hi => ?_⟩
  have hh1 : h ≤ h₁ := hh'.trans ((min_le_left _ _).trans (min_le_left _ _))
  have hh2 : h ≤ 1 := hh'.trans ((min_le_left _ _).trans (min_le_right _ _))
  have hh3 : h ≤ 1 / (2 * (K + 1)) := hh'.trans (min_le_right _ _)
  -- all time stamps are at least `t0`
  have hge : ∀ (l : List ℝ) (s : ℝ), l.head? = some s → l.IsChain (fun s t => s ≤ t ∧ t - s ≤ h) → ∀ i < l.length, s ≤ l.getD i 0 := by
    intro l
    induction l with
    | nil => intro s h0; simp at h0
    | cons a l ih =>
      intro s h0 hch i hi
      simp only [List.head?_cons, Option.some.injEq] at h0
      subst h0
      cases i with
      | zero => simp
      | succ i =>
        cases l with
        | nil => simp at hi
        | cons b l =>
          rw [List.isChain_cons_cons] at hch
          rw [List.getD_cons_succ]
          exact hch.1.1.trans (ih b rfl hch.2 i (by simpa using hi))
  have hti := hge ts t0 hts.1 hts.2.2 i hi
  have hmem : ts.getD i 0 ∈ ts := by
    rw [List.getD_eq_getElem?_getD, List.getElem?_eq_getElem hi]
    exact List.getElem_mem hi
  have htT := hts.2.1 _ hmem
  have htT0 : 0 ≤ T - t0 := by linarith
  have hh0 : 0 ≤ h := hpos.le
  have := one_step_error hL hC (ρ := 1 / 2) (h := h) (p := p)
    (fun s t y h1 h2 h3 h4 h5 => hstab s t y h1 h2 h3 (h4.trans hh1) h5)
    (fun s t h1 h2 h3 h4 => hcons s t h1 h2 h3 (h4.trans hh1)) (by
      have e : C * h ^ p * (T - t0) * Real.exp (L * (T - t0)) = K * h ^ p := by
        rw [hK, abs_of_nonneg htT0]; ring
      rw [e]
      have hp1 : h ^ p ≤ h := by
        obtain ⟨q, rfl⟩ := Nat.exists_eq_add_of_le' hp
        rw [pow_succ]
        exact mul_le_of_le_one_left hh0 (pow_le_one₀ hh0 hh2)
      calc K * h ^ p ≤ (K + 1) * (1 / (2 * (K + 1))) :=
            mul_le_mul (by linarith) (hp1.trans hh3) (by positivity) (by linarith)
        _ = 1 / 2 := by field_simp) hts i hi
  refine this.trans ?_
  rw [hK, abs_of_nonneg htT0]
  have h1 : C * h ^ p * (ts.getD i 0 - t0) ≤ C * h ^ p * (T - t0) :=
    mul_le_mul_of_nonneg_left (by linarith) (by positivity)
  have h2 : Real.exp (L * (ts.getD i 0 - t0)) ≤ Real.exp (L * (T - t0)) :=
    Real.exp_le_exp.mpr (mul_le_mul_of_nonneg_left (by linarith) hL)
  refine (mul_le_mul h1 h2 (Real.exp_nonneg _) (mul_nonneg (by positivity) htT0)).trans (le_of_eq ?_)
  ring

/-- The bound of the step which keeps the stages of the methods near the trajectory. -/
theorem step_small {B h : ℝ} (hB : 0 ≤ B) (h1 : h ≤ min 1 (1 / (2 * (B + 1)))) {δ : ℝ} (hδ0 : 0 ≤ δ) (hδ : δ ≤ h) :
    δ ≤ 1 ∧ δ * B ≤ 1 / 2 := by
  refine ⟨hδ.trans (h1.trans (min_le_left _ _)), ?_⟩
  have h2 : δ ≤ 1 / (2 * (B + 1)) := hδ.trans (h1.trans (min_le_right _ _))
  rw [le_div_iff₀ (by positivity)] at h2
  nlinarith

/-- **C113**. For continuously differentiable dynamics, which may depend on the time, in finite dimension, both methods of
`odeint` have (at least) order one on every interval on which the solution exists: non-uniform grids are allowed and the
dynamics need not be globally Lipschitz continuous. In particular the values converge although the methods are called with
the end of the time step. -/
theorem C113_first_order [FiniteDimensional ℝ E] {f : E → ℝ → E} (hf : ContDiff ℝ 1 fun p : E × ℝ => f p.1 p.2) {Y : ℝ → E}
    {t0 T : ℝ} (hY : ∀ t ∈ Icc t0 T, HasDerivAt Y (f (Y t) t) t) :
    OdeOrder explicitEuler f Y t0 T 1 ∧ OdeOrder rk4 f Y t0 T 1 := by
  obtain ⟨L, B, hT⟩ := exists_tube hf (fun t ht => (hY t ht).continuousAt.continuousWithinAt)
  have hL := hT.L_nonneg
  have hB := hT.B_nonneg
  have hh : 0 < min 1 (1 / (2 * (B + 1))) := lt_min one_pos (by positivity)
  refine ⟨odeOrder_of (L := L) (C := L * (B + 2) + L * (B + 1)) le_rfl hL (by positivity) hh ?_ ?_,
    odeOrder_of (L := L) (C := L * (B + 2) + L * (B + 1)) le_rfl hL (by positivity) hh ?_ ?_⟩
  · intro s t y h1 h2 h3 h4 h5
    exact hT.euler_stab h1 h2 h3 h5
  · intro s t h1 h2 h3 h4
    exact hT.euler_cons hY h1 h2 h3 (step_small hB le_rfl (by linarith) h4).2
  · intro s t y h1 h2 h3 h4 h5
    obtain ⟨h6, h7⟩ := step_small hB le_rfl (by linarith) h4
    exact hT.rk4_stab h1 h2 h3 h6 h7 h5
  · intro s t h1 h2 h3 h4
    obtain ⟨h6, h7⟩ := step_small hB le_rfl (by linarith) h4
    exact hT.rk4_cons hY h1 h2 h3 h6 h7

/-- `y' = y² cos t` with the solution `1 / (2 - sin t)`; the dynamics are not globally Lipschitz continuous. -/
example : OdeOrder rk4 (fun (y : ℝ) t => y ^ 2 * Real.cos t) (fun t => (2 - Real.sin t)⁻¹) 0 5 1 :=
  (C113_first_order (by fun_prop) (by
    intro t _
    have hne : 2 - Real.sin t ≠ 0 := by linarith [Real.sin_le_one t]
    have := ((Real.hasDerivAt_sin t).const_sub 2).inv hne
    refine this.congr_deriv ?_
    field_simp)).2

end

open Polynomial in
/-- **C113** (sharpness). For `y' = 2 t`, which a Runge-Kutta method of order four integrates exactly, the error of `rk4` in
`odeint` on the uniform grid with step `δ` is exactly `2 δ (t - t0)`: the order is one and not better (see C53). -/
theorem C113_sharp (t0 δ : ℝ) (n i : ℕ) (hi : i < n) :
    (odeint (fun (_ : ℝ) t => 2 * t) (t0 ^ 2) ((List.range n).map fun k : ℕ => t0 + (k : ℝ) * δ) rk4).getD i 0 -
      (t0 + i * δ) ^ 2 = 2 * δ * (t0 + i * δ - t0) := by
  have hlen : i < (odeint (fun (_ : ℝ) t => (C 2 * X : ℝ[X]).eval t) (t0 ^ 2)
      ((List.range n).map fun k : ℕ => t0 + (k : ℝ) * δ) rk4).length := by
    rw [(C51_length_head _ _ _ _).1]; simpa using hi
  have h := C53_uniform_partial (C 2 * X) (by compute_degree; norm_num) (t0 ^ 2) t0 δ n i hi hlen
  have e : (fun (_ t : ℝ) => (C 2 * X : ℝ[X]).eval t) = fun (_ t : ℝ) => 2 * t := by
    funext _ t; simp
  simp only [e] at h hlen
  rw [List.getD_eq_getElem?_getD, List.getElem?_eq_getElem hlen, Option.getD_some, h]
  have e2 : ∀ s : ℝ, (C 2 * X : ℝ[X]).eval (s + δ) = 2 * s + 2 * δ := by
    intro s; simp; ring
  simp only [e2]
  rw [intervalIntegral.integral_add (by apply Continuous.intervalIntegrable; fun_prop) (by simp),
    intervalIntegral.integral_const_mul, integral_id, intervalIntegral.integral_const, smul_eq_mul]
  ring

/-- Five time stamps. -/
example : (odeint (fun (_ : ℝ) t => 2 * t) ((0 : ℝ) ^ 2) ((List.range 5).map fun k : ℕ => (0 : ℝ) + (k : ℝ) * (1 / 4)) rk4).getD 4 0 -
    (0 + (4 : ℕ) * (1 / 4)) ^ 2 = 2 * (1 / 4) * (0 + (4 : ℕ) * (1 / 4) - 0) :=
  C113_sharp 0 (1 / 4) 5 4 (by norm_num)

end Verif
