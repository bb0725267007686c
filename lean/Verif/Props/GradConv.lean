import Mathlib.Analysis.Calculus.ParametricIntegral
import Mathlib.Tactic
import Verif.Props.BoxConv
import Verif.Props.Harmonic
import Verif.Props.SurfConv

/-!
# C131: convergence of the derivatives of single layer potentials
-/

namespace Verif

open MeasureTheory Set
open scoped Topology

section
variable {E W : Type} [NormedAddCommGroup E] [NormedSpace ℝ E] [NormedAddCommGroup W] [NormedSpace ℝ W] [CompleteSpace W]

/-- Spec: the points of the surface with parameters in `[a, b] × [c, d]`. -/
def surfaceSet (r : Pt 2 → Pt 3) (a b c d : ℝ) : Set (Pt 3) := (fun p : Fin 2 → ℝ => r !₂[p 0, p 1]) '' Icc ![a, c] ![b, d]

theorem mem_surfaceSet {r : Pt 2 → Pt 3} {a b c d s t : ℝ} (hs : s ∈ Icc a b) (ht : t ∈ Icc c d) :
    r !₂[s, t] ∈ surfaceSet r a b c d := by
  refine ⟨![s, t], ⟨?_, ?_⟩, rfl⟩ <;> (intro i; fin_cases i)
  exacts [hs.1, ht.1, hs.2, ht.2]

theorem surfaceSet_compact {r : Pt 2 → Pt 3} (hr : Continuous r) (a b c d : ℝ) : IsCompact (surfaceSet r a b c d) :=
  isCompact_Icc.image (hr.comp toLp_pair_continuous)

/-- Cells on which the charge is replaced by its Taylor polynomial about the centre, with an arbitrary continuous kernel. -/
theorem kernel_converges {rule : QuadRule} (hq : CellRule rule W) {f : Pt 3 → E} {order : ℕ} (hf : ContDiff ℝ (order + 1) f)
    {r : Pt 2 → Pt 3} (hr : ContDiff ℝ 1 r) {a b c d : ℝ} (hab : a ≤ b) (hcd : c ≤ d) {K : Pt 3 → E →L[ℝ] W}
    (hK : ContinuousOn K (surfaceSet r a b c d)) :
    ∀ ε > 0, ∃ δ > 0, ∀ u v : List ℝ, FineGrid u a b δ → FineGrid v c d δ →
      ‖surfaceIntegral (fun y => K y (f y)) r a b c d - gridSum u v fun u0 u1 v0 v1 =>
        surfaceQuad (rule [u0, u1]) (rule [v0, v1]) r fun y =>
          K y (taylorPoly f order (r !₂[(u0 + u1) / 2, (v0 + v1) / 2]) y)‖ ≤ ε := by
  intro ε hε
  set B := Icc (![a, c] : Fin 2 → ℝ) ![b, d] with hB
  have memB : ∀ s ∈ Icc a b, ∀ t ∈ Icc c d, (![s, t] : Fin 2 → ℝ) ∈ B := by
    intro s hs t ht
    refine ⟨?_, ?_⟩ <;> (intro i; fin_cases i)
    exacts [hs.1, ht.1, hs.2, ht.2]
  have hrd : Differentiable ℝ r := hr.differentiable (by norm_num)
  have hKB : ContinuousOn (fun p : Fin 2 → ℝ => K (r !₂[p 0, p 1])) B :=
    hK.comp (hr.continuous.comp toLp_pair_continuous).continuousOn fun p hp => ⟨p, hp, rfl⟩
  obtain ⟨A, hA⟩ : ∃ A, ∀ p ∈ B, ‖areaElement r (p 0) (p 1) • K (r !₂[p 0, p 1])‖ ≤ A :=
    isCompact_Icc.exists_bound_of_continuousOn ((areaElement_continuous hr).continuousOn.smul hKB)
  obtain ⟨R, hR⟩ : ∃ R, ∀ p ∈ B, ‖r !₂[p 0, p 1]‖ ≤ R :=
    isCompact_Icc.exists_bound_of_continuousOn (hr.continuous.comp toLp_pair_continuous).continuousOn
  obtain ⟨M, hM⟩ : ∃ M, ∀ z ∈ Metric.closedBall (0 : Pt 3) R, ‖iteratedFDeriv ℝ (order + 1) f z‖ ≤ M :=
    (isCompact_closedBall 0 R).exists_bound_of_continuousOn (hf.continuous_iteratedFDeriv (by norm_cast)).continuousOn
  obtain ⟨D, hD⟩ : ∃ D, ∀ p ∈ B, ‖fderiv ℝ r !₂[p 0, p 1]‖ ≤ D :=
    isCompact_Icc.exists_bound_of_continuousOn ((hr.continuous_fderiv (by norm_num)).comp toLp_pair_continuous).continuousOn
  have hconv : Convex ℝ {z : Pt 2 | (![z 0, z 1] : Fin 2 → ℝ) ∈ B} := by
    intro z hz w hw α β hα hβ hαβ
    have := (convex_Icc (𝕜 := ℝ) (![a, c] : Fin 2 → ℝ) ![b, d]) hz hw hα hβ hαβ
    have e : (![(α • z + β • w) 0, (α • z + β • w) 1] : Fin 2 → ℝ) = α • ![z 0, z 1] + β • ![w 0, w 1] := by
      funext i
      fin_cases i <;> simp
    change (![(α • z + β • w) 0, (α • z + β • w) 1] : Fin 2 → ℝ) ∈ B
    rw [e]
    exact this
  have hlip : ∀ z w : Pt 2, (![z 0, z 1] : Fin 2 → ℝ) ∈ B → (![w 0, w 1] : Fin 2 → ℝ) ∈ B → ‖r w - r z‖ ≤ D * ‖w - z‖ := by
    intro z w hz hw
    refine hconv.norm_image_sub_le_of_norm_hasFDerivWithin_le (f' := fderiv ℝ r) (fun p _ => (hrd p).hasFDerivAt.hasFDerivWithinAt)
      (fun p hp => ?_) hz hw
    have := hD _ hp
    have e : (!₂[(![p 0, p 1] : Fin 2 → ℝ) 0, (![p 0, p 1] : Fin 2 → ℝ) 1] : Pt 2) = p := by
      ext i; fin_cases i <;> simp
    rwa [e] at this
  set C := (A * (M / ((order + 1).factorial : ℝ) * (D * 2) ^ (order + 1)) * (b - a) * (d - c)) with hC
  have key : ∀ h, ∀ u v : List ℝ, FineGrid u a b h → FineGrid v c d h →
      ‖gridSum u v (fun u0 u1 v0 v1 => surfaceQuad (rule [u0, u1]) (rule [v0, v1]) r fun y =>
          K y (taylorPoly f order (r !₂[(u0 + u1) / 2, (v0 + v1) / 2]) y)) -
        integrateSurface (fun y => K y (f y)) r u v rule‖ ≤ C * h ^ (order + 1) := by
    intro h u v hu hv
    obtain ⟨hu0, hu2, -⟩ := id hu
    obtain ⟨hv0, hv2, -⟩ := id hv
    rw [C86_formula _ r hrd u v rule (hq.length u hu0 hu2) (hq.length v hv0 hv2), ← gridSum_surfaceQuad hq hu2 hv2]
    have hdiff : gridSum u v (fun u0 u1 v0 v1 => surfaceQuad (rule [u0, u1]) (rule [v0, v1]) r fun y =>
          K y (taylorPoly f order (r !₂[(u0 + u1) / 2, (v0 + v1) / 2]) y)) -
        gridSum u v (fun u0 u1 v0 v1 => surfaceQuad (rule [u0, u1]) (rule [v0, v1]) r fun y => K y (f y)) =
        gridSum u v (fun u0 u1 v0 v1 => quad (rule [u0, u1]) fun s => quad (rule [v0, v1]) fun t =>
          (areaElement r s t • K (r !₂[s, t]))
            (taylorPoly f order (r !₂[(u0 + u1) / 2, (v0 + v1) / 2]) (r !₂[s, t]) - f (r !₂[s, t]))) := by
      rw [sub_eq_iff_eq_add]
      simp only [gridSum, ← Finset.sum_add_distrib, surfaceQuad]
      refine Finset.sum_congr rfl fun i _ => Finset.sum_congr rfl fun j _ => ?_
      rw [← quad_add']
      congr 1
      funext s
      rw [← quad_add']
      congr 1
      funext t
      rw [map_sub, smul_apply, smul_apply, sub_add_cancel]
    rw [hdiff]
    have e3 : C * h ^ (order + 1) =
        (A * (M / ((order + 1).factorial : ℝ) * (D * (2 * h)) ^ (order + 1))) * (b - a) * (d - c) := by
      rw [hC, ← mul_assoc D, mul_pow (D * 2) h]; ring
    rw [e3]
    refine gridSum_norm_le hu hv fun u0 u1 v0 v1 a1 a2 a3 a4 b1 b2 b3 b4 => ?_
    have hwu : WellFormed (rule [u0, u1]) u0 u1 := hq.wf [u0, u1] (by simp) (by simp) (by simpa using a2)
    have hwv : WellFormed (rule [v0, v1]) v0 v1 := hq.wf [v0, v1] (by simp) (by simp) (by simpa using b2)
    rw [mul_right_comm]
    refine quad_norm_le hwu fun s hs => quad_norm_le hwv fun t ht => ?_
    have hsab : s ∈ Icc a b := ⟨a1.trans hs.1, hs.2.trans a3⟩
    have htcd : t ∈ Icc c d := ⟨b1.trans ht.1, ht.2.trans b3⟩
    have hst : (![s, t] : Fin 2 → ℝ) ∈ B := memB s hsab t htcd
    have hm : (![(u0 + u1) / 2, (v0 + v1) / 2] : Fin 2 → ℝ) ∈ B :=
      memB _ ⟨by linarith, by linarith⟩ _ ⟨by linarith, by linarith⟩
    have hA' : ‖areaElement r s t • K (r !₂[s, t])‖ ≤ A := by simpa using hA _ hst
    refine (ContinuousLinearMap.le_opNorm _ _).trans ?_
    refine mul_le_mul hA' ?_ (norm_nonneg _) ((norm_nonneg _).trans hA')
    rw [norm_sub_rev]
    have hball : ∀ p ∈ B, r !₂[p 0, p 1] ∈ Metric.closedBall (0 : Pt 3) R := fun p hp => by
      rw [mem_closedBall_zero_iff]; exact hR p hp
    have hM0 : 0 ≤ M := (norm_nonneg _).trans (hM _ (hball _ hst))
    refine (taylorPoly_error hf (M := M) fun z hz => hM z ?_).trans ?_
    · exact (convex_closedBall (0 : Pt 3) R).segment_subset (by simpa using hball _ hm) (by simpa using hball _ hst) hz
    · refine mul_le_mul_of_nonneg_left (pow_le_pow_left₀ (norm_nonneg _) ?_ _) (by positivity)
      have hD0 : 0 ≤ D := (norm_nonneg _).trans (hD _ hst)
      refine (hlip !₂[(u0 + u1) / 2, (v0 + v1) / 2] !₂[s, t] (by simpa using hm) (by simpa using hst)).trans ?_
      refine mul_le_mul_of_nonneg_left ?_ hD0
      rw [EuclideanSpace.norm_eq]
      refine Real.sqrt_le_iff.mpr ⟨by linarith, ?_⟩
      simp only [Fin.sum_univ_two, Real.norm_eq_abs, sq_abs, PiLp.sub_apply, Matrix.cons_val_zero,
        Matrix.cons_val_one, Matrix.cons_val_fin_one]
      have q1 : (s - (u0 + u1) / 2) ^ 2 ≤ h ^ 2 := sq_le_sq' (by linarith [hs.1]) (by linarith [hs.2])
      have q2 : (t - (v0 + v1) / 2) ^ 2 ≤ h ^ 2 := sq_le_sq' (by linarith [ht.1]) (by linarith [ht.2])
      nlinarith
  obtain ⟨δ₁, hδ₁, h1⟩ := surfaceConverges_of hq hr hab hcd (hK.clm_apply hf.continuous.continuousOn) (ε / 2) (by positivity)
  set δ₂ := min 1 (ε / 2 / (|C| + 1)) with hδ₂
  have hδ₂0 : 0 < δ₂ := lt_min one_pos (by positivity)
  refine ⟨min δ₁ δ₂, lt_min hδ₁ hδ₂0, fun u v hu hv => ?_⟩
  have hb2 := key δ₂ u v (fineGrid_mono (min_le_right _ _) hu) (fineGrid_mono (min_le_right _ _) hv)
  have hb1 := h1 u v (fineGrid_mono (min_le_left _ _) hu) (fineGrid_mono (min_le_left _ _) hv)
  have hb3 : C * δ₂ ^ (order + 1) ≤ ε / 2 := by
    have hp : δ₂ ^ (order + 1) ≤ δ₂ := by
      rw [pow_succ]
      exact mul_le_of_le_one_left hδ₂0.le (pow_le_one₀ hδ₂0.le (min_le_left _ _))
    calc C * δ₂ ^ (order + 1) ≤ |C| * δ₂ ^ (order + 1) := mul_le_mul_of_nonneg_right (le_abs_self C) (by positivity)
      _ ≤ (|C| + 1) * (ε / 2 / (|C| + 1)) :=
        mul_le_mul (by linarith) (hp.trans (min_le_right _ _)) (by positivity) (by positivity)
      _ = ε / 2 := mul_div_cancel₀ _ (by positivity)
  have := norm_sub_le_norm_sub_add_norm_sub (surfaceIntegral (fun y => K y (f y)) r a b c d)
    (integrateSurface (fun y => K y (f y)) r u v rule) (gridSum u v (fun u0 u1 v0 v1 => surfaceQuad (rule [u0, u1]) (rule [v0, v1])
      r fun y => K y (taylorPoly f order (r !₂[(u0 + u1) / 2, (v0 + v1) / 2]) y)))
  rw [norm_sub_rev] at hb2
  linarith

end

/-! ## Derivatives -/

section
variable {E : Type} [NormedAddCommGroup E] [NormedSpace ℝ E]

theorem hasFDerivAt_quad {V : Type} [NormedAddCommGroup V] [NormedSpace ℝ V] {q : List ℝ × List ℝ} {F : V → ℝ → E}
    {F' : ℝ → V →L[ℝ] E} {x : V} (h : ∀ s ∈ q.2, HasFDerivAt (fun z => F z s) (F' s) x) :
    HasFDerivAt (fun z => quad q (F z)) (quad q F') x := by
  obtain ⟨ws, xs⟩ := q
  simp only [quad] at h ⊢
  induction ws generalizing xs with
  | nil => simpa using hasFDerivAt_const (0 : E) x
  | cons w ws ih =>
    cases xs with
    | nil => simpa using hasFDerivAt_const (0 : E) x
    | cons s xs =>
      simp only [List.zipWith_cons_cons, List.sum_cons]
      exact ((h s (by simp)).const_smul w).add (ih xs fun t ht => h t (by simp [ht]))

/-- Spec: the derivative of `1/|x - y|` with respect to `x`. -/
noncomputable def newtonD (x y : Pt 3) : Pt 3 →L[ℝ] ℝ := -(‖x - y‖ ^ 3)⁻¹ • innerSL ℝ (x - y)

theorem newtonD_continuousOn : ContinuousOn (fun p : Pt 3 × Pt 3 => newtonD p.1 p.2) {p | p.1 ≠ p.2} := by
  refine ContinuousOn.smul (f := fun p : Pt 3 × Pt 3 => (-(‖p.1 - p.2‖ ^ 3)⁻¹ : ℝ))
    (ContinuousOn.neg (ContinuousOn.inv₀ (by fun_prop) fun p hp => ?_)) ?_
  · exact pow_ne_zero _ (norm_ne_zero_iff.mpr (sub_ne_zero.mpr hp))
  · exact ((innerSL ℝ (E := Pt 3)).continuous.comp (continuous_fst.sub continuous_snd)).continuousOn

/-- The kernel of the derivative of the potential. -/
noncomputable def gradKernel (E : Type) [NormedAddCommGroup E] [NormedSpace ℝ E] (x y : Pt 3) : E →L[ℝ] Pt 3 →L[ℝ] E :=
  ContinuousLinearMap.smulRightL ℝ (Pt 3) E (newtonD x y)

theorem gradKernel_continuousOn : ContinuousOn (fun p : Pt 3 × Pt 3 => gradKernel E p.1 p.2) {p | p.1 ≠ p.2} :=
  (ContinuousLinearMap.smulRightL ℝ (Pt 3) E).continuous.comp_continuousOn newtonD_continuousOn

theorem hasFDerivAt_kernel {x y : Pt 3} (h : x ≠ y) (e : E) :
    HasFDerivAt (fun z : Pt 3 => ‖z - y‖⁻¹ • e) (gradKernel E x y e) x :=
  (hasFDerivAt_newton h).smul_const e

/-- **C131, exact potential**. Off the surface the single layer potential is differentiable, its derivative is the
integral over the surface of the derivative of the kernel. -/
theorem C131_layer {f : Pt 3 → E} (hf : Continuous f) {r : Pt 2 → Pt 3} (hr : ContDiff ℝ 1 r) {a b c d : ℝ} {x : Pt 3}
    (hx : x ∉ surfaceSet r a b c d) :
    HasFDerivAt (layerPotential f r a b c d)
      ((1 / (4 * Real.pi)) • surfaceIntegral (fun y => (-(‖x - y‖ ^ 3)⁻¹ • innerSL ℝ (x - y)).smulRight (f y)) r a b c d) x := by
  have hcomp := surfaceSet_compact hr.continuous a b c d
  obtain ⟨ρ, hρ, hball⟩ := Metric.nhds_basis_closedBall.mem_iff.mp (hcomp.isClosed.isOpen_compl.mem_nhds hx)
  have hne : ∀ z ∈ Metric.closedBall x ρ, ∀ y ∈ surfaceSet r a b c d, z ≠ y := fun z hz y hy h => hball hz (h ▸ hy)
  set B := Icc (![a, c] : Fin 2 → ℝ) ![b, d] with hB
  have hrc : Continuous fun p : Fin 2 → ℝ => r !₂[p 0, p 1] := hr.continuous.comp toLp_pair_continuous
  have hmap : ∀ p ∈ B, r !₂[p 0, p 1] ∈ surfaceSet r a b c d := fun p hp => ⟨p, hp, rfl⟩
  have hA := areaElement_continuous hr
  have hF'c : ContinuousOn (fun q : Pt 3 × (Fin 2 → ℝ) => areaElement r (q.2 0) (q.2 1) •
      gradKernel E q.1 (r !₂[q.2 0, q.2 1]) (f (r !₂[q.2 0, q.2 1]))) (Metric.closedBall x ρ ×ˢ B) := by
    have k1 : ContinuousOn (fun q : Pt 3 × (Fin 2 → ℝ) => gradKernel E q.1 (r !₂[q.2 0, q.2 1])) (Metric.closedBall x ρ ×ˢ B) :=
      gradKernel_continuousOn.comp (f := fun q : Pt 3 × (Fin 2 → ℝ) => (q.1, r !₂[q.2 0, q.2 1]))
        (continuous_fst.prodMk (hrc.comp continuous_snd)).continuousOn fun q hq => hne _ hq.1 _ (hmap _ hq.2)
    have k2 : ContinuousOn (fun q : Pt 3 × (Fin 2 → ℝ) => f (r !₂[q.2 0, q.2 1])) (Metric.closedBall x ρ ×ˢ B) :=
      (hf.comp (hrc.comp continuous_snd)).continuousOn
    have k3 : ContinuousOn (fun q : Pt 3 × (Fin 2 → ℝ) => areaElement r (q.2 0) (q.2 1)) (Metric.closedBall x ρ ×ˢ B) :=
      (hA.comp continuous_snd).continuousOn
    exact k3.smul (k1.clm_apply k2)
  obtain ⟨M, hM⟩ := ((isCompact_closedBall x ρ).prod isCompact_Icc).exists_bound_of_continuousOn hF'c
  have hFc : ∀ z ∈ Metric.closedBall x ρ, ContinuousOn (fun p : Fin 2 → ℝ => areaElement r (p 0) (p 1) •
      (‖z - r !₂[p 0, p 1]‖⁻¹ • f (r !₂[p 0, p 1]))) B := by
    intro z hz
    refine hA.continuousOn.smul (ContinuousOn.smul (ContinuousOn.inv₀ ?_ ?_) (hf.comp hrc).continuousOn)
    · exact (continuous_const.sub hrc).norm.continuousOn
    · intro p hp
      exact norm_ne_zero_iff.mpr (sub_ne_zero.mpr (hne z hz _ (hmap p hp)))
  have hx0 : x ∈ Metric.closedBall x ρ := Metric.mem_closedBall_self hρ.le
  have H := hasFDerivAt_integral_of_dominated_of_fderiv_le (μ := volume.restrict B) (x₀ := x) (s := Metric.closedBall x ρ)
    (F := fun z (p : Fin 2 → ℝ) => areaElement r (p 0) (p 1) • (‖z - r !₂[p 0, p 1]‖⁻¹ • f (r !₂[p 0, p 1])))
    (F' := fun z (p : Fin 2 → ℝ) => areaElement r (p 0) (p 1) • gradKernel E z (r !₂[p 0, p 1]) (f (r !₂[p 0, p 1])))
    (bound := fun _ => M) (Metric.closedBall_mem_nhds x hρ)
    (by
      filter_upwards [Metric.closedBall_mem_nhds x hρ] with z hz
      exact (hFc z hz).aestronglyMeasurable measurableSet_Icc)
    ((hFc x hx0).integrableOn_compact isCompact_Icc)
    (((hF'c.comp (f := fun p : Fin 2 → ℝ => (x, p)) (by fun_prop) fun p hp => ⟨hx0, hp⟩) :
      ContinuousOn _ B).aestronglyMeasurable measurableSet_Icc)
    (by
      filter_upwards [ae_restrict_mem measurableSet_Icc] with p hp z hz
      exact hM (z, p) ⟨hz, hp⟩)
    (by
      have : IsFiniteMeasure (volume.restrict B) := ⟨by
        rw [Measure.restrict_apply_univ]; exact isCompact_Icc.measure_lt_top⟩
      exact integrable_const M)
    (by
      filter_upwards [ae_restrict_mem measurableSet_Icc] with p hp z hz
      exact (hasFDerivAt_kernel (hne z hz _ (hmap p hp)) _).const_smul _)
  exact H.const_smul (1 / (4 * Real.pi))

example : DifferentiableAt ℝ (layerPotential (fun y : Pt 3 => Real.sin (y 0)) (fun z : Pt 2 => !₂[z 0, z 1, z 0 ^ 2 + z 1 ^ 2])
    (-1) 1 0 2) !₂[0, 0, -1] := by
  refine (C131_layer (by fun_prop) (by
    rw [contDiff_euclidean]
    intro i
    fin_cases i <;> simp <;> fun_prop) ?_).differentiableAt
  rintro ⟨p, -, h⟩
  have := congrArg (fun y : Pt 3 => y 2) h
  simp at this
  nlinarith [sq_nonneg (p 0), sq_nonneg (p 1)]

variable [CompleteSpace E]

/-- Spec: the derivatives of the potentials which are computed near `x` from `source_tensor` and `charge_tensor` converge
to the derivative of the single layer potential when the cells shrink. -/
def GradientConverges (rule : QuadRule) (order : ℕ) (f : Pt 3 → E) (r : Pt 2 → Pt 3) (a b c d : ℝ) (x : Pt 3) : Prop :=
  ∀ ε > 0, ∃ δ > 0, ∀ u v : List ℝ, FineGrid u a b δ → FineGrid v c d δ →
    ∃ (P : Pt 3 → E) (P' : Pt 3 →L[ℝ] E),
      (∀ z, (sourceTensor_ z r u v rule order).bind (fun S => singleLayerPotential S (chargeTensor f r u v order)) = .ok (P z)) ∧
      HasFDerivAt P P' x ∧ ‖fderiv ℝ (layerPotential f r a b c d) x - P'‖ ≤ ε

omit [CompleteSpace E] in
/-- The sum over the cells is differentiable. -/
theorem hasFDerivAt_gridSum {rule : QuadRule} (hq : CellRule rule E) (r : Pt 2 → Pt 3) {a b c d : ℝ} {x : Pt 3}
    (hx : x ∉ surfaceSet r a b c d) {δ : ℝ} {u v : List ℝ} (hu : FineGrid u a b δ) (hv : FineGrid v c d δ)
    (T : Pt 3 → Pt 3 → E) :
    HasFDerivAt (fun z => gridSum u v fun u0 u1 v0 v1 => surfaceQuad (rule [u0, u1]) (rule [v0, v1]) r fun y =>
        ‖z - y‖⁻¹ • T (r !₂[(u0 + u1) / 2, (v0 + v1) / 2]) y)
      (gridSum u v fun u0 u1 v0 v1 => surfaceQuad (rule [u0, u1]) (rule [v0, v1]) r fun y =>
        gradKernel E x y (T (r !₂[(u0 + u1) / 2, (v0 + v1) / 2]) y)) x := by
  simp only [gridSum]
  refine HasFDerivAt.fun_sum fun i hi => HasFDerivAt.fun_sum fun j hj => ?_
  obtain ⟨a1, a2, a3⟩ := fineGrid_cell hu (Finset.mem_range.mp hi)
  obtain ⟨b1, b2, b3⟩ := fineGrid_cell hv (Finset.mem_range.mp hj)
  have hwu := hq.wf [u.getD i 0, u.getD (i + 1) 0] (by simp) (by simp) (by simpa using a2)
  have hwv := hq.wf [v.getD j 0, v.getD (j + 1) 0] (by simp) (by simp) (by simpa using b2)
  simp only [surfaceQuad]
  refine hasFDerivAt_quad fun s hs => hasFDerivAt_quad fun t ht => ?_
  have hs' := hwu.mem s hs
  have ht' := hwv.mem t ht
  simp only [List.head_cons, List.getLast_cons_cons, List.getLast_singleton] at hs' ht'
  refine (hasFDerivAt_kernel (fun h => hx ?_) _).const_smul _
  rw [h]
  exact mem_surfaceSet ⟨a1.trans hs'.1, hs'.2.trans a3⟩ ⟨b1.trans ht'.1, ht'.2.trans b3⟩

theorem gradientConverges_of {rule : QuadRule} (hq : CellRule rule E) (hq' : CellRule rule (Pt 3 →L[ℝ] E)) {f : Pt 3 → E}
    {order : ℕ} (hf : ContDiff ℝ (order + 1) f) {r : Pt 2 → Pt 3} (hr : ContDiff ℝ 1 r) {a b c d : ℝ} (hab : a ≤ b) (hcd : c ≤ d)
    {x : Pt 3} (hx : x ∉ surfaceSet r a b c d) : GradientConverges rule order f r a b c d x := by
  intro ε hε
  have hrd : Differentiable ℝ r := hr.differentiable (by norm_num)
  have hpi : 0 < ‖1 / (4 * Real.pi)‖ := by
    rw [norm_pos_iff]; positivity
  obtain ⟨δ, hδ, H⟩ := kernel_converges hq' hf hr hab hcd (K := gradKernel E x) (gradKernel_continuousOn.comp
    (f := fun y => (x, y)) (by fun_prop) fun y hy => fun h => hx (by rw [show x = y from h]; exact hy))
    (ε / ‖1 / (4 * Real.pi)‖) (by positivity)
  refine ⟨δ, hδ, fun u v hu hv => ⟨_, _, fun z => C85_taylor f r hrd z order u v rule
    (fun a b => hq.length _ (by simp) (by simp)) hu.2.1 hv.2.1 (fun i _ j _ => (hf.of_le (by norm_cast; omega)).contDiffAt),
    (hasFDerivAt_gridSum hq r hx hu hv (taylorPoly f order)).const_smul _, ?_⟩⟩
  rw [(C131_layer hf.continuous hr hx).fderiv]
  erw [← smul_sub]
  rw [norm_smul, ← le_div_iff₀' hpi]
  exact H u v hu hv

/-- **C131**. At every point off the surface, the derivatives of the potentials computed from `source_tensor` and
`charge_tensor` converge to the derivative of the single layer potential when the grids are refined. -/
theorem C131_gradient {f : Pt 3 → E} {order : ℕ} (hf : ContDiff ℝ (order + 1) f) {r : Pt 2 → Pt 3} (hr : ContDiff ℝ 1 r)
    {a b c d : ℝ} (hab : a ≤ b) (hcd : c ≤ d) {x : Pt 3} (hx : x ∉ surfaceSet r a b c d) :
    GradientConverges midpoint order f r a b c d x ∧ GradientConverges trap order f r a b c d x ∧
    GradientConverges simpson order f r a b c d x ∧
    ∀ xs ws : List ℝ, WellFormed (ws, xs) (-1) 1 → GradientConverges (gauss xs ws) order f r a b c d x :=
  ⟨gradientConverges_of cellRule_midpoint cellRule_midpoint hf hr hab hcd hx,
    gradientConverges_of cellRule_trap cellRule_trap hf hr hab hcd hx,
    gradientConverges_of cellRule_simpson cellRule_simpson hf hr hab hcd hx,
    fun _ _ hw => gradientConverges_of (cellRule_gauss hw) (cellRule_gauss hw) hf hr hab hcd hx⟩

/-- Non-vacuity: a charge on a paraboloid and a point below it, where the computed derivatives converge to the exact one. -/
example : GradientConverges simpson 1 (fun y : Pt 3 => Real.sin (y 0)) (fun z : Pt 2 => !₂[z 0, z 1, z 0 ^ 2 + z 1 ^ 2])
    (-1) 1 0 2 !₂[0, 0, -1] := by
  refine (C131_gradient (by fun_prop) (by
    rw [contDiff_euclidean]
    intro i
    fin_cases i <;> simp <;> fun_prop) (by norm_num) (by norm_num) ?_).2.2.1
  rintro ⟨p, -, h⟩
  have := congrArg (fun y : Pt 3 => y 2) h
  simp at this
  nlinarith [sq_nonneg (p 0), sq_nonneg (p 1)]

end

/-! ## The field of vector potentials -/

theorem curl3d_sub_le (F G : Pt 3 → Pt 3) (x : Pt 3) :
    ‖curl3d F x - curl3d G x‖ ≤ 4 * ‖fderiv ℝ F x - fderiv ℝ G x‖ := by
  set η := ‖fderiv ℝ F x - fderiv ℝ G x‖ with hη
  have h0 : 0 ≤ η := norm_nonneg _
  have hJ : ∀ i j, |jacMatrix F x i j - jacMatrix G x i j| ≤ η := by
    intro i j
    have h1 : ‖(fderiv ℝ F x - fderiv ℝ G x) (unitVec j)‖ ≤ η := by
      refine (ContinuousLinearMap.le_opNorm _ _).trans ?_
      simp [unitVec, hη]
    exact (PiLp.norm_apply_le ((fderiv ℝ F x - fderiv ℝ G x) (unitVec j)) i).trans h1
  rw [EuclideanSpace.norm_eq]
  refine Real.sqrt_le_iff.mpr ⟨by positivity, ?_⟩
  have hc : ∀ i j k l : Fin 3, (jacMatrix F x i j - jacMatrix F x k l - (jacMatrix G x i j - jacMatrix G x k l)) ^ 2 ≤ (2 * η) ^ 2 := by
    intro i j k l
    have h1 := abs_le.mp (hJ i j)
    have h2 := abs_le.mp (hJ k l)
    exact sq_le_sq' (by linarith [h1.1, h2.2]) (by linarith [h1.2, h2.1])
  simp only [Fin.sum_univ_three, Real.norm_eq_abs, sq_abs, PiLp.sub_apply, curl3d]
  have e1 := hc 2 1 1 2
  have e2 := hc 0 2 2 0
  have e3 := hc 1 0 0 1
  simp only [Matrix.cons_val_zero, Matrix.cons_val_one, Matrix.cons_val]
  nlinarith

/-- Spec: the fields which are computed by `curl_single_layer_potential` converge to the curl of the vector valued single
layer potential when the cells shrink. -/
def CurlConverges (rule : QuadRule) (order : ℕ) (f : Pt 3 → Pt 3) (r : Pt 2 → Pt 3) (a b c d : ℝ) (x : Pt 3) : Prop :=
  ∃ C, curl (layerPotential f r a b c d) x = .ok (.inr C) ∧
    ∀ ε > 0, ∃ δ > 0, ∀ u v : List ℝ, FineGrid u a b δ → FineGrid v c d δ →
      ∃ S dS B, sourceTensorJac x r u v rule order = .ok (S, dS) ∧
        curlSingleLayerPotential dS (chargeTensor f r u v order) = .ok B ∧ ‖C - B‖ ≤ ε

theorem curlConverges_of {rule : QuadRule} (hq : CellRule rule (Pt 3)) (hq' : CellRule rule (Pt 3 →L[ℝ] Pt 3)) {f : Pt 3 → Pt 3}
    {order : ℕ} (hf : ContDiff ℝ (order + 1) f) {r : Pt 2 → Pt 3} (hr : ContDiff ℝ 1 r) {a b c d : ℝ} (hab : a ≤ b) (hcd : c ≤ d)
    {x : Pt 3} (hx : x ∉ surfaceSet r a b c d) : CurlConverges rule order f r a b c d x := by
  refine ⟨_, rfl, fun ε hε => ?_⟩
  obtain ⟨δ, hδ, H⟩ := gradientConverges_of hq hq' hf hr hab hcd hx (ε / 4) (by positivity)
  refine ⟨δ, hδ, fun u v hu hv => ?_⟩
  obtain ⟨P, P', hP, hP', hb⟩ := H u v hu hv
  obtain ⟨S, dS, B, h1, -, h3, h4⟩ := C93_curl r u v rule order hu.2.1 hv.2.1 _ P hP x (by
    intro i hi j hj s hs t ht h
    obtain ⟨a1, a2, a3⟩ := fineGrid_cell hu hi
    obtain ⟨b1, b2, b3⟩ := fineGrid_cell hv hj
    have hs' := (hq.wf [u.getD i 0, u.getD (i + 1) 0] (by simp) (by simp) (by simpa using a2)).mem s hs
    have ht' := (hq.wf [v.getD j 0, v.getD (j + 1) 0] (by simp) (by simp) (by simpa using b2)).mem t ht
    simp only [List.head_cons, List.getLast_cons_cons, List.getLast_singleton] at hs' ht'
    exact hx (h ▸ mem_surfaceSet ⟨a1.trans hs'.1, hs'.2.trans a3⟩ ⟨b1.trans ht'.1, ht'.2.trans b3⟩))
  refine ⟨S, dS, B, h1, h3, ?_⟩
  have hB : B = curl3d P x := (Sum.inr.inj (Except.ok.inj h4)).symm
  rw [hB]
  refine (curl3d_sub_le _ _ _).trans ?_
  rw [hP'.fderiv]
  linarith

/-- **C131, fields**. At every point off the surface `curl_single_layer_potential` converges to the curl of the vector valued
single layer potential. -/
theorem C131_curl {f : Pt 3 → Pt 3} {order : ℕ} (hf : ContDiff ℝ (order + 1) f) {r : Pt 2 → Pt 3} (hr : ContDiff ℝ 1 r)
    {a b c d : ℝ} (hab : a ≤ b) (hcd : c ≤ d) {x : Pt 3} (hx : x ∉ surfaceSet r a b c d) :
    CurlConverges midpoint order f r a b c d x ∧ CurlConverges trap order f r a b c d x ∧
    CurlConverges simpson order f r a b c d x ∧
    ∀ xs ws : List ℝ, WellFormed (ws, xs) (-1) 1 → CurlConverges (gauss xs ws) order f r a b c d x :=
  ⟨curlConverges_of cellRule_midpoint cellRule_midpoint hf hr hab hcd hx,
    curlConverges_of cellRule_trap cellRule_trap hf hr hab hcd hx,
    curlConverges_of cellRule_simpson cellRule_simpson hf hr hab hcd hx,
    fun _ _ hw => curlConverges_of (cellRule_gauss hw) (cellRule_gauss hw) hf hr hab hcd hx⟩

/-- Non-vacuity: a current on a square, and a point above it. -/
example : CurlConverges midpoint 2 (fun y : Pt 3 => !₂[- y 1, Real.exp (y 0), 0]) (fun z : Pt 2 => !₂[z 0, z 1, 0]) 0 1 0 1
    !₂[0, 0, 1] := by
  refine (C131_curl (by
    rw [contDiff_euclidean]
    intro i
    fin_cases i <;> simp <;> fun_prop) (by
    rw [contDiff_euclidean]
    intro i
    fin_cases i <;> simp <;> fun_prop) (by norm_num) (by norm_num) ?_).1
  rintro ⟨p, -, h⟩
  have := congrArg (fun y : Pt 3 => y 2) h
  simp at this

end Verif
