import Mathlib.Analysis.Calculus.ContDiff.Bounds
import Mathlib.Analysis.Calculus.IteratedDeriv.Lemmas
import Mathlib.Analysis.Calculus.MeanValue
import Mathlib.Tactic
import Verif.Props.DiskConv
import Verif.Props.Surface

/-!
# C111, C112: convergence of surface integrals and single layer potentials
-/

namespace Verif

open MeasureTheory Set

section
variable {E : Type} [NormedAddCommGroup E] [NormedSpace ℝ E]

/-- Spec: the integral of `f` over the part of the parametrised surface `r` with parameters in `[a, b] × [c, d]`. -/
noncomputable def surfaceIntegral (f : Pt 3 → E) (r : Pt 2 → Pt 3) (a b c d : ℝ) : E :=
  ∫ p in Icc (![a, c] : Fin 2 → ℝ) ![b, d], areaElement r (p 0) (p 1) • f (r !₂[p 0, p 1])

theorem areaElement_continuous {r : Pt 2 → Pt 3} (hr : ContDiff ℝ 1 r) :
    Continuous fun p : Fin 2 → ℝ => areaElement r (p 0) (p 1) := by
  have hd : Differentiable ℝ r := hr.differentiable (by norm_num)
  have hc : Continuous (fderiv ℝ r) := hr.continuous_fderiv (by norm_num)
  have hp : Continuous fun p : Fin 2 → ℝ => (!₂[p 0, p 1] : Pt 2) := by
    simp only [pair_eq]
    fun_prop
  have h0 : ∀ p : Fin 2 → ℝ, deriv (fun s => r !₂[s, p 1]) (p 0) = fderiv ℝ r !₂[p 0, p 1] (unitVec 0) := fun p =>
    (jacfwd_zero_eq r (p 0) (p 1) (hd _)).symm
  have h1 : ∀ p : Fin 2 → ℝ, deriv (fun t => r !₂[p 0, t]) (p 1) = fderiv ℝ r !₂[p 0, p 1] (unitVec 1) := fun p =>
    (jacfwd_one_eq r (p 0) (p 1) (hd _)).symm
  have hk : ∀ i, Continuous fun p : Fin 2 → ℝ => fderiv ℝ r !₂[p 0, p 1] (unitVec i) := fun i =>
    (hc.comp hp).clm_apply continuous_const
  have := hk 0
  have := hk 1
  simp only [areaElement, gramArea, h0, h1]
  fun_prop

theorem toLp_pair_continuous : Continuous fun p : Fin 2 → ℝ => (!₂[p 0, p 1] : Pt 2) := by
  simp only [pair_eq]
  fun_prop

/-! ## C111 -/

/-- Spec: the values of `integrate_surface` with the rule converge to the integral over the surface when the cells of
the two grids shrink. -/
def SurfaceConverges (rule : QuadRule) (f : Pt 3 → E) (r : Pt 2 → Pt 3) (a b c d : ℝ) : Prop :=
  ∀ ε > 0, ∃ δ > 0, ∀ u v : List ℝ, FineGrid u a b δ → FineGrid v c d δ →
    ‖surfaceIntegral f r a b c d - integrateSurface f r u v rule‖ ≤ ε

variable [CompleteSpace E]

theorem surfaceConverges_of {rule : QuadRule} (hq : CellRule rule E) {f : Pt 3 → E} {r : Pt 2 → Pt 3} (hr : ContDiff ℝ 1 r)
    {a b c d : ℝ} (hab : a ≤ b) (hcd : c ≤ d) (hf : ContinuousOn f ((fun p : Fin 2 → ℝ => r !₂[p 0, p 1]) '' Icc ![a, c] ![b, d])) :
    SurfaceConverges rule f r a b c d := by
  intro ε hε
  have hle : (![a, c] : Fin 2 → ℝ) ≤ ![b, d] := by
    intro i; fin_cases i
    exacts [hab, hcd]
  have hcont : ContinuousOn (fun p : Fin 2 → ℝ => areaElement r (p 0) (p 1) • f (r !₂[p 0, p 1])) (Icc ![a, c] ![b, d]) :=
    (areaElement_continuous hr).continuousOn.smul
      (hf.comp (hr.continuous.comp toLp_pair_continuous).continuousOn fun p hp => ⟨p, hp, rfl⟩)
  obtain ⟨δ, hδ, h⟩ := convergesN_of hq hle hcont ε hε
  refine ⟨δ, hδ, fun u v hu hv => ?_⟩
  have := h ![u, v] (by
    intro i; fin_cases i
    exacts [hu, hv])
  rw [surfaceIntegral, integrateSurface]
  convert this using 4
  · funext l
    exact integrand_eq f r (hr.differentiable (by norm_num)) (l.getD 0 0) (l.getD 1 0)
  · simp [List.ofFn_succ]

/-- **C111**. For a continuously differentiable surface and a function which is continuous on it, `integrate_surface`
converges to the surface integral when the grids are refined, with each of the rules. -/
theorem C111_convergence {f : Pt 3 → E} {r : Pt 2 → Pt 3} (hr : ContDiff ℝ 1 r) {a b c d : ℝ} (hab : a ≤ b) (hcd : c ≤ d)
    (hf : ContinuousOn f ((fun p : Fin 2 → ℝ => r !₂[p 0, p 1]) '' Icc ![a, c] ![b, d])) :
    SurfaceConverges midpoint f r a b c d ∧ SurfaceConverges trap f r a b c d ∧ SurfaceConverges simpson f r a b c d ∧
    ∀ xs ws : List ℝ, WellFormed (ws, xs) (-1) 1 → SurfaceConverges (gauss xs ws) f r a b c d :=
  ⟨surfaceConverges_of cellRule_midpoint hr hab hcd hf, surfaceConverges_of cellRule_trap hr hab hcd hf,
    surfaceConverges_of cellRule_simpson hr hab hcd hf, fun _ _ hw => surfaceConverges_of (cellRule_gauss hw) hr hab hcd hf⟩

/-- A paraboloid. -/
example : SurfaceConverges trap (fun y : Pt 3 => Real.exp (y 2)) (fun z : Pt 2 => !₂[z 0, z 1, z 0 ^ 2 + z 1 ^ 2]) (-1) 1 0 2 :=
  (C111_convergence (by
    rw [contDiff_euclidean]
    intro i
    fin_cases i <;> simp <;> fun_prop) (by norm_num) (by norm_num) (by
      apply Continuous.continuousOn
      fun_prop)).2.1

omit [CompleteSpace E] in
/-- The sum over the surface elements is the integral over the whole surface. -/
theorem gridSum_surfaceQuad {rule : QuadRule} (hq : CellRule rule E) {u v : List ℝ} (hu : 2 ≤ u.length) (hv : 2 ≤ v.length)
    (r : Pt 2 → Pt 3) (f : Pt 3 → E) :
    gridSum u v (fun u0 u1 v0 v1 => surfaceQuad (rule [u0, u1]) (rule [v0, v1]) r f) =
      surfaceQuad (rule u) (rule v) r f := by
  have hu0 : u ≠ [] := by rintro rfl; simp at hu
  have hv0 : v ≠ [] := by rintro rfl; simp at hv
  have h : ∀ s, quad (rule v) (fun t => areaElement r s t • f (r !₂[s, t])) =
      ∑ j ∈ Finset.range (v.length - 1), quad (rule [v.getD j 0, v.getD (j + 1) 0]) (fun t => areaElement r s t • f (r !₂[s, t])) := by
    intro s
    rw [hq.cell _ v hv0 hv, cellSum_eq_sum]
  simp only [gridSum, surfaceQuad, h]
  rw [hq.cell _ u hu0 hu, cellSum_eq_sum]
  refine Finset.sum_congr rfl fun i _ => ?_
  rw [quad_sum]

omit [CompleteSpace E] in
/-- **C111** (surface elements). The values of `integrate_surface_elements` add up to the value of `integrate_surface`. -/
theorem C111_elements {rule : QuadRule} (hq : CellRule rule E) {u v : List ℝ} (hu : 2 ≤ u.length) (hv : 2 ≤ v.length)
    {r : Pt 2 → Pt 3} (hr : Differentiable ℝ r) (f : Pt 3 → E) :
    ∃ Z, integrateSurfaceElements (fun y _ => f y) r u v rule = .ok Z ∧
      (Z.map List.sum).sum = integrateSurface f r u v rule := by
  have hu0 : u ≠ [] := by rintro rfl; simp at hu
  have hv0 : v ≠ [] := by rintro rfl; simp at hv
  refine ⟨(gridCells u).map fun _u => (gridCells v).map fun _v => integrateSurface f r [_u.1, _u.2] [_v.1, _v.2] rule, ?_, ?_⟩
  · rw [integrateSurfaceElements, if_neg (by omega), if_neg (by omega)]
    rfl
  · rw [C86_formula f r hr u v rule (hq.length u hu0 hu) (hq.length v hv0 hv), ← gridSum_surfaceQuad hq hu hv, gridSum]
    have e : ∀ a b c d : ℝ, integrateSurface f r [a, b] [c, d] rule = surfaceQuad (rule [a, b]) (rule [c, d]) r f :=
      fun a b c d => C86_formula f r hr _ _ rule (hq.length _ (by simp) (by simp)) (hq.length _ (by simp) (by simp))
    have hg : ∀ (l : List ℝ) (F : ℝ → ℝ → E), ((gridCells l).map fun p => F p.1 p.2).sum =
        ∑ i ∈ Finset.range (l.length - 1), F (l.getD i 0) (l.getD (i + 1) 0) := by
      intro l F
      rw [← cellSum_eq_sum]
      induction l with
      | nil => simp [gridCells, cellSum]
      | cons a l ih =>
        cases l with
        | nil => simp [gridCells, cellSum]
        | cons b l =>
          rw [cellSum, ← ih]
          simp [gridCells]
    simp only [List.map_map, Function.comp_def, e]
    rw [hg u fun a b => ((gridCells v).map fun _v => surfaceQuad (rule [a, b]) (rule [_v.1, _v.2]) r f).sum]
    refine Finset.sum_congr rfl fun i _ => ?_
    rw [hg v fun c d => surfaceQuad _ (rule [c, d]) r f]

/-- Grids with two and three cells. -/
example (f : Pt 3 → ℝ) (r : Pt 2 → Pt 3) (hr : Differentiable ℝ r) : ∃ Z,
    integrateSurfaceElements (fun y _ => f y) r [0, 1, 3] [0, 2, 5, 6] simpson = .ok Z ∧
      (Z.map List.sum).sum = integrateSurface f r [0, 1, 3] [0, 2, 5, 6] simpson :=
  C111_elements cellRule_simpson (by simp) (by simp) hr f

/-! ## C112 -/

omit [CompleteSpace E] in
/-- Remainder of the Taylor polynomial. -/
theorem taylorPoly_error {V : Type} [NormedAddCommGroup V] [NormedSpace ℝ V] {f : V → E} {k : ℕ} (hf : ContDiff ℝ (k + 1) f)
    {c y : V} {M : ℝ} (hM : ∀ z ∈ segment ℝ c y, ‖iteratedFDeriv ℝ (k + 1) f z‖ ≤ M) :
    ‖f y - taylorPoly f k c y‖ ≤ M / ((k + 1).factorial : ℝ) * ‖y - c‖ ^ (k + 1) := by
  set φ : ℝ → E := fun t => f (c + t • (y - c)) with hφ
  set L : ℝ →L[ℝ] V := ContinuousLinearMap.smulRight (1 : ℝ →L[ℝ] ℝ) (y - c) with hL
  have hLn : ‖L‖ = ‖y - c‖ := by
    rw [hL, ContinuousLinearMap.norm_smulRight_apply]; simp
  have hfc : ContDiff ℝ (k + 1) fun z => f (c + z) := hf.comp (contDiff_const.add contDiff_id)
  have hφL : φ = (fun z => f (c + z)) ∘ L := by
    funext t; simp [hφ, hL]
  have hφd : ContDiff ℝ (k + 1) φ := by
    rw [hφL]; exact hfc.comp L.contDiff
  have hb : ∀ t ∈ Icc (0 : ℝ) 1, ‖iteratedDeriv (k + 1) φ t‖ ≤ M * ‖y - c‖ ^ (k + 1) := by
    intro t ht
    rw [← norm_iteratedFDeriv_eq_norm_iteratedDeriv, hφL, L.iteratedFDeriv_comp_right hfc t (by norm_cast)]
    refine (ContinuousMultilinearMap.norm_compContinuousLinearMap_le _ _).trans ?_
    rw [Finset.prod_const, Finset.card_univ, Fintype.card_fin, hLn, iteratedFDeriv_comp_add_left]
    refine mul_le_mul_of_nonneg_right (hM _ ?_) (by positivity)
    rw [segment_eq_image']
    exact ⟨t, ht, by simp [hL]⟩
  have h := taylor_bound k (g := fun j => iteratedDeriv j φ) (T := 1) (M := M * ‖y - c‖ ^ (k + 1)) (fun j hj t _ => ?_) hb 1
    ⟨zero_le_one, le_rfl⟩
  · simp only [one_pow, mul_one, one_div] at h
    have e : iteratedDeriv 0 φ 1 = f y := by simp [hφ]
    rw [e] at h
    rw [taylorPoly]
    refine h.trans (le_of_eq ?_)
    ring
  · have hd : Differentiable ℝ (iteratedDeriv j φ) := hφd.differentiable_iteratedDeriv j (by exact_mod_cast Nat.lt_succ_of_le hj)
    have := (hd t).hasDerivAt
    rwa [← iteratedDeriv_succ] at this

omit [NormedSpace ℝ E] [CompleteSpace E] in
/-- Sum over the cells of a bound which is proportional to the areas of the cells. -/
theorem gridSum_norm_le {a b c d δ : ℝ} {u v : List ℝ} (hu : FineGrid u a b δ) (hv : FineGrid v c d δ)
    {F : ℝ → ℝ → ℝ → ℝ → E} {K : ℝ}
    (hF : ∀ u0 u1 v0 v1, a ≤ u0 → u0 < u1 → u1 ≤ b → u1 - u0 ≤ δ → c ≤ v0 → v0 < v1 → v1 ≤ d → v1 - v0 ≤ δ →
      ‖F u0 u1 v0 v1‖ ≤ K * (u1 - u0) * (v1 - v0)) : ‖gridSum u v F‖ ≤ K * (b - a) * (d - c) := by
  have key : ∀ (l : List ℝ) (hl : l ≠ []), l.IsChain (fun s t => s < t ∧ t - s ≤ δ) →
      (∀ i < l.length - 1, l.head hl ≤ l.getD i 0 ∧ l.getD i 0 < l.getD (i + 1) 0 ∧ l.getD (i + 1) 0 ≤ l.getLast hl ∧
        l.getD (i + 1) 0 - l.getD i 0 ≤ δ) ∧
      ∑ i ∈ Finset.range (l.length - 1), (l.getD (i + 1) 0 - l.getD i 0) = l.getLast hl - l.head hl := by
    intro l hl hch
    induction l with
    | nil => exact absurd rfl hl
    | cons a l ih =>
      cases l with
      | nil => simp
      | cons b l =>
        rw [List.isChain_cons_cons] at hch
        obtain ⟨h1, h2⟩ := ih (by simp) hch.2
        have hlast := chain_head_le (fun a b hab => hab.1.le) (l := b :: l) (by simp) hch.2
        simp only [List.head_cons] at h1 h2 hlast
        refine ⟨?_, ?_⟩
        · intro i hi
          cases i with
          | zero =>
            simp only [List.head_cons, List.getD_cons_zero, zero_add, List.getD_cons_succ, List.getLast_cons_cons]
            exact ⟨le_rfl, hch.1.1, hlast, hch.1.2⟩
          | succ i =>
            simp only [List.head_cons, List.getD_cons_succ, List.getLast_cons_cons]
            have := h1 i (by simp only [List.length_cons] at hi ⊢; omega)
            simp only [List.getD_cons_succ] at this
            exact ⟨hch.1.1.le.trans this.1, this.2⟩
        · simp only [List.length_cons, Nat.add_sub_cancel] at h2 ⊢
          rw [Finset.sum_range_succ', List.getLast_cons_cons]
          simp only [List.getD_cons_succ, List.getD_cons_zero, List.head_cons, zero_add] at h2 ⊢
          rw [h2]
          ring
  obtain ⟨hul, -, hu1, hu2, huc⟩ := hu
  obtain ⟨hvl, -, hv1, hv2, hvc⟩ := hv
  obtain ⟨ku, su⟩ := key u hul huc
  obtain ⟨kv, sv⟩ := key v hvl hvc
  rw [hu1, hu2] at ku su
  rw [hv1, hv2] at kv sv
  rw [gridSum, ← su, ← sv, mul_assoc, Finset.sum_mul_sum, Finset.mul_sum]
  refine (norm_sum_le _ _).trans (Finset.sum_le_sum fun i hi => ?_)
  rw [Finset.mul_sum]
  refine (norm_sum_le _ _).trans (Finset.sum_le_sum fun j hj => ?_)
  obtain ⟨a1, a2, a3, a4⟩ := ku i (Finset.mem_range.mp hi)
  obtain ⟨b1, b2, b3, b4⟩ := kv j (Finset.mem_range.mp hj)
  rw [← mul_assoc]
  exact hF _ _ _ _ a1 a2 a3 a4 b1 b2 b3 b4

/-- Spec: the single layer potential of the charge `f` on the surface. -/
noncomputable def layerPotential (f : Pt 3 → E) (r : Pt 2 → Pt 3) (a b c d : ℝ) (x : Pt 3) : E :=
  (1 / (4 * Real.pi)) • surfaceIntegral (fun y => ‖x - y‖⁻¹ • f y) r a b c d

omit [CompleteSpace E] in
/-- The error which is due to the Taylor expansion of the charge in the cells: of order `order + 1` in the size of the cells. -/
theorem C112_taylor_error {rule : QuadRule} (hq : CellRule rule E) {f : Pt 3 → E} {order : ℕ} (hf : ContDiff ℝ (order + 1) f)
    {r : Pt 2 → Pt 3} (hr : ContDiff ℝ 1 r) {a b c d : ℝ} (x : Pt 3)
    (hx : ∀ s ∈ Icc a b, ∀ t ∈ Icc c d, r !₂[s, t] ≠ x) :
    ∃ C, ∀ h, ∀ u v : List ℝ, FineGrid u a b h → FineGrid v c d h →
      ∃ P, (sourceTensor_ x r u v rule order).bind (fun S => singleLayerPotential S (chargeTensor f r u v order)) = .ok P ∧
        ‖P - (1 / (4 * Real.pi)) • integrateSurface (fun y => ‖x - y‖⁻¹ • f y) r u v rule‖ ≤ C * h ^ (order + 1) := by
  set B := Icc (![a, c] : Fin 2 → ℝ) ![b, d] with hB
  have memB : ∀ s ∈ Icc a b, ∀ t ∈ Icc c d, (![s, t] : Fin 2 → ℝ) ∈ B := by
    intro s hs t ht
    refine ⟨?_, ?_⟩ <;> (intro i; fin_cases i)
    exacts [hs.1, ht.1, hs.2, ht.2]
  have hrd : Differentiable ℝ r := hr.differentiable (by norm_num)
  -- the area element over the distance
  obtain ⟨A, hA⟩ : ∃ A, ∀ p ∈ B, ‖areaElement r (p 0) (p 1) * ‖x - r !₂[p 0, p 1]‖⁻¹‖ ≤ A := by
    refine isCompact_Icc.exists_bound_of_continuousOn ?_
    refine (areaElement_continuous hr).continuousOn.mul (ContinuousOn.inv₀ ?_ ?_)
    · exact (continuous_const.sub (hr.continuous.comp toLp_pair_continuous)).norm.continuousOn
    · intro p hp
      rw [norm_ne_zero_iff, sub_ne_zero]
      exact (hx _ ⟨hp.1 0, hp.2 0⟩ _ ⟨hp.1 1, hp.2 1⟩).symm
  -- a ball which contains the surface
  obtain ⟨R, hR⟩ : ∃ R, ∀ p ∈ B, ‖r !₂[p 0, p 1]‖ ≤ R :=
    isCompact_Icc.exists_bound_of_continuousOn (hr.continuous.comp toLp_pair_continuous).continuousOn
  obtain ⟨M, hM⟩ : ∃ M, ∀ z ∈ Metric.closedBall (0 : Pt 3) R, ‖iteratedFDeriv ℝ (order + 1) f z‖ ≤ M :=
    (isCompact_closedBall 0 R).exists_bound_of_continuousOn (hf.continuous_iteratedFDeriv (by norm_cast)).continuousOn
  -- a Lipschitz constant of the parametrisation
  obtain ⟨D, hD⟩ : ∃ D, ∀ p ∈ B, ‖fderiv ℝ r !₂[p 0, p 1]‖ ≤ D :=
    isCompact_Icc.exists_bound_of_continuousOn ((hr.continuous_fderiv (by norm_num)).comp toLp_pair_continuous).continuousOn
  have hconv : Convex ℝ {z : Pt 2 | (![z 0, z 1] : Fin 2 → ℝ) ∈ B} := by
    intro z hz w hw α β hα hβ hαβ
    have := (convex_Icc (𝕜 := ℝ) (![a, c] : Fin 2 → ℝ) ![b, d]) hz hw hα hβ hαβ
    have e : (![(α • z + β • w) 0, (α • z + β • w) 1] : Fin 2 → ℝ) = α • ![z 0, z 1] + β • ![w 0, w 1] := by
      funext i
      fin_cases i <;> simp
    change (![(α • z + β • w) 0, (α • z + β • w) 1] : Fin 2 → ℝ) ∈ B
    rw [e]
    exact this
  have hlip : ∀ z w : Pt 2, (![z 0, z 1] : Fin 2 → ℝ) ∈ B → (![w 0, w 1] : Fin 2 → ℝ) ∈ B → ‖r w - r z‖ ≤ D * ‖w - z‖ := by
    intro z w hz hw
    refine hconv.norm_image_sub_le_of_norm_hasFDerivWithin_le (f' := fderiv ℝ r) (fun p _ => (hrd p).hasFDerivAt.hasFDerivWithinAt)
      (fun p hp => ?_) hz hw
    have := hD _ hp
    have e : (!₂[(![p 0, p 1] : Fin 2 → ℝ) 0, (![p 0, p 1] : Fin 2 → ℝ) 1] : Pt 2) = p := by
      ext i; fin_cases i <;> simp
    rwa [e] at this
  refine ⟨‖1 / (4 * Real.pi)‖ * (A * (M / ((order + 1).factorial : ℝ) * (D * 2) ^ (order + 1)) * (b - a) * (d - c)),
    fun h u v hu hv => ?_⟩
  obtain ⟨hu0, hu2, -⟩ := id hu
  obtain ⟨hv0, hv2, -⟩ := id hv
  refine ⟨_, C85_taylor f r hrd x order u v rule (fun a b => hq.length _ (by simp) (by simp)) hu2 hv2
    (fun i _ j _ => (hf.of_le (by norm_cast; omega)).contDiffAt), ?_⟩
  rw [C86_formula _ r hrd u v rule (hq.length u hu0 hu2) (hq.length v hv0 hv2), ← gridSum_surfaceQuad hq hu2 hv2, ← smul_sub,
    norm_smul, mul_assoc]
  refine mul_le_mul_of_nonneg_left ?_ (norm_nonneg _)
  have hdiff : gridSum u v (fun u0 u1 v0 v1 => surfaceQuad (rule [u0, u1]) (rule [v0, v1]) r fun y =>
        ‖x - y‖⁻¹ • taylorPoly f order (r !₂[(u0 + u1) / 2, (v0 + v1) / 2]) y) -
      gridSum u v (fun u0 u1 v0 v1 => surfaceQuad (rule [u0, u1]) (rule [v0, v1]) r fun y => ‖x - y‖⁻¹ • f y) =
      gridSum u v (fun u0 u1 v0 v1 => quad (rule [u0, u1]) fun s => quad (rule [v0, v1]) fun t =>
        (areaElement r s t * ‖x - r !₂[s, t]‖⁻¹) •
          (taylorPoly f order (r !₂[(u0 + u1) / 2, (v0 + v1) / 2]) (r !₂[s, t]) - f (r !₂[s, t]))) := by
    rw [sub_eq_iff_eq_add]
    simp only [gridSum, ← Finset.sum_add_distrib, surfaceQuad]
    refine Finset.sum_congr rfl fun i _ => Finset.sum_congr rfl fun j _ => ?_
    rw [← quad_add']
    congr 1
    funext s
    rw [← quad_add']
    congr 1
    funext t
    rw [smul_sub, mul_smul, mul_smul, sub_add_cancel]
  rw [hdiff]
  have e3 : A * (M / ((order + 1).factorial : ℝ) * (D * 2) ^ (order + 1)) * (b - a) * (d - c) * h ^ (order + 1) =
      (A * (M / ((order + 1).factorial : ℝ) * (D * (2 * h)) ^ (order + 1))) * (b - a) * (d - c) := by
    rw [← mul_assoc D, mul_pow (D * 2) h]; ring
  rw [e3]
  refine gridSum_norm_le hu hv fun u0 u1 v0 v1 a1 a2 a3 a4 b1 b2 b3 b4 => ?_
  have hwu : WellFormed (rule [u0, u1]) u0 u1 := hq.wf [u0, u1] (by simp) (by simp) (by simpa using a2)
  have hwv : WellFormed (rule [v0, v1]) v0 v1 := hq.wf [v0, v1] (by simp) (by simp) (by simpa using b2)
  rw [mul_right_comm]
  refine quad_norm_le hwu fun s hs => quad_norm_le hwv fun t ht => ?_
  have hsab : s ∈ Icc a b := ⟨a1.trans hs.1, hs.2.trans a3⟩
  have htcd : t ∈ Icc c d := ⟨b1.trans ht.1, ht.2.trans b3⟩
  have hst : (![s, t] : Fin 2 → ℝ) ∈ B := memB s hsab t htcd
  have hm : (![(u0 + u1) / 2, (v0 + v1) / 2] : Fin 2 → ℝ) ∈ B :=
    memB _ ⟨by linarith, by linarith⟩ _ ⟨by linarith, by linarith⟩
  have hA' : ‖areaElement r s t * ‖x - r !₂[s, t]‖⁻¹‖ ≤ A := by simpa using hA _ hst
  rw [norm_smul]
  refine mul_le_mul hA' ?_ (norm_nonneg _) ((norm_nonneg _).trans hA')
  rw [norm_sub_rev]
  have hball : ∀ p ∈ B, r !₂[p 0, p 1] ∈ Metric.closedBall (0 : Pt 3) R := fun p hp => by
    rw [mem_closedBall_zero_iff]; exact hR p hp
  have hM0 : 0 ≤ M := (norm_nonneg _).trans (hM _ (hball _ hst))
  refine (taylorPoly_error hf (M := M) fun z hz => hM z ?_).trans ?_
  · exact (convex_closedBall (0 : Pt 3) R).segment_subset (by simpa using hball _ hm) (by simpa using hball _ hst) hz
  · refine mul_le_mul_of_nonneg_left (pow_le_pow_left₀ (norm_nonneg _) ?_ _) (by positivity)
    have hD0 : 0 ≤ D := (norm_nonneg _).trans (hD _ hst)
    refine (hlip !₂[(u0 + u1) / 2, (v0 + v1) / 2] !₂[s, t] (by simpa using hm) (by simpa using hst)).trans ?_
    refine mul_le_mul_of_nonneg_left ?_ hD0
    rw [EuclideanSpace.norm_eq]
    refine Real.sqrt_le_iff.mpr ⟨by linarith, ?_⟩
    simp only [Fin.sum_univ_two, Real.norm_eq_abs, sq_abs, PiLp.sub_apply, Matrix.cons_val_zero,
      Matrix.cons_val_one, Matrix.cons_val_fin_one]
    have q1 : (s - (u0 + u1) / 2) ^ 2 ≤ h ^ 2 := sq_le_sq' (by linarith [hs.1]) (by linarith [hs.2])
    have q2 : (t - (v0 + v1) / 2) ^ 2 ≤ h ^ 2 := sq_le_sq' (by linarith [ht.1]) (by linarith [ht.2])
    nlinarith

/-- A charge on a plane and a point above it. -/
example : ∃ C, ∀ h, ∀ u v : List ℝ, FineGrid u 0 1 h → FineGrid v 0 1 h →
    ∃ P, (sourceTensor_ !₂[0, 0, 1] (fun z : Pt 2 => !₂[z 0, z 1, 0]) u v trap 1).bind
        (fun S => singleLayerPotential S (chargeTensor (fun y : Pt 3 => Real.exp (y 0)) (fun z : Pt 2 => !₂[z 0, z 1, 0]) u v 1)) =
        .ok P ∧
      ‖P - (1 / (4 * Real.pi)) • integrateSurface (fun y => ‖!₂[0, 0, 1] - y‖⁻¹ • Real.exp (y 0)) (fun z : Pt 2 => !₂[z 0, z 1, 0])
        u v trap‖ ≤ C * h ^ (1 + 1) :=
  C112_taylor_error cellRule_trap (f := fun y : Pt 3 => Real.exp (y 0)) (by fun_prop) (by
    rw [contDiff_euclidean]
    intro i
    fin_cases i <;> simp <;> fun_prop) _ (by
      intro s _ t _ h
      have := congrArg (fun y : Pt 3 => y 2) h
      simp at this)

/-- Spec: the single layer potential from `source_tensor` and `charge_tensor` converges when the cells shrink. -/
def PotentialConverges (rule : QuadRule) (order : ℕ) (f : Pt 3 → E) (r : Pt 2 → Pt 3) (a b c d : ℝ) (x : Pt 3) : Prop :=
  ∀ ε > 0, ∃ δ > 0, ∀ u v : List ℝ, FineGrid u a b δ → FineGrid v c d δ →
    ∃ P, (sourceTensor_ x r u v rule order).bind (fun S => singleLayerPotential S (chargeTensor f r u v order)) = .ok P ∧
      ‖layerPotential f r a b c d x - P‖ ≤ ε

theorem fineGrid_mono {l : List ℝ} {a b δ δ' : ℝ} (h : δ ≤ δ') (hl : FineGrid l a b δ) : FineGrid l a b δ' := by
  obtain ⟨h0, h1, h2, h3, h4⟩ := hl
  exact ⟨h0, h1, h2, h3, h4.imp fun _ _ hst => ⟨hst.1, hst.2.trans h⟩⟩

theorem potentialConverges_of {rule : QuadRule} (hq : CellRule rule E) {f : Pt 3 → E} {order : ℕ} (hf : ContDiff ℝ (order + 1) f)
    {r : Pt 2 → Pt 3} (hr : ContDiff ℝ 1 r) {a b c d : ℝ} (hab : a ≤ b) (hcd : c ≤ d) (x : Pt 3)
    (hx : ∀ s ∈ Icc a b, ∀ t ∈ Icc c d, r !₂[s, t] ≠ x) : PotentialConverges rule order f r a b c d x := by
  intro ε hε
  have hcont : ContinuousOn (fun y => ‖x - y‖⁻¹ • f y) ((fun p : Fin 2 → ℝ => r !₂[p 0, p 1]) '' Icc ![a, c] ![b, d]) := by
    refine ContinuousOn.smul (ContinuousOn.inv₀ (continuous_const.sub continuous_id).norm.continuousOn ?_) hf.continuous.continuousOn
    rintro _ ⟨p, hp, rfl⟩
    rw [norm_ne_zero_iff, sub_ne_zero]
    exact (hx _ ⟨hp.1 0, hp.2 0⟩ _ ⟨hp.1 1, hp.2 1⟩).symm
  have hpi : 0 < ‖1 / (4 * Real.pi)‖ := by
    rw [norm_pos_iff]; positivity
  obtain ⟨δ₁, hδ₁, h1⟩ := surfaceConverges_of hq hr hab hcd hcont (ε / 2 / ‖1 / (4 * Real.pi)‖) (by positivity)
  obtain ⟨C, hC⟩ := C112_taylor_error hq hf hr x hx
  set δ₂ := min 1 (ε / 2 / (|C| + 1)) with hδ₂
  have hδ₂0 : 0 < δ₂ := lt_min one_pos (by positivity)
  refine ⟨min δ₁ δ₂, lt_min hδ₁ hδ₂0, fun u v hu hv => ?_⟩
  obtain ⟨P, hP, hPe⟩ := hC δ₂ u v (fineGrid_mono (min_le_right _ _) hu) (fineGrid_mono (min_le_right _ _) hv)
  refine ⟨P, hP, ?_⟩
  have hb1 := h1 u v (fineGrid_mono (min_le_left _ _) hu) (fineGrid_mono (min_le_left _ _) hv)
  have hb2 : C * δ₂ ^ (order + 1) ≤ ε / 2 := by
    have hp : δ₂ ^ (order + 1) ≤ δ₂ := by
      rw [pow_succ]
      exact mul_le_of_le_one_left hδ₂0.le (pow_le_one₀ hδ₂0.le (min_le_left _ _))
    calc C * δ₂ ^ (order + 1) ≤ |C| * δ₂ ^ (order + 1) := mul_le_mul_of_nonneg_right (le_abs_self C) (by positivity)
      _ ≤ (|C| + 1) * (ε / 2 / (|C| + 1)) :=
        mul_le_mul (by linarith) (hp.trans (min_le_right _ _)) (by positivity) (by positivity)
      _ = ε / 2 := mul_div_cancel₀ _ (by positivity)
  set Q := integrateSurface (fun y => ‖x - y‖⁻¹ • f y) r u v rule
  have e : layerPotential f r a b c d x - P =
      (1 / (4 * Real.pi)) • (surfaceIntegral (fun y => ‖x - y‖⁻¹ • f y) r a b c d - Q) - (P - (1 / (4 * Real.pi)) • Q) := by
    rw [layerPotential, smul_sub]; abel
  rw [e]
  refine (norm_sub_le _ _).trans ?_
  rw [norm_smul]
  have : ‖1 / (4 * Real.pi)‖ * ‖surfaceIntegral (fun y => ‖x - y‖⁻¹ • f y) r a b c d - Q‖ ≤ ε / 2 := by
    rw [← le_div_iff₀' hpi]; exact hb1
  linarith [hPe.trans hb2]

/-- **C112**. At every point off the surface, the potential computed from `source_tensor` and `charge_tensor` converges to
the single layer potential `1/(4π) ∫ f(y)/|x - y| dS(y)` when the grids are refined: for every order of the Taylor
expansion, smooth charges with values in a Banach space, continuously differentiable surfaces and each of the rules. -/
theorem C112_convergence {f : Pt 3 → E} {order : ℕ} (hf : ContDiff ℝ (order + 1) f) {r : Pt 2 → Pt 3} (hr : ContDiff ℝ 1 r)
    {a b c d : ℝ} (hab : a ≤ b) (hcd : c ≤ d) (x : Pt 3) (hx : ∀ s ∈ Icc a b, ∀ t ∈ Icc c d, r !₂[s, t] ≠ x) :
    PotentialConverges midpoint order f r a b c d x ∧ PotentialConverges trap order f r a b c d x ∧
    PotentialConverges simpson order f r a b c d x ∧
    ∀ xs ws : List ℝ, WellFormed (ws, xs) (-1) 1 → PotentialConverges (gauss xs ws) order f r a b c d x :=
  ⟨potentialConverges_of cellRule_midpoint hf hr hab hcd x hx, potentialConverges_of cellRule_trap hf hr hab hcd x hx,
    potentialConverges_of cellRule_simpson hf hr hab hcd x hx,
    fun _ _ hw => potentialConverges_of (cellRule_gauss hw) hf hr hab hcd x hx⟩

/-- A charge on a paraboloid and a point below it. -/
example : PotentialConverges midpoint 2 (fun y : Pt 3 => Real.sin (y 0)) (fun z : Pt 2 => !₂[z 0, z 1, z 0 ^ 2 + z 1 ^ 2])
    (-1) 1 0 2 !₂[0, 0, -1] :=
  (C112_convergence (by fun_prop) (by
    rw [contDiff_euclidean]
    intro i
    fin_cases i <;> simp <;> fun_prop) (by norm_num) (by norm_num) _ (by
      intro s _ t _ h
      have := congrArg (fun y : Pt 3 => y 2) h
      simp at this
      nlinarith [sq_nonneg s, sq_nonneg t])).1

end

end Verif
