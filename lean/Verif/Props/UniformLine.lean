import Verif.Props.Polygon
import Verif.Props.UniformBnd

/-! # Samples on polylines are uniform -/

namespace Verif

open XR MeasureTheory

/-! ## C106 -/

/-- Spec: the point of segment `k` at the fraction `τ`. -/
def segPoint {d m : ℕ} (line : Fin (m + 2) → Fin d → ℝ) (k : Fin (m + 1)) (τ : ℝ) : Fin d → ℝ := fun i =>
  line k.castSucc i + τ * (line k.succ i - line k.castSucc i)

/-- Spec: the length of the part of segment `k` which is in `A`. -/
noncomputable def segPart {d m : ℕ} (line : Fin (m + 2) → Fin d → ℝ) (k : Fin (m + 1)) (A : Set (Fin d → ℝ)) : ENNReal :=
  ENNReal.ofReal (segLen line k) * volume {τ : ℝ | τ ∈ Set.Icc (0 : ℝ) 1 ∧ segPoint line k τ ∈ A}

section

variable {d m : ℕ} (line : Fin (m + 2) → Fin d → ℝ)

/-- Length before segment `k`. -/
noncomputable def segStart (k : Fin (m + 1)) : ℝ := ∑ j ∈ Finset.univ.filter (· < k), segLen line j

theorem segStart_le {j k : Fin (m + 1)} (h : j < k) : segStart line j + segLen line j ≤ segStart line k := by
  have : segStart line j + segLen line j = ∑ i ∈ insert j (Finset.univ.filter (· < j)), segLen line i := by
    rw [Finset.sum_insert (by simp), segStart, add_comm]
  rw [this]
  refine Finset.sum_le_sum_of_subset_of_nonneg (fun i hi => ?_) fun i _ _ => edist2_nonneg _ _
  simp only [Finset.mem_insert, Finset.mem_filter, Finset.mem_univ, true_and] at hi ⊢
  rcases hi with rfl | hi
  · exact h
  · exact hi.trans h

theorem segStart_nonneg (k : Fin (m + 1)) : 0 ≤ segStart line k := Finset.sum_nonneg fun _ _ => edist2_nonneg _ _

theorem segStart_add_le (k : Fin (m + 1)) : segStart line k + segLen line k ≤ polyLen line := by
  have : segStart line k + segLen line k = ∑ i ∈ insert k (Finset.univ.filter (· < k)), segLen line i := by
    rw [Finset.sum_insert (by simp), segStart, add_comm]
  rw [this]
  exact Finset.sum_le_sum_of_subset_of_nonneg (Finset.subset_univ _) fun i _ _ => edist2_nonneg _ _

theorem measurable_segPoint (k : Fin (m + 1)) : Measurable (segPoint line k) :=
  measurable_pi_lambda _ fun _ => (measurable_id.mul_const _).const_add _

theorem arcPoint_unique {t : ℝ} {p : Fin d → ℝ} (h : IsArcPoint line t p) {k : Fin (m + 1)} (h1 : segStart line k < t)
    (h2 : t < segStart line k + segLen line k) : p = segPoint line k ((t - segStart line k) / segLen line k) := by
  obtain ⟨j, τ, h0, h1', hp, ht⟩ := h
  change segStart line j + τ * segLen line j = t at ht
  have hj : 0 ≤ segLen line j := edist2_nonneg _ _
  have hjk : j = k := by
    rcases lt_trichotomy j k with hlt | rfl | hlt
    · have := segStart_le line hlt
      nlinarith
    · rfl
    · have := segStart_le line hlt
      nlinarith
  subst hjk
  have hpos : segLen line j ≠ 0 := by intro h; rw [h] at h2; linarith
  have : (t - segStart line j) / segLen line j = τ := by rw [← ht]; field_simp; ring
  rw [this]
  funext i
  exact hp i

/-- **C106.** With a uniform sample of the unit interval, `transform_polyline` is in the measurable set `A` with the
probability (length of the part of the polyline in `A`) / (length of the polyline). -/
theorem C106_polyline_uniform (hL : 0 < polyLen line) {A : Set (Fin d → ℝ)} (hA : MeasurableSet A) :
    ENNReal.ofReal (polyLen line) * volume {s : ℝ | s ∈ Set.Ico (0 : ℝ) 1 ∧ ∃ p ∈ A,
      transformPolyline (fin s) (fun j => vfin (line j)) = vfin p} = ∑ k, segPart line k A := by
  set L := polyLen line with hLdef
  set N : Set ℝ := {0} ∪ ⋃ k : Fin (m + 1), {segStart line k / L, (segStart line k + segLen line k) / L} with hN
  have hN0 : volume N = 0 := by
    refine measure_union_null (by simp) (measure_iUnion_null fun k => ?_)
    exact (Set.toFinite _).measure_zero _
  set S : Fin (m + 1) → Set ℝ := fun k => {s | (segStart line k < s * L ∧ s * L < segStart line k + segLen line k) ∧
    segPoint line k ((s * L - segStart line k) / segLen line k) ∈ A} with hS
  have harc : ∀ s : ℝ, s ∈ Set.Ico (0 : ℝ) 1 → s ≠ 0 →
      ∃ p, transformPolyline (fin s) (fun j => vfin (line j)) = vfin p ∧ IsArcPoint line (s * L) p := by
    intro s hs h0
    have hf := Int.fract_eq_self.mpr hs
    obtain ⟨p, hp, ha⟩ := C40_polyline_partial line hL s (.inr (by rwa [hf]))
    rw [hf] at ha
    exact ⟨p, hp, ha⟩
  have hset : {s : ℝ | s ∈ Set.Ico (0 : ℝ) 1 ∧ ∃ p ∈ A, transformPolyline (fin s) (fun j => vfin (line j)) = vfin p} \ N =
      (⋃ k, S k) \ N := by
    ext s
    simp only [Set.mem_sdiff, Set.mem_iUnion, and_congr_left_iff]
    intro hsN
    have h0 : s ≠ 0 := fun h => hsN (.inl h)
    constructor
    · rintro ⟨hs, p, hpA, hp⟩
      obtain ⟨q, hq, harc⟩ := harc s hs h0
      obtain rfl := vfin_inj (hq.symm.trans hp)
      obtain ⟨k, τ, ht0, ht1, -, ht⟩ := id harc
      change segStart line k + τ * segLen line k = s * L at ht
      have hk : 0 ≤ segLen line k := edist2_nonneg _ _
      have hne1 : segStart line k ≠ s * L := fun h =>
        hsN (.inr (Set.mem_iUnion.mpr ⟨k, .inl (by rw [h]; field_simp)⟩))
      have hne2 : segStart line k + segLen line k ≠ s * L := fun h =>
        hsN (.inr (Set.mem_iUnion.mpr ⟨k, .inr (by rw [h, Set.mem_singleton_iff]; field_simp)⟩))
      have h1 : segStart line k < s * L := lt_of_le_of_ne (by nlinarith) hne1
      have h2 : s * L < segStart line k + segLen line k := lt_of_le_of_ne (by nlinarith) hne2.symm
      refine ⟨k, ⟨h1, h2⟩, ?_⟩
      rw [← arcPoint_unique line harc h1 h2]
      exact hpA
    · rintro ⟨k, ⟨h1, h2⟩, hmem⟩
      have hs : s ∈ Set.Ico (0 : ℝ) 1 := by
        have h3 := segStart_nonneg line k
        have h4 := segStart_add_le line k
        constructor <;> nlinarith
      obtain ⟨q, hq, harc⟩ := harc s hs h0
      refine ⟨hs, q, ?_, hq⟩
      rw [arcPoint_unique line harc h1 h2]
      exact hmem
  have hSm : ∀ k, MeasurableSet (S k) := by
    intro k
    have hmul : Measurable fun s : ℝ => s * L := measurable_mul_const L
    refine ((measurableSet_lt measurable_const hmul).inter (measurableSet_lt hmul measurable_const)).inter ?_
    exact ((measurable_segPoint line k).comp ((hmul.sub_const _).div_const _)) hA
  have hdisj : Pairwise (Function.onFun Disjoint S) := by
    intro j k hjk
    rw [Function.onFun, Set.disjoint_left]
    rintro s ⟨⟨a1, a2⟩, -⟩ ⟨⟨b1, b2⟩, -⟩
    rcases lt_or_gt_of_ne hjk with hlt | hlt
    · linarith [segStart_le line hlt]
    · linarith [segStart_le line hlt]
  rw [← measure_sdiff_null hN0, hset, measure_sdiff_null hN0, measure_iUnion hdisj hSm, tsum_fintype, Finset.mul_sum]
  refine Finset.sum_congr rfl fun k _ => ?_
  rw [segPart]
  rcases (show 0 ≤ segLen line k from edist2_nonneg _ _).eq_or_lt with hz | hpos
  · have : S k = ∅ := by
      ext s
      simp only [hS, ← hz, add_zero, Set.mem_ofPred_eq, Set.mem_empty_iff_false, iff_false]
      rintro ⟨⟨h1, h2⟩, -⟩
      exact absurd (h1.trans h2) (lt_irrefl _)
    rw [this, ← hz]
    simp
  · have e1 : S k = (fun s : ℝ => (L / segLen line k) * s) ⁻¹' ((fun t : ℝ => t + -(segStart line k / segLen line k)) ⁻¹'
        {τ : ℝ | τ ∈ Set.Ioo (0 : ℝ) 1 ∧ segPoint line k τ ∈ A}) := by
      ext s
      simp only [hS, Set.mem_ofPred_eq, Set.mem_preimage, Set.mem_Ioo]
      have : L / segLen line k * s + -(segStart line k / segLen line k) = (s * L - segStart line k) / segLen line k := by
        field_simp; ring
      rw [this, div_pos_iff_of_pos_right hpos, div_lt_one hpos, sub_pos, sub_lt_iff_lt_add']
    have e2 : volume {τ : ℝ | τ ∈ Set.Ioo (0 : ℝ) 1 ∧ segPoint line k τ ∈ A} =
        volume {τ : ℝ | τ ∈ Set.Icc (0 : ℝ) 1 ∧ segPoint line k τ ∈ A} := by
      refine measure_congr ?_
      exact (Ioo_ae_eq_Icc (μ := (volume : Measure ℝ))).inter (ae_eq_refl {τ | segPoint line k τ ∈ A})
    have hne : L / segLen line k ≠ 0 := (div_pos hL hpos).ne'
    rw [e1, Real.volume_preimage_mul_left hne, measure_preimage_add_right, e2, ← mul_assoc,
      ← ENNReal.ofReal_mul hL.le, abs_of_pos (inv_pos.mpr (div_pos hL hpos))]
    congr 2
    field_simp

end

/-- **C106** (parallelograms). With a uniform sample, `Parallelogram.transform_bnd` is uniform on the closed polyline
through `a`, `a + b`, `a + b + c`, `c`, `a`. -/
theorem C106_parallelogram_bnd {d : ℕ} (P : Parallelogram d)
    (hL : 0 < polyLen (m := 3) ![P.a, P.a + P.b, P.a + P.b + P.c, P.c, P.a]) {A : Set (Fin d → ℝ)} (hA : MeasurableSet A) :
    ENNReal.ofReal (polyLen (m := 3) ![P.a, P.a + P.b, P.a + P.b + P.c, P.c, P.a]) *
      volume {s : ℝ | s ∈ Set.Ico (0 : ℝ) 1 ∧ ∃ p ∈ A, P.transformBnd (fin s) = vfin p} =
    ∑ k, segPart (m := 3) ![P.a, P.a + P.b, P.a + P.b + P.c, P.c, P.a] k A := by
  rw [← C106_polyline_uniform _ hL hA]
  have : (fun j => vfin ((![P.a, P.a + P.b, P.a + P.b + P.c, P.c, P.a] : Fin 5 → Fin d → ℝ) j)) =
      ![vfin P.a, vfin (P.a + P.b), vfin (P.a + P.b + P.c), vfin P.c, vfin P.a] := by
    funext j
    fin_cases j <;> rfl
  simp only [Parallelogram.transformBnd, ← this]

example : 0 < polyLen (m := 3) ![(![0, 0] : Fin 2 → ℝ), ![0, 0] + ![2, 0], ![0, 0] + ![2, 0] + ![1, 1], ![1, 1], ![0, 0]] := by
  have h : ∀ j : Fin (3 + 1), 0 ≤ segLen (m := 3) ![(![0, 0] : Fin 2 → ℝ), ![0, 0] + ![2, 0], ![0, 0] + ![2, 0] + ![1, 1], ![1, 1], ![0, 0]] j :=
    fun j => Real.sqrt_nonneg _
  have h0 : 0 < segLen (m := 3) ![(![0, 0] : Fin 2 → ℝ), ![0, 0] + ![2, 0], ![0, 0] + ![2, 0] + ![1, 1], ![1, 1], ![0, 0]] 0 := by
    rw [segLen, edist2]
    refine Real.sqrt_pos.mpr ?_
    simp
  exact Finset.sum_pos' (fun j _ => h j) ⟨0, Finset.mem_univ _, h0⟩

theorem unitCube_ae {n : ℕ} : (unitCube n : Set (Fin n → ℝ)) =ᵐ[volume] Set.Icc 0 1 := by
  refine ae_eq_set.mpr ⟨?_, ?_⟩
  · have : unitCube n ⊆ Set.Icc 0 1 := fun x hx => ⟨fun i => (hx i).1, fun i => (hx i).2.le⟩
    rw [Set.sdiff_eq_empty.mpr this, measure_empty]
  · refine measure_mono_null (t := ⋃ j, {y : Fin n → ℝ | y j = 1}) (fun y hy => ?_)
      (measure_iUnion_null fun j => volume_hyperplane j _)
    rw [Set.mem_iUnion]
    by_contra hne
    push Not at hne
    exact hy.2 fun j => ⟨hy.1.1 j, lt_of_le_of_ne (hy.1.2 j) (hne j)⟩

/-- **C106** (parallelograms in the plane). With uniform samples of the unit square, `Parallelogram.transform` is in the
measurable set `A` with the probability (area of the part of the parallelogram in `A`) / `support()`. -/
theorem C106_parallelogram (a b c : Fin 2 → ℝ) {A : Set (Fin 2 → ℝ)} (hA : MeasurableSet A) :
    ∃ V, Parallelogram.support ⟨a, b, c⟩ = fin V ∧ volume (parRegion a b c) = ENNReal.ofReal V ∧
      ENNReal.ofReal V * volume {x ∈ unitCube 2 | ∃ p ∈ A,
        Parallelogram.transform ⟨a, b, c⟩ [fin (x 0), fin (x 1)] = .ok (vfin p)} = volume (A ∩ parRegion a b c) := by
  obtain ⟨htr, -, -, -, -, -, -, hvol⟩ := C41_parallelogram a b c
  obtain ⟨V, hV, hV0, hreg⟩ := hvol rfl
  change volume (parRegion a b c) = ENNReal.ofReal V at hreg
  refine ⟨V, hV, hreg, ?_⟩
  set M : Matrix (Fin 2) (Fin 2) ℝ := !![b 0 - a 0, c 0 - a 0; b 1 - a 1, c 1 - a 1] with hM
  set G : (Fin 2 → ℝ) → Fin 2 → ℝ := fun x => parPoint a b c (x 0) (x 1) with hG
  have himg : G '' Set.Icc 0 1 = parRegion a b c := by
    ext p
    constructor
    · rintro ⟨x, ⟨h0, h1⟩, rfl⟩
      exact ⟨x 0, x 1, h0 0, h1 0, h0 1, h1 1, rfl⟩
    · rintro ⟨s, t, hs0, hs1, ht0, ht1, rfl⟩
      refine ⟨![s, t], ⟨fun i => ?_, fun i => ?_⟩, rfl⟩ <;> fin_cases i <;> simpa
  have hset : {x ∈ unitCube 2 | ∃ p ∈ A, Parallelogram.transform ⟨a, b, c⟩ [fin (x 0), fin (x 1)] = .ok (vfin p)} =
      unitCube 2 ∩ G ⁻¹' A := by
    ext x
    simp only [Set.mem_ofPred_eq, Set.mem_inter_iff, Set.mem_preimage]
    refine and_congr_right fun hx => ?_
    rw [htr _ _ (hx 0).2.le (hx 1).2.le]
    constructor
    · rintro ⟨p, hp, heq⟩
      simp only [Except.ok.injEq] at heq
      obtain rfl := vfin_inj heq
      exact hp
    · exact fun hp => ⟨_, hp, rfl⟩
  rw [hset, measure_congr (unitCube_ae.inter (ae_eq_refl (G ⁻¹' A)))]
  have hGm : Measurable G := measurable_pi_lambda _ fun i =>
    (((measurable_pi_apply 0).mul_const _).const_add _).add ((measurable_pi_apply 1).mul_const _)
  have hder : ∀ x ∈ Set.Icc (0 : Fin 2 → ℝ) 1, HasFDerivAt G (matCLM M) x := by
    intro x _
    refine hasFDerivAt_matCLM fun i => ⟨_, ((hasFDerivAt_coord (f := fun t => a i + t * (b i - a i)) 0
      (((hasDerivAt_id (x 0)).mul_const _).const_add _)).fun_add (hasFDerivAt_coord (f := fun t => t * (c i - a i)) 1
      ((hasDerivAt_id (x 1)).mul_const _))), fun v => ?_⟩
    fin_cases i <;> simp [hM, Fin.sum_univ_two]
  have hVM : V = |M.det| := by
    rw [par_support_fin a b c (b - a) (c - a) rfl rfl, fin_inj] at hV
    rw [← hV, ← Real.sqrt_sq_eq_abs]
    congr 1
    rw [hM, Matrix.det_fin_two_of]
    simp only [rdot, Fin.sum_univ_two, Pi.sub_apply]
    ring
  by_cases hdet : M.det = 0
  · rw [hdet, abs_zero] at hVM
    rw [hVM, ENNReal.ofReal_zero] at hreg ⊢
    rw [zero_mul, measure_mono_null Set.inter_subset_right hreg]
  · have hinj : Set.InjOn G (Set.Icc 0 1) := by
      intro x _ y _ hxy
      have h0 := congrFun hxy 0
      have h1 := congrFun hxy 1
      rw [hM, Matrix.det_fin_two_of] at hdet
      simp only [hG, parPoint] at h0 h1
      have e0 : (x 0 - y 0) * ((b 0 - a 0) * (c 1 - a 1) - (c 0 - a 0) * (b 1 - a 1)) = 0 := by
        linear_combination (c 1 - a 1) * h0 - (c 0 - a 0) * h1
      have e1 : (x 1 - y 1) * ((b 0 - a 0) * (c 1 - a 1) - (c 0 - a 0) * (b 1 - a 1)) = 0 := by
        linear_combination (b 0 - a 0) * h1 - (b 1 - a 1) * h0
      funext i
      fin_cases i
      · exact sub_eq_zero.mp ((mul_eq_zero.mp e0).resolve_right hdet)
      · exact sub_eq_zero.mp ((mul_eq_zero.mp e1).resolve_right hdet)
    have key {B : Set (Fin 2 → ℝ)} (hB : MeasurableSet B) := volume_of_jacobian (T := G) measurableSet_Icc hGm hder hinj
      (c := |M.det|) (fun x _ => by rw [matCLM_det]) hB
    have h1 := key MeasurableSet.univ
    have hI : volume (Set.Icc (0 : Fin 2 → ℝ) 1) = 1 := by rw [Real.volume_Icc_pi]; simp
    rw [Set.preimage_univ, Set.inter_univ, Set.univ_inter, himg, hreg, hI, mul_one] at h1
    rw [← h1, key hA, himg]

/-- The polyline through 0, 1 and 3: a third of the samples is left of 1. -/
example : ENNReal.ofReal 3 * volume {s : ℝ | s ∈ Set.Ico (0 : ℝ) 1 ∧ ∃ p ∈ {p : Fin 1 → ℝ | p 0 < 1},
    transformPolyline (m := 1) (fin s) (fun j => vfin (![![0], ![1], ![3]] j)) = vfin p} = 1 := by
  have hlen0 : segLen (m := 1) (![![0], ![1], ![3]] : Fin 3 → Fin 1 → ℝ) 0 = 1 := by
    simp [segLen, edist2]
  have hlen1 : segLen (m := 1) (![![0], ![1], ![3]] : Fin 3 → Fin 1 → ℝ) 1 = 2 := by
    rw [segLen, edist2, Real.sqrt_eq_iff_mul_self_eq] <;> simp <;> norm_num
  have hL : polyLen (m := 1) (![![0], ![1], ![3]] : Fin 3 → Fin 1 → ℝ) = 3 := by
    rw [polyLen, Fin.sum_univ_two, hlen0, hlen1]; norm_num
  have h := C106_polyline_uniform (m := 1) ![![0], ![1], ![3]] (by rw [hL]; norm_num)
    (measurableSet_lt (measurable_pi_apply 0) measurable_const : MeasurableSet {p : Fin 1 → ℝ | p 0 < 1})
  rw [hL] at h
  rw [h, Fin.sum_univ_two, segPart, segPart, hlen0, hlen1]
  have h0 : {τ : ℝ | τ ∈ Set.Icc (0 : ℝ) 1 ∧ segPoint (m := 1) ![![0], ![1], ![3]] 0 τ ∈ {p : Fin 1 → ℝ | p 0 < 1}} =
      Set.Ico 0 1 := by
    ext τ
    simp only [Set.mem_ofPred_eq, segPoint, Set.mem_Icc, Set.mem_Ico]
    simp
    intro h _
    exact h.le
  have h1 : {τ : ℝ | τ ∈ Set.Icc (0 : ℝ) 1 ∧ segPoint (m := 1) ![![0], ![1], ![3]] 1 τ ∈ {p : Fin 1 → ℝ | p 0 < 1}} =
      ∅ := by
    ext τ
    simp only [Set.mem_ofPred_eq, segPoint, Set.mem_Icc, Set.mem_empty_iff_false, iff_false]
    simp
    intro h _
    nlinarith
  rw [h0, h1]
  simp

/-- The parallelogram with the corners `(0, 0)`, `(2, 0)`, `(1, 1)`, `(3, 1)` has area 2. -/
example : Parallelogram.support (⟨![0, 0], ![2, 0], ![1, 1]⟩ : Parallelogram 2) = fin 2 ∧
    ∃ V, Parallelogram.support (⟨![0, 0], ![2, 0], ![1, 1]⟩ : Parallelogram 2) = fin V ∧
      volume (parRegion ![0, 0] ![2, 0] ![1, 1]) = ENNReal.ofReal V := by
  obtain ⟨V, h1, h2, -⟩ := C106_parallelogram ![0, 0] ![2, 0] ![1, 1] MeasurableSet.univ
  refine ⟨?_, V, h1, h2⟩
  rw [par_support_fin _ _ _ _ _ rfl rfl, fin_inj, Real.sqrt_eq_iff_mul_self_eq] <;>
    simp [rdot, Fin.sum_univ_two] <;> norm_num

end Verif
