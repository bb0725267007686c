import Verif.Props.Sampling

/-! # Rejection sampling: the samples of all streams together (C147) -/

namespace Verif

open XR MeasureTheory ProbabilityTheory
open scoped ENNReal

section
variable {Ω : Type*} [MeasurableSpace Ω] {P : Measure Ω} [IsProbabilityMeasure P]
variable {S : Type*} [MeasurableSpace S] {μ : Measure S} [IsProbabilityMeasure μ]
variable (sample_fn : Ω → Key → S) (uniform : Ω → Key → ℝ) (key : Key) (pdf : S → ℝ) (m : ℝ)

/-- What an ideal random number generator does for all streams together: all proposals of all streams are independent,
each with distribution `μ` and a uniform number independent of it. -/
structure IdealJoint (P : Measure Ω) (μ : Measure S) (n : ℕ) : Prop where
  meas : ∀ i : Fin n, ∀ j, Measurable (proposals sample_fn uniform key i j)
  law : ∀ i : Fin n, ∀ j, P.map (proposals sample_fn uniform key i j) = proposalLaw μ
  indep : iIndepFun (fun p : Fin n × ℕ => proposals sample_fn uniform key p.1 p.2) P

variable {sample_fn uniform key pdf m}

omit [IsProbabilityMeasure P] [IsProbabilityMeasure μ] in
theorem IdealJoint.streams {n : ℕ} (h : IdealJoint sample_fn uniform key P μ n) :
    IdealStreams sample_fn uniform key P μ n where
  meas := h.meas
  law := h.law
  indep i := h.indep.precomp (g := fun j => (i, j)) (Prod.mk_right_injective i)

/-- The streams are independent of each other. -/
theorem IdealJoint.rows {n : ℕ} (h : IdealJoint sample_fn uniform key P μ n) :
    iIndepFun (fun (i : Fin n) ω (j : ℕ) => proposals sample_fn uniform key i j ω) P := by
  have hvol : IsProbabilityMeasure ((volume : Measure ℝ).restrict (Set.Ico 0 1)) := ⟨by simp⟩
  have hprob : IsProbabilityMeasure (proposalLaw μ) := by unfold proposalLaw; infer_instance
  have hm : ∀ p : Fin n × ℕ, Measurable (proposals sample_fn uniform key p.1 p.2) := fun p => h.meas p.1 p.2
  have hmr : ∀ i : Fin n, Measurable fun ω (j : ℕ) => proposals sample_fn uniform key i j ω :=
    fun i => measurable_pi_iff.mpr fun j => h.meas i j
  rw [iIndepFun_iff_map_fun_eq_infinitePi_map hmr]
  have hrow : ∀ i : Fin n, P.map (fun ω (j : ℕ) => proposals sample_fn uniform key i j ω) =
      Measure.infinitePi fun _ : ℕ => proposalLaw μ := by
    intro i
    rw [(h.streams.indep i).map_fun_eq_infinitePi_map (h.meas i)]
    simp_rw [h.law i]
  simp_rw [hrow]
  have hall := h.indep.map_fun_eq_infinitePi_map hm
  have hl : ∀ p : Fin n × ℕ, P.map (proposals sample_fn uniform key p.1 p.2) = proposalLaw μ := fun p => h.law p.1 p.2
  simp_rw [hl] at hall
  have hc := Measure.infinitePi_map_curry (fun (_ : Fin n) (_ : ℕ) => proposalLaw μ)
  rw [← hc, ← hall, Measure.map_map (MeasurableEquiv.measurable _) (measurable_pi_iff.mpr hm)]
  rfl

/-- Sequences of proposals whose first accepted one is in `A`. -/
def firstIn (pdf : S → ℝ) (m : ℝ) (A : Set S) : Set (ℕ → S × ℝ) :=
  ⋃ j, (⋂ i ∈ Finset.range j, (fun z => z i) ⁻¹' (accSet pdf m Set.univ)ᶜ) ∩ (fun z => z j) ⁻¹' accSet pdf m A

omit [IsProbabilityMeasure μ] in
theorem measurableSet_firstIn (hpdf : Measurable pdf) {A : Set S} (hA : MeasurableSet A) :
    MeasurableSet (firstIn pdf m A) := by
  refine MeasurableSet.iUnion fun j => MeasurableSet.inter ?_ (measurable_pi_apply j (measurableSet_accSet hpdf m hA))
  exact Finset.measurableSet_biInter _ fun i _ =>
    measurable_pi_apply i (measurableSet_accSet hpdf m MeasurableSet.univ).compl

omit [MeasurableSpace Ω] [MeasurableSpace S] in
/-- A returned sample is in `A` exactly if the first accepted proposal of its stream is. -/
theorem out_mem_iff (hm : 0 < m) {n : ℕ} (ω : Ω) (out : Fin n → S)
    (hout : rejectionSampling (fun k => fin (uniform ω k)) key (fun x => fin (pdf x)) (sample_fn ω) n (fin m) = some out)
    (i : Fin n) (A : Set S) :
    out i ∈ A ↔ (fun j => proposals sample_fn uniform key i j ω) ∈ firstIn pdf m A := by
  obtain ⟨j, e, hj, hmin⟩ := (C70_first_accepted _ _ _ _ _ _ _).mp hout i
  simp only [firstIn, Set.mem_iUnion, Set.mem_inter_iff, Set.mem_iInter, Finset.mem_range, Set.mem_preimage,
    Set.mem_compl_iff, mem_accSet_iff hm]
  constructor
  · intro hA
    refine ⟨j, hmin, ?_, ((mem_accSet_iff hm ω i j).mpr hj).2⟩
    show sample_fn ω ((streamKey key i j).child 1) ∈ A
    rw [← e]; exact hA
  · rintro ⟨j', hmin', hj'⟩
    have hacc : Accepted (fun k => fin (uniform ω k)) (fun x => fin (pdf x)) (sample_fn ω) (fin m) (streamKey key i j') :=
      (mem_accSet_iff hm ω i j').mp ⟨Set.mem_univ _, hj'.2⟩
    have : j' = j := by
      rcases lt_trichotomy j' j with h | h | h
      · exact absurd hacc (hmin j' h)
      · exact h
      · exact absurd hj (hmin' j h)
    rw [e, ← this]
    exact hj'.1

/-- **C147.** With an ideal random number generator the samples returned by `rejection_sampling` are independent, each
with the density `pdf` (normalised) with respect to the proposal distribution. -/
theorem C147_independent (n : ℕ) (hid : IdealJoint sample_fn uniform key P μ n) (hpdf : Measurable pdf) (hm : 0 < m)
    (h1 : ∀ x, pdf x ≤ m) (hpos : 0 < ∫⁻ x, ENNReal.ofReal (pdf x) ∂μ) (A : Fin n → Set S)
    (hA : ∀ i, MeasurableSet (A i)) :
    P {ω | ∃ out, rejectionSampling (fun k => fin (uniform ω k)) key (fun x => fin (pdf x)) (sample_fn ω) n (fin m) =
      some out ∧ ∀ i, out i ∈ A i} =
      ∏ i, (∫⁻ x in A i, ENNReal.ofReal (pdf x) ∂μ) / ∫⁻ x, ENNReal.ofReal (pdf x) ∂μ := by
  have hae := ae_accepted hid.streams hpdf hm h1 hpos
  have hset : P {ω | ∃ out, rejectionSampling (fun k => fin (uniform ω k)) key (fun x => fin (pdf x)) (sample_fn ω) n
      (fin m) = some out ∧ ∀ i, out i ∈ A i} =
      P (⋂ i ∈ (Finset.univ : Finset (Fin n)), (fun ω (j : ℕ) => proposals sample_fn uniform key i j ω) ⁻¹'
        firstIn pdf m (A i)) := by
    refine measure_congr ?_
    filter_upwards [hae] with ω hω
    apply propext
    show (∃ out, _ ∧ _) ↔ ω ∈ ⋂ i ∈ Finset.univ, _
    simp only [Finset.mem_univ, Set.iInter_true, Set.mem_iInter, Set.mem_preimage]
    constructor
    · rintro ⟨out, hout, h⟩ i
      exact (out_mem_iff hm ω out hout i (A i)).mp (h i)
    · intro h
      obtain ⟨out, hout⟩ := hω
      exact ⟨out, hout, fun i => (out_mem_iff hm ω out hout i (A i)).mpr (h i)⟩
  rw [hset, hid.rows.measure_inter_preimage_eq_mul Finset.univ fun i _ => measurableSet_firstIn hpdf (hA i)]
  refine Finset.prod_congr rfl fun i _ => ?_
  rw [← prob_first (hid.streams.indep i) (hid.law i) (hid.meas i) hpdf hm h1 (hA i)]
  congr 1
  ext ω
  simp [firstIn]

/-- Sequences of proposals with an accepted one among the first `k`. -/
def accWithin (pdf : S → ℝ) (m : ℝ) (k : ℕ) : Set (ℕ → S × ℝ) :=
  (⋂ i ∈ Finset.range k, (fun z => z i) ⁻¹' (accSet pdf m Set.univ)ᶜ)ᶜ

/-- **C147** (running time). All streams have accepted a proposal within the first `k` rounds of the loop with the
probability `(1 - (1 - mean / m) ^ k) ^ n`; so the loop stops after finitely many rounds almost surely, and the chance that it
runs longer decreases geometrically. -/
theorem C147_rounds (n k : ℕ) (hid : IdealJoint sample_fn uniform key P μ n) (hpdf : Measurable pdf) (hm : 0 < m)
    (h1 : ∀ x, pdf x ≤ m) :
    P {ω | ∀ i : Fin n, ∃ j < k, Accepted (fun k => fin (uniform ω k)) (fun x => fin (pdf x)) (sample_fn ω) (fin m)
      (streamKey key i j)} =
      (1 - (1 - (∫⁻ x, ENNReal.ofReal (pdf x) ∂μ) / ENNReal.ofReal m) ^ k) ^ n := by
  have hvol : IsProbabilityMeasure ((volume : Measure ℝ).restrict (Set.Ico 0 1)) := ⟨by simp⟩
  have hprob : IsProbabilityMeasure (proposalLaw μ) := by unfold proposalLaw; infer_instance
  have hacc := measurableSet_accSet hpdf m MeasurableSet.univ
  have hnone : MeasurableSet (⋂ i ∈ Finset.range k, (fun z : ℕ → S × ℝ => z i) ⁻¹' (accSet pdf m Set.univ)ᶜ) :=
    Finset.measurableSet_biInter _ fun i _ => measurable_pi_apply i hacc.compl
  have hset : {ω | ∀ i : Fin n, ∃ j < k, Accepted (fun k => fin (uniform ω k)) (fun x => fin (pdf x)) (sample_fn ω) (fin m)
      (streamKey key i j)} = ⋂ i ∈ (Finset.univ : Finset (Fin n)),
        (fun ω (j : ℕ) => proposals sample_fn uniform key i j ω) ⁻¹' accWithin pdf m k := by
    ext ω
    simp only [Set.mem_ofPred_eq, Finset.mem_univ, Set.iInter_true, Set.mem_iInter, Set.mem_preimage, accWithin,
      Set.mem_compl_iff, Finset.mem_range, mem_accSet_iff hm, not_forall, not_not, exists_prop]
  rw [hset, hid.rows.measure_inter_preimage_eq_mul Finset.univ (sets := fun _ => accWithin pdf m k)
    fun i _ => hnone.compl]
  rw [Finset.prod_congr rfl (g := fun _ => 1 - (1 - (∫⁻ x, ENNReal.ofReal (pdf x) ∂μ) / ENNReal.ofReal m) ^ k) fun i _ => ?_,
    Finset.prod_const, Finset.card_univ, Fintype.card_fin]
  have hmr : Measurable fun ω (j : ℕ) => proposals sample_fn uniform key i j ω :=
    measurable_pi_iff.mpr fun j => hid.meas i j
  have h2 := prob_none (m := m) (hid.streams.indep i) (hid.law i) (hid.meas i) hpdf Set.univ MeasurableSet.univ k
  rw [Set.preimage_univ, Set.inter_univ, measure_univ, mul_one,
    proposalLaw_accSet hpdf hm h1 MeasurableSet.univ, Measure.restrict_univ] at h2
  rw [accWithin, Set.preimage_compl, prob_compl_eq_one_sub (hmr hnone), ← h2]
  congr 2
  ext ω
  simp

/-- Ideal random number generators exist: take independent proposals for all keys. -/
theorem idealJoint_exist (μ : Measure S) [IsProbabilityMeasure μ] (key : Key) (n : ℕ) :
    ∃ (P : Measure (Key → S × ℝ)) (sample_fn : (Key → S × ℝ) → Key → S) (uniform : (Key → S × ℝ) → Key → ℝ),
      IsProbabilityMeasure P ∧ IdealJoint sample_fn uniform key P μ n := by
  have hvol : IsProbabilityMeasure ((volume : Measure ℝ).restrict (Set.Ico 0 1)) := ⟨by simp⟩
  have hprob : IsProbabilityMeasure (proposalLaw μ) := by unfold proposalLaw; infer_instance
  refine ⟨Measure.infinitePi fun _ => proposalLaw μ, fun ω k => (ω k.dropLast).1, fun ω k => (ω k.dropLast).2,
    inferInstance, ?_⟩
  have hprop : ∀ i j, proposals (fun (ω : Key → S × ℝ) (k : Key) => (ω k.dropLast).1) (fun ω k => (ω k.dropLast).2)
      key i j = fun ω => ω (streamKey key i j) := by
    intro i j
    funext ω
    simp [proposals, Key.child]
  have hpre : ∀ i j, (streamKey key i j).take (key.length + 1) = key ++ [i] := by
    intro i j
    induction j with
    | zero => simp [streamKey, Key.child]
    | succ j ih =>
      have hlen : key.length + 1 ≤ (streamKey key i j).length := by
        have := congrArg List.length ih
        simp at this
        omega
      simp [streamKey, Key.child, List.take_append_of_le_length hlen, ih]
  have hlen : ∀ i j, (streamKey key i j).length = key.length + 1 + j := by
    intro i j
    induction j with
    | zero => simp [streamKey, Key.child]
    | succ j ih => simp [streamKey, Key.child, ih]; omega
  have hinj : Function.Injective fun p : Fin n × ℕ => streamKey key p.1 p.2 := by
    rintro ⟨i, j⟩ ⟨i', j'⟩ h
    have h1 := congrArg List.length h
    have h2 := congrArg (List.take (key.length + 1)) h
    simp only [hlen, hpre] at h1 h2
    have hi : (i : ℕ) = i' := by simpa using h2
    have hj : j = j' := by omega
    exact Prod.ext (Fin.ext hi) hj
  constructor
  · intro i j
    rw [hprop]
    exact measurable_pi_apply _
  · intro i j
    rw [hprop]
    exact Measure.infinitePi_map_eval _ _
  · simp_rw [hprop]
    exact (iIndepFun_infinitePi (P := fun _ : Key => proposalLaw μ) (X := fun _ q => q)
      (fun _ => measurable_id)).precomp hinj

/-- Two samples with proposals uniform in `[0, 1]` and density `x ↦ max 0 (min x 1)`: the chance that both are in `A` is the
square of the chance for one. -/
example : ∃ (P : Measure (Key → ℝ × ℝ)) (sample_fn : (Key → ℝ × ℝ) → Key → ℝ) (uniform : (Key → ℝ × ℝ) → Key → ℝ),
    ∀ A : Set ℝ, MeasurableSet A →
    P {ω | ∃ out, rejectionSampling (fun k => fin (uniform ω k)) [] (fun x => fin (max 0 (min x 1))) (sample_fn ω) 2
      (fin 1) = some out ∧ ∀ i, out i ∈ A} =
      ((∫⁻ x in A, ENNReal.ofReal (max 0 (min x 1)) ∂((volume : Measure ℝ).restrict (Set.Icc 0 1))) /
        ∫⁻ x, ENNReal.ofReal (max 0 (min x 1)) ∂((volume : Measure ℝ).restrict (Set.Icc 0 1))) ^ 2 := by
  have hvol : IsProbabilityMeasure ((volume : Measure ℝ).restrict (Set.Icc 0 1)) := ⟨by simp⟩
  obtain ⟨P, sample_fn, uniform, hP, hid⟩ := idealJoint_exist ((volume : Measure ℝ).restrict (Set.Icc 0 1)) [] 2
  refine ⟨P, sample_fn, uniform, fun A hA => ?_⟩
  have hmeas : Measurable fun x : ℝ => max 0 (min x 1) := by fun_prop
  have h := C147_independent 2 hid hmeas one_pos (fun x => max_le zero_le_one (min_le_right _ _)) ?_ (fun _ => A) fun _ => hA
  · rw [h, Fin.prod_univ_two, sq]
  rw [lintegral_pos_iff_support (hmeas.ennreal_ofReal), Measure.restrict_apply]
  · refine lt_of_lt_of_le ?_ (measure_mono (s := Set.Ioc 0 1) ?_)
    · simp
    · intro x hx
      refine ⟨?_, hx.1.le, hx.2⟩
      simp only [Function.mem_support, ne_eq, ENNReal.ofReal_eq_zero, not_le]
      exact lt_max_of_lt_right (lt_min hx.1 one_pos)
  · exact measurableSet_support (hmeas.ennreal_ofReal)

end

end Verif
