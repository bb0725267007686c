import Verif.Model.Sampling
import Mathlib.Probability.Independence.Basic
import Mathlib.MeasureTheory.Measure.Prod
import Mathlib.MeasureTheory.Measure.Lebesgue.Basic
import Mathlib.Analysis.SpecificLimits.Basic
import Mathlib.Probability.Notation
import Mathlib.Probability.Independence.InfinitePi

/-! # Properties of `rejection_sampling` -/

namespace Verif

open XR

section
variable {S : Type*}

/-! ## Spec: the streams of proposals -/

/-- The key with which proposal `j` of stream `i` is drawn. -/
def streamKey (key : Key) (i : ℕ) : ℕ → Key
  | 0 => key.child i
  | j + 1 => (streamKey key i j).child 0

/-- Proposal `j` of stream `i` is accepted: its number does not exceed `pdf / m`. -/
def Accepted (uniform : Key → XR) (pdf : S → XR) (sample_fn : Key → S) (m : XR) (k : Key) : Prop :=
  ¬ uniform (k.child 2) > pdf (sample_fn (k.child 1)) / m

/-! ## Loops -/

theorem laxWhile_eq_some {cond : S → Prop} {body : S → S} {init s : S} :
    laxWhile cond body init = some s ↔
      ∃ k, s = body^[k] init ∧ ¬ cond (body^[k] init) ∧ ∀ j < k, cond (body^[j] init) := by
  classical
  unfold laxWhile
  constructor
  · intro h
    split at h
    · next hex =>
      simp only [Option.some.injEq] at h
      refine ⟨Nat.find hex, h.symm, Nat.find_spec hex, fun j hj => ?_⟩
      exact not_not.mp (Nat.find_min hex hj)
    · cases h
  · rintro ⟨k, rfl, h1, h2⟩
    have hex : ∃ k, ¬ cond (body^[k] init) := ⟨k, h1⟩
    rw [dif_pos hex]
    have : Nat.find hex = k := by
      rw [Nat.find_eq_iff]
      exact ⟨h1, fun j hj => not_not.mpr (h2 j hj)⟩
    rw [this]

open Classical in
/-- A lane of a vectorised loop after `k` rounds. -/
theorem lane_iterate {n : ℕ} (cond : S → Prop) (body : S → S) (init : Fin n → S) (i : Fin n) (k : ℕ) :
    ((fun (s : Fin n → S) i => if cond (s i) then body (s i) else s i)^[k] init) i =
      (fun s => if cond s then body s else s)^[k] (init i) := by
  induction k with
  | zero => rfl
  | succ k ih => rw [Function.iterate_succ_apply', Function.iterate_succ_apply', ← ih]

open Classical in
theorem lane_before {cond : S → Prop} {body : S → S} {s : S} {t : ℕ} (h2 : ∀ j < t, cond (body^[j] s)) (k : ℕ)
    (hk : k ≤ t) : (fun s => if cond s then body s else s)^[k] s = body^[k] s := by
  induction k with
  | zero => rfl
  | succ k ih =>
    rw [Function.iterate_succ_apply', Function.iterate_succ_apply', ih (by omega), if_pos (h2 k (by omega))]

open Classical in
theorem lane_after {cond : S → Prop} {body : S → S} {s : S} {t : ℕ} (h1 : ¬ cond (body^[t] s))
    (h2 : ∀ j < t, cond (body^[j] s)) (k : ℕ) (hk : t ≤ k) :
    (fun s => if cond s then body s else s)^[k] s = body^[t] s := by
  induction k, hk using Nat.le_induction with
  | base => exact lane_before h2 t le_rfl
  | succ k _ ih => rw [Function.iterate_succ_apply', ih, if_neg h1]

/-- A vectorised loop terminates iff all lanes do, and every lane has the result of its own loop. -/
theorem vmapWhile_eq_some {n : ℕ} {cond : S → Prop} {body : S → S} {init s : Fin n → S} :
    vmapWhile cond body init = some s ↔
      ∀ i, ∃ k, s i = body^[k] (init i) ∧ ¬ cond (body^[k] (init i)) ∧ ∀ j < k, cond (body^[j] (init i)) := by
  classical
  rw [vmapWhile, laxWhile_eq_some]
  constructor
  · rintro ⟨k, hs, h1, -⟩ i
    push Not at h1
    have h1i := h1 i
    rw [lane_iterate] at h1i
    have hsi : s i = (fun s => if cond s then body s else s)^[k] (init i) := by rw [hs, lane_iterate]
    have hex : ∃ t, ¬ cond (body^[t] (init i)) := by
      by_contra hno
      push Not at hno
      rw [lane_before (t := k) (fun j _ => hno j) k le_rfl] at h1i
      exact h1i (hno k)
    have hmin : ∀ j < Nat.find hex, cond (body^[j] (init i)) := fun j hj => not_not.mp (Nat.find_min hex hj)
    refine ⟨Nat.find hex, ?_, Nat.find_spec hex, hmin⟩
    rcases le_or_gt (Nat.find hex) k with h | h
    · rw [hsi, lane_after (Nat.find_spec hex) hmin k h]
    · exfalso
      rw [lane_before hmin k h.le] at h1i
      exact h1i (hmin k h)
  · intro h
    choose t ht h1 h2 using h
    -- the slowest lane
    set F := fun (s : Fin n → S) i => if cond (s i) then body (s i) else s i with hF
    have hlane : ∀ k i, (F^[k] init) i = (fun s => if cond s then body s else s)^[k] (init i) :=
      fun k i => lane_iterate cond body init i k
    have hstop : ∀ k, (∀ i, t i ≤ k) → ∀ i, (F^[k] init) i = body^[t i] (init i) := by
      intro k hk i
      rw [hlane, lane_after (h1 i) (h2 i) k (hk i)]
    have hgo : ∀ k i, k < t i → cond ((F^[k] init) i) := by
      intro k i hk
      rw [hlane, lane_before (h2 i) k hk.le]
      exact h2 i k hk
    refine ⟨Finset.univ.sup t, ?_, ?_, ?_⟩
    · funext i
      rw [hstop _ (fun i => Finset.le_sup (Finset.mem_univ i)) i, ht]
    · push Not
      intro i
      rw [hstop _ (fun i => Finset.le_sup (Finset.mem_univ i)) i]
      exact h1 i
    · intro j hj
      rw [Finset.lt_sup_iff] at hj
      obtain ⟨i, -, hi⟩ := hj
      exact ⟨i, hgo j i hi⟩

theorem body_iterate (sample_fn : Key → S) (uniform : Key → XR) (key : Key) (i j : ℕ) :
    (rejection.body sample_fn uniform)^[j] (rejection.draw sample_fn uniform (key.child i)) =
      rejection.draw sample_fn uniform (streamKey key i j) := by
  induction j with
  | zero => rfl
  | succ j ih => rw [Function.iterate_succ_apply', ih]; rfl

/-! ## C70 -/

/-- The result consists of the first accepted proposal of every stream (and exists iff every stream has an accepted
proposal). -/
theorem C70_first_accepted (uniform : Key → XR) (key : Key) (pdf : S → XR) (sample_fn : Key → S) (n : ℕ) (m : XR)
    (out : Fin n → S) :
    rejectionSampling uniform key pdf sample_fn n m = some out ↔
      ∀ i : Fin n, ∃ j, out i = sample_fn ((streamKey key i j).child 1) ∧
        Accepted uniform pdf sample_fn m (streamKey key i j) ∧
        ∀ j' < j, ¬ Accepted uniform pdf sample_fn m (streamKey key i j') := by
  simp only [rejectionSampling, Option.map_eq_some_iff, vmapWhile_eq_some, body_iterate]
  constructor
  · rintro ⟨s, hs, rfl⟩ i
    obtain ⟨k, h1, h2, h3⟩ := hs i
    refine ⟨k, by show (s i).2.2 = _; rw [h1]; rfl, h2, fun j' hj' => ?_⟩
    exact not_not.mpr (h3 j' hj')
  · intro h
    choose k h1 h2 h3 using h
    refine ⟨fun i => rejection.draw sample_fn uniform (streamKey key i (k i)), fun i => ⟨k i, rfl, h2 i, fun j' hj' => ?_⟩,
      ?_⟩
    · exact not_not.mp (h3 i j' hj')
    · funext i
      rw [h1]
      rfl

/-- For finite numbers: the uniform number of every returned sample is at most `pdf / m`. -/
theorem C70_bound (uniform : Key → ℝ) (key : Key) (pdf : S → ℝ) (sample_fn : Key → S) (n : ℕ) (m : ℝ) (hm : 0 < m)
    (out : Fin n → S)
    (h : rejectionSampling (fun k => fin (uniform k)) key (fun x => fin (pdf x)) sample_fn n (fin m) = some out)
    (i : Fin n) : ∃ j, out i = sample_fn ((streamKey key i j).child 1) ∧
      uniform ((streamKey key i j).child 2) ≤ pdf (out i) / m := by
  obtain ⟨j, h1, h2, -⟩ := (C70_first_accepted _ _ _ _ _ _ _).mp h i
  refine ⟨j, h1, ?_⟩
  rw [Accepted, fin_div _ hm.ne', gt_iff_lt, fin_lt, not_lt, ← h1] at h2
  exact h2

example : ∃ j : ℕ, (1 / 2 : ℝ) ≤ 1 / 1 ∧ (7 : ℕ) = (fun _ : Key => 7) ((streamKey [] (0 : Fin 3) j).child 1) := by
  have h : rejectionSampling (fun _ => fin (1 / 2)) [] (fun _ : ℕ => fin 1) (fun _ => 7) 3 (fin 1) = some fun _ => 7 := by
    rw [C70_first_accepted]
    intro i
    refine ⟨0, rfl, ?_, by simp⟩
    rw [Accepted, fin_div _ one_ne_zero]
    norm_num
  obtain ⟨j, h1, h2⟩ := C70_bound (fun _ => 1 / 2) [] (fun _ => 1) (fun _ => 7) 3 1 one_pos _ h 0
  exact ⟨j, h2, h1⟩

/-- Each sample depends on its own stream only: changing proposals or uniform numbers of keys of other streams does not
change it. -/
theorem C70_independent (uniform uniform' : Key → XR) (key : Key) (pdf : S → XR) (sample_fn sample_fn' : Key → S)
    (n : ℕ) (m : XR) (out out' : Fin n → S) (i : Fin n)
    (hs : ∀ j, sample_fn ((streamKey key i j).child 1) = sample_fn' ((streamKey key i j).child 1))
    (hu : ∀ j, uniform ((streamKey key i j).child 2) = uniform' ((streamKey key i j).child 2))
    (h : rejectionSampling uniform key pdf sample_fn n m = some out)
    (h' : rejectionSampling uniform' key pdf sample_fn' n m = some out') : out i = out' i := by
  obtain ⟨j, h1, h2, h3⟩ := (C70_first_accepted _ _ _ _ _ _ _).mp h i
  obtain ⟨j', h1', h2', h3'⟩ := (C70_first_accepted _ _ _ _ _ _ _).mp h' i
  have e : ∀ j, Accepted uniform pdf sample_fn m (streamKey key i j) ↔
      Accepted uniform' pdf sample_fn' m (streamKey key i j) := by
    intro j; rw [Accepted, Accepted, hs, hu]
  have : j = j' := by
    rcases lt_trichotomy j j' with hlt | heq | hgt
    · exact absurd ((e j).mp h2) (h3' j hlt)
    · exact heq
    · exact absurd ((e j').mpr h2') (h3 j' hgt)
  rw [h1, h1', this, hs]

/-- All proposals `7`, all numbers `1/2`, density `1`: the samples are `7`. -/
example : rejectionSampling (fun _ => fin (1 / 2)) [] (fun _ : ℕ => fin 1) (fun _ => 7) 3 (fin 1) = some fun _ => 7 := by
  rw [C70_first_accepted]
  intro i
  refine ⟨0, rfl, ?_, by simp⟩
  rw [Accepted, fin_div _ one_ne_zero]
  norm_num

/-! ## C71 -/

/-- Returned samples have positive density if the uniform numbers are positive and the density is a number.
Missing: uniform numbers which are zero, and densities with value `nan`; the claim is false for them, see the two
counterexamples. -/
theorem C71_positive_partial (uniform : Key → XR) (key : Key) (pdf : S → XR) (sample_fn : Key → S) (n : ℕ)
    (m : ℝ) (hm : 0 < m) (hu : ∀ k, 0 < uniform k) (hp : ∀ x, pdf x ≠ nan) (out : Fin n → S)
    (h : rejectionSampling uniform key pdf sample_fn n (fin m) = some out) (i : Fin n) : 0 < pdf (out i) := by
  obtain ⟨j, h1, h2, -⟩ := (C70_first_accepted _ _ _ _ _ _ _).mp h i
  rw [Accepted, ← h1] at h2
  have hu' := hu ((streamKey key i j).child 2)
  rw [zero_eq] at hu' ⊢
  cases hpd : pdf (out i) with
  | nan => exact absurd hpd (hp _)
  | pinf => trivial
  | ninf =>
    exfalso
    apply h2
    rw [hpd, show (ninf : XR) / fin m = ninf by show XR.div _ _ = _; simp [XR.div, not_lt.mpr hm.le]]
    cases hc : uniform ((streamKey key i j).child 2) with
    | nan => rw [hc] at hu'; exact hu'.elim
    | ninf => rw [hc] at hu'; exact hu'.elim
    | pinf => trivial
    | fin u => trivial
  | fin d =>
    rw [fin_lt]
    by_contra hd
    apply h2
    rw [hpd, fin_div _ hm.ne', gt_iff_lt]
    have hle : d / m ≤ 0 := div_nonpos_of_nonpos_of_nonneg (not_lt.mp hd) hm.le
    cases hc : uniform ((streamKey key i j).child 2) with
    | nan => rw [hc] at hu'; exact hu'.elim
    | ninf => rw [hc] at hu'; exact hu'.elim
    | pinf => trivial
    | fin u => rw [hc, fin_lt] at hu'; rw [fin_lt]; linarith

/-- Proposals alternate with the keys between `0` and `1`, only `1` has positive density. -/
example (sample_fn : Key → ℕ) (out : Fin 3 → ℕ)
    (h : rejectionSampling (fun _ => fin (1 / 2)) [] (fun x => if x = 1 then fin 1 else fin 0) sample_fn 3 (fin 1) = some out)
    (i : Fin 3) : out i = 1 := by
  have := C71_positive_partial (fun _ => fin (1 / 2)) [] (fun x : ℕ => if x = 1 then fin 1 else fin 0) sample_fn 3 1 one_pos
    (fun _ => by simp [zero_eq]) (fun x => by split <;> simp) out h i
  by_contra hne
  simp [hne, zero_eq] at this

/-- `random.uniform` may return zero (its interval is `[0, 1)`); then a sample of density zero is returned. -/
theorem C71_zero_counterexample :
    ∃ (uniform : Key → ℝ) (pdf : ℕ → ℝ) (sample_fn : Key → ℕ) (out : Fin 1 → ℕ),
      (∀ k, 0 ≤ uniform k ∧ uniform k < 1) ∧
      rejectionSampling (fun k => fin (uniform k)) [] (fun x => fin (pdf x)) sample_fn 1 (fin 1) = some out ∧
      pdf (out 0) = 0 := by
  refine ⟨fun _ => 0, fun x => x, fun _ => 0, fun _ => 0, by simp, ?_, by simp⟩
  rw [C70_first_accepted]
  intro i
  refine ⟨0, rfl, ?_, by simp⟩
  rw [Accepted, fin_div _ one_ne_zero]
  simp

/-- A sample whose density is `nan` is returned whatever its uniform number is. -/
theorem C71_nan_counterexample :
    ∃ (pdf : ℕ → XR) (sample_fn : Key → ℕ) (out : Fin 1 → ℕ), ∀ uniform : Key → ℝ,
      rejectionSampling (fun k => fin (uniform k)) [] pdf sample_fn 1 (fin 1) = some out ∧ pdf (out 0) = nan := by
  refine ⟨fun _ => nan, fun _ => 0, fun _ => 0, fun u => ⟨?_, rfl⟩⟩
  rw [C70_first_accepted]
  intro i
  refine ⟨0, rfl, ?_, by simp⟩
  rw [Accepted, nan_div]
  simp

end

/-! ## C72 -/

section
open MeasureTheory ProbabilityTheory
open scoped ENNReal

variable {Ω : Type*} [MeasurableSpace Ω] {P : Measure Ω} [IsProbabilityMeasure P]
variable {S : Type*} [MeasurableSpace S] {μ : Measure S} [IsProbabilityMeasure μ]

/-- The law of one proposal with its uniform number: the proposal distribution times the uniform distribution. -/
noncomputable def proposalLaw (μ : Measure S) : Measure (S × ℝ) := μ.prod (volume.restrict (Set.Ico 0 1))

/-- Pairs which are accepted and have a proposal in `A`. -/
def accSet (pdf : S → ℝ) (m : ℝ) (A : Set S) : Set (S × ℝ) := {q | q.1 ∈ A ∧ q.2 ≤ pdf q.1 / m}

omit [IsProbabilityMeasure μ] in
theorem measurableSet_accSet {pdf : S → ℝ} (hpdf : Measurable pdf) (m : ℝ) {A : Set S} (hA : MeasurableSet A) :
    MeasurableSet (accSet pdf m A) := by
  apply MeasurableSet.inter
  · exact measurable_fst hA
  · exact measurableSet_le measurable_snd ((hpdf.comp measurable_fst).div_const m)

omit [IsProbabilityMeasure μ] in
theorem proposalLaw_accSet {pdf : S → ℝ} (hpdf : Measurable pdf) {m : ℝ} (hm : 0 < m)
    (h1 : ∀ x, pdf x ≤ m) {A : Set S} (hA : MeasurableSet A) :
    proposalLaw μ (accSet pdf m A) = (∫⁻ x in A, ENNReal.ofReal (pdf x) ∂μ) / ENNReal.ofReal m := by
  rw [proposalLaw, Measure.prod_apply (measurableSet_accSet hpdf m hA)]
  have hsec : ∀ x, (volume.restrict (Set.Ico (0 : ℝ) 1)) (Prod.mk x ⁻¹' accSet pdf m A) =
      A.indicator (fun x => ENNReal.ofReal (pdf x) / ENNReal.ofReal m) x := by
    intro x
    by_cases hx : x ∈ A
    · have e : Prod.mk x ⁻¹' accSet pdf m A = Set.Iic (pdf x / m) := by
        ext u; simp [accSet, hx]
      rw [e, Set.indicator_of_mem hx, Measure.restrict_apply measurableSet_Iic, ← ENNReal.ofReal_div_of_pos hm]
      have hle : pdf x / m ≤ 1 := (div_le_one hm).mpr (h1 x)
      rcases hle.lt_or_eq with hlt | heq
      · have : Set.Iic (pdf x / m) ∩ Set.Ico 0 1 = Set.Icc 0 (pdf x / m) := by
          ext u
          simp only [Set.mem_inter_iff, Set.mem_Iic, Set.mem_Ico, Set.mem_Icc]
          constructor
          · rintro ⟨a, b, -⟩; exact ⟨b, a⟩
          · rintro ⟨a, b⟩; exact ⟨b, a, by linarith⟩
        rw [this, Real.volume_Icc, sub_zero]
      · have : Set.Iic (pdf x / m) ∩ Set.Ico 0 1 = Set.Ico 0 1 := by
          rw [heq]
          ext u
          simp only [Set.mem_inter_iff, Set.mem_Iic, Set.mem_Ico]
          constructor
          · rintro ⟨-, b⟩; exact b
          · rintro b; exact ⟨b.2.le, b⟩
        rw [this, Real.volume_Ico, sub_zero, heq]
    · have e : Prod.mk x ⁻¹' accSet pdf m A = ∅ := by
        ext u; simp [accSet, hx]
      rw [e, Set.indicator_of_notMem hx, measure_empty]
  simp_rw [hsec]
  rw [lintegral_indicator hA]
  simp only [div_eq_mul_inv]
  rw [lintegral_mul_const _ (hpdf.ennreal_ofReal)]

section
variable {Z : ℕ → Ω → S × ℝ} {pdf : S → ℝ} {m : ℝ}

omit [IsProbabilityMeasure μ] in
/-- None of the first `j` pairs is accepted. -/
theorem prob_none (hind : iIndepFun Z P) (hlaw : ∀ j, P.map (Z j) = proposalLaw μ) (hmeas : ∀ j, Measurable (Z j))
    (hpdf : Measurable pdf) (B : Set (S × ℝ)) (hB : MeasurableSet B) (j : ℕ) :
    P ((⋂ i ∈ Finset.range j, Z i ⁻¹' (accSet pdf m Set.univ)ᶜ) ∩ Z j ⁻¹' B) =
      (1 - proposalLaw μ (accSet pdf m Set.univ)) ^ j * proposalLaw μ B := by
  have hacc := measurableSet_accSet hpdf m MeasurableSet.univ
  have hprob : IsProbabilityMeasure (proposalLaw μ) := by
    rw [← hlaw 0]; exact Measure.isProbabilityMeasure_map (hmeas 0).aemeasurable
  have h := hind.measure_inter_preimage_eq_mul (Finset.range (j + 1))
    (sets := fun i => if i < j then (accSet pdf m Set.univ)ᶜ else B)
    (fun i _ => by
      split
      · exact hacc.compl
      · exact hB)
  have e : (⋂ i ∈ Finset.range (j + 1), Z i ⁻¹' (if i < j then (accSet pdf m Set.univ)ᶜ else B)) =
      (⋂ i ∈ Finset.range j, Z i ⁻¹' (accSet pdf m Set.univ)ᶜ) ∩ Z j ⁻¹' B := by
    ext ω
    simp only [Finset.mem_range, Set.mem_iInter, Set.mem_inter_iff]
    constructor
    · intro h
      refine ⟨fun i hi => ?_, ?_⟩
      · have := h i (by omega)
        rwa [if_pos hi] at this
      · have := h j (by omega)
        rwa [if_neg (lt_irrefl j)] at this
    · rintro ⟨h1, h2⟩ i hi
      rcases Nat.lt_succ_iff_lt_or_eq.mp hi with h | rfl
      · rw [if_pos h]; exact h1 i h
      · rw [if_neg (lt_irrefl _)]; exact h2
  rw [e] at h
  rw [h, Finset.prod_range_succ, if_neg (lt_irrefl j), ← Measure.map_apply (hmeas j) hB, hlaw]
  congr 1
  rw [Finset.prod_congr rfl (g := fun _ => 1 - proposalLaw μ (accSet pdf m Set.univ)) (fun i hi => ?_),
    Finset.prod_const, Finset.card_range]
  rw [if_pos (Finset.mem_range.mp hi), ← Measure.map_apply (hmeas i) hacc.compl, hlaw, prob_compl_eq_one_sub hacc]

omit [IsProbabilityMeasure μ] in
/-- The law of the first accepted proposal. -/
theorem prob_first (hind : iIndepFun Z P) (hlaw : ∀ j, P.map (Z j) = proposalLaw μ) (hmeas : ∀ j, Measurable (Z j))
    (hpdf : Measurable pdf) (hm : 0 < m) (h1 : ∀ x, pdf x ≤ m) {A : Set S}
    (hA : MeasurableSet A) :
    P (⋃ j, (⋂ i ∈ Finset.range j, Z i ⁻¹' (accSet pdf m Set.univ)ᶜ) ∩ Z j ⁻¹' accSet pdf m A) =
      (∫⁻ x in A, ENNReal.ofReal (pdf x) ∂μ) / ∫⁻ x, ENNReal.ofReal (pdf x) ∂μ := by
  have hacc := measurableSet_accSet hpdf m MeasurableSet.univ
  have hprob : IsProbabilityMeasure (proposalLaw μ) := by
    rw [← hlaw 0]; exact Measure.isProbabilityMeasure_map (hmeas 0).aemeasurable
  have hmA := measurableSet_accSet hpdf m hA
  rw [measure_iUnion]
  · simp_rw [prob_none hind hlaw hmeas hpdf _ hmA]
    rw [ENNReal.tsum_mul_right, ENNReal.tsum_geometric,
      ENNReal.sub_sub_cancel ENNReal.one_ne_top prob_le_one, proposalLaw_accSet hpdf hm h1 hA,
      proposalLaw_accSet hpdf hm h1 MeasurableSet.univ, Measure.restrict_univ]
    have hm0 : ENNReal.ofReal m ≠ 0 := by simpa using hm
    have hmt : ENNReal.ofReal m ≠ ∞ := ENNReal.ofReal_ne_top
    rw [ENNReal.inv_div (Or.inl hmt) (Or.inl hm0), div_eq_mul_inv, div_eq_mul_inv, div_eq_mul_inv, mul_comm, mul_assoc,
      ← mul_assoc (ENNReal.ofReal m)⁻¹, ENNReal.inv_mul_cancel hm0 hmt, one_mul]
  · intro j j' hjj
    rw [Function.onFun, Set.disjoint_left]
    intro ω hω hω'
    simp only [Set.mem_inter_iff, Set.mem_iInter, Finset.mem_range, Set.mem_preimage, Set.mem_compl_iff] at hω hω'
    have hsub : ∀ q, q ∈ accSet pdf m A → q ∈ accSet pdf m Set.univ := fun q hq => ⟨Set.mem_univ _, hq.2⟩
    rcases lt_or_gt_of_ne hjj with h | h
    · exact hω'.1 j h (hsub _ hω.2)
    · exact hω.1 j' h (hsub _ hω'.2)
  · intro j
    refine MeasurableSet.inter ?_ (hmeas j hmA)
    exact Finset.measurableSet_biInter _ fun i _ => hmeas i hacc.compl

end

section
variable (sample_fn : Ω → Key → S) (uniform : Ω → Key → ℝ) (key : Key) (pdf : S → ℝ) (m : ℝ)

/-- The proposals of stream `i` together with their uniform numbers. -/
def proposals (i j : ℕ) (ω : Ω) : S × ℝ :=
  (sample_fn ω ((streamKey key i j).child 1), uniform ω ((streamKey key i j).child 2))

/-- What an ideal random number generator does: the proposals of each stream are independent, each with distribution
`μ` and a uniform number independent of it. -/
structure IdealStreams (P : Measure Ω) (μ : Measure S) (n : ℕ) : Prop where
  meas : ∀ i : Fin n, ∀ j, Measurable (proposals sample_fn uniform key i j)
  law : ∀ i : Fin n, ∀ j, P.map (proposals sample_fn uniform key i j) = proposalLaw μ
  indep : ∀ i : Fin n, iIndepFun (fun j => proposals sample_fn uniform key i j) P

variable {sample_fn uniform key pdf m}

omit [MeasurableSpace Ω] [MeasurableSpace S] in
theorem mem_accSet_iff (hm : 0 < m) (ω : Ω) (i j : ℕ) :
    proposals sample_fn uniform key i j ω ∈ accSet pdf m Set.univ ↔
      Accepted (fun k => fin (uniform ω k)) (fun x => fin (pdf x)) (sample_fn ω) (fin m) (streamKey key i j) := by
  rw [Accepted, fin_div _ hm.ne', gt_iff_lt, fin_lt, not_lt]
  simp [accSet, proposals]

/-- Almost surely every stream has an accepted proposal. -/
theorem ae_accepted {n : ℕ} (hid : IdealStreams sample_fn uniform key P μ n) (hpdf : Measurable pdf) (hm : 0 < m)
    (h1 : ∀ x, pdf x ≤ m) (hpos : 0 < ∫⁻ x, ENNReal.ofReal (pdf x) ∂μ) :
    ∀ᵐ ω ∂P, ∃ out, rejectionSampling (fun k => fin (uniform ω k)) key (fun x => fin (pdf x)) (sample_fn ω) n (fin m) =
      some out := by
  have hfin : ∫⁻ x, ENNReal.ofReal (pdf x) ∂μ ≠ ∞ := by
    refine ne_of_lt (lt_of_le_of_lt (lintegral_mono fun x => ENNReal.ofReal_le_ofReal (h1 x)) ?_)
    simp
  have hall : ∀ᵐ ω ∂P, ∀ i : Fin n, ∃ j, proposals sample_fn uniform key i j ω ∈ accSet pdf m Set.univ := by
    rw [ae_all_iff]
    intro i
    have hp := prob_first (hid.indep i) (hid.law i) (hid.meas i) hpdf hm h1 MeasurableSet.univ
    rw [Measure.restrict_univ, ENNReal.div_self hpos.ne' hfin] at hp
    have hms : MeasurableSet (⋃ j, (⋂ l ∈ Finset.range j, (proposals sample_fn uniform key i l) ⁻¹'
        (accSet pdf m Set.univ)ᶜ) ∩ (proposals sample_fn uniform key i j) ⁻¹' accSet pdf m Set.univ) := by
      refine MeasurableSet.iUnion fun j => MeasurableSet.inter ?_ (hid.meas i j (measurableSet_accSet hpdf m .univ))
      exact Finset.measurableSet_biInter _ fun l _ => hid.meas i l (measurableSet_accSet hpdf m .univ).compl
    rw [← mem_ae_iff_prob_eq_one hms] at hp
    filter_upwards [hp] with ω hω
    rw [Set.mem_iUnion] at hω
    obtain ⟨j, -, hj⟩ := hω
    exact ⟨j, hj⟩
  classical
  filter_upwards [hall] with ω hω
  refine ⟨fun i => sample_fn ω ((streamKey key i (Nat.find (hω i))).child 1), ?_⟩
  rw [C70_first_accepted]
  intro i
  refine ⟨Nat.find (hω i), rfl, (mem_accSet_iff hm ω i _).mp (Nat.find_spec (hω i)), fun j' hj' => ?_⟩
  rw [← mem_accSet_iff hm ω i]
  exact Nat.find_min (hω i) hj'

/-- With an ideal random number generator `rejection_sampling` terminates almost surely, and each sample has the density
`pdf` (normalised) with respect to the proposal distribution `μ`, which may be any distribution. -/
theorem C72_distribution (n : ℕ) (hid : IdealStreams sample_fn uniform key P μ n) (hpdf : Measurable pdf) (hm : 0 < m)
    (h1 : ∀ x, pdf x ≤ m) (hpos : 0 < ∫⁻ x, ENNReal.ofReal (pdf x) ∂μ) (i : Fin n) (A : Set S) (hA : MeasurableSet A) :
    (∀ᵐ ω ∂P, ∃ out, rejectionSampling (fun k => fin (uniform ω k)) key (fun x => fin (pdf x)) (sample_fn ω) n (fin m) =
      some out) ∧
    P {ω | ∃ out, rejectionSampling (fun k => fin (uniform ω k)) key (fun x => fin (pdf x)) (sample_fn ω) n (fin m) =
      some out ∧ out i ∈ A} = (∫⁻ x in A, ENNReal.ofReal (pdf x) ∂μ) / ∫⁻ x, ENNReal.ofReal (pdf x) ∂μ := by
  have hae := ae_accepted hid hpdf hm h1 hpos
  refine ⟨hae, ?_⟩
  rw [← prob_first (hid.indep i) (hid.law i) (hid.meas i) hpdf hm h1 hA]
  refine measure_congr ?_
  filter_upwards [hae] with ω hω
  apply propext
  show (∃ out, _ ∧ _) ↔ ω ∈ ⋃ j, _
  rw [Set.mem_iUnion]
  simp only [Set.mem_inter_iff, Set.mem_iInter, Finset.mem_range, Set.mem_preimage, Set.mem_compl_iff,
    mem_accSet_iff hm]
  constructor
  · rintro ⟨out, hout, hA⟩
    obtain ⟨j, e, hj, hmin⟩ := (C70_first_accepted _ _ _ _ _ _ _).mp hout i
    refine ⟨j, hmin, ?_, ((mem_accSet_iff hm ω i j).mpr hj).2⟩
    show sample_fn ω ((streamKey key i j).child 1) ∈ A
    rw [← e]; exact hA
  · rintro ⟨j, hmin, hj⟩
    obtain ⟨out, hout⟩ := hω
    refine ⟨out, hout, ?_⟩
    obtain ⟨j', e, hj', hmin'⟩ := (C70_first_accepted _ _ _ _ _ _ _).mp hout i
    have hacc : Accepted (fun k => fin (uniform ω k)) (fun x => fin (pdf x)) (sample_fn ω) (fin m) (streamKey key i j) :=
      (mem_accSet_iff hm ω i j).mp ⟨Set.mem_univ _, hj.2⟩
    have : j = j' := by
      rcases lt_trichotomy j j' with h | h | h
      · exact absurd hacc (hmin' j h)
      · exact h
      · exact absurd hj' (hmin j' h)
    rw [e, ← this]
    exact hj.1

omit [IsProbabilityMeasure μ] in
open Classical in
/-- The expected number of proposals drawn for one sample is `m` divided by the mean of the density (proposal `j` is
drawn iff none of the earlier ones is accepted). -/
theorem C72_draws (n : ℕ) (hid : IdealStreams sample_fn uniform key P μ n) (hpdf : Measurable pdf) (hm : 0 < m)
    (h1 : ∀ x, pdf x ≤ m) (i : Fin n) :
    ∫⁻ ω, ∑' j : ℕ, (if ∀ j' < j, ¬ Accepted (fun k => fin (uniform ω k)) (fun x => fin (pdf x)) (sample_fn ω) (fin m)
      (streamKey key i j') then 1 else 0) ∂P = ENNReal.ofReal m / ∫⁻ x, ENNReal.ofReal (pdf x) ∂μ := by
  have hacc := measurableSet_accSet hpdf m MeasurableSet.univ
  have hprob : IsProbabilityMeasure (proposalLaw μ) := by
    rw [← hid.law i 0]; exact Measure.isProbabilityMeasure_map (hid.meas i 0).aemeasurable
  have hset : ∀ j, MeasurableSet (⋂ l ∈ Finset.range j, (proposals sample_fn uniform key i l) ⁻¹'
      (accSet pdf m Set.univ)ᶜ) := fun j => Finset.measurableSet_biInter _ fun l _ => hid.meas i l hacc.compl
  have hfun : ∀ j, (fun ω => (if ∀ j' < j, ¬ Accepted (fun k => fin (uniform ω k)) (fun x => fin (pdf x)) (sample_fn ω)
      (fin m) (streamKey key i j') then (1 : ℝ≥0∞) else 0)) =
      (⋂ l ∈ Finset.range j, (proposals sample_fn uniform key i l) ⁻¹' (accSet pdf m Set.univ)ᶜ).indicator 1 := by
    intro j
    funext ω
    rw [Set.indicator_apply]
    refine if_congr ?_ rfl rfl
    simp only [Set.mem_iInter, Finset.mem_range, Set.mem_preimage, Set.mem_compl_iff, mem_accSet_iff hm]
  rw [lintegral_tsum]
  · simp_rw [hfun]
    have hj : ∀ j, ∫⁻ ω, (⋂ l ∈ Finset.range j, (proposals sample_fn uniform key i l) ⁻¹'
        (accSet pdf m Set.univ)ᶜ).indicator 1 ω ∂P = (1 - proposalLaw μ (accSet pdf m Set.univ)) ^ j := by
      intro j
      rw [lintegral_indicator_one (hset j)]
      have := prob_none (m := m) (hid.indep i) (hid.law i) (hid.meas i) hpdf Set.univ MeasurableSet.univ j
      rwa [Set.preimage_univ, Set.inter_univ, measure_univ, mul_one] at this
    simp_rw [hj]
    rw [ENNReal.tsum_geometric, ENNReal.sub_sub_cancel ENNReal.one_ne_top prob_le_one,
      proposalLaw_accSet hpdf hm h1 MeasurableSet.univ, Measure.restrict_univ]
    have hm0 : ENNReal.ofReal m ≠ 0 := by simpa using hm
    rw [ENNReal.inv_div (Or.inl ENNReal.ofReal_ne_top) (Or.inl hm0)]
  · intro j
    rw [hfun]
    exact (measurable_one.indicator (hset j)).aemeasurable

/-- Ideal random number generators exist, for every proposal distribution and any number of streams. -/
theorem idealStreams_exist (μ : Measure S) [IsProbabilityMeasure μ] (key : Key) (n : ℕ) :
    ∃ (P : Measure (Key → S × ℝ)) (sample_fn : (Key → S × ℝ) → Key → S) (uniform : (Key → S × ℝ) → Key → ℝ),
      IsProbabilityMeasure P ∧ IdealStreams sample_fn uniform key P μ n := by
  have hvol : IsProbabilityMeasure ((volume : Measure ℝ).restrict (Set.Ico 0 1)) := ⟨by simp⟩
  have hprob : IsProbabilityMeasure (proposalLaw μ) := by unfold proposalLaw; infer_instance
  have hlen : ∀ i j, (streamKey key i j).length = key.length + 1 + j := by
    intro i j
    induction j with
    | zero => simp [streamKey, Key.child]
    | succ j ih => simp [streamKey, Key.child, ih]; omega
  have hinj : ∀ i, Function.Injective (streamKey key i) := by
    intro i j j' h
    have := congrArg List.length h
    rw [hlen, hlen] at this
    omega
  refine ⟨Measure.infinitePi fun _ => proposalLaw μ, fun ω k => (ω k.dropLast).1, fun ω k => (ω k.dropLast).2,
    inferInstance, ?_⟩
  have hprop : ∀ i j, proposals (fun (ω : Key → S × ℝ) (k : Key) => (ω k.dropLast).1) (fun ω k => (ω k.dropLast).2)
      key i j = fun ω => ω (streamKey key i j) := by
    intro i j
    funext ω
    simp [proposals, Key.child]
  constructor
  · intro i j
    rw [hprop]
    exact measurable_pi_apply _
  · intro i j
    rw [hprop]
    exact Measure.infinitePi_map_eval _ _
  · intro i
    simp_rw [hprop]
    exact (iIndepFun_infinitePi (P := fun _ : Key => proposalLaw μ) (X := fun _ q => q)
      (fun _ => measurable_id)).precomp (hinj i)

/-- Proposals uniform in `[0, 1]` with density `x ↦ max 0 (min x 1)`: all hypotheses are met, and so the law of the
samples is the one with density `2 x`. -/
example : ∃ (P : Measure (Key → ℝ × ℝ)) (sample_fn : (Key → ℝ × ℝ) → Key → ℝ) (uniform : (Key → ℝ × ℝ) → Key → ℝ),
    ∀ A : Set ℝ, MeasurableSet A → ∀ i : Fin 5,
    P {ω | ∃ out, rejectionSampling (fun k => fin (uniform ω k)) [] (fun x => fin (max 0 (min x 1))) (sample_fn ω) 5
      (fin 1) = some out ∧ out i ∈ A} =
      (∫⁻ x in A, ENNReal.ofReal (max 0 (min x 1)) ∂((volume : Measure ℝ).restrict (Set.Icc 0 1))) /
        ∫⁻ x, ENNReal.ofReal (max 0 (min x 1)) ∂((volume : Measure ℝ).restrict (Set.Icc 0 1)) := by
  have hvol : IsProbabilityMeasure ((volume : Measure ℝ).restrict (Set.Icc 0 1)) := ⟨by simp⟩
  obtain ⟨P, sample_fn, uniform, hP, hid⟩ := idealStreams_exist ((volume : Measure ℝ).restrict (Set.Icc 0 1)) [] 5
  refine ⟨P, sample_fn, uniform, fun A hA i => ?_⟩
  have hmeas : Measurable fun x : ℝ => max 0 (min x 1) := by fun_prop
  refine (C72_distribution 5 hid hmeas one_pos (fun x => max_le zero_le_one (min_le_right _ _)) ?_ i A hA).2
  rw [lintegral_pos_iff_support (hmeas.ennreal_ofReal), Measure.restrict_apply]
  · refine lt_of_lt_of_le ?_ (measure_mono (s := Set.Ioc 0 1) ?_)
    · simp
    · intro x hx
      refine ⟨?_, hx.1.le, hx.2⟩
      simp only [Function.mem_support, ne_eq, ENNReal.ofReal_eq_zero, not_le]
      exact lt_max_of_lt_right (lt_min hx.1 one_pos)
  · exact measurableSet_support (hmeas.ennreal_ofReal)

end

end

end Verif
