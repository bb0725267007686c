import Mathlib.MeasureTheory.Constructions.Pi
import Mathlib.MeasureTheory.Integral.Prod
import Mathlib.MeasureTheory.Measure.Lebesgue.Integral
import Mathlib.Tactic
import Verif.Props.QuadError

/-!
# C109: `integrate` on several grids converges to the integral over the box
-/

namespace Verif

open MeasureTheory Set

variable {E : Type*} [NormedAddCommGroup E] [NormedSpace ℝ E]

/-- Spec: `l` is a grid from `a` to `b` with at least one cell, whose cells have length at most `δ`. -/
def FineGrid (l : List ℝ) (a b δ : ℝ) : Prop :=
  ∃ hl : l ≠ [], 2 ≤ l.length ∧ l.head hl = a ∧ l.getLast hl = b ∧ l.IsChain fun s t => s < t ∧ t - s ≤ δ

theorem cons_mem_Icc {k : ℕ} {lo hi : Fin (k + 1) → ℝ} {x : ℝ} {p : Fin k → ℝ} :
    (Fin.cons x p : Fin (k + 1) → ℝ) ∈ Icc lo hi ↔
      x ∈ Icc (lo 0) (hi 0) ∧ p ∈ Icc (fun i => lo i.succ) (fun i => hi i.succ) := by
  simp only [mem_Icc, Pi.le_def, Fin.forall_fin_succ, Fin.cons_zero, Fin.cons_succ]
  tauto

theorem continuous_cons {k : ℕ} : Continuous fun q : ℝ × (Fin k → ℝ) => (Fin.cons q.1 q.2 : Fin (k + 1) → ℝ) := by
  refine continuous_pi fun i => ?_
  refine Fin.cases ?_ (fun j => ?_) i
  · simpa using continuous_fst
  · simp only [Fin.cons_succ]; fun_prop

/-- Fubini for boxes. -/
theorem box_fubini {k : ℕ} {lo hi : Fin (k + 1) → ℝ} (h0 : lo 0 ≤ hi 0) {f : (Fin (k + 1) → ℝ) → E}
    (hf : ContinuousOn f (Icc lo hi)) :
    ∫ p in Icc lo hi, f p =
      ∫ x in lo 0..hi 0, ∫ p in Icc (fun i => lo i.succ) (fun i => hi i.succ), f (Fin.cons x p) := by
  have hv := (volume_preserving_piFinSuccAbove (fun _ : Fin (k + 1) => ℝ) 0).symm
  have he := (MeasurableEquiv.piFinSuccAbove (fun _ : Fin (k + 1) => ℝ) 0).symm.measurableEmbedding
  have hc : ∀ q : ℝ × (Fin k → ℝ), (MeasurableEquiv.piFinSuccAbove (fun _ : Fin (k + 1) => ℝ) 0).symm q =
      Fin.cons q.1 q.2 := by
    intro q
    simp [MeasurableEquiv.piFinSuccAbove, Fin.insertNthEquiv]
  have hpre : (MeasurableEquiv.piFinSuccAbove (fun _ : Fin (k + 1) => ℝ) 0).symm ⁻¹' Icc lo hi =
      Icc (lo 0) (hi 0) ×ˢ Icc (fun i => lo i.succ) (fun i => hi i.succ) := by
    ext q
    rw [mem_preimage, hc, cons_mem_Icc, mem_prod]
  rw [← hv.setIntegral_preimage_emb he, hpre, intervalIntegral.integral_of_le h0, ← integral_Icc_eq_integral_Ioc]
  simp only [hc]
  refine setIntegral_prod (fun q : ℝ × (Fin k → ℝ) => f (Fin.cons q.1 q.2)) ?_
  refine ContinuousOn.integrableOn_compact (isCompact_Icc.prod isCompact_Icc) ?_
  refine hf.comp continuous_cons.continuousOn fun q hq => ?_
  exact cons_mem_Icc.mpr hq

theorem inner_sub_le {k : ℕ} {lo hi : Fin (k + 1) → ℝ} (h : lo ≤ hi) {f : (Fin (k + 1) → ℝ) → E}
    (hf : ContinuousOn f (Icc lo hi)) {δ η : ℝ}
    (hm : ∀ p ∈ Icc lo hi, ∀ q ∈ Icc lo hi, dist p q ≤ δ → ‖f p - f q‖ ≤ η) (hδ : 0 ≤ δ) {x y : ℝ}
    (hx : x ∈ Icc (lo 0) (hi 0)) (hy : y ∈ Icc (lo 0) (hi 0)) (hxy : |x - y| ≤ δ) :
    ‖(∫ p in Icc (fun i => lo i.succ) (fun i => hi i.succ), f (Fin.cons x p)) -
      ∫ p in Icc (fun i => lo i.succ) (fun i => hi i.succ), f (Fin.cons y p)‖ ≤ η * ∏ i : Fin k, (hi i.succ - lo i.succ) := by
  have hi' : ∀ z ∈ Icc (lo 0) (hi 0), IntegrableOn (fun p : Fin k → ℝ => f (Fin.cons z p))
      (Icc (fun i => lo i.succ) (fun i => hi i.succ)) := by
    intro z hz
    refine ContinuousOn.integrableOn_compact isCompact_Icc ?_
    refine hf.comp (continuous_cons.comp (continuous_const.prodMk continuous_id)).continuousOn fun p hp => ?_
    exact cons_mem_Icc.mpr ⟨hz, hp⟩
  rw [← integral_sub (hi' x hx) (hi' y hy)]
  have hfin : volume (Icc (fun i : Fin k => lo i.succ) (fun i => hi i.succ)) < ⊤ := isCompact_Icc.measure_lt_top
  refine (norm_setIntegral_le_of_norm_le_const (C := η) hfin fun p hp => ?_).trans (le_of_eq ?_)
  · refine hm _ (cons_mem_Icc.mpr ⟨hx, hp⟩) _ (cons_mem_Icc.mpr ⟨hy, hp⟩) ?_
    rw [dist_pi_le_iff hδ]
    refine Fin.cases ?_ (fun j => ?_)
    · simpa [Real.dist_eq] using hxy
    · simpa using hδ
  · rw [measureReal_def, Real.volume_Icc_pi_toReal]
    intro i
    exact h i.succ

variable [CompleteSpace E]

/-- The error for a function which varies by at most `η` on each cell. -/
theorem nested_modulus_error {rule : QuadRule} (hq : CellRule rule E) (k : ℕ) {lo hi : Fin k → ℝ} (h : lo ≤ hi)
    {f : (Fin k → ℝ) → E} (hf : ContinuousOn f (Icc lo hi)) {δ η : ℝ} (hδ : 0 ≤ δ) (hη : 0 ≤ η)
    (hm : ∀ p ∈ Icc lo hi, ∀ q ∈ Icc lo hi, dist p q ≤ δ → ‖f p - f q‖ ≤ η) (d : Fin k → List ℝ)
    (hd : ∀ i, FineGrid (d i) (lo i) (hi i) δ) :
    ‖(∫ p in Icc lo hi, f p) - nestedQuad (List.ofFn fun i => rule (d i)) (fun p => f fun i => p.getD i 0)‖ ≤
      2 * k * η * ∏ i, (hi i - lo i) := by
  induction k with
  | zero =>
    have e : Icc lo hi = univ := by
      ext p; simp [mem_Icc]
    simp only [e, Measure.restrict_univ, List.ofFn_zero, nestedQuad]
    rw [integral_unique]
    simp only [Measure.real, volume_pi, Measure.pi_univ]
    simp
    rw [sub_eq_zero.mpr]
    exact congrArg f (Subsingleton.elim _ _)
  | succ k ih =>
    set lo' : Fin k → ℝ := fun i => lo i.succ with hlo'
    set hi' : Fin k → ℝ := fun i => hi i.succ with hhi'
    set V := ∏ i : Fin k, (hi' i - lo' i) with hV
    have hV0 : 0 ≤ V := Finset.prod_nonneg fun i _ => sub_nonneg.mpr (h i.succ)
    set I : ℝ → E := fun x => ∫ p in Icc lo' hi', f (Fin.cons x p) with hI
    set N : ℝ → E := fun x => nestedQuad (List.ofFn fun i : Fin k => rule (d i.succ))
      (fun p => f (Fin.cons x fun i => p.getD i 0)) with hN
    have hnest : nestedQuad (List.ofFn fun i => rule (d i)) (fun p => f fun i => p.getD i 0) = quad (rule (d 0)) N := by
      rw [List.ofFn_succ, nestedQuad]
      have : ∀ (x : ℝ) (p : List ℝ), (fun i : Fin (k + 1) => (x :: p).getD i 0) = Fin.cons x fun i => p.getD i 0 := by
        intro x p
        funext i
        refine Fin.cases ?_ (fun j => ?_) i <;> simp
      simp only [this]
      rfl
    obtain ⟨hl, hn, h1, h2, hch⟩ := hd 0
    have hcont : ∀ x ∈ Icc (lo 0) (hi 0), ContinuousOn (fun p : Fin k → ℝ => f (Fin.cons x p)) (Icc lo' hi') := by
      intro x hx
      refine hf.comp (continuous_cons.comp (continuous_const.prodMk continuous_id)).continuousOn fun p hp => ?_
      exact cons_mem_Icc.mpr ⟨hx, hp⟩
    have hinner : ∀ x ∈ Icc (lo 0) (hi 0), ‖I x - N x‖ ≤ 2 * k * η * V := by
      intro x hx
      refine ih (lo := lo') (hi := hi') (fun i => h i.succ) (hcont x hx) (fun p hp q hq hpq => ?_) (fun i => d i.succ)
        (fun i => hd i.succ)
      refine hm _ (cons_mem_Icc.mpr ⟨hx, hp⟩) _ (cons_mem_Icc.mpr ⟨hx, hq⟩) ?_
      rw [dist_pi_le_iff hδ] at hpq ⊢
      refine Fin.cases ?_ (fun j => ?_)
      · simpa using hδ
      · simpa using hpq j
    have hIcont : ContinuousOn I (Icc (lo 0) (hi 0)) := by
      rw [Metric.continuousOn_iff]
      intro x hx ε hε
      have huc := (isCompact_Icc (a := lo) (b := hi)).uniformContinuousOn_of_continuous hf
      rw [Metric.uniformContinuousOn_iff] at huc
      obtain ⟨δ', hδ', huc⟩ := huc (ε / (V + 1)) (by positivity)
      refine ⟨δ' / 2, by positivity, fun y hy hxy => ?_⟩
      rw [dist_eq_norm]
      refine (inner_sub_le h hf (δ := δ' / 2) (η := ε / (V + 1)) (fun p hp q hq hpq => ?_) (by positivity) hy hx
        hxy.le).trans_lt ?_
      · rw [← dist_eq_norm]
        exact (huc p hp q hq (by linarith)).le
      · change ε / (V + 1) * V < ε
        rw [div_mul_eq_mul_div, div_lt_iff₀ (by positivity)]
        nlinarith
    have hout : ‖(∫ x in lo 0..hi 0, I x) - quad (rule (d 0)) I‖ ≤ 2 * (η * V) * (hi 0 - lo 0) := by
      have := modulus_error hq (f := I) (δ := δ) (η := η * V) (by positivity) (d 0) hl hn hch
        (by rwa [h1, h2]) (by
          rw [h1, h2]
          intro x hx y hy hxy
          exact inner_sub_le h hf hm hδ hx hy hxy)
      rwa [h1, h2] at this
    have hwf : WellFormed (rule (d 0)) (lo 0) (hi 0) := by
      have := hq.wf (d 0) hl hn ?_
      · rwa [h1, h2] at this
      · rw [← List.isChain_iff_pairwise]
        exact hch.imp fun _ _ hst => hst.1
    have hdiff : ‖quad (rule (d 0)) I - quad (rule (d 0)) N‖ ≤ 2 * k * η * V * (hi 0 - lo 0) := by
      have e : quad (rule (d 0)) I = quad (rule (d 0)) (fun x => I x - N x) + quad (rule (d 0)) N := by
        rw [← quad_add']
        simp
      rw [e, add_sub_cancel_right]
      exact quad_norm_le hwf hinner
    rw [hnest, box_fubini (h 0) hf, Fin.prod_univ_succ]
    have e : (∫ x in lo 0..hi 0, I x) - quad (rule (d 0)) N =
        ((∫ x in lo 0..hi 0, I x) - quad (rule (d 0)) I) + (quad (rule (d 0)) I - quad (rule (d 0)) N) := by abel
    change ‖(∫ x in lo 0..hi 0, I x) - quad (rule (d 0)) N‖ ≤ _
    rw [e]
    refine (norm_add_le _ _).trans ((add_le_add hout hdiff).trans (le_of_eq ?_))
    push_cast
    ring

/-- Spec: the values of `integrate` on `k` grids with the rule converge to the integral over the box when the cells
of the grids shrink. -/
def ConvergesN (rule : QuadRule) {k : ℕ} (f : (Fin k → ℝ) → E) (lo hi : Fin k → ℝ) : Prop :=
  ∀ ε > 0, ∃ δ > 0, ∀ d : Fin k → List ℝ, (∀ i, FineGrid (d i) (lo i) (hi i) δ) →
    ‖(∫ p in Icc lo hi, f p) - integrateN (fun p => f fun i => p.getD i 0) (List.ofFn d) rule‖ ≤ ε

theorem convergesN_of {rule : QuadRule} (hq : CellRule rule E) {k : ℕ} {f : (Fin k → ℝ) → E} {lo hi : Fin k → ℝ}
    (h : lo ≤ hi) (hf : ContinuousOn f (Icc lo hi)) : ConvergesN rule f lo hi := by
  intro ε hε
  have huc := (isCompact_Icc (a := lo) (b := hi)).uniformContinuousOn_of_continuous hf
  rw [Metric.uniformContinuousOn_iff] at huc
  set V := ∏ i : Fin k, (hi i - lo i) with hV
  have hV0 : 0 ≤ V := Finset.prod_nonneg fun i _ => sub_nonneg.mpr (h i)
  obtain ⟨δ', hδ', huc⟩ := huc (ε / (2 * k * V + 1)) (by positivity)
  refine ⟨δ' / 2, by positivity, fun d hd => ?_⟩
  rw [C48_nested, List.map_ofFn]
  · refine (nested_modulus_error hq k h hf (δ := δ' / 2) (η := ε / (2 * k * V + 1)) (by positivity) (by positivity)
      (fun p hp q hq hpq => ?_) d hd).trans ?_
    · rw [← dist_eq_norm]
      exact (huc p hp q hq (by linarith)).le
    · rw [mul_comm (2 * (k : ℝ)), div_mul_eq_mul_div, div_mul_eq_mul_div, div_le_iff₀ (by positivity)]
      nlinarith [mul_nonneg (Nat.cast_nonneg (α := ℝ) k) hV0]
  · intro l hl
    obtain ⟨i, rfl⟩ := List.mem_ofFn.mp hl
    obtain ⟨hl, hn, -⟩ := hd i
    exact hq.length _ hl hn

/-- **C109**. For every continuous function on a box, in any number of dimensions, `integrate` on one grid per
dimension converges to the integral over the box (Lebesgue measure) when the cells of the grids shrink, for the
midpoint, trapezoidal and Simpson rule and the Gauss rules. -/
theorem C109_convergence {k : ℕ} {f : (Fin k → ℝ) → E} {lo hi : Fin k → ℝ} (h : lo ≤ hi)
    (hf : ContinuousOn f (Icc lo hi)) :
    ConvergesN midpoint f lo hi ∧ ConvergesN trap f lo hi ∧ ConvergesN simpson f lo hi ∧
    ∀ xs ws : List ℝ, WellFormed (ws, xs) (-1) 1 → ConvergesN (gauss xs ws) f lo hi :=
  ⟨convergesN_of cellRule_midpoint h hf, convergesN_of cellRule_trap h hf, convergesN_of cellRule_simpson h hf,
    fun _ _ hr => convergesN_of (cellRule_gauss hr) h hf⟩

/-- `exp (x y) √z` on `[0, 1] × [-1, 2] × [0, 4]`. -/
example : ConvergesN simpson (fun p : Fin 3 → ℝ => Real.exp (p 0 * p 1) * √(p 2)) ![0, -1, 0] ![1, 2, 4] :=
  (C109_convergence (by intro i; fin_cases i <;> norm_num) (by
    apply Continuous.continuousOn
    fun_prop)).2.2.1

end Verif
