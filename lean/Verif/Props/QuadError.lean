import Verif.Props.Integrate
import Mathlib.Analysis.Calculus.MeanValue
import Mathlib.MeasureTheory.Integral.IntervalIntegral.FundThmCalculus
import Mathlib.MeasureTheory.Integral.IntervalIntegral.IntegrationByParts
import Mathlib.Analysis.Calculus.Deriv.Shift
import Mathlib.Analysis.Complex.ExponentialBounds

/-! # Error bounds of the quadrature rules -/

namespace Verif

open MeasureTheory Set

variable {E : Type*} [NormedAddCommGroup E] [NormedSpace ℝ E]

/-! ## C107 -/

/-- A function which vanishes at zero and whose derivative is bounded by a power is bounded by the next power. -/
theorem norm_le_pow {G G' : ℝ → E} {T K : ℝ} {n : ℕ} (hc : ContinuousOn G (Icc 0 T)) (h0 : G 0 = 0)
    (hd : ∀ t ∈ Ico 0 T, HasDerivAt G (G' t) t) (hb : ∀ t ∈ Ico 0 T, ‖G' t‖ ≤ K * ((n + 1) * t ^ n)) :
    ∀ t ∈ Icc 0 T, ‖G t‖ ≤ K * t ^ (n + 1) := by
  refine image_norm_le_of_norm_deriv_right_le_deriv_boundary' (f' := G') (B' := fun t => K * ((n + 1) * t ^ n)) hc
    (fun t ht => (hd t ht).hasDerivWithinAt) (by simp [h0]) (by fun_prop) (fun t _ => ?_) hb
  have := (hasDerivAt_pow (n + 1) t).const_mul K
  simp only [Nat.add_sub_cancel, Nat.cast_add, Nat.cast_one] at this
  exact this.hasDerivWithinAt

section cell

variable {f : ℝ → E} {c T : ℝ}

theorem hasDerivAt_add_shift {f : ℝ → E} {f' : E} {c t : ℝ} (h : HasDerivAt f f' (c + t)) :
    HasDerivAt (fun t => f (c + t)) f' t := h.comp_const_add c t

theorem hasDerivAt_sub_shift {f : ℝ → E} {f' : E} {c t : ℝ} (h : HasDerivAt f f' (c - t)) :
    HasDerivAt (fun t => f (c - t)) (-f') t := h.comp_const_sub c t

theorem continuousOn_sym (hf : ContinuousOn f (Icc (c - T) (c + T))) :
    ContinuousOn (fun t => ∫ x in (c - t)..(c + t), f x) (Icc 0 T) := by
  rcases lt_or_ge T 0 with hT | hT
  · rw [Icc_eq_empty (not_le.mpr hT)]; exact continuousOn_empty _
  have hi : IntegrableOn f (uIcc (c - T) (c + T)) volume := by
    rw [uIcc_of_le (by linarith)]; exact hf.integrableOn_Icc
  have hp := intervalIntegral.continuousOn_primitive_interval hi
  rw [uIcc_of_le (by linarith)] at hp hi
  have e : ∀ t ∈ Icc 0 T, (∫ x in (c - t)..(c + t), f x) =
      (∫ x in (c - T)..(c + t), f x) - ∫ x in (c - T)..(c - t), f x := by
    intro t ht
    rw [intervalIntegral.integral_interval_sub_left]
    · refine (hf.mono ?_).intervalIntegrable
      rw [uIcc_of_le (by linarith [ht.1])]
      exact Icc_subset_Icc le_rfl (by linarith [ht.2])
    · refine (hf.mono ?_).intervalIntegrable
      rw [uIcc_of_le (by linarith [ht.2])]
      exact Icc_subset_Icc le_rfl (by linarith [ht.1, ht.2])
  refine ContinuousOn.congr ?_ e
  refine ContinuousOn.sub (hp.comp (by fun_prop) fun t ht => ?_) (hp.comp (by fun_prop) fun t ht => ?_)
  · exact ⟨by linarith [ht.1], by linarith [ht.2]⟩
  · exact ⟨by linarith [ht.2], by linarith [ht.1]⟩

theorem hasDerivAt_sym [CompleteSpace E] (hf : ContinuousOn f (Icc (c - T) (c + T))) {t : ℝ} (ht : t ∈ Ico 0 T) :
    HasDerivAt (fun t => ∫ x in (c - t)..(c + t), f x) (f (c + t) + f (c - t)) t := by
  have hT : 0 < T := lt_of_le_of_lt ht.1 ht.2
  have hopen : ∀ y ∈ Ioo (c - T) (c + T), ContinuousAt f y := fun y hy => hf.continuousAt (Icc_mem_nhds hy.1 hy.2)
  have hmeas : ∀ y ∈ Ioo (c - T) (c + T), StronglyMeasurableAtFilter f (nhds y) volume := fun y hy =>
    ContinuousOn.stronglyMeasurableAtFilter isOpen_Ioo (hf.mono Ioo_subset_Icc_self) y hy
  have hint : ∀ y ∈ Icc (c - T) (c + T), IntervalIntegrable f volume c y := by
    intro y hy
    refine (hf.mono ?_).intervalIntegrable
    rw [← uIcc_of_le (by linarith : c - T ≤ c + T)]
    refine uIcc_subset_uIcc ?_ ?_
    · rw [uIcc_of_le (by linarith)]; constructor <;> linarith
    · rw [uIcc_of_le (by linarith)]; exact hy
  have hp : c + t ∈ Ioo (c - T) (c + T) := ⟨by linarith [ht.1], by linarith [ht.2]⟩
  have hm : c - t ∈ Ioo (c - T) (c + T) := ⟨by linarith [ht.2], by linarith [ht.1]⟩
  have h1 := intervalIntegral.integral_hasDerivAt_right (hint _ (Ioo_subset_Icc_self hp)) (hmeas _ hp) (hopen _ hp)
  have h2 := intervalIntegral.integral_hasDerivAt_right (hint _ (Ioo_subset_Icc_self hm)) (hmeas _ hm) (hopen _ hm)
  have h3 := (hasDerivAt_add_shift h1).fun_sub (hasDerivAt_sub_shift h2)
  rw [sub_neg_eq_add] at h3
  refine h3.congr_of_eventuallyEq ?_
  have hmem : Ioo (-T) T ∈ nhds t := Ioo_mem_nhds (by linarith [ht.1]) ht.2
  filter_upwards [hmem] with s hs
  rw [intervalIntegral.integral_interval_sub_left (hint _ ⟨by linarith [hs.1], by linarith [hs.2]⟩)
    (hint _ ⟨by linarith [hs.2], by linarith [hs.1]⟩)]

/-- A bounded derivative bounds symmetric differences. -/
theorem norm_sym_sub_le {f f1 : ℝ → E} {M : ℝ} (h1 : ∀ x ∈ Icc (c - T) (c + T), HasDerivAt f (f1 x) x)
    (hM : ∀ x ∈ Icc (c - T) (c + T), ‖f1 x‖ ≤ M) {t : ℝ} (ht : t ∈ Icc 0 T) : ‖f (c + t) - f (c - t)‖ ≤ 2 * M * t := by
  have := (convex_Icc (c - T) (c + T)).norm_image_sub_le_of_norm_hasDerivWithin_le (f := f) (f' := f1) (C := M)
    (fun x hx => (h1 x hx).hasDerivWithinAt) hM (x := c - t) (y := c + t) ⟨by linarith [ht.2], by linarith [ht.1, ht.2]⟩
    ⟨by linarith [ht.1, ht.2], by linarith [ht.2]⟩
  refine this.trans (le_of_eq ?_)
  rw [show c + t - (c - t) = 2 * t by ring, Real.norm_of_nonneg (by linarith [ht.1])]
  ring

theorem cont_shift {g g' : ℝ → E} (h : ∀ x ∈ Icc (c - T) (c + T), HasDerivAt g (g' x) x) :
    ContinuousOn (fun t => g (c + t)) (Icc 0 T) ∧ ContinuousOn (fun t => g (c - t)) (Icc 0 T) := by
  have hc : ContinuousOn g (Icc (c - T) (c + T)) := fun x hx => (h x hx).continuousAt.continuousWithinAt
  exact ⟨hc.comp (by fun_prop) fun t ht => ⟨by linarith [ht.1, ht.2], by linarith [ht.2]⟩,
    hc.comp (by fun_prop) fun t ht => ⟨by linarith [ht.2], by linarith [ht.1, ht.2]⟩⟩

theorem midpoint_cell [CompleteSpace E] {f1 f2 : ℝ → E} {M : ℝ} (h0 : ∀ x ∈ Icc (c - T) (c + T), HasDerivAt f (f1 x) x)
    (h1 : ∀ x ∈ Icc (c - T) (c + T), HasDerivAt f1 (f2 x) x) (hM : ∀ x ∈ Icc (c - T) (c + T), ‖f2 x‖ ≤ M) (hT : 0 ≤ T) :
    ‖(∫ x in (c - T)..(c + T), f x) - (2 * T) • f c‖ ≤ M / 3 * T ^ 3 := by
  have hc : ContinuousOn f (Icc (c - T) (c + T)) := fun x hx => (h0 x hx).continuousAt.continuousWithinAt
  have mp : ∀ t ∈ Ico 0 T, c + t ∈ Icc (c - T) (c + T) := fun t ht => ⟨by linarith [ht.1, ht.2], by linarith [ht.2]⟩
  have mm : ∀ t ∈ Ico 0 T, c - t ∈ Icc (c - T) (c + T) := fun t ht => ⟨by linarith [ht.2], by linarith [ht.1, ht.2]⟩
  have hH : ∀ t ∈ Icc 0 T, ‖f (c + t) + f (c - t) - (2 : ℝ) • f c‖ ≤ M * t ^ (1 + 1) := by
    refine norm_le_pow (G' := fun t => f1 (c + t) - f1 (c - t)) (((cont_shift h0).1.add (cont_shift h0).2).sub
      continuousOn_const) (by simp [two_smul]) (fun t ht => ?_) (fun t ht => ?_)
    · have := ((hasDerivAt_add_shift (h0 _ (mp t ht))).fun_add (hasDerivAt_sub_shift (h0 _ (mm t ht)))).sub_const
        ((2 : ℝ) • f c)
      rwa [← sub_eq_add_neg] at this
    · refine (norm_sym_sub_le h1 hM ⟨ht.1, ht.2.le⟩).trans (le_of_eq ?_)
      norm_num; ring
  have hG := norm_le_pow (G := fun t => (∫ x in (c - t)..(c + t), f x) - (2 * t) • f c) (K := M / 3) (n := 2)
    (G' := fun t => f (c + t) + f (c - t) - (2 : ℝ) • f c) ((continuousOn_sym hc).sub (by fun_prop)) (by simp)
    (fun t ht => ?_) (fun t ht => ?_) T ⟨hT, le_rfl⟩
  · exact hG
  · refine (hasDerivAt_sym hc ht).fun_sub ?_
    have := ((hasDerivAt_id t).const_mul (2 : ℝ)).smul_const (f c)
    simpa using this
  · refine (hH t ⟨ht.1, ht.2.le⟩).trans (le_of_eq ?_)
    norm_num; ring

theorem trap_cell [CompleteSpace E] {f1 f2 : ℝ → E} {M : ℝ} (h0 : ∀ x ∈ Icc (c - T) (c + T), HasDerivAt f (f1 x) x)
    (h1 : ∀ x ∈ Icc (c - T) (c + T), HasDerivAt f1 (f2 x) x) (hM : ∀ x ∈ Icc (c - T) (c + T), ‖f2 x‖ ≤ M) (hT : 0 ≤ T) :
    ‖(∫ x in (c - T)..(c + T), f x) - T • (f (c - T) + f (c + T))‖ ≤ 2 * M / 3 * T ^ 3 := by
  have hc : ContinuousOn f (Icc (c - T) (c + T)) := fun x hx => (h0 x hx).continuousAt.continuousWithinAt
  have mp : ∀ t ∈ Ico 0 T, c + t ∈ Icc (c - T) (c + T) := fun t ht => ⟨by linarith [ht.1, ht.2], by linarith [ht.2]⟩
  have mm : ∀ t ∈ Ico 0 T, c - t ∈ Icc (c - T) (c + T) := fun t ht => ⟨by linarith [ht.2], by linarith [ht.1, ht.2]⟩
  refine norm_le_pow (G := fun t => (∫ x in (c - t)..(c + t), f x) - t • (f (c - t) + f (c + t))) (K := 2 * M / 3) (n := 2)
    (G' := fun t => -(t • (f1 (c + t) - f1 (c - t)))) ((continuousOn_sym hc).sub
      (continuousOn_id.smul ((cont_shift h0).2.add (cont_shift h0).1))) (by simp)
    (fun t ht => ?_) (fun t ht => ?_) T ⟨hT, le_rfl⟩
  · have h2 := (hasDerivAt_id t).fun_smul ((hasDerivAt_sub_shift (h0 _ (mm t ht))).fun_add
      (hasDerivAt_add_shift (h0 _ (mp t ht))))
    refine ((hasDerivAt_sym hc ht).fun_sub h2).congr_deriv ?_
    simp only [id]
    module
  · rw [norm_neg, norm_smul, Real.norm_of_nonneg ht.1]
    have := mul_le_mul_of_nonneg_left (norm_sym_sub_le h1 hM ⟨ht.1, ht.2.le⟩) ht.1
    refine this.trans (le_of_eq ?_)
    norm_num; ring

theorem simpson_cell [CompleteSpace E] {f1 f2 f3 f4 : ℝ → E} {M : ℝ} (h0 : ∀ x ∈ Icc (c - T) (c + T), HasDerivAt f (f1 x) x)
    (h1 : ∀ x ∈ Icc (c - T) (c + T), HasDerivAt f1 (f2 x) x) (h2 : ∀ x ∈ Icc (c - T) (c + T), HasDerivAt f2 (f3 x) x)
    (h3 : ∀ x ∈ Icc (c - T) (c + T), HasDerivAt f3 (f4 x) x) (hM : ∀ x ∈ Icc (c - T) (c + T), ‖f4 x‖ ≤ M) (hT : 0 ≤ T) :
    ‖(∫ x in (c - T)..(c + T), f x) - (T / 3) • (f (c - T) + (4 : ℝ) • f c + f (c + T))‖ ≤ M / 90 * T ^ 5 := by
  have hc : ContinuousOn f (Icc (c - T) (c + T)) := fun x hx => (h0 x hx).continuousAt.continuousWithinAt
  have mp : ∀ t ∈ Ico 0 T, c + t ∈ Icc (c - T) (c + T) := fun t ht => ⟨by linarith [ht.1, ht.2], by linarith [ht.2]⟩
  have mm : ∀ t ∈ Ico 0 T, c - t ∈ Icc (c - T) (c + T) := fun t ht => ⟨by linarith [ht.2], by linarith [ht.1, ht.2]⟩
  have c1 := cont_shift h0
  have c2 := cont_shift h1
  have c3 := cont_shift h2
  have d1 : ∀ t ∈ Ico 0 T, HasDerivAt (fun t => f (c + t)) (f1 (c + t)) t := fun t ht => hasDerivAt_add_shift (h0 _ (mp t ht))
  have d1' : ∀ t ∈ Ico 0 T, HasDerivAt (fun t => f (c - t)) (-f1 (c - t)) t := fun t ht => hasDerivAt_sub_shift (h0 _ (mm t ht))
  have d2 : ∀ t ∈ Ico 0 T, HasDerivAt (fun t => f1 (c + t)) (f2 (c + t)) t := fun t ht => hasDerivAt_add_shift (h1 _ (mp t ht))
  have d2' : ∀ t ∈ Ico 0 T, HasDerivAt (fun t => f1 (c - t)) (-f2 (c - t)) t := fun t ht => hasDerivAt_sub_shift (h1 _ (mm t ht))
  have d3 : ∀ t ∈ Ico 0 T, HasDerivAt (fun t => f2 (c + t)) (f3 (c + t)) t := fun t ht => hasDerivAt_add_shift (h2 _ (mp t ht))
  have d3' : ∀ t ∈ Ico 0 T, HasDerivAt (fun t => f2 (c - t)) (-f3 (c - t)) t := fun t ht => hasDerivAt_sub_shift (h2 _ (mm t ht))
  have dt : ∀ t : ℝ, HasDerivAt (fun t : ℝ => t / 3) (1 / 3) t := fun t => by
    simpa using (hasDerivAt_id t).div_const 3
  -- second derivative
  have hB := norm_le_pow (T := T) (K := 2 * M / 9) (n := 2)
    (G := fun t => (1 / 3 : ℝ) • (f1 (c + t) - f1 (c - t)) - (t / 3) • (f2 (c + t) + f2 (c - t)))
    (G' := fun t => -((t / 3) • (f3 (c + t) - f3 (c - t))))
    (((c2.1.sub c2.2).const_smul (1 / 3 : ℝ)).sub
      (ContinuousOn.smul (by fun_prop) (c3.1.add c3.2))) (by simp) (fun t ht => ?_) (fun t ht => ?_)
  rotate_left
  · have := (((d2 t ht).fun_sub (d2' t ht)).fun_const_smul (1 / 3 : ℝ)).fun_sub
      ((dt t).fun_smul ((d3 t ht).fun_add (d3' t ht)))
    refine this.congr_deriv ?_
    module
  · rw [norm_neg, norm_smul, Real.norm_of_nonneg (by linarith [ht.1])]
    have := mul_le_mul_of_nonneg_left (norm_sym_sub_le h3 hM ⟨ht.1, ht.2.le⟩) (by linarith [ht.1] : 0 ≤ t / 3)
    refine this.trans (le_of_eq ?_)
    norm_num; ring
  -- first derivative
  have hA := norm_le_pow (T := T) (K := M / 18) (n := 3)
    (G := fun t => (2 / 3 : ℝ) • (f (c + t) + f (c - t)) - (4 / 3 : ℝ) • f c - (t / 3) • (f1 (c + t) - f1 (c - t)))
    (G' := fun t => (1 / 3 : ℝ) • (f1 (c + t) - f1 (c - t)) - (t / 3) • (f2 (c + t) + f2 (c - t)))
    ((((c1.1.add c1.2).const_smul (2 / 3 : ℝ)).sub continuousOn_const).sub
      (ContinuousOn.smul (by fun_prop) (c2.1.sub c2.2))) (by simp; module) (fun t ht => ?_) (fun t ht => ?_)
  rotate_left
  · have := ((((d1 t ht).fun_add (d1' t ht)).fun_const_smul (2 / 3 : ℝ)).sub_const ((4 / 3 : ℝ) • f c)).fun_sub
      ((dt t).fun_smul ((d2 t ht).fun_sub (d2' t ht)))
    refine this.congr_deriv ?_
    module
  · refine (hB t ⟨ht.1, ht.2.le⟩).trans (le_of_eq ?_)
    norm_num; ring
  refine norm_le_pow (K := M / 90) (n := 4)
    (G := fun t => (∫ x in (c - t)..(c + t), f x) - (t / 3) • (f (c - t) + (4 : ℝ) • f c + f (c + t)))
    (G' := fun t => (2 / 3 : ℝ) • (f (c + t) + f (c - t)) - (4 / 3 : ℝ) • f c - (t / 3) • (f1 (c + t) - f1 (c - t)))
    ((continuousOn_sym hc).sub (ContinuousOn.smul (by fun_prop) ((c1.2.add continuousOn_const).add c1.1))) (by simp)
    (fun t ht => ?_) (fun t ht => ?_) T ⟨hT, le_rfl⟩
  · have := (hasDerivAt_sym hc ht).fun_sub ((dt t).fun_smul (((d1' t ht).add_const ((4 : ℝ) • f c)).fun_add (d1 t ht)))
    refine this.congr_deriv ?_
    module
  · refine (hA t ⟨ht.1, ht.2.le⟩).trans (le_of_eq ?_)
    norm_num; ring

end cell

/-- Spec: a grid with increasing nodes and cells of length at most `h`. -/
def Mesh (l : List ℝ) (h : ℝ) : Prop := l.IsChain fun a b => a ≤ b ∧ b - a ≤ h

theorem chain_head_le {l : List ℝ} {R : ℝ → ℝ → Prop} (hR : ∀ a b, R a b → a ≤ b) (hl : l ≠ []) (h : l.IsChain R) :
    l.head hl ≤ l.getLast hl := by
  induction l with
  | nil => exact absurd rfl hl
  | cons a l ih =>
    cases l with
    | nil => simp
    | cons b r =>
      rw [List.isChain_cons_cons] at h
      have := ih (List.cons_ne_nil b r) h.2
      simp only [List.head_cons, List.getLast_cons_cons] at this ⊢
      exact (hR _ _ h.1).trans this

/-- Errors on the cells add up. -/
theorem composite_error {q : ℝ → ℝ → E} {f : ℝ → E} {K h : ℝ} {n : ℕ} {R : ℝ → ℝ → Prop}
    (hR : ∀ a b, R a b → a ≤ b ∧ b - a ≤ h) (hK : 0 ≤ K) {A B : ℝ} (hf : ContinuousOn f (Icc A B))
    (hcell : ∀ a b, A ≤ a → b ≤ B → R a b → ‖(∫ x in a..b, f x) - q a b‖ ≤ K * (b - a) ^ (n + 1)) :
    ∀ (l : List ℝ) (hl : l ≠ []), l.IsChain R → A ≤ l.head hl → l.getLast hl ≤ B →
      ‖(∫ x in l.head hl..l.getLast hl, f x) - cellSum q l‖ ≤ K * h ^ n * (l.getLast hl - l.head hl) := by
  intro l
  induction l with
  | nil => exact fun hl => absurd rfl hl
  | cons a l ih =>
    intro hl hm hA hB
    cases l with
    | nil => simp [cellSum]
    | cons b r =>
      rw [List.isChain_cons_cons] at hm
      obtain ⟨hab, hh⟩ := hR _ _ hm.1
      have hle := chain_head_le (fun a b hab => (hR a b hab).1) (List.cons_ne_nil b r) hm.2
      have ih' := ih (List.cons_ne_nil b r) hm.2
      simp only [List.head_cons, List.getLast_cons_cons] at hA hB hle ih' ⊢
      set e := (b :: r).getLast (List.cons_ne_nil b r)
      have ihm := ih' (hA.trans hab) hB
      have hc := hcell a b hA (hle.trans hB) hm.1
      have hi : ∀ s t, A ≤ s → s ≤ t → t ≤ B → IntervalIntegrable f volume s t := by
        intro s t h1 h2 h3
        refine (hf.mono ?_).intervalIntegrable
        rw [uIcc_of_le h2]
        exact Icc_subset_Icc h1 h3
      have hpow : (b - a) ^ n ≤ h ^ n := pow_le_pow_left₀ (sub_nonneg.mpr hab) hh n
      have hc' : ‖(∫ x in a..b, f x) - q a b‖ ≤ K * h ^ n * (b - a) := by
        refine hc.trans ?_
        rw [pow_succ, ← mul_assoc]
        exact mul_le_mul_of_nonneg_right (mul_le_mul_of_nonneg_left hpow hK) (sub_nonneg.mpr hab)
      rw [← intervalIntegral.integral_add_adjacent_intervals (hi a b hA hab (hle.trans hB)) (hi b e (hA.trans hab) hle hB),
        cellSum, add_sub_add_comm]
      refine (norm_add_le _ _).trans ((add_le_add hc' ihm).trans (le_of_eq ?_))
      ring

variable [CompleteSpace E]

/-- **C107** (midpoint rule). On every grid with cells of length at most `h`, the error of `midpoint` for a function with
second derivative bounded by `M` is at most `M / 24 * h ^ 2` times the length of the interval. -/
theorem C107_midpoint (l : List ℝ) (hl : l ≠ []) {h : ℝ} (hm : Mesh l h) {f f1 f2 : ℝ → E} {M : ℝ}
    (h0 : ∀ x ∈ Icc (l.head hl) (l.getLast hl), HasDerivAt f (f1 x) x)
    (h1 : ∀ x ∈ Icc (l.head hl) (l.getLast hl), HasDerivAt f1 (f2 x) x)
    (hM : ∀ x ∈ Icc (l.head hl) (l.getLast hl), ‖f2 x‖ ≤ M) :
    ‖(∫ x in l.head hl..l.getLast hl, f x) - quad (midpoint l) f‖ ≤ M / 24 * h ^ 2 * (l.getLast hl - l.head hl) := by
  have hle := chain_head_le (fun a b hab => hab.1) hl hm
  have hM0 : 0 ≤ M := (norm_nonneg _).trans (hM _ ⟨le_rfl, hle⟩)
  rw [quad_midpoint]
  refine composite_error (fun a b hab => hab) (by positivity) (fun x hx => (h0 x hx).continuousAt.continuousWithinAt)
    (fun a b hA hB hab => ?_) l hl hm le_rfl le_rfl
  have hsub : Icc ((b + a) / 2 - (b - a) / 2) ((b + a) / 2 + (b - a) / 2) ⊆ Icc (l.head hl) (l.getLast hl) :=
    Icc_subset_Icc (by linarith) (by linarith)
  have := midpoint_cell (c := (b + a) / 2) (T := (b - a) / 2) (fun x hx => h0 x (hsub hx)) (fun x hx => h1 x (hsub hx))
    (fun x hx => hM x (hsub hx)) (by linarith [hab.1])
  rw [show (b + a) / 2 - (b - a) / 2 = a by ring, show (b + a) / 2 + (b - a) / 2 = b by ring,
    show 2 * ((b - a) / 2) = b - a by ring] at this
  refine this.trans (le_of_eq ?_)
  ring

/-- **C107** (trapezoidal rule): the error is at most `M / 12 * h ^ 2` times the length of the interval. -/
theorem C107_trap (l : List ℝ) (hl : l ≠ []) {h : ℝ} (hm : Mesh l h) {f f1 f2 : ℝ → E} {M : ℝ}
    (h0 : ∀ x ∈ Icc (l.head hl) (l.getLast hl), HasDerivAt f (f1 x) x)
    (h1 : ∀ x ∈ Icc (l.head hl) (l.getLast hl), HasDerivAt f1 (f2 x) x)
    (hM : ∀ x ∈ Icc (l.head hl) (l.getLast hl), ‖f2 x‖ ≤ M) :
    ‖(∫ x in l.head hl..l.getLast hl, f x) - quad (trap l) f‖ ≤ M / 12 * h ^ 2 * (l.getLast hl - l.head hl) := by
  have hle := chain_head_le (fun a b hab => hab.1) hl hm
  have hM0 : 0 ≤ M := (norm_nonneg _).trans (hM _ ⟨le_rfl, hle⟩)
  rw [quad_trap l hl]
  refine composite_error (fun a b hab => hab) (by positivity) (fun x hx => (h0 x hx).continuousAt.continuousWithinAt)
    (fun a b hA hB hab => ?_) l hl hm le_rfl le_rfl
  have hsub : Icc ((b + a) / 2 - (b - a) / 2) ((b + a) / 2 + (b - a) / 2) ⊆ Icc (l.head hl) (l.getLast hl) :=
    Icc_subset_Icc (by linarith) (by linarith)
  have := trap_cell (c := (b + a) / 2) (T := (b - a) / 2) (fun x hx => h0 x (hsub hx)) (fun x hx => h1 x (hsub hx))
    (fun x hx => hM x (hsub hx)) (by linarith [hab.1])
  rw [show (b + a) / 2 - (b - a) / 2 = a by ring, show (b + a) / 2 + (b - a) / 2 = b by ring] at this
  refine this.trans (le_of_eq ?_)
  ring

example : ‖(∫ x in (0 : ℝ)..3, x ^ 2) - quad (midpoint [0, 1, 3]) fun x => x ^ 2‖ ≤ 2 / 24 * 2 ^ 2 * (3 - 0) ∧
    ‖(∫ x in (0 : ℝ)..3, x ^ 2) - quad (trap [0, 1, 3]) fun x => x ^ 2‖ ≤ 2 / 12 * 2 ^ 2 * (3 - 0) := by
  have hm : Mesh [0, 1, 3] 2 := by norm_num [Mesh]
  have h0 : ∀ x : ℝ, HasDerivAt (fun x => x ^ 2) (2 * x) x := fun x => by simpa using hasDerivAt_pow 2 x
  have h1 : ∀ x : ℝ, HasDerivAt (fun x => 2 * x) 2 x := fun x => by simpa using (hasDerivAt_id x).const_mul (2 : ℝ)
  exact ⟨C107_midpoint [0, 1, 3] (by simp) hm (fun x _ => h0 x) (fun x _ => h1 x) (by simp),
    C107_trap [0, 1, 3] (by simp) hm (fun x _ => h0 x) (fun x _ => h1 x) (by simp)⟩

/-- **C107** (Simpson's rule): the error for a function with fourth derivative bounded by `M` is at most
`M / 2880 * h ^ 4` times the length of the interval. -/
theorem C107_simpson (l : List ℝ) (hl : l ≠ []) (hn : 2 ≤ l.length) {h : ℝ} (hm : Mesh l h) {f f1 f2 f3 f4 : ℝ → E} {M : ℝ}
    (h0 : ∀ x ∈ Icc (l.head hl) (l.getLast hl), HasDerivAt f (f1 x) x)
    (h1 : ∀ x ∈ Icc (l.head hl) (l.getLast hl), HasDerivAt f1 (f2 x) x)
    (h2 : ∀ x ∈ Icc (l.head hl) (l.getLast hl), HasDerivAt f2 (f3 x) x)
    (h3 : ∀ x ∈ Icc (l.head hl) (l.getLast hl), HasDerivAt f3 (f4 x) x)
    (hM : ∀ x ∈ Icc (l.head hl) (l.getLast hl), ‖f4 x‖ ≤ M) :
    ‖(∫ x in l.head hl..l.getLast hl, f x) - quad (simpson l) f‖ ≤ M / 2880 * h ^ 4 * (l.getLast hl - l.head hl) := by
  have hle := chain_head_le (fun a b hab => hab.1) hl hm
  have hM0 : 0 ≤ M := (norm_nonneg _).trans (hM _ ⟨le_rfl, hle⟩)
  rw [quad_simpson l hn]
  refine composite_error (fun a b hab => hab) (by positivity) (fun x hx => (h0 x hx).continuousAt.continuousWithinAt)
    (fun a b hA hB hab => ?_) l hl hm le_rfl le_rfl
  have hsub : Icc ((a + b) / 2 - (b - a) / 2) ((a + b) / 2 + (b - a) / 2) ⊆ Icc (l.head hl) (l.getLast hl) :=
    Icc_subset_Icc (by linarith) (by linarith)
  have := simpson_cell (c := (a + b) / 2) (T := (b - a) / 2) (fun x hx => h0 x (hsub hx)) (fun x hx => h1 x (hsub hx))
    (fun x hx => h2 x (hsub hx)) (fun x hx => h3 x (hsub hx)) (fun x hx => hM x (hsub hx)) (by linarith [hab.1])
  rw [show (a + b) / 2 - (b - a) / 2 = a by ring, show (a + b) / 2 + (b - a) / 2 = b by ring,
    show (b - a) / 2 / 3 = (b - a) / 6 by ring] at this
  refine this.trans (le_of_eq ?_)
  ring

/-- The constants are the best possible: with one cell `[0, h]` the bounds are attained for `x ^ 2` (second derivative
2) and `x ^ 4` (fourth derivative 24). -/
theorem C107_sharp (h : ℝ) (hh : 0 ≤ h) :
    |(∫ x in (0 : ℝ)..h, x ^ 2) - quad (midpoint [0, h]) fun x => x ^ 2| = 2 / 24 * h ^ 2 * (h - 0) ∧
    |(∫ x in (0 : ℝ)..h, x ^ 2) - quad (trap [0, h]) fun x => x ^ 2| = 2 / 12 * h ^ 2 * (h - 0) ∧
    |(∫ x in (0 : ℝ)..h, x ^ 4) - quad (simpson [0, h]) fun x => x ^ 4| = 24 / 2880 * h ^ 4 * (h - 0) := by
  have h3 : 0 ≤ h ^ 3 := by positivity
  have h5 : 0 ≤ h ^ 5 := by positivity
  rw [quad_midpoint, quad_trap _ (by simp), quad_simpson _ (by simp), integral_pow, integral_pow]
  simp only [cellSum, smul_eq_mul]
  refine ⟨?_, ?_, ?_⟩
  · rw [abs_of_nonneg (by norm_num; nlinarith)]; norm_num; ring
  · rw [abs_of_nonpos (by norm_num; nlinarith)]; norm_num; ring
  · rw [abs_of_nonpos (by norm_num; nlinarith)]; norm_num; ring

/-- The integral of the exponential function over `[0, 1]` with Simpson's rule on the grid `0, 1/4, 1/2, 1`. -/
example : |(Real.exp 1 - 1) - quad (simpson [0, 1 / 4, 1 / 2, 1]) Real.exp| ≤ 3 / 2880 * (1 / 2) ^ 4 := by
  have hm : Mesh [0, 1 / 4, 1 / 2, 1] (1 / 2) := by
    unfold Mesh; norm_num [List.isChain_cons_cons]
  have h := C107_simpson [0, 1 / 4, 1 / 2, 1] (by simp) (by simp) hm (f := Real.exp) (f1 := Real.exp) (f2 := Real.exp)
    (f3 := Real.exp) (f4 := Real.exp) (M := 3) (fun x _ => Real.hasDerivAt_exp x) (fun x _ => Real.hasDerivAt_exp x)
    (fun x _ => Real.hasDerivAt_exp x) (fun x _ => Real.hasDerivAt_exp x) (fun x hx => ?_)
  · simpa using h
  · rw [Real.norm_of_nonneg (Real.exp_pos x).le]
    have h1 : x ≤ 1 := by simpa using hx.2
    exact (Real.exp_le_exp.mpr h1).trans Real.exp_one_lt_three.le

/-! ## C108 -/

omit [CompleteSpace E] in
/-- Taylor's formula with a bound of the remainder. -/
theorem taylor_bound (D : ℕ) : ∀ {g : ℕ → ℝ → E} {T M : ℝ},
    (∀ k ≤ D, ∀ t ∈ Icc 0 T, HasDerivAt (g k) (g (k + 1) t) t) → (∀ t ∈ Icc 0 T, ‖g (D + 1) t‖ ≤ M) →
    ∀ t ∈ Icc 0 T, ‖g 0 t - ∑ j ∈ Finset.range (D + 1), (t ^ j / (j.factorial : ℝ)) • g j 0‖ ≤
      M / ((D + 1).factorial : ℝ) * t ^ (D + 1) := by
  induction D with
  | zero =>
    intro g T M hd hM
    simp only [zero_add, Finset.range_one, Finset.sum_singleton, pow_zero, Nat.factorial_zero, Nat.cast_one, div_one,
      one_smul, Nat.factorial_one]
    refine norm_le_pow (n := 0) (G' := g 1) (fun t ht => ((hd 0 le_rfl t ht).sub_const _).continuousAt.continuousWithinAt)
      (by simp) (fun t ht => (hd 0 le_rfl t ⟨ht.1, ht.2.le⟩).sub_const _) (fun t ht => ?_)
    simpa using hM t ⟨ht.1, ht.2.le⟩
  | succ D ih =>
    intro g T M hd hM
    have ih' := ih (g := fun k => g (k + 1)) (fun k hk t ht => hd (k + 1) (by omega) t ht) hM
    have hder : ∀ t ∈ Icc 0 T, HasDerivAt (fun t => g 0 t - ∑ j ∈ Finset.range (D + 1 + 1), (t ^ j / (j.factorial : ℝ)) • g j 0)
        (g 1 t - ∑ j ∈ Finset.range (D + 1), (t ^ j / (j.factorial : ℝ)) • g (j + 1) 0) t := by
      intro t ht
      refine (hd 0 (by omega) t ht).fun_sub ?_
      have e : ∀ s : ℝ, ∑ j ∈ Finset.range (D + 1 + 1), (s ^ j / (j.factorial : ℝ)) • g j 0 =
          ∑ j ∈ Finset.range (D + 1), (s ^ (j + 1) / ((j + 1).factorial : ℝ)) • g (j + 1) 0 + g 0 0 := by
        intro s
        rw [Finset.sum_range_succ']
        simp
      simp only [e]
      refine HasDerivAt.add_const _ (HasDerivAt.fun_sum fun j _ => ?_)
      have h1 := ((hasDerivAt_pow (j + 1) t).div_const ((j + 1).factorial : ℝ)).smul_const (g (j + 1) 0)
      refine h1.congr_deriv ?_
      congr 1
      have : ((j.factorial : ℕ) : ℝ) ≠ 0 := by exact_mod_cast j.factorial_ne_zero
      rw [Nat.factorial_succ]
      push_cast
      field_simp
    refine norm_le_pow (fun t ht => (hder t ht).continuousAt.continuousWithinAt) ?_
      (fun t ht => hder t ⟨ht.1, ht.2.le⟩) (fun t ht => ?_)
    · rw [Finset.sum_range_succ']
      simp
    · refine (ih' t ⟨ht.1, ht.2.le⟩).trans (le_of_eq ?_)
      have : (((D + 1).factorial : ℕ) : ℝ) ≠ 0 := by exact_mod_cast (D + 1).factorial_ne_zero
      rw [Nat.factorial_succ (D + 1)]
      push_cast
      field_simp

omit [CompleteSpace E] in
theorem quad_add' (r : List ℝ × List ℝ) (f g : ℝ → E) : quad r (fun x => f x + g x) = quad r f + quad r g := by
  obtain ⟨w, x⟩ := r
  simp only [quad]
  induction w generalizing x with
  | nil => simp
  | cons w ws ih =>
    cases x with
    | nil => simp
    | cons x xs =>
      simp only [List.zipWith_cons_cons, List.sum_cons, ih]
      rw [smul_add]
      abel

omit [CompleteSpace E] in
theorem quad_sum (r : List ℝ × List ℝ) {ι : Type*} (s : Finset ι) (f : ι → ℝ → E) :
    quad r (fun x => ∑ i ∈ s, f i x) = ∑ i ∈ s, quad r (f i) := by
  classical
  induction s using Finset.induction_on with
  | empty => simp [quad_zero]
  | insert a s ha ih => simp only [Finset.sum_insert ha, quad_add', ih]

theorem quad_one {r : List ℝ × List ℝ} {a b : ℝ} (hr : WellFormed r a b) : quad r (fun _ => (1 : ℝ)) = b - a := by
  obtain ⟨w, x⟩ := r
  obtain ⟨h1, h2, -, -⟩ := hr
  rw [← h2]
  simp only [quad] at *
  clear h2
  induction w generalizing x with
  | nil => simp
  | cons w ws ih =>
    cases x with
    | nil => simp at h1
    | cons x xs =>
      rw [List.zipWith_cons_cons, List.sum_cons, List.sum_cons, ih xs (by simpa using h1), smul_eq_mul, mul_one]

omit [CompleteSpace E] in
/-- A bound of the values bounds the quadrature sum. -/
theorem quad_norm_le {r : List ℝ × List ℝ} {a b : ℝ} (hr : WellFormed r a b) {f : ℝ → E} {K : ℝ}
    (hf : ∀ x ∈ Icc a b, ‖f x‖ ≤ K) : ‖quad r f‖ ≤ K * (b - a) := by
  obtain ⟨w, x⟩ := r
  obtain ⟨h1, h2, h3, h4⟩ := hr
  rw [← h2]
  simp only [quad] at *
  clear h2
  induction w generalizing x with
  | nil => simp
  | cons w ws ih =>
    cases x with
    | nil => simp at h1
    | cons x xs =>
      have ih' := ih xs (by simpa using h1) (fun w hw => h3 w (by simp [hw])) (fun x hx => h4 x (by simp [hx]))
      have hx := hf x (h4 x (by simp))
      have hw := h3 w (by simp)
      simp only [List.zipWith_cons_cons, List.sum_cons]
      refine (norm_add_le _ _).trans ?_
      rw [norm_smul, Real.norm_of_nonneg hw.le]
      nlinarith

/-- A rule with positive weights which is exact for polynomials of degree `D` on the interval `[a, b]`. -/
theorem exact_error {r : List ℝ × List ℝ} {a b : ℝ} (hab : a ≤ b) (hr : WellFormed r a b) {D : ℕ} (he : ExactOn r D a b)
    {g : ℕ → ℝ → E} {M : ℝ} (hd : ∀ k ≤ D, ∀ x ∈ Icc a b, HasDerivAt (g k) (g (k + 1) x) x)
    (hM : ∀ x ∈ Icc a b, ‖g (D + 1) x‖ ≤ M) :
    ‖(∫ x in a..b, g 0 x) - quad r (g 0)‖ ≤ 2 * M / ((D + 1).factorial : ℝ) * (b - a) ^ (D + 2) := by
  set P : ℝ → E := fun x => ∑ j ∈ Finset.range (D + 1), ((x - a) ^ j / (j.factorial : ℝ)) • g j a with hP
  have hT : ∀ x ∈ Icc a b, ‖g 0 x - P x‖ ≤ M / ((D + 1).factorial : ℝ) * (b - a) ^ (D + 1) := by
    intro x hx
    have := taylor_bound D (g := fun k t => g k (a + t)) (T := b - a) (M := M)
      (fun k hk t ht => hasDerivAt_add_shift (hd k hk _ ⟨by linarith [ht.1], by linarith [ht.2]⟩))
      (fun t ht => hM _ ⟨by linarith [ht.1], by linarith [ht.2]⟩) (x - a) ⟨by linarith [hx.1], by linarith [hx.2]⟩
    simp only [add_sub_cancel, add_zero] at this
    refine this.trans (mul_le_mul_of_nonneg_left (pow_le_pow_left₀ (by linarith [hx.1]) (by linarith [hx.2]) _) ?_)
    have hM0 : 0 ≤ M := (norm_nonneg _).trans (hM x hx)
    positivity
  have hPe : quad r P = ∫ x in a..b, P x := by
    rw [hP, quad_sum, intervalIntegral.integral_finsetSum]
    · refine Finset.sum_congr rfl fun j hj => ?_
      rw [quad_smul_const, intervalIntegral.integral_smul_const]
      congr 1
      have hpoly : ∀ x : ℝ, (x - a) ^ j / (j.factorial : ℝ) =
          (Polynomial.C ((j.factorial : ℝ)⁻¹) * (Polynomial.X - Polynomial.C a) ^ j).eval x := by
        intro x
        simp
        ring
      simp only [hpoly]
      refine he _ ?_
      refine (Polynomial.natDegree_C_mul_le _ _).trans (Polynomial.natDegree_pow_le.trans ?_)
      have := Finset.mem_range.mp hj
      calc j * (Polynomial.X - Polynomial.C a).natDegree ≤ j * 1 :=
            Nat.mul_le_mul_left _ (Polynomial.natDegree_X_sub_C_le a)
        _ ≤ D := by omega
    · intro j _
      exact (Continuous.intervalIntegrable (by fun_prop) _ _)
  have hPc : Continuous P := by rw [hP]; fun_prop
  have hgc : ContinuousOn (g 0) (Icc a b) := fun x hx => (hd 0 (by omega) x hx).continuousAt.continuousWithinAt
  have hgi : IntervalIntegrable (g 0) volume a b := ContinuousOn.intervalIntegrable (by rwa [uIcc_of_le hab])
  have hq : quad r (g 0) = quad r (fun x => g 0 x - P x) + quad r P := by
    rw [← quad_add']; simp
  have hi : (∫ x in a..b, g 0 x) = (∫ x in a..b, (g 0 x - P x)) + ∫ x in a..b, P x := by
    rw [intervalIntegral.integral_sub hgi (hPc.intervalIntegrable _ _)]; abel
  rw [hq, hi, hPe, add_sub_add_right_eq_sub]
  have b1 : ‖∫ x in a..b, (g 0 x - P x)‖ ≤ M / ((D + 1).factorial : ℝ) * (b - a) ^ (D + 1) * (b - a) := by
    have := intervalIntegral.norm_integral_le_of_norm_le_const (a := a) (b := b) (f := fun x => g 0 x - P x)
      (C := M / ((D + 1).factorial : ℝ) * (b - a) ^ (D + 1))
      (fun x hx => hT x (by rw [uIoc_of_le hab] at hx; exact ⟨hx.1.le, hx.2⟩))
    rwa [abs_of_nonneg (sub_nonneg.mpr hab)] at this
  have b2 := quad_norm_le hr hT
  refine (norm_sub_le _ _).trans ((add_le_add b1 b2).trans (le_of_eq ?_))
  ring

omit [CompleteSpace E] in
theorem quad_gauss_cell (xs ws : List ℝ) (hlen : ws.length = xs.length) (a b : ℝ) (f : ℝ → E) :
    quad (ws.map fun w => (b - a) / 2 * w, xs.map fun x => (a + b) / 2 + x * (b - a) / 2) f =
      quad (gauss xs ws [a, b]) f := by
  rw [quad_gauss xs ws hlen]
  simp [cellSum]

/-- **C108** (Gauss rules). If the reference rule has positive weights and is exact for polynomials of degree `D`, the
error of the composite rule on a strictly increasing grid with cells of length at most `h` is at most
`2 M / (D + 1)! * h ^ (D + 1)` times the length of the interval, where `M` bounds the derivative of order `D + 1`. -/
theorem C108_gauss (xs ws : List ℝ) (href : WellFormed (ws, xs) (-1) 1) {D : ℕ} (he : ExactOn (ws, xs) D (-1) 1)
    (l : List ℝ) (hl : l ≠ []) {h : ℝ} (hm : l.IsChain fun a b => a < b ∧ b - a ≤ h) {g : ℕ → ℝ → E} {M : ℝ}
    (hd : ∀ k ≤ D, ∀ x ∈ Icc (l.head hl) (l.getLast hl), HasDerivAt (g k) (g (k + 1) x) x)
    (hM : ∀ x ∈ Icc (l.head hl) (l.getLast hl), ‖g (D + 1) x‖ ≤ M) :
    ‖(∫ x in l.head hl..l.getLast hl, g 0 x) - quad (gauss xs ws l) (g 0)‖ ≤
      2 * M / ((D + 1).factorial : ℝ) * h ^ (D + 1) * (l.getLast hl - l.head hl) := by
  have hle := chain_head_le (fun a b hab => hab.1.le) hl hm
  have hM0 : 0 ≤ M := (norm_nonneg _).trans (hM _ ⟨le_rfl, hle⟩)
  rw [quad_gauss xs ws href.length_eq]
  refine composite_error (fun a b hab => ⟨hab.1.le, hab.2⟩) (by positivity)
    (fun x hx => (hd 0 (by omega) x hx).continuousAt.continuousWithinAt) (fun a b hA hB hab => ?_) l hl hm le_rfl le_rfl
  have hsub : Icc a b ⊆ Icc (l.head hl) (l.getLast hl) := Icc_subset_Icc hA hB
  rw [quad_gauss_cell xs ws href.length_eq]
  have hwf := (C46_gauss xs ws href [a, b] (by simp)).2.2.2 (by simpa using hab.1)
  have hex := C47_gauss_exact xs ws href.length_eq D he [a, b] (by simp)
  exact exact_error hab.1.le hwf hex (fun k hk x hx => hd k hk x (hsub hx)) (fun x hx => hM x (hsub hx))

/-- The integral of the sine over `[0, 2]` with the one-point Gauss rule on the grid `0, 1, 2`. -/
example : |(∫ x in (0 : ℝ)..2, Real.sin x) - quad (gauss [0] [2] [0, 1, 2]) Real.sin| ≤ 2 := by
  have hwf : WellFormed ([2], [0]) (-1) 1 := ⟨by simp, by norm_num, by norm_num, by norm_num⟩
  have he : ExactOn ([2], [0]) 1 (-1) 1 := fun p hp => by
    simp only [eval_cubic p (by omega), (coeff_zero_of_linear p hp).1, (coeff_zero_of_linear p hp).2, integral_cubic, quad]
    simp; ring
  have h := C108_gauss [0] [2] hwf he [0, 1, 2] (by simp) (h := 1) (M := 1)
    (by norm_num [List.isChain_cons_cons]) (g := fun k x => Real.sin (x + k * (Real.pi / 2))) (fun k _ x _ => ?_)
    (fun x _ => Real.abs_sin_le_one _)
  · simp only [Nat.cast_zero, zero_mul, add_zero] at h
    refine h.trans ?_
    norm_num [Nat.factorial]
  · have := (Real.hasDerivAt_sin (x + k * (Real.pi / 2))).comp_add_const x (k * (Real.pi / 2))
    refine this.congr_deriv ?_
    push_cast
    rw [← Real.sin_add_pi_div_two]
    congr 1; ring

/-- Spec: the rule converges for the function `f` on `[a, b]`: its values on all strictly increasing grids from `a` to `b`
with sufficiently small cells are as close to the integral as desired. -/
def Converges (rule : QuadRule) (f : ℝ → E) (a b : ℝ) : Prop :=
  ∀ ε > 0, ∃ δ > 0, ∀ (l : List ℝ) (hl : l ≠ []), 2 ≤ l.length → l.head hl = a → l.getLast hl = b →
    l.IsChain (fun s t => s < t ∧ t - s ≤ δ) → ‖(∫ x in a..b, f x) - quad (rule l) f‖ ≤ ε

/-- Spec: on grids with strictly increasing nodes the rule is the sum of its values on the cells, on which it is well
formed. -/
structure CellRule (rule : QuadRule) (E : Type*) [AddCommGroup E] [Module ℝ E] : Prop where
  length : ∀ l : List ℝ, l ≠ [] → 2 ≤ l.length → (rule l).1.length = (rule l).2.length
  cell : ∀ (f : ℝ → E) (l : List ℝ), l ≠ [] → 2 ≤ l.length →
    quad (rule l) f = cellSum (fun s t => quad (rule [s, t]) f) l
  wf : ∀ (l : List ℝ) (hl : l ≠ []), 2 ≤ l.length → l.Pairwise (· < ·) → WellFormed (rule l) (l.head hl) (l.getLast hl)

omit [CompleteSpace E] in
theorem cellRule_midpoint : CellRule midpoint E where
  length l _ _ := midpoint_length l
  cell f l _ _ := by
    rw [quad_midpoint]
    exact cellSum_congr (fun s t => by rw [quad_midpoint]; simp [cellSum]) l
  wf l hl _ h := (C46_midpoint l hl).2.2.2 h

omit [CompleteSpace E] in
theorem cellRule_trap : CellRule trap E where
  length l hl _ := trap_length l hl
  cell f l hl _ := by
    rw [quad_trap l hl]
    exact cellSum_congr (fun s t => by rw [quad_trap _ (by simp)]; simp [cellSum]) l
  wf l hl hn h := (C46_trap l hl).2.2.2 h hn

omit [CompleteSpace E] in
theorem cellRule_simpson : CellRule simpson E where
  length l _ _ := simpson_length l
  cell f l _ hn := by
    rw [quad_simpson l hn]
    exact cellSum_congr (fun s t => by rw [quad_simpson _ (by simp)]; simp [cellSum]) l
  wf l hl hn h := (C46_simpson l hl hn).2.2.2 h

omit [CompleteSpace E] in
theorem cellRule_gauss {xs ws : List ℝ} (hr : WellFormed (ws, xs) (-1) 1) : CellRule (gauss xs ws) E where
  length l _ _ := gauss_length xs ws hr.length_eq l
  cell f l _ _ := by
    rw [quad_gauss xs ws hr.length_eq]
    exact cellSum_congr (fun s t => quad_gauss_cell xs ws hr.length_eq s t f) l
  wf l hl _ h := (C46_gauss xs ws hr l hl).2.2.2 h

/-- The error for a function which varies by at most `η` on each cell. -/
theorem modulus_error {rule : QuadRule} (hq : CellRule rule E) {f : ℝ → E} {δ η : ℝ} (hη0 : 0 ≤ η) (l : List ℝ) (hl : l ≠ [])
    (hn : 2 ≤ l.length) (hm : l.IsChain fun s t => s < t ∧ t - s ≤ δ) (hf : ContinuousOn f (Icc (l.head hl) (l.getLast hl)))
    (huc : ∀ x ∈ Icc (l.head hl) (l.getLast hl), ∀ y ∈ Icc (l.head hl) (l.getLast hl), |x - y| ≤ δ → ‖f x - f y‖ ≤ η) :
    ‖(∫ x in l.head hl..l.getLast hl, f x) - quad (rule l) f‖ ≤ 2 * η * (l.getLast hl - l.head hl) := by
  rw [hq.cell f l hl hn]
  have := composite_error (f := f) (q := fun s t => quad (rule [s, t]) f) (h := δ) (K := 2 * η) (n := 0)
    (fun s t hst => ⟨hst.1.le, hst.2⟩) (by positivity) hf (fun s t hA hB hst => ?_) l hl hm le_rfl le_rfl
  · rwa [pow_zero, mul_one] at this
  · have hsub : ∀ x ∈ Icc s t, ‖f x - f s‖ ≤ η := by
      intro x hx
      have hs : s ∈ Icc (l.head hl) (l.getLast hl) := ⟨hA, by linarith [hst.1]⟩
      have hx' : x ∈ Icc (l.head hl) (l.getLast hl) := ⟨hA.trans hx.1, hx.2.trans hB⟩
      refine huc x hx' s hs ?_
      rw [abs_of_nonneg (by linarith [hx.1])]
      linarith [hx.2, hst.2]
    have hwf : WellFormed (rule [s, t]) s t := hq.wf [s, t] (by simp) (by simp) (by simpa using hst.1)
    have hfi : IntervalIntegrable f volume s t := ContinuousOn.intervalIntegrable (by
      rw [uIcc_of_le hst.1.le]; exact hf.mono (Icc_subset_Icc hA hB))
    have e1 : (∫ x in s..t, f x) = (∫ x in s..t, (f x - f s)) + (t - s) • f s := by
      rw [intervalIntegral.integral_sub hfi intervalIntegrable_const, intervalIntegral.integral_const]; abel
    have e2 : quad (rule [s, t]) f = quad (rule [s, t]) (fun x => f x - f s) + (t - s) • f s := by
      have h1 := quad_smul_const (rule [s, t]) (fun _ => 1) (f s)
      rw [quad_one hwf] at h1
      rw [← h1, ← quad_add']
      simp
    have b1 : ‖∫ x in s..t, (f x - f s)‖ ≤ η * (t - s) := by
      have := intervalIntegral.norm_integral_le_of_norm_le_const (a := s) (b := t) (f := fun x => f x - f s) (C := η)
        (fun x hx => hsub x (by rw [uIoc_of_le hst.1.le] at hx; exact ⟨hx.1.le, hx.2⟩))
      rwa [abs_of_nonneg (by linarith [hst.1])] at this
    have b2 := quad_norm_le hwf hsub
    rw [e1, e2, add_sub_add_right_eq_sub]
    refine (norm_sub_le _ _).trans ((add_le_add b1 b2).trans (le_of_eq ?_))
    ring

theorem converges_of {rule : QuadRule} (hq : CellRule rule E) {f : ℝ → E} {a b : ℝ} (hf : ContinuousOn f (Icc a b)) :
    Converges rule f a b := by
  intro ε hε
  rcases lt_or_ge b a with hab | hab
  · refine ⟨1, one_pos, fun l hl _ h1 h2 hm => ?_⟩
    have := chain_head_le (fun a b hab => hab.1.le) hl hm
    rw [h1, h2] at this
    exact absurd hab (not_lt.mpr this)
  have huc := (isCompact_Icc (a := a) (b := b)).uniformContinuousOn_of_continuous hf
  rw [Metric.uniformContinuousOn_iff] at huc
  set η := ε / (2 * (b - a + 1)) with hη
  have hpos : 0 < b - a + 1 := by linarith
  have hη0 : 0 < η := by positivity
  obtain ⟨δ, hδ, huc⟩ := huc η hη0
  refine ⟨δ / 2, by positivity, fun l hl hn h1 h2 hm => ?_⟩
  subst h1 h2
  refine (modulus_error hq hη0.le l hl hn hm hf fun x hx y hy hxy => ?_).trans ?_
  · have := huc x hx y hy (by rw [Real.dist_eq]; linarith)
    rw [dist_eq_norm] at this
    exact this.le
  · rw [hη, show 2 * (ε / (2 * (l.getLast hl - l.head hl + 1))) = ε / (l.getLast hl - l.head hl + 1) by
      field_simp, div_mul_eq_mul_div, div_le_iff₀ hpos]
    nlinarith

/-- **C108** (convergence). For every continuous function, the values of all four rules converge to the integral when the
cells of the grids shrink (for Gauss rules: if the weights are positive, add up to 2 and the nodes lie in `[-1, 1]`). -/
theorem C108_convergence {f : ℝ → E} {a b : ℝ} (hf : ContinuousOn f (Icc a b)) :
    Converges midpoint f a b ∧ Converges trap f a b ∧ Converges simpson f a b ∧
    ∀ xs ws : List ℝ, WellFormed (ws, xs) (-1) 1 → Converges (gauss xs ws) f a b :=
  ⟨converges_of cellRule_midpoint hf, converges_of cellRule_trap hf, converges_of cellRule_simpson hf,
    fun _ _ hr => converges_of (cellRule_gauss hr) hf⟩

/-- The square root on `[0, 1]`, whose derivatives are unbounded. -/
example : Converges simpson (fun x => √x) 0 1 := (C108_convergence Real.continuous_sqrt.continuousOn).2.2.1

end Verif
