import Verif.Props.Box

/-! # Property C37: normals of the box -/

namespace Verif

open XR

/-- Closeness of real numbers as used by `isclose` (spec). -/
def Close (rtol atol a b : ℝ) : Prop := |a - b| ≤ atol + rtol * |b|

theorem isclose_fin (rtol atol a b : ℝ) : isclose rtol atol (fin a) (fin b) ↔ Close rtol atol a b := by
  simp [isclose, Close]

/-- First coordinate in which `x` touches `b`. -/
def FirstTouch {n : ℕ} (rtol atol : ℝ) (x b : Fin n → ℝ) (i : Fin n) : Prop :=
  Close rtol atol (x i) (b i) ∧ ∀ j < i, ¬ Close rtol atol (x j) (b j)

open Classical in
theorem touch_fin {n : ℕ} (rtol atol : ℝ) (b x : Fin n → ℝ) (i : Fin n) :
    Hypercube.touch (vfin b) rtol atol (vfin x) i =
      fin (if FirstTouch rtol atol x b i then 1 else 0) := by
  have e (j : Fin n) : (if isclose rtol atol (vfin x j) (vfin b j) then (1 : XR) else 0) =
      fin (if Close rtol atol (x j) (b j) then 1 else 0) := by
    rw [vfin_apply, vfin_apply, isclose_fin]
    split <;> simp
  have hc : ∑ j ∈ Finset.univ.filter (· ≤ i), (if Close rtol atol (x j) (b j) then (1 : ℝ) else 0) =
      (((Finset.univ.filter (· ≤ i)).filter fun j => Close rtol atol (x j) (b j)).card : ℝ) := by
    rw [Finset.card_filter]; push_cast; rfl
  simp only [Hypercube.touch, e, fin_sum, hc]
  rw [one_eq, zero_eq]
  simp only [fin_lt]
  set s := (Finset.univ.filter (· ≤ i)).filter fun j => Close rtol atol (x j) (b j) with hs
  by_cases hi : Close rtol atol (x i) (b i)
  · have his : i ∈ s := by simp [hs, hi]
    by_cases hf : ∀ j < i, ¬ Close rtol atol (x j) (b j)
    · have hs1 : s = {i} := by
        ext j
        simp only [hs, Finset.mem_filter, Finset.mem_univ, true_and, Finset.mem_singleton]
        constructor
        · rintro ⟨h1, h2⟩
          rcases h1.lt_or_eq with h3 | h3
          · exact absurd h2 (hf j h3)
          · exact h3
        · rintro rfl; exact ⟨le_rfl, hi⟩
      rw [hs1]
      simp [FirstTouch, hi]
      exact hf
    · push Not at hf
      obtain ⟨j, hj, hj'⟩ := hf
      have h2 : 1 < s.card := by
        rw [Finset.one_lt_card]
        exact ⟨i, his, j, by simp [hs, hj.le, hj'], hj.ne'⟩
      rw [if_pos (by exact_mod_cast h2), if_neg]
      rintro ⟨-, h3⟩
      exact h3 j hj hj'
  · rw [if_neg (c := FirstTouch rtol atol x b i) (fun h => hi h.1)]
    simp [hi]

theorem exists_firstTouch {n : ℕ} {rtol atol : ℝ} {x b : Fin n → ℝ}
    (h : ∃ i, Close rtol atol (x i) (b i)) : ∃ i, FirstTouch rtol atol x b i := by
  classical
  obtain ⟨i, hi⟩ := h
  set s := Finset.univ.filter fun j => Close rtol atol (x j) (b j)
  have hne : s.Nonempty := ⟨i, by simp [s, hi]⟩
  refine ⟨s.min' hne, ?_, fun j hj hc => ?_⟩
  · have := s.min'_mem hne
    simpa [s] using this
  · have := s.min'_le j (by simp [s, hc])
    exact absurd hj (not_lt.mpr this)

theorem FirstTouch.unique {n : ℕ} {rtol atol : ℝ} {x b : Fin n → ℝ} {i j : Fin n}
    (hi : FirstTouch rtol atol x b i) (hj : FirstTouch rtol atol x b j) : i = j := by
  rcases lt_trichotomy i j with h | h | h
  · exact absurd hi.1 (hj.2 i h)
  · exact h
  · exact absurd hj.1 (hi.2 j h)

open Classical in
/-- The flags as a vector: the first touched unit vector or zero. -/
theorem touch_cases {n : ℕ} (rtol atol : ℝ) (b x : Fin n → ℝ) :
    ((∀ i, ¬ Close rtol atol (x i) (b i)) ∧
      Hypercube.touch (vfin b) rtol atol (vfin x) = vfin 0) ∨
    ∃ i, FirstTouch rtol atol x b i ∧
      Hypercube.touch (vfin b) rtol atol (vfin x) = vfin (Pi.single i 1) := by
  by_cases h : ∃ i, Close rtol atol (x i) (b i)
  · obtain ⟨i, hi⟩ := exists_firstTouch h
    refine .inr ⟨i, hi, funext fun j => ?_⟩
    rw [touch_fin, vfin_apply, Pi.single_apply]
    congr 1
    by_cases hj : j = i
    · subst hj; simp [hi]
    · rw [if_neg hj, if_neg fun h2 => hj (h2.unique hi)]
  · push Not at h
    refine .inl ⟨h, funext fun j => ?_⟩
    rw [touch_fin, if_neg fun h2 => h j h2.1]; rfl

theorem norm_single_diff {n : ℕ} {i j : Fin n} (h : i ≠ j) :
    ∑ k, ((Pi.single i 1 - Pi.single j 1 : Fin n → ℝ) k) * ((Pi.single i 1 - Pi.single j 1 : Fin n → ℝ) k) = 2 := by
  have h1 : ∑ k, (Pi.single i 1 : Fin n → ℝ) k * (Pi.single i 1 : Fin n → ℝ) k = 1 := by
    simp [Pi.single_apply]
  have h2 : ∑ k, (Pi.single j 1 : Fin n → ℝ) k * (Pi.single j 1 : Fin n → ℝ) k = 1 := by
    simp [Pi.single_apply]
  have h3 : ∑ k, (Pi.single i 1 : Fin n → ℝ) k * (Pi.single j 1 : Fin n → ℝ) k = 0 := by
    simp [Pi.single_apply, h.symm]
  have e (k : Fin n) : ((Pi.single i 1 - Pi.single j 1 : Fin n → ℝ) k) * ((Pi.single i 1 - Pi.single j 1 : Fin n → ℝ) k) =
      (Pi.single i 1 : Fin n → ℝ) k * (Pi.single i 1 : Fin n → ℝ) k +
      (Pi.single j 1 : Fin n → ℝ) k * (Pi.single j 1 : Fin n → ℝ) k -
      2 * ((Pi.single i 1 : Fin n → ℝ) k * (Pi.single j 1 : Fin n → ℝ) k) := by
    simp only [Pi.sub_apply]; ring
  simp only [e, Finset.sum_sub_distrib, Finset.sum_add_distrib, ← Finset.mul_sum, h1, h2, h3]
  norm_num

/-- `v` is the outward unit normal of a side of the box close to `x` (spec). -/
def IsSideNormal {n : ℕ} (lb ub : Fin n → ℝ) (rtol atol : ℝ) (x v : Fin n → ℝ) : Prop :=
  ∃ i, (v = Pi.single i 1 ∧ Close rtol atol (x i) (ub i)) ∨
    (v = -Pi.single i 1 ∧ Close rtol atol (x i) (lb i))

theorem candidate_cases {n : ℕ} (lb ub : Fin n → ℝ) (rtol atol : ℝ) (x : Fin n → ℝ) :
    ∃ v : Fin n → ℝ, Hypercube.candidate ⟨vfin lb, vfin ub⟩ rtol atol (vfin x) = vfin v ∧
      (vnorm (vfin v) = 1 → IsSideNormal lb ub rtol atol x v ∧
        ((∀ i, ¬ Close rtol atol (x i) (lb i)) ∨ ∀ i, ¬ Close rtol atol (x i) (ub i))) ∧
      ((∃ i, Close rtol atol (x i) (lb i) ∨ Close rtol atol (x i) (ub i)) →
        ((∀ i, ¬ Close rtol atol (x i) (lb i)) ∨ ∀ i, ¬ Close rtol atol (x i) (ub i)) →
        vnorm (vfin v) = 1) := by
  have hn1 (i : Fin n) : vnorm (vfin (Pi.single i 1)) = 1 := by
    rw [vnorm_fin, one_eq, fin_inj]
    simp [Pi.single_apply]
  have hn2 (i : Fin n) : vnorm (vfin (-Pi.single i 1)) = 1 := by
    rw [vnorm_fin, one_eq, fin_inj]
    simp [Pi.single_apply]
  rcases touch_cases rtol atol ub x with ⟨hu, eu⟩ | ⟨i, hu, eu⟩ <;>
    rcases touch_cases rtol atol lb x with ⟨hl, el⟩ | ⟨j, hl, el⟩
  · refine ⟨0, ?_, ?_, ?_⟩
    · funext k; simp [Hypercube.candidate, eu, el]
    · intro h
      rw [vnorm_fin, one_eq, fin_inj] at h
      simp at h
    · rintro ⟨i, h | h⟩
      · exact absurd h (hl i)
      · exact absurd h (hu i)
  · refine ⟨-Pi.single j 1, ?_, fun _ => ⟨⟨j, .inr ⟨rfl, hl.1⟩⟩, .inr hu⟩, fun _ _ => hn2 j⟩
    funext k; simp [Hypercube.candidate, eu, el]
  · refine ⟨Pi.single i 1, ?_, fun _ => ⟨⟨i, .inl ⟨rfl, hu.1⟩⟩, .inl hl⟩, fun _ _ => hn1 i⟩
    funext k; simp [Hypercube.candidate, eu, el]
  · refine ⟨Pi.single i 1 - Pi.single j 1, ?_, fun h => ?_, ?_⟩
    · funext k; simp [Hypercube.candidate, eu, el]
    · exfalso
      rw [vnorm_fin, one_eq, fin_inj, Real.sqrt_eq_one] at h
      by_cases hij : i = j
      · subst hij; simp at h
      · rw [norm_single_diff hij] at h; norm_num at h
    · rintro - (h | h)
      · exact absurd hl.1 (h j)
      · exact absurd hu.1 (h i)

/-- C37 (partial), for boxes `lb < ub` and tolerances `atol > 0`, `rtol ≥ 0`.
(a) For a non-empty batch of samples of the box each of which lies on a lower or an upper side, but does
not touch (within tolerance) lower and upper sides at once, one normal per sample is returned.
(b) Whatever is returned are outward unit normals of sides close to the respective samples.
(c) A single sample that is not close to a side, or not within tolerance of the box, gives `None`.
Missing: samples touching lower and upper sides at once get `None`, and batches containing samples outside
the box are not always rejected (counterexamples below). -/
theorem C37_hypercube_normal_partial {n : ℕ} (lb ub : Fin n → ℝ) (rtol atol : ℝ) (hr : 0 ≤ rtol)
    (ha : 0 < atol) :
    (∀ xs : List (Fin n → ℝ), xs ≠ [] →
      (∀ x ∈ xs, (∀ i, lb i ≤ x i ∧ x i ≤ ub i) ∧ (∃ i, x i = lb i ∨ x i = ub i) ∧
        ((∀ i, ¬ Close rtol atol (x i) (lb i)) ∨ ∀ i, ¬ Close rtol atol (x i) (ub i))) →
      ∃ vs : List (Fin n → ℝ), Hypercube.normalVec ⟨vfin lb, vfin ub⟩ rtol atol (xs.map vfin) =
        some (vs.map vfin) ∧ List.Forall₂ (IsSideNormal lb ub rtol atol) xs vs) ∧
    (∀ (xs : List (Fin n → ℝ)) (ns : List (Vec n)),
      Hypercube.normalVec ⟨vfin lb, vfin ub⟩ rtol atol (xs.map vfin) = some ns →
      ∃ vs : List (Fin n → ℝ), ns = vs.map vfin ∧ List.Forall₂ (IsSideNormal lb ub rtol atol) xs vs) ∧
    (∀ x : Fin n → ℝ,
      (¬ ∃ i, Close rtol atol (x i) (lb i) ∨ Close rtol atol (x i) (ub i)) ∨
      (∃ i, x i ≤ lb i - (atol + rtol * |lb i|) ∨ ub i + (atol + rtol * |ub i|) ≤ x i) →
      Hypercube.normalVec ⟨vfin lb, vfin ub⟩ rtol atol [vfin x] = none) := by
  classical
  choose v hv1 hv2 hv3 using candidate_cases lb ub rtol atol
  have hmap (xs : List (Fin n → ℝ)) :
      (xs.map vfin).map (Hypercube.candidate ⟨vfin lb, vfin ub⟩ rtol atol) = (xs.map v).map vfin := by
    rw [List.map_map, List.map_map]
    exact List.map_congr_left fun x _ => hv1 x
  refine ⟨fun xs hne hxs => ?_, fun xs ns h => ?_, fun x hx => ?_⟩
  · refine ⟨xs.map v, ?_, ?_⟩
    · rw [Hypercube.normalVec, if_neg, hmap, if_pos]
      · intro w hw
        rw [List.map_map, List.mem_map] at hw
        obtain ⟨x, hx, rfl⟩ := hw
        obtain ⟨h1, ⟨i, h2⟩, h3⟩ := hxs x hx
        refine hv3 x ⟨i, ?_⟩ h3
        rcases h2 with h2 | h2
        · left; rw [h2, Close, sub_self, abs_zero]; positivity
        · right; rw [h2, Close, sub_self, abs_zero]; positivity
      · rw [not_not]
        obtain ⟨x, hx⟩ := List.exists_mem_of_ne_nil xs hne
        refine ⟨vfin x, List.mem_map_of_mem hx, fun i => ?_⟩
        have := (hxs x hx).1 i
        have h4 : 0 ≤ rtol * |lb i| := by positivity
        have h5 : 0 ≤ rtol * |ub i| := by positivity
        simp only [vfin_apply, fin_abs, fin_mul, fin_add, fin_sub, fin_lt]
        constructor <;> linarith
    · rw [List.forall₂_map_right_iff, List.forall₂_same]
      intro x hx
      obtain ⟨h1, ⟨i, h2⟩, h3⟩ := hxs x hx
      refine (hv2 x (hv3 x ⟨i, ?_⟩ h3)).1
      rcases h2 with h2 | h2
      · left; rw [h2, Close, sub_self, abs_zero]; positivity
      · right; rw [h2, Close, sub_self, abs_zero]; positivity
  · rw [Hypercube.normalVec] at h
    split at h
    · cases h
    · rw [hmap] at h
      simp only at h
      split at h
      · next hall =>
        refine ⟨xs.map v, (Option.some.inj h).symm, ?_⟩
        rw [List.forall₂_map_right_iff, List.forall₂_same]
        intro x hx
        exact (hv2 x (hall _ (List.mem_map_of_mem (List.mem_map_of_mem hx)))).1
      · cases h
  · rw [Hypercube.normalVec]
    split
    · rfl
    · next hin =>
      rw [not_not] at hin
      obtain ⟨y, hy, hin⟩ := hin
      rw [List.mem_singleton] at hy
      subst hy
      have hm := hmap [x]
      simp only [List.map_cons, List.map_nil] at hm ⊢
      rw [hm]
      rw [if_neg]
      intro hall
      obtain ⟨⟨i, h1⟩, -⟩ := hv2 x (hall _ (by simp))
      rcases hx with hx | ⟨j, hx⟩
      · apply hx
        rcases h1 with ⟨-, h1⟩ | ⟨-, h1⟩
        · exact ⟨i, .inr h1⟩
        · exact ⟨i, .inl h1⟩
      · have := hin j
        simp only [vfin_apply, fin_abs, fin_mul, fin_add, fin_sub, fin_lt] at this
        rcases hx with hx | hx <;> linarith

/-- Non-vacuity: a sample in the middle of the lower side of the unit square with the default
tolerances. -/
example : let x : Fin 2 → ℝ := ![0, 1 / 2]
    (∀ i, (![0, 0] : Fin 2 → ℝ) i ≤ x i ∧ x i ≤ (![1, 1] : Fin 2 → ℝ) i) ∧
    (∃ i, x i = (![0, 0] : Fin 2 → ℝ) i ∨ x i = (![1, 1] : Fin 2 → ℝ) i) ∧
    ∀ i, ¬ Close (1 / 10 ^ 5) (1 / 10 ^ 8) (x i) ((![1, 1] : Fin 2 → ℝ) i) := by
  refine ⟨fun i => by fin_cases i <;> norm_num, ⟨0, by simp⟩, fun i => ?_⟩
  fin_cases i <;> norm_num [Close, abs_of_neg]

/-- C37 is false at mixed corners: at the corner `(0, 1)` of the unit square the result is `None`. -/
theorem C37_mixed_corner_counterexample (rtol atol : ℝ) (hr : 0 ≤ rtol) (ha : 0 ≤ atol) :
    Hypercube.normalVec ⟨vfin ![0, 0], vfin ![1, 1]⟩ rtol atol [vfin ![0, 1]] = none := by
  obtain ⟨v, h1, h2, -⟩ := candidate_cases ![0, 0] ![1, 1] rtol atol ![0, 1]
  rw [Hypercube.normalVec]
  split
  · rfl
  · rw [if_neg]
    intro h
    rcases (h2 (h _ (by simp [h1]))).2 with h3 | h3
    · exact h3 0 (by simp [Close, ha])
    · exact h3 1 (by simp [Close]; positivity)

example : Hypercube.normalVec ⟨vfin ![0, 0], vfin ![1, 1]⟩ 1e-5 1e-8 [vfin ![0, 1]] = none :=
  C37_mixed_corner_counterexample 1e-5 1e-8 (by norm_num) (by norm_num)

/-- C37 is false for batches: `(0, 7)` is far outside the unit square, yet the batch with `(0, 1/2)` is
accepted, both samples getting the normal `(-1, 0)`. -/
theorem C37_batch_counterexample :
    Hypercube.normalVec ⟨vfin ![0, 0], vfin ![1, 1]⟩ (1 / 10 ^ 5) (1 / 10 ^ 8)
      [vfin ![0, 1 / 2], vfin ![0, 7]] = some [vfin (-Pi.single 0 1), vfin (-Pi.single 0 1)] := by
  have key (r a t : ℝ) (h0 : ¬ Close r a t 0) (h1 : ¬ Close r a t 1) (a0 : Close r a 0 0)
      (a1 : ¬ Close r a 0 1) :
      Hypercube.candidate ⟨vfin ![0, 0], vfin ![1, 1]⟩ r a (vfin ![0, t]) =
        vfin (-Pi.single 0 1) := by
    funext i
    rw [Hypercube.candidate, touch_fin, touch_fin]
    fin_cases i
    · simp [FirstTouch, a0, a1]
    · simp [FirstTouch, h0, h1]
  have a0 : Close (1 / 10 ^ 5) (1 / 10 ^ 8) 0 0 := by simp [Close]
  have a1 : ¬ Close (1 / 10 ^ 5) (1 / 10 ^ 8) 0 1 := by norm_num [Close]
  have b1 := key _ _ (1 / 2) (by norm_num [Close, abs_of_pos]) (by norm_num [Close, abs_of_neg]) a0 a1
  have b2 := key _ _ 7 (by norm_num [Close, abs_of_pos]) (by norm_num [Close, abs_of_pos]) a0 a1
  have hn : vnorm (vfin (-Pi.single 0 1 : Fin 2 → ℝ)) = 1 := by
    rw [vnorm_fin, one_eq, fin_inj]; simp [Pi.single_apply]
  rw [Hypercube.normalVec, if_neg]
  · simp only [List.map_cons, List.map_nil, b1, b2]
    rw [if_pos]
    intro v hv
    simp only [List.map_cons, List.map_nil, b1, b2, List.mem_cons, List.not_mem_nil, or_false,
      or_self] at hv
    rw [hv, hn]
  · rw [not_not]
    refine ⟨vfin ![0, 1 / 2], by simp, fun i => ?_⟩
    fin_cases i <;> simp [vfin] <;> norm_num

end Verif
