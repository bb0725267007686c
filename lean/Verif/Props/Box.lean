import Verif.Lemmas.Domain
import Mathlib.Algebra.Order.BigOperators.Group.Finset

/-! # Properties C31, C32, C33, C37: the box -/

namespace Verif

open XR

/-! ## C31 -/

theorem transformHypercube_unit {n : ℕ} (lb ub u : Fin n → ℝ) (hu : ∀ i, u i ≤ 1) :
    transformHypercube (vfin u) (vfin lb) (vfin ub) = vfin fun i => lb i + u i * (ub i - lb i) := by
  funext i
  simp only [transformHypercube, vfin_apply, one_eq, fin_lt, not_lt.mpr (hu i), if_false, fin_sub, fin_mul,
    fin_add, fin_inj]
  ring

/-- C31 (partial). Samples with non-negative coordinates land in the box; on `[0,1]ⁿ` the map is the
affine bijection onto the box (for non-degenerate edges). Missing: negative coordinates, for which the
statement is false (next theorem). -/
theorem C31_hypercube_transform_partial {n : ℕ} (lb ub : Fin n → ℝ) (h : ∀ i, lb i ≤ ub i) :
    (∀ u : Fin n → ℝ, (∀ i, 0 ≤ u i) → ∃ p : Fin n → ℝ,
      Hypercube.transform ⟨vfin lb, vfin ub⟩ (vfin u) = vfin p ∧ ∀ i, lb i ≤ p i ∧ p i ≤ ub i) ∧
    (∀ u : Fin n → ℝ, (∀ i, 0 ≤ u i ∧ u i ≤ 1) →
      Hypercube.transform ⟨vfin lb, vfin ub⟩ (vfin u) = vfin fun i => (1 - u i) * lb i + u i * ub i) ∧
    ((∀ i, lb i < ub i) → ∀ p : Fin n → ℝ, (∀ i, lb i ≤ p i ∧ p i ≤ ub i) →
      ∃! u : Fin n → ℝ, (∀ i, 0 ≤ u i ∧ u i ≤ 1) ∧
        Hypercube.transform ⟨vfin lb, vfin ub⟩ (vfin u) = vfin p) := by
  refine ⟨fun u hu => ?_, fun u hu => ?_, fun hlt p hp => ?_⟩
  · refine ⟨fun i => (if 1 < u i then Int.fract (u i) else u i) * (ub i - lb i) + lb i, ?_, fun i => ?_⟩
    · funext i
      simp only [Hypercube.transform, transformHypercube, vfin_apply, one_eq, fin_lt, fin_mod1, fin_sub]
      split <;> simp
    · have h1 : 0 ≤ (if 1 < u i then Int.fract (u i) else u i) := by
        split
        · exact Int.fract_nonneg _
        · exact hu i
      have h2 : (if 1 < u i then Int.fract (u i) else u i) ≤ 1 := by
        split
        · exact (Int.fract_lt_one _).le
        · linarith
      have := h i
      constructor <;> nlinarith
  · rw [Hypercube.transform, transformHypercube_unit lb ub u fun i => (hu i).2]
    congr 1
    funext i
    ring
  · refine ⟨fun i => (p i - lb i) / (ub i - lb i), ⟨fun i => ?_, ?_⟩, fun v hv => ?_⟩
    · have h1 : 0 < ub i - lb i := sub_pos.mpr (hlt i)
      have := hp i
      exact ⟨div_nonneg (by linarith) h1.le, (div_le_one h1).mpr (by linarith)⟩
    · rw [Hypercube.transform, transformHypercube_unit]
      · congr 1
        funext i
        have h1 : ub i - lb i ≠ 0 := (sub_pos.mpr (hlt i)).ne'
        field_simp
        ring
      · intro i
        have h1 : 0 < ub i - lb i := sub_pos.mpr (hlt i)
        exact (div_le_one h1).mpr (by linarith [(hp i).2])
    · obtain ⟨h1, h2⟩ := hv
      rw [Hypercube.transform, transformHypercube_unit lb ub v fun i => (h1 i).2] at h2
      funext i
      have h3 := congrFun h2 i
      simp only [vfin_apply, fin_inj] at h3
      have h4 : ub i - lb i ≠ 0 := (sub_pos.mpr (hlt i)).ne'
      field_simp
      linarith

/-- Non-vacuity: a proper box. -/
example : ∀ i, (![0, -1] : Fin 2 → ℝ) i < (![1, 5] : Fin 2 → ℝ) i := by
  intro i; fin_cases i <;> norm_num

/-- C31 is false for negative samples: with a negative coordinate and a non-degenerate edge the result
leaves the box. -/
theorem C31_negative_sample_counterexample {n : ℕ} (lb ub u : Fin n → ℝ) (i : Fin n) (h : lb i < ub i)
    (hu : u i < 0) :
    ∃ c : ℝ, Hypercube.transform ⟨vfin lb, vfin ub⟩ (vfin u) i = fin c ∧ c < lb i := by
  refine ⟨u i * (ub i - lb i) + lb i, ?_, by nlinarith⟩
  simp only [Hypercube.transform, transformHypercube, vfin_apply, one_eq, fin_lt, fin_sub,
    not_lt.mpr (hu.le.trans zero_le_one), if_false, fin_mul, fin_add]

/-- The sample `(-1/2, 1/2)` leaves the box `[0, 1] × [-1, 5]`. -/
example : ∃ c : ℝ, Hypercube.transform ⟨vfin ![0, -1], vfin ![1, 5]⟩ (vfin ![-1 / 2, 1 / 2]) 0 = fin c ∧ c < 0 :=
  C31_negative_sample_counterexample ![0, -1] ![1, 5] ![-1 / 2, 1 / 2] 0 (by norm_num) (by norm_num)

/-! ## C32, C33 -/

/-- Area of the two faces orthogonal to coordinate `i` (spec). -/
noncomputable def faceArea {n : ℕ} (lb ub : Fin n → ℝ) (i : Fin n) : ℝ :=
  ∏ j ∈ Finset.univ.erase i, (ub j - lb j)

/-- The faces are numbered `0, .., 2n-1`: first the `n` lower, then the `n` upper ones; this is the
coordinate direction of face `k`. -/
def faceDir (m k : ℕ) : Fin (m + 2) := ⟨k % (m + 2), Nat.mod_lt _ (by omega)⟩

/-- Position of face `k`: lower or upper bound (spec). -/
def facePos {m : ℕ} (lb ub : Fin (m + 2) → ℝ) (k : ℕ) : ℝ :=
  if k < m + 2 then lb (faceDir m k) else ub (faceDir m k)

/-- Share of the surface taken by the faces before face `k` (spec). -/
noncomputable def faceStart {m : ℕ} (lb ub : Fin (m + 2) → ℝ) (k : ℕ) : ℝ :=
  (∑ j ∈ Finset.range k, faceArea lb ub (faceDir m j)) / (2 * ∑ i, faceArea lb ub i)

section

variable {m : ℕ} {lb ub : Fin (m + 2) → ℝ} (h : ∀ i, lb i < ub i)
include h

theorem faceArea_pos (i : Fin (m + 2)) : 0 < faceArea lb ub i :=
  Finset.prod_pos fun j _ => sub_pos.mpr (h j)

theorem surface_pos : 0 < 2 * ∑ i, faceArea lb ub i := by
  have : 0 < ∑ i, faceArea lb ub i := Finset.sum_pos (fun i _ => faceArea_pos h i) Finset.univ_nonempty
  linarith

omit h in
theorem sum_faces (f : Fin (m + 2) → ℝ) :
    ∑ j ∈ Finset.range (2 * m + 3 + 1), f (faceDir m j) = 2 * ∑ i, f i := by
  have h1 : ∑ j ∈ Finset.range (m + 2), f (faceDir m j) = ∑ i, f i := by
    rw [Finset.sum_range]
    refine Finset.sum_congr rfl fun i _ => congrArg f (Fin.ext ?_)
    simp [faceDir, Nat.mod_eq_of_lt i.2]
  have h2 : ∑ j ∈ Finset.range (m + 2), f (faceDir m (m + 2 + j)) = ∑ i, f i := by
    rw [← h1]
    refine Finset.sum_congr rfl fun i _ => congrArg f (Fin.ext ?_)
    simp [faceDir]
  rw [show 2 * m + 3 + 1 = (m + 2) + (m + 2) by ring, Finset.sum_range_add, h1, h2, two_mul]

theorem face_fin (i : Fin (m + 2)) : hyperBnd.face (vfin lb) (vfin ub) i = fin (faceArea lb ub i) := by
  have e (j : Fin (m + 2)) : abs (vfin ub j - vfin lb j) = fin (ub j - lb j) := by
    simp [abs_of_pos (sub_pos.mpr (h j))]
  simp only [hyperBnd.face, e, one_eq]
  rw [foldl_mul_fin, one_mul, fin_inj, faceArea, ← List.prod_toFinset _ ((List.nodup_finRange _).filter _)]
  congr 1
  ext j
  simp

theorem total_fin : hyperBnd.total (vfin lb) (vfin ub) = fin (2 * ∑ i, faceArea lb ub i) := by
  simp only [hyperBnd.total, hyperBnd.supports, face_fin h, fin_sum, fin_inj]
  rw [← sum_faces, Finset.sum_range]
  rfl

theorem cum_fin (k : Fin (2 * m + 3 + 1)) :
    hyperBnd.cum (vfin lb) (vfin ub) k = fin (faceStart lb ub (k + 1)) := by
  simp only [hyperBnd.cum, hyperBnd.supports, face_fin h, fin_sum, total_fin h]
  rw [fin_div _ (surface_pos h).ne', fin_inj, faceStart,
    ← sum_filter_le_fin (fun j : Fin (2 * m + 3 + 1) => faceArea lb ub (faceDir m j)) _ (fun j => rfl)]
  rfl

omit h in
theorem faceStart_zero : faceStart lb ub 0 = 0 := by simp [faceStart]

theorem faceStart_last : faceStart lb ub (2 * m + 3 + 1) = 1 := by
  rw [faceStart, sum_faces, div_self (surface_pos h).ne']

omit h in
theorem faceStart_succ (k : ℕ) : faceStart lb ub (k + 1) - faceStart lb ub k =
    faceArea lb ub (faceDir m k) / (2 * ∑ i, faceArea lb ub i) := by
  rw [faceStart, faceStart, Finset.sum_range_succ, add_div]; ring

theorem faceStart_lt (k : ℕ) : faceStart lb ub k < faceStart lb ub (k + 1) := by
  have := faceStart_succ (lb := lb) (ub := ub) k
  have h2 := div_pos (faceArea_pos h (faceDir m k)) (surface_pos h)
  linarith

theorem faceStart_mono : Monotone (faceStart lb ub) := monotone_nat_of_le_succ fun k => (faceStart_lt h k).le

theorem exists_face {t : ℝ} (h0 : 0 ≤ t) (h1 : t < 1) :
    ∃ k < 2 * m + 3 + 1, faceStart lb ub k ≤ t ∧ t < faceStart lb ub (k + 1) := by
  have hex : ∃ k, t < faceStart lb ub k := ⟨2 * m + 3 + 1, by rwa [faceStart_last h]⟩
  classical
  have hspec := Nat.find_spec hex
  have hmin := fun j => Nat.find_min hex (m := j)
  set N := Nat.find hex
  have hN0 : N ≠ 0 := by
    intro h2
    rw [h2, faceStart_zero] at hspec
    linarith
  obtain ⟨k, hk⟩ := Nat.exists_eq_succ_of_ne_zero hN0
  refine ⟨k, ?_, ?_, by rw [hk] at hspec; exact hspec⟩
  · by_contra h2
    have := hmin (2 * m + 3 + 1) (by omega)
    rw [faceStart_last h] at this
    exact this h1
  · exact not_lt.mp (hmin k (by omega))

/-- The sample as stretched by the code on face `k`. -/
noncomputable def stretched (lb ub : Fin (m + 2) → ℝ) (k : ℕ) (x : Fin (m + 1) → ℝ) : Fin (m + 1) → ℝ :=
  fun j => if j = 0 then
    (Int.fract (x 0) - faceStart lb ub k) / (faceStart lb ub (k + 1) - faceStart lb ub k)
  else Int.fract (x j)

theorem insert_fin (x : Fin (m + 1) → ℝ) {k : ℕ} (hk : k < 2 * m + 3 + 1)
    (h1 : faceStart lb ub k ≤ Int.fract (x 0)) (h2 : Int.fract (x 0) < faceStart lb ub (k + 1)) :
    hyperBnd.insert (vfin lb) (vfin ub) (fun i => mod1 (fin (x i))) =
      vfin (Fin.insertNth (α := fun _ => ℝ) (faceDir m k) (if k < m + 2 then 0 else 1)
        (stretched lb ub k x)) := by
  have hidx : (argmaxBool fun k => (fun i => mod1 (fin (x i))) 0 < hyperBnd.cum (vfin lb) (vfin ub) k) =
      ⟨k, hk⟩ := by
    apply argmaxBool_eq
    · beta_reduce
      rw [cum_fin h, fin_mod1, fin_lt]; exact h2
    · intro j hj
      beta_reduce
      rw [cum_fin h, fin_mod1, fin_lt, not_lt]
      exact (faceStart_mono h (show j.1 + 1 ≤ k from hj)).trans h1
  have hl : faceStart lb ub (k + 1) - faceStart lb ub k ≠ 0 := (sub_pos.mpr (faceStart_lt h k)).ne'
  have hdiv : hyperBnd.supports (vfin lb) (vfin ub) ⟨k, hk⟩ / hyperBnd.total (vfin lb) (vfin ub) =
      fin (faceStart lb ub (k + 1) - faceStart lb ub k) := by
    rw [hyperBnd.supports, face_fin h, total_fin h, fin_div _ (surface_pos h).ne', faceStart_succ]
    rfl
  have hx0 : (if (⟨k, hk⟩ : Fin (2 * m + 3 + 1)) = 0 then
      mod1 (fin (x 0)) / fin (faceStart lb ub (k + 1) - faceStart lb ub k)
      else (mod1 (fin (x 0)) - hyperBnd.cum (vfin lb) (vfin ub) (⟨k, hk⟩ - 1)) /
        fin (faceStart lb ub (k + 1) - faceStart lb ub k)) = fin (stretched lb ub k x 0) := by
    split
    · next h3 =>
      have : k = 0 := by simpa using congrArg Fin.val h3
      subst this
      rw [fin_mod1, fin_div _ hl]
      simp [stretched, faceStart_zero]
    · next h3 =>
      have hk0 : k ≠ 0 := fun h4 => h3 (Fin.ext h4)
      have h5 : ((⟨k, hk⟩ - 1 : Fin (2 * m + 3 + 1))).1 + 1 = k := by
        rw [Fin.val_sub_one_of_ne_zero h3]
        show k - 1 + 1 = k
        omega
      rw [cum_fin h, h5, fin_mod1, fin_sub, fin_div _ hl]
      simp [stretched]
  unfold hyperBnd.insert
  simp only [hidx, hdiv, hx0]
  funext i
  refine Fin.succAboveCases (faceDir m k) ?_ (fun j => ?_) i
  · have e : (⟨k % (m + 2), Nat.mod_lt _ (by omega)⟩ : Fin (m + 2)) = faceDir m k := rfl
    rw [e, Fin.insertNth_apply_same, vfin_apply, Fin.insertNth_apply_same, hyperBnd.val]
    split <;> simp
  · have e : (⟨k % (m + 2), Nat.mod_lt _ (by omega)⟩ : Fin (m + 2)) = faceDir m k := rfl
    rw [e, Fin.insertNth_apply_succAbove, vfin_apply, Fin.insertNth_apply_succAbove]
    rcases eq_or_ne j 0 with rfl | hj
    · simp
    · rw [Function.update_of_ne hj, fin_mod1, stretched, if_neg hj]

theorem stretched_mem (x : Fin (m + 1) → ℝ) {k : ℕ}
    (h1 : faceStart lb ub k ≤ Int.fract (x 0)) (h2 : Int.fract (x 0) < faceStart lb ub (k + 1))
    (j : Fin (m + 1)) : 0 ≤ stretched lb ub k x j ∧ stretched lb ub k x j < 1 := by
  have hl : 0 < faceStart lb ub (k + 1) - faceStart lb ub k := sub_pos.mpr (faceStart_lt h k)
  unfold stretched
  split
  · exact ⟨div_nonneg (by linarith) hl.le, (div_lt_one hl).mpr (by linarith)⟩
  · exact ⟨Int.fract_nonneg _, Int.fract_lt_one _⟩

/-- The point of the box reached from a sample whose first coordinate belongs to face `k`. -/
theorem transformBnd_fin (x : Fin (m + 1) → ℝ) {k : ℕ} (hk : k < 2 * m + 3 + 1)
    (h1 : faceStart lb ub k ≤ Int.fract (x 0)) (h2 : Int.fract (x 0) < faceStart lb ub (k + 1)) :
    Hypercube.transformBnd ⟨vfin lb, vfin ub⟩ (List.ofFn fun j => fin (x j)) =
      .ok (vfin (Fin.insertNth (α := fun _ => ℝ) (faceDir m k) (facePos lb ub k) fun j =>
        lb ((faceDir m k).succAbove j) + stretched lb ub k x j *
          (ub ((faceDir m k).succAbove j) - lb ((faceDir m k).succAbove j)))) := by
  unfold Hypercube.transformBnd
  simp only [transformHypercubeBnd, List.length_ofFn, dite_true, List.getElem_ofFn]
  have := insert_fin h x hk h1 h2
  simp only [Fin.eta] at this ⊢
  rw [this, transformHypercube_unit]
  · congr 2
    funext i
    refine Fin.succAboveCases (faceDir m k) ?_ (fun j => ?_) i
    · simp only [Fin.insertNth_apply_same, facePos]
      split <;> ring
    · simp only [Fin.insertNth_apply_succAbove]
  · intro i
    refine Fin.succAboveCases (faceDir m k) ?_ (fun j => ?_) i
    · simp only [Fin.insertNth_apply_same]
      split <;> simp
    · simp only [Fin.insertNth_apply_succAbove]
      exact (stretched_mem h x h1 h2 j).2.le

end

/-- C32. For every box with positive edges (any dimension `n ≥ 1`) and every finite sample with `n - 1`
coordinates (one for `n = 1`), `transform_bnd` returns a point of the box on its boundary. A sample of
another size is rejected (for `n ≥ 2`). -/
theorem C32_transform_bnd_on_boundary {n : ℕ} (hn : 0 < n) (lb ub : Fin n → ℝ) (h : ∀ i, lb i < ub i)
    (x : List ℝ) :
    (x.length = max 1 (n - 1) → ∃ p : Fin n → ℝ,
      Hypercube.transformBnd ⟨vfin lb, vfin ub⟩ (x.map fin) = .ok (vfin p) ∧
      (∀ i, lb i ≤ p i ∧ p i ≤ ub i) ∧ ∃ i, p i = lb i ∨ p i = ub i) ∧
    (2 ≤ n → x.length ≠ n - 1 →
      Hypercube.transformBnd ⟨vfin lb, vfin ub⟩ (x.map fin) = .error .assertion) := by
  match n, hn with
  | 1, _ =>
    refine ⟨fun hx => ?_, fun h2 => by omega⟩
    obtain ⟨s, rfl⟩ := List.length_eq_one_iff.mp (hx.trans (by simp))
    by_cases hs : 1 / 2 < Int.fract s
    · refine ⟨ub, ?_, fun i => ⟨(h i).le, le_rfl⟩, 0, .inr rfl⟩
      simp only [Hypercube.transformBnd, transformHypercubeBnd, List.map_cons, List.map_nil, fin_mod1,
        fin_lt, hs, if_true]
      have e : (fun _ => 1 : Vec 1) = vfin fun _ => 1 := funext fun _ => one_eq
      rw [e, transformHypercube_unit lb ub (fun _ => 1) (fun _ => le_rfl)]
      congr 2; funext i; simp
    · refine ⟨lb, ?_, fun i => ⟨le_rfl, (h i).le⟩, 0, .inl rfl⟩
      simp only [Hypercube.transformBnd, transformHypercubeBnd, List.map_cons, List.map_nil, fin_mod1,
        fin_lt, hs, if_false]
      have e : (fun _ => 0 : Vec 1) = vfin fun _ => 0 := funext fun _ => zero_eq
      rw [e, transformHypercube_unit lb ub (fun _ => 0) (fun _ => zero_le_one)]
      congr 2; funext i; simp
  | m + 2, _ =>
    refine ⟨fun hx => ?_, fun _ hx => ?_⟩
    · have hlen : x.length = m + 1 := by rw [hx]; omega
      obtain ⟨y, rfl⟩ : ∃ y : Fin (m + 1) → ℝ, x = List.ofFn y := by
        exact ⟨fun i => x[i.1]'(by rw [hlen]; exact i.2), by
          apply List.ext_getElem
          · simp [hlen]
          · intro i h1 h2; rw [List.getElem_ofFn]⟩
      obtain ⟨k, hk, h1, h2⟩ := exists_face h (Int.fract_nonneg (y 0)) (Int.fract_lt_one (y 0))
      refine ⟨Fin.insertNth (α := fun _ => ℝ) (faceDir m k) (facePos lb ub k) fun j =>
        lb ((faceDir m k).succAbove j) + stretched lb ub k y j *
          (ub ((faceDir m k).succAbove j) - lb ((faceDir m k).succAbove j)), ?_, ?_, faceDir m k, ?_⟩
      · rw [List.map_ofFn]
        exact transformBnd_fin h y hk h1 h2
      · intro i
        refine Fin.succAboveCases (faceDir m k) ?_ (fun j => ?_) i
        · rw [Fin.insertNth_apply_same, facePos]
          split
          · exact ⟨le_rfl, (h _).le⟩
          · exact ⟨(h _).le, le_rfl⟩
        · rw [Fin.insertNth_apply_succAbove]
          have h3 := stretched_mem h y h1 h2 j
          have h4 := h ((faceDir m k).succAbove j)
          constructor <;> nlinarith
      · rw [Fin.insertNth_apply_same, facePos]
        split
        · exact .inl rfl
        · exact .inr rfl
    · simp only [Hypercube.transformBnd, transformHypercubeBnd, List.length_map]
      rw [dif_neg (by simpa using hx)]

/-- Every sample with two coordinates is sent to the boundary of the box `[0, 1] × [-1, 5] × [2, 3]`, a sample with three
is rejected. -/
example (s t u : ℝ) : (∃ p : Fin 3 → ℝ,
      Hypercube.transformBnd ⟨vfin ![0, -1, 2], vfin ![1, 5, 3]⟩ [fin s, fin t] = .ok (vfin p) ∧
      ∃ i, p i = (![0, -1, 2] : Fin 3 → ℝ) i ∨ p i = (![1, 5, 3] : Fin 3 → ℝ) i) ∧
    Hypercube.transformBnd ⟨vfin ![0, -1, 2], vfin ![1, 5, 3]⟩ [fin s, fin t, fin u] = .error .assertion := by
  have hb : ∀ i, (![0, -1, 2] : Fin 3 → ℝ) i < (![1, 5, 3] : Fin 3 → ℝ) i := by
    intro i; fin_cases i <;> norm_num
  obtain ⟨p, h1, -, h2⟩ := (C32_transform_bnd_on_boundary (by norm_num) _ _ hb [s, t]).1 rfl
  exact ⟨⟨p, h1, h2⟩, (C32_transform_bnd_on_boundary (by norm_num) _ _ hb [s, t, u]).2 (by norm_num) (by norm_num)⟩

/-- C33. The faces occupy consecutive intervals of the first sample coordinate that fill `[0,1)`; the
interval of face `k` has the length of its share of the surface area; a sample in it is sent to the point
of face `k` whose first free coordinate is the position within the interval stretched to `[0,1)` and whose
other free coordinates are those of the sample; every point of the half-open face is attained. -/
theorem C33_transform_bnd_uniform_faces {m : ℕ} (lb ub : Fin (m + 2) → ℝ) (h : ∀ i, lb i < ub i) :
    faceStart lb ub 0 = 0 ∧ faceStart lb ub (2 * (m + 2)) = 1 ∧
    ∀ k < 2 * (m + 2),
      faceStart lb ub (k + 1) - faceStart lb ub k =
        faceArea lb ub (faceDir m k) / (2 * ∑ i, faceArea lb ub i) ∧
      (∀ (s : ℝ) (x : Fin (m + 1) → ℝ), 0 ≤ s → s < 1 →
        x 0 = faceStart lb ub k + s * (faceStart lb ub (k + 1) - faceStart lb ub k) →
        (∀ j, 0 ≤ x j ∧ x j < 1) →
        ∃ p : Fin (m + 2) → ℝ,
          Hypercube.transformBnd ⟨vfin lb, vfin ub⟩ (List.ofFn fun j => fin (x j)) = .ok (vfin p) ∧
          p (faceDir m k) = facePos lb ub k ∧
          ∀ j, p ((faceDir m k).succAbove j) = lb ((faceDir m k).succAbove j) +
            (if j = 0 then s else x j) * (ub ((faceDir m k).succAbove j) - lb ((faceDir m k).succAbove j))) ∧
      (∀ p : Fin (m + 2) → ℝ, p (faceDir m k) = facePos lb ub k →
        (∀ i, i ≠ faceDir m k → lb i ≤ p i ∧ p i < ub i) →
        ∃ x : Fin (m + 1) → ℝ, (∀ j, 0 ≤ x j ∧ x j < 1) ∧
          Hypercube.transformBnd ⟨vfin lb, vfin ub⟩ (List.ofFn fun j => fin (x j)) = .ok (vfin p)) := by
  refine ⟨faceStart_zero, faceStart_last h, fun k hk => ?_⟩
  have hk' : k < 2 * m + 3 + 1 := by omega
  have hl : 0 < faceStart lb ub (k + 1) - faceStart lb ub k := sub_pos.mpr (faceStart_lt h k)
  have main : ∀ (s : ℝ) (x : Fin (m + 1) → ℝ), 0 ≤ s → s < 1 →
        x 0 = faceStart lb ub k + s * (faceStart lb ub (k + 1) - faceStart lb ub k) →
        (∀ j, 0 ≤ x j ∧ x j < 1) →
        ∃ p : Fin (m + 2) → ℝ,
          Hypercube.transformBnd ⟨vfin lb, vfin ub⟩ (List.ofFn fun j => fin (x j)) = .ok (vfin p) ∧
          p (faceDir m k) = facePos lb ub k ∧
          ∀ j, p ((faceDir m k).succAbove j) = lb ((faceDir m k).succAbove j) +
            (if j = 0 then s else x j) *
              (ub ((faceDir m k).succAbove j) - lb ((faceDir m k).succAbove j)) := by
    intro s x hs0 hs1 hx hx01
    have hfr (j : Fin (m + 1)) : Int.fract (x j) = x j := Int.fract_eq_self.mpr (hx01 j)
    have h1 : faceStart lb ub k ≤ Int.fract (x 0) := by rw [hfr, hx]; nlinarith
    have h2 : Int.fract (x 0) < faceStart lb ub (k + 1) := by rw [hfr, hx]; nlinarith
    refine ⟨_, transformBnd_fin h x hk' h1 h2, ?_, fun j => ?_⟩
    · rw [Fin.insertNth_apply_same]
    · rw [Fin.insertNth_apply_succAbove, stretched]
      split
      · rw [hfr, hx]
        have := hl.ne'
        congr 2
        field_simp
        ring
      · rw [hfr]
  refine ⟨faceStart_succ k, main, fun p hp hmem => ?_⟩
  set i := faceDir m k with hi
  set v : Fin (m + 1) → ℝ := fun j => (p (i.succAbove j) - lb (i.succAbove j)) /
    (ub (i.succAbove j) - lb (i.succAbove j)) with hv
  have hw (j : Fin (m + 1)) : 0 < ub (i.succAbove j) - lb (i.succAbove j) := sub_pos.mpr (h _)
  have hv01 (j : Fin (m + 1)) : 0 ≤ v j ∧ v j < 1 := by
    have := hmem (i.succAbove j) (Fin.succAbove_ne i j)
    exact ⟨div_nonneg (by linarith) (hw j).le, (div_lt_one (hw j)).mpr (by linarith)⟩
  set x : Fin (m + 1) → ℝ := Function.update v 0
    (faceStart lb ub k + v 0 * (faceStart lb ub (k + 1) - faceStart lb ub k)) with hx
  have hx0 : x 0 = faceStart lb ub k + v 0 * (faceStart lb ub (k + 1) - faceStart lb ub k) := by simp [hx]
  have hb0 : 0 ≤ faceStart lb ub k := by
    rw [← faceStart_zero (lb := lb) (ub := ub)]; exact faceStart_mono h (Nat.zero_le k)
  have hb1 : faceStart lb ub (k + 1) ≤ 1 := by
    rw [← faceStart_last h]; exact faceStart_mono h (by omega)
  have hx01 : ∀ j, 0 ≤ x j ∧ x j < 1 := by
    intro j
    rcases eq_or_ne j 0 with rfl | hj
    · rw [hx0]
      have := hv01 0
      constructor <;> nlinarith
    · rw [hx, Function.update_of_ne hj]; exact hv01 j
  refine ⟨x, hx01, ?_⟩
  obtain ⟨q, h1, h2, h3⟩ := main (v 0) x (hv01 0).1 (hv01 0).2 hx0 hx01
  rw [h1]
  congr 2
  funext j'
  refine Fin.succAboveCases i ?_ (fun j => ?_) j'
  · rw [h2, hp]
  · rw [h3]
    have e : (if j = 0 then v 0 else x j) = v j := by
      split
      · next hj => rw [hj]
      · next hj => rw [hx, Function.update_of_ne hj]
    rw [e, hv]
    have := (hw j).ne'
    field_simp
    ring

/-- Non-vacuity: the unit cube has positive edges. -/
example : ∀ i, (![0, 0, 0] : Fin 3 → ℝ) i < (![1, 1, 1] : Fin 3 → ℝ) i := by
  intro i; fin_cases i <;> norm_num

end Verif
