import Verif.Props.Round
import Verif.Lemmas.Domain
import Mathlib.MeasureTheory.Measure.Lebesgue.EqHaar
import Mathlib.LinearAlgebra.Matrix.ToLin

/-! # Properties C39–C42: triangle, polyline, parallelogram -/

namespace Verif

open XR

/-- Convex combinations of three points (spec). -/
def InTriangle {d : ℕ} (a b c p : Fin d → ℝ) : Prop :=
  ∃ α β γ : ℝ, 0 ≤ α ∧ 0 ≤ β ∧ 0 ≤ γ ∧ α + β + γ = 1 ∧ ∀ i, p i = α * a i + β * b i + γ * c i

open Classical in
/-- The folded sample in real numbers. -/
theorem fold_fin (x : Fin 2 → ℝ) : ∃ w : Fin 2 → ℝ, transformTriangle.fold (vfin x) = vfin w ∧
    0 ≤ w 0 ∧ 0 ≤ w 1 ∧ w 0 + w 1 ≤ 1 := by
  have f0 := Int.fract_nonneg (x 0)
  have f1 := Int.fract_nonneg (x 1)
  have g0 := Int.fract_lt_one (x 0)
  have g1 := Int.fract_lt_one (x 1)
  by_cases h : 1 < |Int.fract (x 0)| + |Int.fract (x 1)|
  · refine ⟨fun i => 1 - Int.fract (x i), ?_, by linarith, by linarith, ?_⟩
    · rw [transformTriangle.fold, if_pos (by simpa using h)]
      funext i; simp
    · rw [abs_of_nonneg f0, abs_of_nonneg f1] at h; simp only; linarith
  · refine ⟨fun i => Int.fract (x i), ?_, f0, f1, ?_⟩
    · rw [transformTriangle.fold, if_neg (by simpa using h)]
      funext i; simp
    · rw [abs_of_nonneg f0, abs_of_nonneg f1] at h; simp only; linarith

theorem triangle_fin (x a b c : Fin 2 → ℝ) : ∃ w : Fin 2 → ℝ,
    (0 ≤ w 0 ∧ 0 ≤ w 1 ∧ w 0 + w 1 ≤ 1) ∧ transformTriangle.fold (vfin x) = vfin w ∧
    transformTriangle (vfin x) (vfin a) (vfin b) (vfin c) =
      .ok [fin (a 0 + w 0 * (b 0 - a 0) + w 0 * (c 0 - a 0)),
        fin (a 1 + w 1 * (b 1 - a 1) + w 1 * (c 1 - a 1))] := by
  obtain ⟨w, hw, h⟩ := fold_fin x
  refine ⟨w, h, hw, ?_⟩
  rw [transformTriangle, hw, dif_pos rfl]
  simp [List.finRange_succ]

/-- C39 (partial): triangles in the plane with a right angle at `a` and legs parallel to the coordinate axes
(in either order): every finite sample is sent to a convex combination of the corners.
Missing: all other triangles; see the counterexamples. -/
theorem C39_triangle_partial (a b c : Fin 2 → ℝ)
    (h : b 1 = a 1 ∧ c 0 = a 0 ∨ b 0 = a 0 ∧ c 1 = a 1) (x : Fin 2 → ℝ) :
    ∃ p : Fin 2 → ℝ, transformTriangle (vfin x) (vfin a) (vfin b) (vfin c) = .ok [fin (p 0), fin (p 1)] ∧
      InTriangle a b c p := by
  obtain ⟨w, ⟨h0, h1, h2⟩, -, hw⟩ := triangle_fin x a b c
  refine ⟨![_, _], hw, ?_⟩
  rcases h with ⟨hb, hc⟩ | ⟨hb, hc⟩
  · refine ⟨1 - w 0 - w 1, w 0, w 1, by linarith, h0, h1, by ring, fun i => ?_⟩
    fin_cases i
    · simp [hb, hc]; ring
    · simp [hb, hc]; ring
  · refine ⟨1 - w 0 - w 1, w 1, w 0, by linarith, h1, h0, by ring, fun i => ?_⟩
    fin_cases i
    · simp [hb, hc]; ring
    · simp [hb, hc]; ring

/-- Non-vacuity. -/
example : let a : Fin 2 → ℝ := ![1, 2]; let b : Fin 2 → ℝ := ![4, 2]; let c : Fin 2 → ℝ := ![1, 7]
    b 1 = a 1 ∧ c 0 = a 0 := by simp

/-- C39 is false: for the triangle `(0,0), (1,0), (1,1)` the sample `(0, 1/2)` is sent to `(0, 1/2)`, which
is outside. -/
theorem C39_triangle_counterexample :
    transformTriangle (vfin ![0, 1 / 2]) (vfin ![0, 0]) (vfin ![1, 0]) (vfin ![1, 1]) =
      .ok [fin 0, fin (1 / 2)] ∧ ¬ InTriangle ![0, 0] ![1, 0] ![1, 1] ![0, 1 / 2] := by
  constructor
  · obtain ⟨w, -, hw, h⟩ := triangle_fin ![0, 1 / 2] ![0, 0] ![1, 0] ![1, 1]
    have e : transformTriangle.fold (vfin ![0, 1 / 2]) = vfin ![0, 1 / 2] := by
      have hf : Int.fract (1 / 2 : ℝ) = 1 / 2 := Int.fract_eq_self.mpr ⟨by norm_num, by norm_num⟩
      have e2 : (fun i => mod1 (vfin ![0, 1 / 2] i) : Vec 2) = vfin ![0, 1 / 2] := by
        funext i; fin_cases i
        · simp
        · simp only [Fin.mk_one, vfin_apply, Matrix.cons_val_one, Matrix.cons_val_zero, fin_mod1, hf]
      rw [transformTriangle.fold, e2, if_neg]
      simp only [vfin_apply, Matrix.cons_val_one, Matrix.cons_val_zero, fin_abs, fin_add, one_eq, fin_lt]
      norm_num [abs_of_pos]
    rw [e] at hw
    have h0 : w 0 = 0 := by have := congrFun hw 0; simpa using this.symm
    have h1 : w 1 = 1 / 2 := by
      have := congrFun hw 1
      simp only [vfin_apply, fin_inj] at this
      rw [← this]; simp
    rw [h, h0, h1]
    norm_num
  · rintro ⟨α, β, γ, -, hβ, hγ, -, h⟩
    have h0 := h 0
    have h1 := h 1
    simp at h0 h1
    linarith

/-- C39 is false: triangles in space (dimension three and more) raise an error. -/
theorem C39_space_triangle_counterexample {d : ℕ} (hd : 3 ≤ d) (x : Vec 2) (a b c : Vec d) :
    transformTriangle x a b c = .error .typeError := by
  rw [transformTriangle, dif_neg (by omega), dif_neg (by omega)]

/-- Length of segment `k` (spec). -/
noncomputable def segLen {d m : ℕ} (line : Fin (m + 2) → Fin d → ℝ) (k : Fin (m + 1)) : ℝ :=
  edist2 (line k.succ) (line k.castSucc)

/-- Length of the polyline (spec). -/
noncomputable def polyLen {d m : ℕ} (line : Fin (m + 2) → Fin d → ℝ) : ℝ := ∑ k, segLen line k

/-- `p` is reached after walking the length `t` along the polyline (spec): it is a point of a segment and `t`
is the length of the segments before it plus the part of this segment up to `p`. -/
def IsArcPoint {d m : ℕ} (line : Fin (m + 2) → Fin d → ℝ) (t : ℝ) (p : Fin d → ℝ) : Prop :=
  ∃ (k : Fin (m + 1)) (τ : ℝ), 0 ≤ τ ∧ τ ≤ 1 ∧
    (∀ i, p i = line k.castSucc i + τ * (line k.succ i - line k.castSucc i)) ∧
    ∑ j ∈ Finset.univ.filter (· < k), segLen line j + τ * segLen line k = t

theorem edist2_nonneg {n : ℕ} (p o : Fin n → ℝ) : 0 ≤ edist2 p o := Real.sqrt_nonneg _

theorem edist2_comm {n : ℕ} (p o : Fin n → ℝ) : edist2 p o = edist2 o p := by
  simp only [edist2, sub_sq_comm]

theorem edist2_eq_zero {n : ℕ} {p o : Fin n → ℝ} (h : edist2 p o = 0) : p = o := by
  rw [edist2, Real.sqrt_eq_zero (Finset.sum_nonneg fun i _ => sq_nonneg _),
    Finset.sum_eq_zero_iff_of_nonneg fun i _ => sq_nonneg _] at h
  funext i
  exact sub_eq_zero.mp (pow_eq_zero_iff two_ne_zero |>.mp (h i (Finset.mem_univ i)))

/-- The polyline computation in real numbers: the segment chosen. -/
theorem polyline_idx {d m : ℕ} (line : Fin (m + 2) → Fin d → ℝ) (s : ℝ) :
    ∃ k : Fin (m + 1),
      Int.fract s * polyLen line ≤ ∑ j ∈ Finset.univ.filter (· ≤ k), segLen line j ∧
      (k ≠ 0 → ∑ j ∈ Finset.univ.filter (· < k), segLen line j < Int.fract s * polyLen line) ∧
      transformPolyline (fin s) (fun j => vfin (line j)) = fun i =>
        fin (line k.succ i) + fin ((line k.castSucc i - line k.succ i) *
          (∑ j ∈ Finset.univ.filter (· ≤ k), segLen line j - Int.fract s * polyLen line)) /
            fin (segLen line k) := by
  have hseg (k : Fin (m + 1)) : polyline.seg (fun j => vfin (line j)) k = fin (segLen line k) :=
    vnorm_sub_fin _ _
  have hcum (k : Fin (m + 1)) : polyline.cum (fun j => vfin (line j)) k =
      fin (∑ j ∈ Finset.univ.filter (· ≤ k), segLen line j) := by
    simp only [polyline.cum, hseg, fin_sum]
  have hlen : polyline.length (fun j => vfin (line j)) = fin (polyLen line) := by
    simp only [polyline.length, hseg, fin_sum, polyLen]
  have hL : 0 ≤ polyLen line := Finset.sum_nonneg fun k _ => edist2_nonneg _ _
  have hex : ∃ k : Fin (m + 1), mod1 (fin s) * polyline.length (fun j => vfin (line j)) ≤
      polyline.cum (fun j => vfin (line j)) k := by
    refine ⟨Fin.last m, ?_⟩
    rw [hcum, hlen, fin_mod1, fin_mul, fin_le]
    have : (Finset.univ.filter (· ≤ Fin.last m) : Finset (Fin (m + 1))) = Finset.univ := by
      ext j; simp [Fin.le_last]
    rw [this, ← polyLen]
    nlinarith [Int.fract_lt_one s]
  obtain ⟨h1, h2⟩ := argmaxBool_spec _ hex
  set k := argmaxBool fun k => mod1 (fin s) * polyline.length (fun j => vfin (line j)) ≤
      polyline.cum (fun j => vfin (line j)) k with hk
  refine ⟨k, ?_, fun hk0 => ?_, ?_⟩
  · rwa [hcum, hlen, fin_mod1, fin_mul, fin_le] at h1
  · have hk1 : k.1 ≠ 0 := fun h => hk0 (Fin.ext h)
    have := h2 ⟨k.1 - 1, by omega⟩ (by rw [Fin.lt_def]; show k.1 - 1 < k.1; omega)
    rw [hcum, hlen, fin_mod1, fin_mul, fin_le, not_le] at this
    have e : (Finset.univ.filter (· < k) : Finset (Fin (m + 1))) =
        Finset.univ.filter (· ≤ ⟨k.1 - 1, by omega⟩) := by
      ext j
      simp only [Finset.mem_filter, Finset.mem_univ, true_and, Fin.lt_def, Fin.le_def]
      omega
    rw [e]
    exact this
  · funext i
    simp only [transformPolyline, ← hk]
    simp only [hcum, hlen, fin_mod1, fin_mul, vfin_apply, fin_sub]
    have e : (vnorm fun i => fin (line k.castSucc i - line k.succ i)) = fin (segLen line k) := by
      have := vnorm_sub_fin (line k.succ) (line k.castSucc)
      simp only [vfin_apply, fin_sub] at this
      rw [this, segLen, edist2_comm]
    rw [e]

/-- C40 (partial): for every polyline of positive length and every finite `s`, the point returned is the one
reached after walking the fraction `s mod 1` of the length.
Missing: the case that the first segment has length zero and `s` is an integer, where the result is `nan`
(counterexample below). -/
theorem C40_polyline_partial {d m : ℕ} (line : Fin (m + 2) → Fin d → ℝ) (hL : 0 < polyLen line) (s : ℝ)
    (h0 : segLen line 0 ≠ 0 ∨ Int.fract s ≠ 0) :
    ∃ p : Fin d → ℝ, transformPolyline (fin s) (fun j => vfin (line j)) = vfin p ∧
      IsArcPoint line (Int.fract s * polyLen line) p := by
  obtain ⟨k, h1, h2, h3⟩ := polyline_idx line s
  set t := Int.fract s * polyLen line with ht
  set C := ∑ j ∈ Finset.univ.filter (· ≤ k), segLen line j with hC
  have ht0 : 0 ≤ t := mul_nonneg (Int.fract_nonneg s) hL.le
  have hCk : C = ∑ j ∈ Finset.univ.filter (· < k), segLen line j + segLen line k := by
    have : Finset.univ.filter (· ≤ k) = insert k (Finset.univ.filter (· < k)) := by
      ext j; simp [le_iff_lt_or_eq, or_comm]
    rw [hC, this, Finset.sum_insert (by simp), add_comm]
  have hlt : ∑ j ∈ Finset.univ.filter (· < k), segLen line j ≤ t := by
    by_cases hk : k = 0
    · subst hk
      have : (Finset.univ.filter (· < 0) : Finset (Fin (m + 1))) = ∅ := by
        ext j; simp
      rw [this, Finset.sum_empty]; exact ht0
    · exact (h2 hk).le
  have hpos : 0 < segLen line k := by
    refine lt_of_le_of_ne (edist2_nonneg _ _) fun hz => ?_
    by_cases hk : k = 0
    · subst hk
      have e : (Finset.univ.filter (· < 0) : Finset (Fin (m + 1))) = ∅ := by
        ext j; simp
      rw [hCk, e, Finset.sum_empty, ← hz, add_zero] at h1
      have : t = 0 := le_antisymm h1 ht0
      rcases mul_eq_zero.mp this with h4 | h4
      · exact (h0.resolve_left (not_not.mpr hz.symm)) h4
      · exact hL.ne' h4
    · have := h2 hk
      rw [hCk, ← hz] at h1
      linarith
  refine ⟨fun i => line k.castSucc i + (1 - (C - t) / segLen line k) * (line k.succ i - line k.castSucc i),
    ?_, k, 1 - (C - t) / segLen line k, ?_, ?_, fun i => rfl, ?_⟩
  · rw [h3]
    funext i
    rw [fin_div _ hpos.ne', fin_add, vfin_apply, fin_inj]
    field_simp
    ring
  · have : (C - t) / segLen line k ≤ 1 := by rw [div_le_one hpos]; linarith
    linarith
  · have : 0 ≤ (C - t) / segLen line k := div_nonneg (by linarith) hpos.le
    linarith
  · rw [sub_mul, div_mul_cancel₀ _ hpos.ne', hCk]; ring

/-- Non-vacuity: the three points `(0,0), (0,0), (1,0)`; the first segment has length zero. -/
example : let line : Fin 3 → Fin 2 → ℝ := ![![0, 0], ![0, 0], ![1, 0]]
    0 < polyLen (m := 1) line ∧ Int.fract (1 / 2 : ℝ) ≠ 0 := by
  intro line
  have e0 : segLen (m := 1) line 0 = 0 := by
    show edist2 ![0, 0] ![0, 0] = 0
    simp [edist2]
  have e1 : segLen (m := 1) line 1 = 1 := by
    show edist2 ![1, 0] ![0, 0] = 1
    simp [edist2]
  constructor
  · rw [polyLen, Fin.sum_univ_two, e0, e1]; norm_num
  · rw [Int.fract_eq_self.mpr ⟨by norm_num, by norm_num⟩]; norm_num

/-- C40 is false when the first segment has length zero: integer parameters give `nan`. -/
theorem C40_polyline_counterexample {d m : ℕ} (line : Fin (m + 2) → Fin d → ℝ)
    (h0 : segLen line 0 = 0) (n : ℤ) :
    transformPolyline (fin n) (fun j => vfin (line j)) = fun _ => nan := by
  obtain ⟨k, h1, h2, h3⟩ := polyline_idx line n
  have hk : k = 0 := by
    by_contra hk
    have := h2 hk
    rw [Int.fract_intCast, zero_mul] at this
    exact absurd this (not_lt.mpr (Finset.sum_nonneg fun j _ => edist2_nonneg _ _))
  subst hk
  rw [h3]
  funext i
  have e := congrFun (edist2_eq_zero h0) i
  rw [e, h0, sub_self, zero_mul, fin_zero_div_zero, add_nan]

example : transformPolyline (m := 1) (fin (2 : ℤ)) (fun j => vfin (![![0, 0], ![0, 0], ![1, 0]] j)) = fun _ => nan :=
  C40_polyline_counterexample (m := 1) ![![0, 0], ![0, 0], ![1, 0]] (by simp [segLen, edist2]) 2

/-- The point with coefficients `s`, `t` (spec). -/
def parPoint {d : ℕ} (a b c : Fin d → ℝ) (s t : ℝ) : Fin d → ℝ := fun i =>
  a i + s * (b i - a i) + t * (c i - a i)

/-- The parallelogram spanned by `a`, `b`, `c` (spec). -/
def parRegion {d : ℕ} (a b c : Fin d → ℝ) : Set (Fin d → ℝ) :=
  {p | ∃ s t, 0 ≤ s ∧ s ≤ 1 ∧ 0 ≤ t ∧ t ≤ 1 ∧ p = parPoint a b c s t}

theorem affinePlane_eq {d : ℕ} (a b c : Fin d → ℝ) (i : Fin d) (j : Fin 2) :
    (affinePlane a b c).1 i j = ![b i - a i, c i - a i] j := by
  have hdet : affinePlane.ref.det = 1 := by
    rw [affinePlane.ref, Matrix.det_fin_three]; simp
  have hmul : affinePlane.ref * (Matrix.of ![b - a, c - a, a] : Matrix (Fin 3) (Fin d) ℝ) =
      Matrix.of ![a, b, c] := by
    ext i j
    rw [Matrix.mul_apply, Fin.sum_univ_three]
    fin_cases i <;> simp [affinePlane.ref]
  have hinv : affinePlane.ref⁻¹ * (Matrix.of ![a, b, c] : Matrix (Fin 3) (Fin d) ℝ) =
      Matrix.of ![b - a, c - a, a] := by
    rw [← hmul, ← Matrix.mul_assoc, Matrix.nonsing_inv_mul _ (by rw [hdet]; exact isUnit_one), Matrix.one_mul]
  simp only [affinePlane, linearMap, hinv]
  fin_cases j <;> simp

open Classical in
theorem par_transform_fin {d : ℕ} (a b c : Fin d → ℝ) (s t : ℝ) :
    Parallelogram.transform ⟨a, b, c⟩ [fin s, fin t] =
      .ok (vfin (parPoint a b c (if 1 < s then Int.fract s else s) (if 1 < t then Int.fract t else t))) := by
  rw [Parallelogram.transform]
  simp only
  congr 1
  funext i
  have e : ∀ j : Fin 2, (if 1 < (![fin s, fin t] j : XR) then mod1 (![fin s, fin t] j) else ![fin s, fin t] j) =
      fin (![if 1 < s then Int.fract s else s, if 1 < t then Int.fract t else t] j) := by
    intro j
    fin_cases j
    · by_cases h : 1 < s <;> simp [h]
    · by_cases h : 1 < t <;> simp [h]
  simp only [e, Parallelogram.B, affinePlane_eq, fin_mul, fin_sum, fin_add, Fin.sum_univ_two, vfin_apply,
    parPoint, fin_inj]
  simp only [Matrix.cons_val_zero, Matrix.cons_val_one]
  ring

/-- Inner product (spec). -/
def rdot {d : ℕ} (u v : Fin d → ℝ) : ℝ := ∑ i, u i * v i

theorem par_support_fin {d : ℕ} (a b c : Fin d → ℝ) (u v : Fin d → ℝ) (hu : u = b - a) (hv : v = c - a) :
    Parallelogram.support ⟨a, b, c⟩ = fin √(rdot u u * rdot v v - rdot u v ^ 2) := by
  have e : (Matrix.of ![u, v] * (Matrix.of ![u, v] : Matrix (Fin 2) (Fin d) ℝ).transpose).det =
      rdot u u * rdot v v - rdot u v ^ 2 := by
    rw [Matrix.det_fin_two]
    simp only [Matrix.mul_apply, Matrix.transpose_apply, Matrix.of_apply, Matrix.cons_val_zero,
      Matrix.cons_val_one, rdot, sq]
    congr 2
    exact Finset.sum_congr rfl fun i _ => mul_comm _ _
  have hnn : 0 ≤ rdot u u * rdot v v - rdot u v ^ 2 := by
    have := Finset.sum_mul_sq_le_sq_mul_sq Finset.univ u v
    simp only [rdot, ← sq]
    linarith
  simp only [Parallelogram.support, ← hu, ← hv, e]
  rw [fin_sqrt hnn]

/-- C41. `transform` of `Parallelogram(a,b,c)` in any dimension: samples in `[0,1]²` are sent to
`a + s(b-a) + t(c-a)`; coordinates above one are wrapped; all samples with coordinates `≥ 0` land in the
parallelogram, all points of which are attained; other sample sizes are rejected. `support()` is the length
of one side times the height over it, and in the plane the Lebesgue measure of the parallelogram. -/
theorem C41_parallelogram {d : ℕ} (a b c : Fin d → ℝ) :
    (∀ s t : ℝ, s ≤ 1 → t ≤ 1 →
      Parallelogram.transform ⟨a, b, c⟩ [fin s, fin t] = .ok (vfin (parPoint a b c s t))) ∧
    (∀ s t : ℝ, 1 < s → Parallelogram.transform ⟨a, b, c⟩ [fin s, fin t] =
      Parallelogram.transform ⟨a, b, c⟩ [fin (Int.fract s), fin t]) ∧
    (∀ s t : ℝ, 1 < t → Parallelogram.transform ⟨a, b, c⟩ [fin s, fin t] =
      Parallelogram.transform ⟨a, b, c⟩ [fin s, fin (Int.fract t)]) ∧
    (∀ s t : ℝ, 0 ≤ s → 0 ≤ t → ∃ p ∈ parRegion a b c,
      Parallelogram.transform ⟨a, b, c⟩ [fin s, fin t] = .ok (vfin p)) ∧
    (∀ p ∈ parRegion a b c, ∃ s t : ℝ, 0 ≤ s ∧ s ≤ 1 ∧ 0 ≤ t ∧ t ≤ 1 ∧
      Parallelogram.transform ⟨a, b, c⟩ [fin s, fin t] = .ok (vfin p)) ∧
    (∀ x : List XR, x.length ≠ 2 → Parallelogram.transform ⟨a, b, c⟩ x = .error .assertion) ∧
    (∃ h, Parallelogram.support ⟨a, b, c⟩ = fin (edist2 b a * h) ∧
      IsLeast (Set.range fun t : ℝ => edist2 c (parPoint a b b t 0)) h) ∧
    (∀ hd : d = 2, ∃ A, Parallelogram.support ⟨a, b, c⟩ = fin A ∧ 0 ≤ A ∧
      MeasureTheory.volume (parRegion (d := 2) (fun i => a (i.cast hd.symm)) (fun i => b (i.cast hd.symm))
        (fun i => c (i.cast hd.symm))) = ENNReal.ofReal A) := by
  classical
  refine ⟨fun s t hs ht => ?_, fun s t hs => ?_, fun s t ht => ?_, fun s t hs ht => ?_, ?_, fun x hx => ?_,
    ?_, ?_⟩
  · rw [par_transform_fin, if_neg (not_lt.mpr hs), if_neg (not_lt.mpr ht)]
  · rw [par_transform_fin, par_transform_fin, if_pos hs,
      if_neg (not_lt.mpr (Int.fract_lt_one s).le)]
  · rw [par_transform_fin, par_transform_fin, if_pos ht,
      if_neg (not_lt.mpr (Int.fract_lt_one t).le)]
  · have key : ∀ s : ℝ, 0 ≤ s → 0 ≤ (if 1 < s then Int.fract s else s) ∧
        (if 1 < s then Int.fract s else s) ≤ 1 := by
      intro s hs
      split
      · exact ⟨Int.fract_nonneg s, (Int.fract_lt_one s).le⟩
      · next h => exact ⟨hs, not_lt.mp h⟩
    exact ⟨_, ⟨_, _, (key s hs).1, (key s hs).2, (key t ht).1, (key t ht).2, rfl⟩, par_transform_fin a b c s t⟩
  · rintro p ⟨s, t, hs, hs', ht, ht', rfl⟩
    refine ⟨s, t, hs, hs', ht, ht', ?_⟩
    rw [par_transform_fin, if_neg (not_lt.mpr hs'), if_neg (not_lt.mpr ht')]
  · unfold Parallelogram.transform
    match x, hx with
    | [], _ => rfl
    | [_], _ => rfl
    | [_, _], hx => simp at hx
    | _ :: _ :: _ :: _, _ => rfl
  · rw [par_support_fin a b c (b - a) (c - a) rfl rfl]
    set u := b - a with hu
    set v := c - a with hv
    have hedist (t : ℝ) : edist2 c (parPoint a b b t 0) =
        √(rdot v v - 2 * t * rdot u v + t ^ 2 * rdot u u) := by
      rw [edist2]
      congr 1
      simp only [rdot, parPoint, hu, hv, Pi.sub_apply, Finset.mul_sum, ← Finset.sum_sub_distrib,
        ← Finset.sum_add_distrib]
      exact Finset.sum_congr rfl fun i _ => by ring
    have hba : edist2 b a = √(rdot u u) := by
      rw [edist2]; congr 1
      exact Finset.sum_congr rfl fun i _ => by simp [hu, sq]
    have huu : 0 ≤ rdot u u := Finset.sum_nonneg fun i _ => mul_self_nonneg _
    rcases huu.eq_or_lt with h0 | h0
    · have huv : rdot u v = 0 := by
        have : ∀ i, u i = 0 := by
          intro i
          have := (Finset.sum_eq_zero_iff_of_nonneg fun i _ => mul_self_nonneg (u i)).mp h0.symm i
            (Finset.mem_univ i)
          exact mul_self_eq_zero.mp this
        simp [rdot, this]
      refine ⟨√(rdot v v), ?_, ⟨0, ?_⟩, ?_⟩
      · rw [hba, ← h0, huv]; simp
      · simp only [hedist]; simp
      · rintro _ ⟨t, rfl⟩
        simp only [hedist, ← h0, huv]; simp
    · refine ⟨√(rdot v v - rdot u v ^ 2 / rdot u u), ?_, ⟨rdot u v / rdot u u, ?_⟩, ?_⟩
      · rw [hba, ← Real.sqrt_mul huu, fin_inj]
        congr 1; field_simp
      · simp only [hedist]
        congr 1; field_simp; ring
      · rintro _ ⟨t, rfl⟩
        simp only [hedist]
        apply Real.sqrt_le_sqrt
        have : rdot v v - 2 * t * rdot u v + t ^ 2 * rdot u u - (rdot v v - rdot u v ^ 2 / rdot u u) =
            rdot u u * (t - rdot u v / rdot u u) ^ 2 := by field_simp; ring
        nlinarith [mul_nonneg huu (sq_nonneg (t - rdot u v / rdot u u))]
  · rintro rfl
    simp only [Fin.cast_eq_self]
    rw [par_support_fin a b c (b - a) (c - a) rfl rfl]
    refine ⟨_, rfl, Real.sqrt_nonneg _, ?_⟩
    set M : Matrix (Fin 2) (Fin 2) ℝ := !![b 0 - a 0, c 0 - a 0; b 1 - a 1, c 1 - a 1] with hM
    have himg : parRegion a b c = (fun x => a + x) '' (Matrix.toLin' M '' Set.Icc 0 1) := by
      ext p
      simp only [parRegion, Set.mem_ofPred_eq, Set.mem_image, exists_exists_and_eq_and]
      constructor
      · rintro ⟨s, t, hs, hs', ht, ht', rfl⟩
        refine ⟨![s, t], ⟨fun i => ?_, fun i => ?_⟩, ?_⟩
        · fin_cases i <;> simpa
        · fin_cases i <;> simpa
        · funext i
          fin_cases i <;> simp [hM, parPoint] <;> ring
      · rintro ⟨x, ⟨h0, h1⟩, rfl⟩
        refine ⟨x 0, x 1, h0 0, h1 0, h0 1, h1 1, ?_⟩
        funext i
        fin_cases i <;> simp [hM, parPoint, dotProduct, Fin.sum_univ_two] <;> ring
    rw [himg, Set.image_add_left, MeasureTheory.measure_preimage_add, MeasureTheory.Measure.addHaar_image_linearMap,
      Real.volume_Icc_pi, LinearMap.det_toLin']
    have : √(rdot (b - a) (b - a) * rdot (c - a) (c - a) - rdot (b - a) (c - a) ^ 2) = |M.det| := by
      rw [← Real.sqrt_sq_eq_abs]
      congr 1
      rw [hM, Matrix.det_fin_two_of]
      simp only [rdot, Fin.sum_univ_two, Pi.sub_apply]
      ring
    rw [this]
    simp

/-- In space: the sample `(1/2, 5/4)` is wrapped to `(1/2, 1/4)`. -/
example (a b c : Fin 3 → ℝ) : Parallelogram.transform ⟨a, b, c⟩ [fin (1 / 2), fin (5 / 4)] =
    .ok (vfin (parPoint a b c (1 / 2) (1 / 4))) := by
  rw [(C41_parallelogram a b c).2.2.1 _ _ (by norm_num),
    show Int.fract (5 / 4 : ℝ) = 1 / 4 by rw [Int.fract_eq_iff]; exact ⟨by norm_num, by norm_num, 1, by norm_num⟩]
  exact (C41_parallelogram a b c).1 _ _ (by norm_num) (by norm_num)

/-- The four edges (spec). -/
def parBoundary {d : ℕ} (a b c : Fin d → ℝ) : Set (Fin d → ℝ) :=
  {p | ∃ s t, 0 ≤ s ∧ s ≤ 1 ∧ 0 ≤ t ∧ t ≤ 1 ∧ (s = 0 ∨ s = 1 ∨ t = 0 ∨ t = 1) ∧ p = parPoint a b c s t}

/-- C42 (partial): for `a = 0` and `b ≠ 0` every parameter is sent to the boundary of the parallelogram.
Missing: `a ≠ 0`, see the counterexample (and `b = 0`, where integer parameters give `nan`). -/
theorem C42_parallelogram_bnd_partial {d : ℕ} (b c : Fin d → ℝ) (hb : b ≠ 0) (s : ℝ) :
    ∃ p ∈ parBoundary 0 b c, Parallelogram.transformBnd ⟨0, b, c⟩ (fin s) = vfin p := by
  set line : Fin 5 → Fin d → ℝ := ![0, 0 + b, 0 + b + c, c, 0] with hline
  have hseg : segLen (m := 3) line 0 ≠ 0 := by
    intro h
    have := edist2_eq_zero h
    apply hb
    simpa [hline] using this
  have hL : 0 < polyLen (m := 3) line := by
    refine lt_of_lt_of_le (lt_of_le_of_ne (edist2_nonneg _ _) (Ne.symm hseg)) ?_
    exact Finset.single_le_sum (f := segLen (m := 3) line) (fun k _ => edist2_nonneg _ _) (Finset.mem_univ 0)
  obtain ⟨p, hp, k, τ, h0, h1, hpt, -⟩ := C40_polyline_partial (m := 3) line hL s (.inl hseg)
  refine ⟨p, ?_, ?_⟩
  · fin_cases k
    · refine ⟨τ, 0, h0, h1, le_rfl, zero_le_one, .inr (.inr (.inl rfl)), funext fun i => ?_⟩
      rw [hpt i]; simp [hline, parPoint]
    · refine ⟨1, τ, zero_le_one, le_rfl, h0, h1, .inr (.inl rfl), funext fun i => ?_⟩
      rw [hpt i]; simp [hline, parPoint]
    · refine ⟨1 - τ, 1, by linarith, by linarith, zero_le_one, le_rfl, .inr (.inr (.inr rfl)),
        funext fun i => ?_⟩
      rw [hpt i]; simp [hline, parPoint]; ring
    · refine ⟨0, 1 - τ, le_rfl, zero_le_one, by linarith, by linarith, .inl rfl, funext fun i => ?_⟩
      rw [hpt i]; simp [hline, parPoint]; ring
  · rw [← hp, Parallelogram.transformBnd]
    congr 1
    funext j
    fin_cases j <;> rfl

example : (![0, 4] : Fin 2 → ℝ) ≠ 0 := fun h => by
  have := congrFun h 1
  simp at this

/-- C42 is false for `a ≠ 0`: for `a = (3,0)`, `b = (0,4)`, `c = (0,0)` the parameter `1/3` is sent to
`(3,4)`, which is not even in the parallelogram. -/
theorem C42_parallelogram_bnd_counterexample :
    Parallelogram.transformBnd ⟨![3, 0], ![0, 4], ![0, 0]⟩ (fin (1 / 3)) = vfin ![3, 4] ∧
      ![3, 4] ∉ parRegion ![3, 0] ![0, 4] ![0, 0] := by
  constructor
  · set line : Fin 5 → Fin 2 → ℝ := ![![3, 0], ![3, 4], ![3, 4], ![0, 0], ![3, 0]] with hline
    have sq2 (x y : ℝ) (hy : 0 < y) (h : y * y = x) : √x = y := by
      rw [Real.sqrt_eq_iff_mul_self_eq_of_pos hy]; exact h
    have e0 : segLen (m := 3) line 0 = 4 := by
      show edist2 ![3, 4] ![3, 0] = 4
      rw [edist2_two]
      exact sq2 _ _ (by norm_num) (by simp; norm_num)
    have e1 : segLen (m := 3) line 1 = 0 := by
      show edist2 ![3, 4] ![3, 4] = 0
      simp [edist2]
    have e2 : segLen (m := 3) line 2 = 5 := by
      show edist2 ![0, 0] ![3, 4] = 5
      rw [edist2_two]
      exact sq2 _ _ (by norm_num) (by simp; norm_num)
    have e3 : segLen (m := 3) line 3 = 3 := by
      show edist2 ![3, 0] ![0, 0] = 3
      rw [edist2_two]
      exact sq2 _ _ (by norm_num) (by simp; norm_num)
    have hlen : polyLen (m := 3) line = 12 := by
      rw [polyLen, Fin.sum_univ_four, e0, e1, e2, e3]; norm_num
    have hf : Int.fract (1 / 3 : ℝ) = 1 / 3 := Int.fract_eq_self.mpr ⟨by norm_num, by norm_num⟩
    obtain ⟨k, h1, h2, h3⟩ := polyline_idx (m := 3) line (1 / 3)
    rw [hf, hlen] at h1 h2 h3
    have hk : k = 0 := by
      by_contra hk
      have h4 := h2 hk
      have h5 : segLen (m := 3) line 0 ≤ ∑ j ∈ Finset.univ.filter (· < k), segLen (m := 3) line j :=
        Finset.single_le_sum (f := segLen (m := 3) line) (fun k _ => edist2_nonneg _ _)
          (by simp [Fin.pos_iff_ne_zero, hk])
      rw [e0] at h5
      linarith
    subst hk
    have hc : ∑ j ∈ Finset.univ.filter (· ≤ (0 : Fin 4)), segLen (m := 3) line j = 4 := by
      have : (Finset.univ.filter (· ≤ (0 : Fin 4))) = {0} := by ext j; simp
      rw [this, Finset.sum_singleton, e0]
    have heq : Parallelogram.transformBnd ⟨![3, 0], ![0, 4], ![0, 0]⟩ (fin (1 / 3)) =
        transformPolyline (m := 3) (fin (1 / 3)) fun j => vfin (line j) := by
      rw [Parallelogram.transformBnd]
      congr 1
      funext j i
      fin_cases j <;> fin_cases i <;> simp [hline]
    rw [heq, h3]
    funext i
    rw [hc, e0, show (4 : ℝ) - 1 / 3 * 12 = 0 by norm_num, mul_zero, fin_div _ (by norm_num), fin_add]
    fin_cases i <;> simp [hline]
  · rintro ⟨s, t, hs, hs', ht, ht', h⟩
    have h0 := congrFun h 0
    have h1 := congrFun h 1
    simp [parPoint] at h0 h1
    linarith

end Verif
