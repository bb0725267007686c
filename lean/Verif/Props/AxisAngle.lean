import Verif.Props.Transforms
import Mathlib.Analysis.SpecialFunctions.Complex.Arg

/-! # Property C126: axes which are not of length one -/

namespace Verif

open XR Quat Matrix Quaternion

/-- The angle of the direction with coordinates `(cos (t / 2), a sin (t / 2))`, and the length of this vector. -/
theorem exists_effective_angle {a : ℝ} (ha : 0 < a) (t : ℝ) :
    ∃ θ r : ℝ, 0 < r ∧ r * Real.cos (θ / 2) = Real.cos (t / 2) ∧ r * Real.sin (θ / 2) = a * Real.sin (t / 2) := by
  set z : ℂ := ⟨Real.cos (t / 2), a * Real.sin (t / 2)⟩ with hz
  have hz0 : z ≠ 0 := by
    intro h
    have h1 : Real.cos (t / 2) = 0 := congrArg Complex.re h
    have h2 : a * Real.sin (t / 2) = 0 := congrArg Complex.im h
    have h3 : Real.sin (t / 2) = 0 := by
      rcases mul_eq_zero.mp h2 with h | h
      · exact absurd h ha.ne'
      · exact h
    have := Real.sin_sq_add_cos_sq (t / 2)
    rw [h1, h3] at this
    norm_num at this
  have hn : 0 < ‖z‖ := norm_pos_iff.mpr hz0
  refine ⟨2 * z.arg, ‖z‖, hn, ?_, ?_⟩
  · rw [mul_div_cancel_left₀ _ two_ne_zero, Complex.cos_arg hz0, mul_div_cancel₀ _ hn.ne']
  · rw [mul_div_cancel_left₀ _ two_ne_zero, Complex.sin_arg, mul_div_cancel₀ _ hn.ne']

/-- **C126**. For an axis of length `a > 0` in the direction of the unit vector `v`, `from_axis_angle(t, a v)` has magnitude
`r` and turns about `v` not by `-t` but by `-θ`, where `(cos (θ/2), sin (θ/2))` is the direction of
`(cos (t/2), a sin (t/2))`. -/
theorem C126_axis (t a : ℝ) (ha : 0 < a) (v : Fin 3 → ℝ) (hv : v ⬝ᵥ v = 1) :
    ∃ θ r : ℝ, 0 < r ∧ r * Real.cos (θ / 2) = Real.cos (t / 2) ∧ r * Real.sin (θ / 2) = a * Real.sin (t / 2) ∧
      (fromAxisAngle (fin t) (vfin (a • v))).abs = fin r ∧
      ∀ x : Fin 3 → ℝ, quaternionRotation (vfin x) (fromAxisAngle (fin t) (vfin (a • v))) = vfin (rodrigues v (-θ) x) := by
  obtain ⟨θ, r, hr, hc, hs⟩ := exists_effective_angle ha t
  refine ⟨θ, r, hr, hc, hs, ?_⟩
  set q : ℍ[ℝ] := ⟨Real.cos (θ / 2), v 0 * Real.sin (θ / 2), v 1 * Real.sin (θ / 2), v 2 * Real.sin (θ / 2)⟩ with hq
  have hqe : fromAxisAngle (fin θ) (vfin v) = ofH q := fromAxisAngle_fin θ v
  have he : fromAxisAngle (fin t) (vfin (a • v)) = ofH (r • q) := by
    rw [fromAxisAngle_fin]
    congr 1
    ext
    · show Real.cos (t / 2) = r * Real.cos (θ / 2)
      exact hc.symm
    · show (a • v) 0 * Real.sin (t / 2) = r * (v 0 * Real.sin (θ / 2))
      simp only [Pi.smul_apply, smul_eq_mul]; linear_combination -(v 0) * hs
    · show (a • v) 1 * Real.sin (t / 2) = r * (v 1 * Real.sin (θ / 2))
      simp only [Pi.smul_apply, smul_eq_mul]; linear_combination -(v 1) * hs
    · show (a • v) 2 * Real.sin (t / 2) = r * (v 2 * Real.sin (θ / 2))
      simp only [Pi.smul_apply, smul_eq_mul]; linear_combination -(v 2) * hs
  have habs : ‖q‖ = 1 := by
    have := (C26_axis_angle θ v 0 hv).1
    rwa [hqe, abs_ofH, fin_inj] at this
  have hq0 : q ≠ 0 := fun h => by rw [h, norm_zero] at habs; norm_num at habs
  refine ⟨?_, fun x => ?_⟩
  · rw [he, abs_ofH, norm_smul, habs, mul_one, Real.norm_of_nonneg hr.le]
  · obtain ⟨R, h1, -, -, -, h5⟩ := (C25_rotation q).1 hq0
    rw [he, h5 r x hr.ne', ← h1 x, ← hqe]
    exact (C26_axis_angle θ v x hv).2

/-- The axis `(0, 0, 2)`. -/
example (t : ℝ) : ∃ θ r : ℝ, 0 < r ∧ r * Real.cos (θ / 2) = Real.cos (t / 2) ∧ r * Real.sin (θ / 2) = 2 * Real.sin (t / 2) ∧
    (fromAxisAngle (fin t) (vfin ((2 : ℝ) • ez))).abs = fin r ∧
    ∀ x : Fin 3 → ℝ, quaternionRotation (vfin x) (fromAxisAngle (fin t) (vfin ((2 : ℝ) • ez))) = vfin (rodrigues ez (-θ) x) :=
  C126_axis t 2 two_pos ez unit_ez

/-- **C126, `rotate3d`**. With such an axis the body is turned by `-θ`. -/
theorem C126_rotate3d (f : ADF 3) (t a : ℝ) (ha : 0 < a) (v o : Fin 3 → ℝ) (hv : v ⬝ᵥ v = 1) :
    ∃ θ r : ℝ, 0 < r ∧ r * Real.cos (θ / 2) = Real.cos (t / 2) ∧ r * Real.sin (θ / 2) = a * Real.sin (t / 2) ∧
      ∃ F, rotate3d f (.scalar (fin t)) (some (vfin (a • v))) (vfin o) = .ok F ∧
        ∀ x : Fin 3 → ℝ, F (vfin (o + rodrigues v (-θ) (x - o))) = f (vfin x) := by
  obtain ⟨θ, r, hr, hc, hs, -, hrot⟩ := C126_axis (-t) a ha v hv
  refine ⟨-θ, r, hr, ?_, ?_, _, rfl, fun x => ?_⟩
  · rw [neg_div, Real.cos_neg, hc, neg_div, Real.cos_neg]
  · rw [neg_div, Real.sin_neg, mul_neg, hs, neg_div, Real.sin_neg, mul_neg, neg_neg]
  · rw [translate_fin, fin_neg, add_sub_cancel_left, hrot, translate_neg_fin, neg_neg]
    have h := rodrigues_neg hv (-θ) (x - o)
    rw [neg_neg] at h
    rw [h, sub_add_cancel]

example (f : ADF 3) : ∃ θ r : ℝ, 0 < r ∧ r * Real.cos (θ / 2) = Real.cos (1 / 2) ∧ r * Real.sin (θ / 2) = 2 * Real.sin (1 / 2) ∧
    ∃ F, rotate3d f (.scalar (fin 1)) (some (vfin ((2 : ℝ) • ![0, 3 / 5, 4 / 5]))) (vfin ![1, 0, 0]) = .ok F ∧
      ∀ x : Fin 3 → ℝ, F (vfin (![1, 0, 0] + rodrigues ![0, 3 / 5, 4 / 5] (-θ) (x - ![1, 0, 0]))) = f (vfin x) :=
  C126_rotate3d f 1 2 two_pos ![0, 3 / 5, 4 / 5] ![1, 0, 0] (by simp; norm_num)

/-- **C126, disagreement**. Unless the axis has length one or the angle is a multiple of a half turn, the rotation is not the one
by the angle `-t`. -/
theorem C126_wrong_angle (t a : ℝ) (ha : 0 < a) (ha1 : a ≠ 1) (ht : Real.sin t ≠ 0) (v : Fin 3 → ℝ) (hv : v ⬝ᵥ v = 1) :
    ∃ x : Fin 3 → ℝ, quaternionRotation (vfin x) (fromAxisAngle (fin t) (vfin (a • v))) ≠ vfin (rodrigues v (-t) x) := by
  obtain ⟨θ, r, hr, hc, hs, -, hrot⟩ := C126_axis t a ha v hv
  by_contra hall
  push Not at hall
  have heq : ∀ x, rodrigues v (-θ) x = rodrigues v (-t) x := 
    fun x => funext fun i => fin_inj.mp (congrFun ((hrot x).symm.trans (hall x)) i)
  have hv' : v 0 * v 0 + v 1 * v 1 + v 2 * v 2 = 1 := by simpa [dotProduct, Fin.sum_univ_three] using hv
  -- both angles have the same sine and cosine
  have hdot : ∀ φ : ℝ, ∀ x : Fin 3 → ℝ, rodrigues v φ x ⬝ᵥ x =
      Real.cos φ * (x ⬝ᵥ x) + (1 - Real.cos φ) * (v ⬝ᵥ x) ^ 2 := by
    intro φ x
    simp [rodrigues, dotProduct, Fin.sum_univ_three, cross_apply, vecHead, vecTail]
    ring
  have hcr : ∀ φ : ℝ, ∀ x : Fin 3 → ℝ, v ⬝ᵥ x = 0 → rodrigues v φ x ⬝ᵥ (v ⨯₃ x) = Real.sin φ * (x ⬝ᵥ x) := by
    intro φ x hx
    have hx' : v 0 * x 0 + v 1 * x 1 + v 2 * x 2 = 0 := by simpa [dotProduct, Fin.sum_univ_three] using hx
    simp [rodrigues, dotProduct, Fin.sum_univ_three, cross_apply, vecHead, vecTail]
    linear_combination Real.sin φ * (x 0 ^ 2 + x 1 ^ 2 + x 2 ^ 2) * hv' -
      Real.sin φ * (v 0 * x 0 + v 1 * x 1 + v 2 * x 2) * hx'
  obtain ⟨x, hx0, hvx⟩ : ∃ x : Fin 3 → ℝ, x ⬝ᵥ x ≠ 0 ∧ v ⬝ᵥ x = 0 := by
    by_cases h : v 0 = 0 ∧ v 1 = 0
    · exact ⟨![1, 0, 0], by simp [dotProduct, Fin.sum_univ_three], by simp [dotProduct, Fin.sum_univ_three, h.1]⟩
    · refine ⟨![-v 1, v 0, 0], fun hh => h ?_, by simp [dotProduct, Fin.sum_univ_three]; ring⟩
      simp [dotProduct, Fin.sum_univ_three] at hh
      exact ⟨by nlinarith [mul_self_nonneg (v 0), mul_self_nonneg (v 1)],
        by nlinarith [mul_self_nonneg (v 0), mul_self_nonneg (v 1)]⟩
  have h1 : Real.cos θ = Real.cos t := by
    have := congrArg (· ⬝ᵥ x) (heq x)
    simp only [hdot, hvx] at this
    simpa [hx0] using this
  have h2 : Real.sin θ = Real.sin t := by
    have := congrArg (· ⬝ᵥ (v ⨯₃ x)) (heq x)
    simp only [hcr _ x hvx] at this
    simpa [hx0] using this
  have e1 : Real.cos θ = 2 * Real.cos (θ / 2) ^ 2 - 1 := by rw [← Real.cos_two_mul]; ring_nf
  have e2 : Real.sin θ = 2 * Real.sin (θ / 2) * Real.cos (θ / 2) := by rw [← Real.sin_two_mul]; ring_nf
  have e3 : Real.cos t = 2 * Real.cos (t / 2) ^ 2 - 1 := by rw [← Real.cos_two_mul]; ring_nf
  have e4 : Real.sin t = 2 * Real.sin (t / 2) * Real.cos (t / 2) := by rw [← Real.sin_two_mul]; ring_nf
  set C := Real.cos (θ / 2)
  set S := Real.sin (θ / 2)
  set c := Real.cos (t / 2)
  set s := Real.sin (t / 2)
  have hc0 : c ≠ 0 := fun h => ht (by rw [e4, h, mul_zero])
  have hs0 : s ≠ 0 := fun h => ht (by rw [e4, h]; ring)
  -- r² = 1 from the cosines, then a = 1 from the sines
  have hr2 : r ^ 2 = 1 := by
    have hCc : C ^ 2 = c ^ 2 := by linarith
    have : (r ^ 2 - 1) * c ^ 2 = 0 := by
      have : (r * C) ^ 2 = c ^ 2 := by rw [hc]
      nlinarith [this]
    rcases mul_eq_zero.mp this with h | h
    · linarith
    · exact absurd (pow_eq_zero_iff two_ne_zero |>.mp h) hc0
  have hSC : S * C = s * c := by linarith
  have : a * (s * c) = s * c := by
    calc a * (s * c) = (r * S) * (r * C) := by rw [hs, hc]; ring
      _ = r ^ 2 * (S * C) := by ring
      _ = s * c := by rw [hr2, hSC, one_mul]
  have h3 : (a - 1) * (s * c) = 0 := by linarith
  rcases mul_eq_zero.mp h3 with h | h
  · exact ha1 (by linarith)
  · exact mul_ne_zero hs0 hc0 h

/-- A quarter turn about `(0, 0, 2)` is none. -/
example : ∃ x : Fin 3 → ℝ, quaternionRotation (vfin x) (fromAxisAngle (fin (Real.pi / 2)) (vfin ((2 : ℝ) • ez))) ≠
    vfin (rodrigues ez (-(Real.pi / 2)) x) :=
  C126_wrong_angle _ 2 two_pos (by norm_num) (by simp) ez unit_ez

/-- **C126, zero axis**. With the zero vector as axis nothing is turned, except that the result for odd multiples of a half turn is
not a number. -/
theorem C126_zero_axis (t : ℝ) (x : Fin 3 → ℝ) :
    (Real.cos (t / 2) ≠ 0 → quaternionRotation (vfin x) (fromAxisAngle (fin t) (vfin 0)) = vfin x) ∧
    (Real.cos (t / 2) = 0 → quaternionRotation (vfin x) (fromAxisAngle (fin t) (vfin 0)) = fun _ => nan) := by
  have he : fromAxisAngle (fin t) (vfin 0) = ofH ((Real.cos (t / 2)) • (1 : ℍ[ℝ])) := by
    rw [fromAxisAngle_fin]
    congr 1
    ext <;> simp
  constructor
  · intro h
    obtain ⟨R, h1, -, -, -, h5⟩ := (C25_rotation 1).1 one_ne_zero
    rw [he, h5 _ x h, ← h1 x, quaternionRotation_ofH one_ne_zero, rotH, inv_one, one_mul, mul_one, imv_pureH]
  · intro h
    rw [he, h, zero_smul]
    exact (C25_rotation 0).2.2 x

/-- Half a turn about nothing. -/
example (x : Fin 3 → ℝ) : quaternionRotation (vfin x) (fromAxisAngle (fin Real.pi) (vfin 0)) = fun _ => nan :=
  (C126_zero_axis Real.pi x).2 (by simp)

end Verif
