import Verif.Lemmas.Quaternions
import Mathlib.Tactic.NormNum
import Mathlib.Tactic.LinearCombination

/-! # Properties C22–C27, C30: quaternion arithmetic and rotations (`/repo/magpi/quaternions.py`)

Finite model quaternions are exactly the values `Quat.ofH q` for Mathlib quaternions `q : ℍ[ℝ]`, so
quantifying over `q` quantifies over all finite inputs. -/

namespace Verif

open XR Matrix Quat

open scoped Quaternion

/-- Every finite model quaternion is the image of a real quaternion. -/
theorem Quat.exists_ofH (a : ℝ) (v : Fin 3 → ℝ) : ∃ q : ℍ[ℝ], (⟨fin a, vfin v⟩ : Quat) = ofH q :=
  ⟨_, ofH_eq_of a v⟩

/-! ## C22 -/

/-- C22. On finite quaternions the operations are those of Hamilton's quaternions (Mathlib's `ℍ[ℝ]`); hence
the product is associative, `abs` is multiplicative and `conj` reverses products. -/
theorem C22_hamilton (p q r : ℍ[ℝ]) :
    Quat.zero = ofH 0 ∧ (∀ s : ℝ, (ofH p).mulScalar (fin s) = ofH (s • p)) ∧
    (ofH p).add (ofH q) = ofH (p + q) ∧ (ofH p).sub (ofH q) = ofH (p - q) ∧
    (ofH p).mul (ofH q) = ofH (p * q) ∧ (ofH p).neg = ofH (-p) ∧ (ofH p).conj = ofH (star p) ∧
    (ofH p).abs = fin ‖p‖ ∧
    ((ofH p).mul (ofH q)).mul (ofH r) = (ofH p).mul ((ofH q).mul (ofH r)) ∧
    ((ofH p).mul (ofH q)).abs = (ofH p).abs * (ofH q).abs ∧
    ((ofH p).mul (ofH q)).conj = (ofH q).conj.mul (ofH p).conj := by
  refine ⟨?_, mulScalar_ofH p, add_ofH p q, sub_ofH p q, mul_ofH p q, neg_ofH p, conj_ofH p, abs_ofH p, ?_, ?_, ?_⟩
  · ext i
    · simp [Quat.zero, ofH]
    · fin_cases i <;> simp [Quat.zero, ofH]
  · simp only [mul_ofH, mul_assoc]
  · simp only [mul_ofH, abs_ofH, norm_mul, fin_mul]
  · simp only [mul_ofH, conj_ofH, star_mul]

/-! ## C23 -/

/-- C23. Reciprocal and division: exact inverses for `q ≠ 0`, no number for `q = 0`. -/
theorem C23_reciprocal (p q : ℍ[ℝ]) :
    (q ≠ 0 → (ofH q).mul (ofH q).reciprocal = ofH 1 ∧ (ofH q).reciprocal.mul (ofH q) = ofH 1 ∧
      ((ofH p).truediv (ofH q)).mul (ofH q) = ofH p ∧
      (ofH q).mul ((ofH p).leftDiv (ofH q)) = ofH p) ∧
    (∀ s : ℝ, s ≠ 0 → ((ofH p).truedivScalar (fin s)).mulScalar (fin s) = ofH p) ∧
    (ofH 0).reciprocal = ⟨nan, fun _ => nan⟩ := by
  refine ⟨fun hq => ⟨?_, ?_, ?_, ?_⟩, fun s hs => ?_, reciprocal_zero⟩
  · rw [reciprocal_ofH hq, mul_ofH, mul_inv_cancel₀ hq]
  · rw [reciprocal_ofH hq, mul_ofH, inv_mul_cancel₀ hq]
  · rw [truediv, rightDiv, reciprocal_ofH hq, mul_ofH, mul_ofH, mul_assoc, inv_mul_cancel₀ hq, mul_one]
  · rw [leftDiv, reciprocal_ofH hq, mul_ofH, mul_ofH, ← mul_assoc, mul_inv_cancel₀ hq, one_mul]
  · rw [truedivScalar, one_eq, fin_div _ hs, mulScalar_ofH, mulScalar_ofH, smul_smul,
      mul_one_div_cancel hs, one_smul]

example : 1 + pureH ![2, 0, -1] ≠ 0 := fun h => by simpa using congrArg (fun q : ℍ[ℝ] => q.imI) h

/-! ## C24 -/

/-- C24 (partial). Addition and multiplication with a number commute, and subtraction of a
finite number undoes its addition. Missing: the law for subtraction,
which is false (next theorem). -/
theorem C24_mixed_arithmetic_partial (s : XR) (q : Quat) :
    raddScalar s q = q.addScalar s ∧ rmulScalar s q = q.mulScalar s ∧
    ∀ (t : ℝ) (p : ℍ[ℝ]), ((ofH p).addScalar (fin t)).subScalar (fin t) = ofH p := by
  refine ⟨rfl, rfl, fun t p => ?_⟩
  ext i
  · simp [addScalar, subScalar, ofH]
  · fin_cases i <;> simp [addScalar, subScalar, ofH]

/-- C24 is false as stated: `s - q` evaluates to `q - s`, so it differs from `-(q - s)` for every finite
`q` and `s` with `q ≠ s`-vector; here in general form and for a concrete pair. Moreover `q + s` shifts all
four components, so it is not quaternion addition of the real number `s ≠ 0`. -/
theorem C24_rsub_counterexample :
    (∀ (s : XR) (q : Quat), rsubScalar s q = q.subScalar s) ∧
    (rsubScalar (fin 5) (ofH ((2 : ℝ) : ℍ[ℝ]))).re = fin (-3) ∧ ((ofH ((2 : ℝ) : ℍ[ℝ])).subScalar (fin 5)).neg.re = fin 3 ∧
    (∀ (s : ℝ) (q : ℍ[ℝ]), s ≠ 0 → (ofH q).addScalar (fin s) ≠ ofH (q + (s : ℍ[ℝ]))) := by
  refine ⟨fun _ _ => rfl, ?_, ?_, ?_⟩
  · show fin ((2 : ℝ) : ℍ[ℝ]).re - fin 5 = _
    rw [fin_sub, fin_inj, Quaternion.re_coe]; norm_num
  · show -(fin ((2 : ℝ) : ℍ[ℝ]).re - fin 5) = _
    rw [fin_sub, fin_neg, fin_inj, Quaternion.re_coe]; norm_num
  · intro s q hs h
    have h1 := congrFun (congrArg Quat.im h) 0
    simp [addScalar, ofH] at h1
    exact hs h1

/-! ## C25 -/

/-- C25. For `q ≠ 0` the map `x ↦ quaternion_rotation(x, q)` is a linear map of real vectors which keeps
dot and cross products (a proper rotation), fixes the axis, does not depend on the length of `q` and
composes like the quaternion product. For `q = 0` all components are no numbers. -/
theorem C25_rotation (q : ℍ[ℝ]) :
    (q ≠ 0 → ∃ R : (Fin 3 → ℝ) →ₗ[ℝ] (Fin 3 → ℝ),
      (∀ x, quaternionRotation (vfin x) (ofH q) = vfin (R x)) ∧
      (∀ x y, R x ⬝ᵥ R y = x ⬝ᵥ y) ∧
      (∀ x y, R (x ⨯₃ y) = R x ⨯₃ R y) ∧
      R ![q.imI, q.imJ, q.imK] = ![q.imI, q.imJ, q.imK] ∧
      (∀ (c : ℝ) (x : Fin 3 → ℝ), c ≠ 0 → quaternionRotation (vfin x) (ofH (c • q)) = vfin (R x))) ∧
    (∀ p : ℍ[ℝ], p ≠ 0 → q ≠ 0 → ∀ x : Fin 3 → ℝ,
      quaternionRotation (quaternionRotation (vfin x) (ofH p)) (ofH q) =
        quaternionRotation (vfin x) ((ofH p).mul (ofH q))) ∧
    (∀ x : Fin 3 → ℝ, quaternionRotation (vfin x) (ofH 0) = fun _ => nan) := by
  refine ⟨fun hq => ?_, fun p hp hq x => ?_, fun x => ?_⟩
  · refine ⟨{ toFun := rotH q, map_add' := ?_, map_smul' := ?_ }, ?_, ?_, ?_, ?_, ?_⟩
    · intro x y
      have := rotH_linear q 1 1 x y
      simpa using this
    · intro c x
      have := rotH_linear q c 0 x 0
      simpa using this
    · exact fun x => quaternionRotation_ofH hq x
    · exact fun x y => (rotH_dot_cross hq x y).1
    · exact fun x y => (rotH_dot_cross hq x y).2
    · show rotH q (imv q) = imv q
      have h : pureH (imv q) = q - (q.re : ℍ[ℝ]) := by
        ext <;> simp [imv]
      unfold rotH
      rw [h, mul_sub, sub_mul, inv_mul_cancel₀ hq, one_mul, mul_assoc, Quaternion.coe_commutes,
        ← mul_assoc, inv_mul_cancel₀ hq, one_mul, ← h, imv_pureH]
    · intro c x hc
      rw [quaternionRotation_ofH (smul_ne_zero hc hq)]
      exact congrArg vfin (rotH_smul hc q x)
  · rw [quaternionRotation_ofH hp, quaternionRotation_ofH hq, mul_ofH,
      quaternionRotation_ofH (mul_ne_zero hp hq), rotH_comp hp]
  · rw [quaternionRotation, reciprocal_zero]
    funext i
    fin_cases i <;> simp [Quat.mul, cross]

/-- Non-vacuity: a quarter-turn quaternion moves a vector. -/
example : rotH (1 + pureH ![0, 0, 1]) ![1, 0, 0] = ![0, -1, 0] := by
  have h : 1 + pureH ![0, 0, 1] ≠ 0 := fun h => by simpa using congrArg (fun q : ℍ[ℝ] => q.re) h
  apply pureH_injective
  rw [pure_rotH h, mul_assoc, inv_mul_eq_iff_eq_mul₀ h]
  ext
  · rw [Quaternion.re_mul, Quaternion.re_mul]; simp
  · rw [Quaternion.imI_mul, Quaternion.imI_mul]; simp
  · rw [Quaternion.imJ_mul, Quaternion.imJ_mul]; simp
  · rw [Quaternion.imK_mul, Quaternion.imK_mul]; simp

/-! ## C26 -/

theorem fromAxisAngle_fin (t : ℝ) (u : Fin 3 → ℝ) :
    fromAxisAngle (fin t) (vfin u) =
      ofH ⟨Real.cos (t / 2), u 0 * Real.sin (t / 2), u 1 * Real.sin (t / 2), u 2 * Real.sin (t / 2)⟩ := by
  ext i
  · simp [fromAxisAngle, ofH, fin_div]
  · fin_cases i <;> simp [fromAxisAngle, ofH, fin_div]

/-- C26. For a unit axis `from_axis_angle` is a unit quaternion and the rotation it induces through
`quaternion_rotation` is the Rodrigues rotation by `-t`. -/
theorem C26_axis_angle (t : ℝ) (u x : Fin 3 → ℝ) (hu : u ⬝ᵥ u = 1) :
    (fromAxisAngle (fin t) (vfin u)).abs = fin 1 ∧
    quaternionRotation (vfin x) (fromAxisAngle (fin t) (vfin u)) = vfin (rodrigues u (-t) x) := by
  rw [fromAxisAngle_fin]
  set c := Real.cos (t / 2) with hc
  set s := Real.sin (t / 2) with hs
  have hcs : c ^ 2 + s ^ 2 = 1 := by rw [hc, hs]; exact Real.cos_sq_add_sin_sq _
  have hu' : u 0 * u 0 + u 1 * u 1 + u 2 * u 2 = 1 := by
    simpa [dotProduct, Fin.sum_univ_three] using hu
  set q : ℍ[ℝ] := ⟨c, u 0 * s, u 1 * s, u 2 * s⟩ with hq
  have hqr : q.re = c := rfl
  have hqi : q.imI = u 0 * s := rfl
  have hqj : q.imJ = u 1 * s := rfl
  have hqk : q.imK = u 2 * s := rfl
  have hsq : ‖q‖ ^ 2 = 1 := by
    rw [norm_sq_H, hqr, hqi, hqj, hqk]
    linear_combination hcs + s ^ 2 * hu'
  have hn : ‖q‖ = 1 := by
    have := norm_nonneg q
    nlinarith
  have hq0 : q ≠ 0 := fun h => by rw [h, norm_zero] at hn; norm_num at hn
  refine ⟨by rw [abs_ofH, hn], ?_⟩
  rw [quaternionRotation_ofH hq0]
  congr 1
  have hinv : q⁻¹ = star q := by
    have h1 : Quaternion.normSq q = 1 := by rw [Quaternion.normSq_eq_norm_mul_self, hn, mul_one]
    show (Quaternion.normSq q)⁻¹ • star q = _
    rw [h1, inv_one, one_smul]
  have hct : Real.cos (-t) = c ^ 2 - s ^ 2 := by
    rw [Real.cos_neg, show t = 2 * (t / 2) by ring, Real.cos_two_mul, ← hc]; linear_combination hcs
  have hst : Real.sin (-t) = -(2 * s * c) := by
    rw [Real.sin_neg, show t = 2 * (t / 2) by ring, Real.sin_two_mul]
  unfold rotH
  rw [hinv]
  funext i
  fin_cases i
  · simp [imv, rodrigues, hct, hst, hqr, hqi, hqj, hqk, cross_apply, dotProduct, Fin.sum_univ_three,
      vecHead, vecTail]
    linear_combination (u 0 * (u 0 * x 0 + u 1 * x 1 + u 2 * x 2)) * hcs - s ^ 2 * x 0 * hu'
  · simp [imv, rodrigues, hct, hst, hqr, hqi, hqj, hqk, cross_apply, dotProduct, Fin.sum_univ_three,
      vecHead, vecTail]
    linear_combination (u 1 * (u 0 * x 0 + u 1 * x 1 + u 2 * x 2)) * hcs - s ^ 2 * x 1 * hu'
  · simp [imv, rodrigues, hct, hst, hqr, hqi, hqj, hqk, cross_apply, dotProduct, Fin.sum_univ_three,
      vecHead, vecTail]
    linear_combination (u 2 * (u 0 * x 0 + u 1 * x 1 + u 2 * x 2)) * hcs - s ^ 2 * x 2 * hu'

example : (![0, 3/5, 4/5] : Fin 3 → ℝ) ⬝ᵥ ![0, 3/5, 4/5] = 1 := by
  simp [dotProduct, Fin.sum_univ_three]; norm_num

/-! ## C27 -/

/-- C27. Euler angles: a unit quaternion, the product of the three axis rotations z, y, x. -/
theorem C27_euler (a b c : ℝ) :
    fromEulerAngles (vfin ![a, b, c]) =
      ((fromAxisAngle (fin c) (vfin ![0, 0, 1])).mul (fromAxisAngle (fin b) (vfin ![0, 1, 0]))).mul
        (fromAxisAngle (fin a) (vfin ![1, 0, 0])) ∧
    (fromEulerAngles (vfin ![a, b, c])).abs = fin 1 := by
  have key : fromEulerAngles (vfin ![a, b, c]) =
      ((fromAxisAngle (fin c) (vfin ![0, 0, 1])).mul (fromAxisAngle (fin b) (vfin ![0, 1, 0]))).mul
        (fromAxisAngle (fin a) (vfin ![1, 0, 0])) := by
    ext i
    · simp [fromEulerAngles, fromAxisAngle, fin_div, Quat.mul, vdot, Fin.sum_univ_three, cross]
      ring
    · fin_cases i <;>
        simp [fromEulerAngles, fromAxisAngle, fin_div, Quat.mul, cross, vdot, Fin.sum_univ_three] <;> ring
  refine ⟨key, ?_⟩
  have unit : ∀ (t : ℝ) (u : Fin 3 → ℝ), u ⬝ᵥ u = 1 → ∃ q : ℍ[ℝ],
      fromAxisAngle (fin t) (vfin u) = ofH q ∧ ‖q‖ = 1 := by
    intro t u hu
    obtain ⟨q, hq⟩ : ∃ q : ℍ[ℝ], fromAxisAngle (fin t) (vfin u) = ofH q := ⟨_, fromAxisAngle_fin t u⟩
    refine ⟨q, hq, ?_⟩
    have := (C26_axis_angle t u 0 hu).1
    rw [hq, abs_ofH] at this
    exact fin_inj.mp this
  obtain ⟨qz, hz, hz'⟩ := unit c ![0, 0, 1] (by simp [dotProduct, Fin.sum_univ_three])
  obtain ⟨qy, hy, hy'⟩ := unit b ![0, 1, 0] (by simp [dotProduct, Fin.sum_univ_three])
  obtain ⟨qx, hx, hx'⟩ := unit a ![1, 0, 0] (by simp [dotProduct, Fin.sum_univ_three])
  rw [key, hz, hy, hx, mul_ofH, mul_ofH, abs_ofH, norm_mul, norm_mul, hx', hy', hz']
  norm_num

/-! ## C30 -/

/-- C30. `quaternion_reflection(x, n)` is the mirror image of `x` in the plane orthogonal to `n ≠ 0`
(whatever its length), it is the vector used by `r_fun.reflect`, an involution and an isometry; for
`n = 0` the result is no number. -/
theorem C30_reflection (n x : Fin 3 → ℝ) :
    (n ≠ 0 → ∃ y : Fin 3 → ℝ, quaternionReflection (vfin x) (vfin n) = vfin y ∧ IsMirror n x y ∧
      y = x - (2 * (x ⬝ᵥ n) / (n ⬝ᵥ n)) • n ∧
      quaternionReflection (vfin y) (vfin n) = vfin x ∧ y ⬝ᵥ y = x ⬝ᵥ x) ∧
    quaternionReflection (vfin x) (vfin 0) = fun _ => nan := by
  constructor
  · intro hn
    have hN : 0 < n 0 * n 0 + n 1 * n 1 + n 2 * n 2 := by
      by_contra h
      push Not at h
      apply hn
      funext i
      fin_cases i <;> simp <;> nlinarith [mul_self_nonneg (n 0), mul_self_nonneg (n 1), mul_self_nonneg (n 2)]
    set N := n 0 * n 0 + n 1 * n 1 + n 2 * n 2 with hNdef
    have hNs : Real.sqrt N ≠ 0 := (Real.sqrt_pos.mpr hN).ne'
    have hkk : Real.sqrt N * Real.sqrt N = N := Real.mul_self_sqrt hN.le
    have hdot : n ⬝ᵥ n = N := by simp [dotProduct, Fin.sum_univ_three, hNdef]
    have key : ∀ x : Fin 3 → ℝ, quaternionReflection (vfin x) (vfin n) =
        vfin (x - (2 * (x ⬝ᵥ n) / (n ⬝ᵥ n)) • n) := by
      intro x
      have hnorm : vnorm (vfin n) = fin (Real.sqrt N) := by
        rw [vnorm_fin, Fin.sum_univ_three]
      have e1 : (⟨0, fun i => vfin n i / vnorm (vfin n)⟩ : Quat) =
          ofH (pureH fun i => n i / Real.sqrt N) := by
        rw [hnorm]
        ext i
        · simp [ofH]
        · fin_cases i <;> simp [ofH, fin_div _ hNs]
      have e2 : (⟨0, vfin x⟩ : Quat) = ofH (pureH x) := by
        rw [zero_eq, ofH_eq_of]; rfl
      rw [quaternionReflection, e1, e2, mul_ofH, mul_ofH, ofH_im]
      congr 1
      funext i
      rw [hdot]
      fin_cases i <;>
      · simp [imv, dotProduct, Fin.sum_univ_three]
        field_simp
        rw [show Real.sqrt N ^ 2 = N by rw [sq, hkk], hNdef]
        ring
    refine ⟨_, key x, ⟨⟨-(2 * (x ⬝ᵥ n) / (n ⬝ᵥ n)), ?_⟩, ?_⟩, rfl, ?_, ?_⟩
    · rw [sub_sub_cancel_left, neg_smul]
    · rw [dotProduct_add, dotProduct_sub, dotProduct_smul, smul_eq_mul, hdot, dotProduct_comm n x]
      field_simp; ring
    · rw [key]
      congr 1
      rw [sub_dotProduct, smul_dotProduct, smul_eq_mul, hdot]
      rw [show 2 * (x ⬝ᵥ n - 2 * (x ⬝ᵥ n) / N * N) / N = -(2 * (x ⬝ᵥ n) / N) by field_simp; ring,
        neg_smul, sub_neg_eq_add, sub_add_cancel]
    · simp only [sub_dotProduct, dotProduct_sub, smul_dotProduct, dotProduct_smul, smul_eq_mul, hdot,
        dotProduct_comm n x]
      field_simp; ring
  · have h0 : vnorm (vfin (0 : Fin 3 → ℝ)) = fin 0 := by rw [vnorm_fin]; simp
    rw [quaternionReflection, h0]
    funext i
    fin_cases i <;> simp [Quat.mul, cross, vdot]

example : (![0, 2, 0] : Fin 3 → ℝ) ≠ 0 := fun h => by simpa using congrFun h 1

end Verif
