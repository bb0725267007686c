import Verif.Props.QuatExp
import Mathlib.Analysis.Normed.Algebra.QuaternionExponential

/-! # Properties C28 and C29, continued: the exponential function and powers with a scalar base (`/repo/magpi/quaternions.py`)

The specification is the power series `NormedSpace.exp` of Mathlib in the algebra of quaternions. -/

namespace Verif

open XR Matrix Quat

open scoped Quaternion

theorem exp_polar {u : Fin 3 → ℝ} (hu : u ⬝ᵥ u = 1) (a w : ℝ) (hw : 0 ≤ w) :
    NormedSpace.exp (axial a w u) = polar (Real.exp a) w u := by
  have hre : (axial a w u).re = a := by simp [axial]
  have him : (axial a w u).im = pureH (w • u) := by ext <;> simp [axial]
  have hn : ‖pureH (w • u)‖ = w := by
    have h1 : ‖pureH (w • u)‖ ^ 2 = w ^ 2 := by
      rw [norm_sq_H]
      simp only [pureH_re, pureH_imI, pureH_imJ, pureH_imK, Pi.smul_apply, smul_eq_mul]
      have h2 : u 0 * u 0 + u 1 * u 1 + u 2 * u 2 = 1 := by simpa [dotProduct, Fin.sum_univ_three] using hu
      linear_combination w ^ 2 * h2
    exact (pow_left_inj₀ (norm_nonneg _) hw two_ne_zero).mp h1
  rw [Quaternion.exp_eq, hre, him, hn, ← Real.exp_eq_exp_ℝ, polar_eq_axial]
  rcases hw.eq_or_lt with rfl | h0
  · ext <;> simp [axial]
  · have h3 : Real.sin w / w * w = Real.sin w := div_mul_cancel₀ _ h0.ne'
    ext <;> simp [axial]
    · linear_combination Real.exp a * u 0 * h3
    · linear_combination Real.exp a * u 1 * h3
    · linear_combination Real.exp a * u 2 * h3

theorem exists_axial (q : ℍ[ℝ]) : ∃ u : Fin 3 → ℝ, u ⬝ᵥ u = 1 ∧ q = axial q.re ‖q.im‖ u := by
  rcases (norm_nonneg q.im).eq_or_lt with h | h
  · refine ⟨![1, 0, 0], e0_unit, ?_⟩
    rw [← h, ← coe_eq_axial]
    have h1 : q.im = 0 := norm_eq_zero.mp h.symm
    calc q = q.re + q.im := (Quaternion.re_add_im q).symm
      _ = _ := by rw [h1, add_zero]
  · obtain ⟨u, hu, hu'⟩ := exists_direction h
    refine ⟨u, hu, ?_⟩
    rw [axial, ← hu']
    ext <;> simp [imv]

/-- `quanternion_exp` is the exponential function of the algebra of quaternions exactly if the norm of the vector part exceeds `eps` or
the vector part contributes nothing; otherwise only the real part is right. The error is at most `e^(re q) eps` in any case. -/
theorem C28_exponential (eps : ℝ) (he : 0 < eps) (q : ℍ[ℝ]) :
    (Quat.exp eps (ofH q) = ofH (NormedSpace.exp q) ↔ eps < ‖q.im‖ ∨ Real.sin ‖q.im‖ = 0) ∧
    ∃ p : ℍ[ℝ], Quat.exp eps (ofH q) = ofH p ∧ p.re = (NormedSpace.exp q : ℍ[ℝ]).re ∧ ‖p - NormedSpace.exp q‖ ≤ Real.exp q.re * eps := by
  obtain ⟨u, hu, hq⟩ := exists_axial q
  have hn := norm_nonneg q.im
  set w := ‖q.im‖ with hw
  set a := q.re with ha
  have he' : NormedSpace.exp q = polar (Real.exp a) w u := by rw [hq]; exact exp_polar hu a w hn
  have hdot : u 0 * u 0 + u 1 * u 1 + u 2 * u 2 = 1 := by simpa [dotProduct, Fin.sum_univ_three] using hu
  rcases le_or_gt w eps with h | h
  · have hsm : Quat.exp eps (ofH q) = ofH ((Real.exp a * Real.cos w : ℝ) : ℍ[ℝ]) := by
      rw [hq]; exact exp_small hu a (by rwa [abs_of_nonneg hn])
    have hsub : ((Real.exp a * Real.cos w : ℝ) : ℍ[ℝ]) - polar (Real.exp a) w u = pureH ((-(Real.exp a * Real.sin w)) • u) := by
      rw [polar_eq_axial]
      ext <;> simp [axial]
    have hnorm : ‖pureH ((-(Real.exp a * Real.sin w)) • u)‖ = Real.exp a * |Real.sin w| := by
      have h1 : ‖pureH ((-(Real.exp a * Real.sin w)) • u)‖ ^ 2 = (Real.exp a * |Real.sin w|) ^ 2 := by
        rw [norm_sq_H]
        simp only [pureH_re, pureH_imI, pureH_imJ, pureH_imK, Pi.smul_apply, smul_eq_mul]
        rw [mul_pow (Real.exp a), sq_abs]
        linear_combination (Real.exp a * Real.sin w) ^ 2 * hdot
      exact (pow_left_inj₀ (norm_nonneg _) (by positivity) two_ne_zero).mp h1
    refine ⟨?_, _, hsm, ?_, ?_⟩
    · rw [hsm, he', ofH_injective.eq_iff, ← sub_eq_zero, hsub, ← norm_eq_zero, hnorm]
      constructor
      · intro h1
        right
        rcases mul_eq_zero.mp h1 with h2 | h2
        · exact absurd h2 (Real.exp_pos a).ne'
        · exact abs_eq_zero.mp h2
      · rintro (h1 | h1)
        · exact absurd h1 (not_lt.mpr h)
        · rw [h1, abs_zero, mul_zero]
    · rw [he', polar_eq_axial]
      simp [axial]
    · rw [he', hsub, hnorm]
      refine mul_le_mul_of_nonneg_left ?_ (Real.exp_pos a).le
      exact (Real.abs_sin_le_abs).trans ((abs_of_nonneg hn).le.trans h)
  · have hbig : Quat.exp eps (ofH q) = ofH (polar (Real.exp a) w u) := by
      rw [hq]; exact exp_axial he hu a (.inl (by rwa [abs_of_nonneg hn]))
    refine ⟨?_, _, hbig, by rw [he'], by rw [he', sub_self, norm_zero]; positivity⟩
    rw [hbig, he']
    simp [h]

example : ∃ q : ℍ[ℝ], (2⁻¹ ^ 23 : ℝ) < ‖q.im‖ := by
  refine ⟨pureH ![1, 0, 0], ?_⟩
  have : ‖(pureH ![1, 0, 0]).im‖ = 1 := by
    have h1 : ‖(pureH ![1, 0, 0]).im‖ ^ 2 = 1 := by rw [norm_sq_H]; simp
    nlinarith [norm_nonneg (pureH ![1, 0, 0]).im]
  rw [this]
  norm_num

/-- Powers with a scalar base: for a positive number `b`, `b ** q` is `exp(log b · q)` of the algebra of quaternions exactly if the norm
of the vector part of `log b · q` exceeds `eps` or it contributes nothing. For real exponents it is the real power. If the exponents
`p` and `q` commute and all three powers are exact, then `b ** (p + q) = b ** p * b ** q`. -/
theorem C29_base (eps : ℝ) (he : 0 < eps) {b : ℝ} (hb : 0 < b) (q : ℍ[ℝ]) :
    (Quat.rpow eps (fin b) (ofH q) = ofH (NormedSpace.exp (Real.log b • q)) ↔
      eps < |Real.log b| * ‖q.im‖ ∨ Real.sin (|Real.log b| * ‖q.im‖) = 0) ∧
    (∀ a : ℝ, Quat.rpow eps (fin b) (ofH (a : ℍ[ℝ])) = ofH ((b ^ a : ℝ) : ℍ[ℝ])) ∧
    (∀ p : ℍ[ℝ], Commute p q → eps < |Real.log b| * ‖q.im‖ → eps < |Real.log b| * ‖p.im‖ → eps < |Real.log b| * ‖(p + q).im‖ →
      Quat.rpow eps (fin b) ((ofH p).add (ofH q)) = (Quat.rpow eps (fin b) (ofH p)).mul (Quat.rpow eps (fin b) (ofH q))) := by
  have hlog : XR.log (fin b) = fin (Real.log b) := by simp [XR.log, not_lt.mpr hb.le, hb.ne']
  have him : ∀ q : ℍ[ℝ], ‖(Real.log b • q).im‖ = |Real.log b| * ‖q.im‖ := fun q => by
    rw [Quaternion.im_smul, norm_smul, Real.norm_eq_abs]
  have key : ∀ q : ℍ[ℝ], Quat.rpow eps (fin b) (ofH q) = Quat.exp eps (ofH (Real.log b • q)) := fun q => by
    rw [Quat.rpow, hlog, mulScalar_ofH]
  have main : ∀ q : ℍ[ℝ], Quat.rpow eps (fin b) (ofH q) = ofH (NormedSpace.exp (Real.log b • q)) ↔
      eps < |Real.log b| * ‖q.im‖ ∨ Real.sin (|Real.log b| * ‖q.im‖) = 0 := fun q => by
    rw [key, (C28_exponential eps he _).1, him]
  refine ⟨main q, fun a => ?_, fun p hpq h1 h2 h3 => ?_⟩
  · rw [(main _).mpr (.inr (by simp))]
    have : Real.log b • (a : ℍ[ℝ]) = ((Real.log b * a : ℝ) : ℍ[ℝ]) := by ext <;> simp
    rw [this, Quaternion.exp_coe, ← Real.exp_eq_exp_ℝ, Real.rpow_def_of_pos hb]
  · let +nondep : NormedAlgebra ℚ ℍ[ℝ] := .restrictScalars ℚ ℝ ℍ[ℝ]
    rw [add_ofH, (main _).mpr (.inl h3), (main _).mpr (.inl h1), (main _).mpr (.inl h2), mul_ofH, smul_add,
      NormedSpace.exp_add_of_commute]
    exact (hpq.smul_left _).smul_right _

example : Quat.rpow (2⁻¹ ^ 23) (fin 2) (ofH ((3 : ℝ) : ℍ[ℝ])) = ofH ((8 : ℝ) : ℍ[ℝ]) := by
  rw [(C29_base _ (by positivity) two_pos 0).2.1]
  norm_num

/-- A scalar base which is not positive gives no number in any component; in particular `0 ** 2` is not `0`. -/
theorem C29_base_nan (eps : ℝ) {b : ℝ} (hb : b ≤ 0) (q : ℍ[ℝ]) : Quat.rpow eps (fin b) (ofH q) = ⟨nan, fun _ => nan⟩ := by
  have key : ∀ p : Quat, XR.cos (vnorm p.im) = nan → XR.sin (vnorm p.im) = nan → Quat.exp eps p = ⟨nan, fun _ => nan⟩ := by
    intro p h1 h2
    rw [Quat.exp, h1, h2, mul_nan]
    simp
  have key2 : ∀ p : Quat, (vnorm p.im = nan ∨ vnorm p.im = pinf) → Quat.exp eps p = ⟨nan, fun _ => nan⟩ := by
    rintro p (h | h) <;> exact key p (by rw [h]; rfl) (by rw [h]; rfl)
  have hsq : ∀ a : ℝ, (fin a * ninf) * (fin a * ninf) = nan ∨ (fin a * ninf) * (fin a * ninf) = pinf := by
    intro a
    have e : fin a * ninf = infSign (-a) := rfl
    rw [e, infSign]
    split_ifs
    · exact .inr rfl
    · exact .inr rfl
    · exact .inl rfl
  have hadd : ∀ x y : XR, (x = nan ∨ x = pinf) → (y = nan ∨ y = pinf) → (x + y = nan ∨ x + y = pinf) := by
    rintro x y (rfl | rfl) (rfl | rfl)
    · exact .inl rfl
    · exact .inl rfl
    · exact .inl rfl
    · exact .inr rfl
  have hroot : ∀ x : XR, (x = nan ∨ x = pinf) → (XR.sqrt x = nan ∨ XR.sqrt x = pinf) := by
    rintro x (rfl | rfl)
    · exact .inl rfl
    · exact .inr rfl
  rw [Quat.rpow]
  refine key2 _ ?_
  rcases hb.lt_or_eq with h | rfl
  · left
    have : XR.log (fin b) = nan := by simp [XR.log, h]
    rw [this, vnorm, Fin.sum_univ_three]
    simp [Quat.mulScalar]
  · have : XR.log (fin 0) = ninf := by simp [XR.log]
    rw [this, vnorm, Fin.sum_univ_three]
    exact hroot _ (hadd _ _ (hadd _ _ (hsq _) (hsq _)) (hsq _))

example : Quat.rpow (2⁻¹ ^ 23) (fin 0) (ofH ((2 : ℝ) : ℍ[ℝ])) = ⟨nan, fun _ => nan⟩ := C29_base_nan _ le_rfl _

end Verif
