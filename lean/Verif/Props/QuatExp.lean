import Verif.Props.Quaternions
import Mathlib.Analysis.SpecialFunctions.Trigonometric.Bounds
import Mathlib.Analysis.Real.Pi.Bounds

/-! # Properties C28, C29: exponential, logarithm and powers of quaternions -/

namespace Verif

open XR Matrix Quat

open scoped Quaternion

/-- Polar form `r (cos θ + u sin θ)`. -/
noncomputable def polar (r θ : ℝ) (u : Fin 3 → ℝ) : ℍ[ℝ] :=
  ((r * Real.cos θ : ℝ) : ℍ[ℝ]) + pureH ((r * Real.sin θ) • u)

/-- `a + u w` with real part `a`. -/
noncomputable def axial (a w : ℝ) (u : Fin 3 → ℝ) : ℍ[ℝ] := (a : ℍ[ℝ]) + pureH (w • u)

theorem ofH_axial (a w : ℝ) (u : Fin 3 → ℝ) : ofH (axial a w u) = ⟨fin a, vfin (w • u)⟩ := by
  rw [ofH_eq_of]
  congr 1
  ext <;> simp [axial]

theorem polar_eq_axial (r θ : ℝ) (u : Fin 3 → ℝ) :
    polar r θ u = axial (r * Real.cos θ) (r * Real.sin θ) u := rfl

theorem polar_mul {u : Fin 3 → ℝ} (hu : u ⬝ᵥ u = 1) (r s θ φ : ℝ) :
    polar r θ u * polar s φ u = polar (r * s) (θ + φ) u := by
  have hu' : u 0 * u 0 + u 1 * u 1 + u 2 * u 2 = 1 := by
    simpa [dotProduct, Fin.sum_univ_three] using hu
  ext
  · simp only [polar, Quaternion.re_mul]
    simp [Real.cos_add]
    linear_combination (-(r * s * Real.sin θ * Real.sin φ)) * hu'
  · simp only [polar, Quaternion.imI_mul]; simp [Real.sin_add]; ring
  · simp only [polar, Quaternion.imJ_mul]; simp [Real.sin_add]; ring
  · simp only [polar, Quaternion.imK_mul]; simp [Real.sin_add]; ring

theorem polar_one (u : Fin 3 → ℝ) : polar 1 0 u = 1 := by
  ext <;> simp [polar]

theorem polar_pow {u : Fin 3 → ℝ} (hu : u ⬝ᵥ u = 1) (r θ : ℝ) (n : ℕ) :
    polar r θ u ^ n = polar (r ^ n) (n * θ) u := by
  induction n with
  | zero => simp [polar_one]
  | succ n ih =>
    rw [pow_succ, ih, polar_mul hu, pow_succ]
    congr 1
    push_cast; ring

theorem polar_zpow {u : Fin 3 → ℝ} (hu : u ⬝ᵥ u = 1) {r : ℝ} (hr : r ≠ 0) (θ : ℝ) (n : ℤ) :
    polar r θ u ^ n = polar (r ^ n) (n * θ) u := by
  rcases n with n | n
  · have := polar_pow hu r θ n
    simpa using this
  · rw [zpow_negSucc, polar_pow hu]
    have h0 : r ^ (n + 1) ≠ 0 := pow_ne_zero _ hr
    apply inv_eq_of_mul_eq_one_left
    rw [polar_mul hu, zpow_negSucc, inv_mul_cancel₀ h0]
    convert polar_one u using 2
    push_cast
    ring

/-! ### Model on axial quaternions -/

theorem vnorm_smul {u : Fin 3 → ℝ} (hu : u ⬝ᵥ u = 1) (w : ℝ) : vnorm (vfin (w • u)) = fin |w| := by
  rw [vnorm_fin]
  congr 1
  have : ∑ i, (w • u) i * (w • u) i = w ^ 2 := by
    have h : ∑ i, u i * u i = 1 := hu
    calc ∑ i, (w • u) i * (w • u) i = w ^ 2 * ∑ i, u i * u i := by
          rw [Finset.mul_sum]; refine Finset.sum_congr rfl fun i _ => ?_
          simp; ring
      _ = w ^ 2 := by rw [h, mul_one]
  rw [this, Real.sqrt_sq_eq_abs]

theorem exp_axial {eps : ℝ} (he : 0 < eps) {u : Fin 3 → ℝ} (hu : u ⬝ᵥ u = 1) (a : ℝ) {w : ℝ}
    (hw : eps < |w| ∨ w = 0) : Quat.exp eps (ofH (axial a w u)) = ofH (polar (Real.exp a) w u) := by
  rw [ofH_axial, polar_eq_axial, ofH_axial]
  rcases hw with hw | rfl
  · have hw0 : |w| ≠ 0 := by linarith
    ext i
    · simp [Quat.exp, vnorm_smul hu]
    · simp only [Quat.exp, sgn, vnorm_smul hu, fin_le, not_le.mpr hw, if_false, vfin_apply, fin_div _ hw0,
        fin_exp, fin_sin, fin_mul, fin_inj, Pi.smul_apply, smul_eq_mul]
      rcases abs_cases w with ⟨h1, h2⟩ | ⟨h1, h2⟩
      · rw [h1] at hw0 ⊢; field_simp
      · have : w ≠ 0 := h2.ne
        rw [h1, Real.sin_neg]; field_simp
  · have hn := vnorm_smul hu 0
    rw [abs_zero] at hn
    ext i
    · simp only [Quat.exp, hn]; simp
    · simp only [Quat.exp, sgn, hn, fin_le, he.le, if_true]; simp

theorem exp_small {eps : ℝ} {u : Fin 3 → ℝ} (hu : u ⬝ᵥ u = 1) (a : ℝ) {w : ℝ}
    (hw : |w| ≤ eps) : Quat.exp eps (ofH (axial a w u)) = ofH ((Real.exp a * Real.cos w : ℝ) : ℍ[ℝ]) := by
  rw [ofH_axial]
  ext i
  · simp [Quat.exp, vnorm_smul hu, ofH]
  · simp only [Quat.exp, sgn, vnorm_smul hu, fin_le, hw, if_true, ofH]
    fin_cases i <;> simp

/-- Unit direction of the vector part. -/
theorem exists_direction {q : ℍ[ℝ]} (h : 0 < ‖q.im‖) : ∃ u : Fin 3 → ℝ, u ⬝ᵥ u = 1 ∧ imv q = ‖q.im‖ • u := by
  refine ⟨‖q.im‖⁻¹ • imv q, ?_, ?_⟩
  · have h2 : ‖q.im‖ ^ 2 = imv q ⬝ᵥ imv q := by
      rw [norm_sq_H]; simp [imv, dotProduct, Fin.sum_univ_three]; ring
    rw [smul_dotProduct, dotProduct_smul, ← h2]
    simp only [smul_eq_mul]
    field_simp
  · rw [smul_smul, mul_inv_cancel₀ h.ne', one_smul]

/-- The angle of a quaternion (spec of `arg`). -/
noncomputable def angleH (q : ℍ[ℝ]) : ℝ := Real.arccos (q.re / ‖q‖)

theorem norm_im_sq (q : ℍ[ℝ]) : ‖q‖ ^ 2 = q.re ^ 2 + ‖q.im‖ ^ 2 := by
  rw [norm_sq_H, norm_sq_H]; simp; ring

theorem re_ratio_bounds {q : ℍ[ℝ]} (hq : q ≠ 0) : -1 ≤ q.re / ‖q‖ ∧ q.re / ‖q‖ ≤ 1 := by
  have hr : 0 < ‖q‖ := norm_pos_iff.mpr hq
  have h := norm_im_sq q
  have h1 : |q.re| ≤ ‖q‖ := abs_le_of_sq_le_sq (by nlinarith [sq_nonneg ‖q.im‖]) hr.le
  rw [abs_le] at h1
  rw [le_div_iff₀ hr, div_le_one hr]
  exact ⟨by linarith [h1.1], h1.2⟩

theorem cos_sin_angle {q : ℍ[ℝ]} (hq : q ≠ 0) :
    ‖q‖ * Real.cos (angleH q) = q.re ∧ ‖q‖ * Real.sin (angleH q) = ‖q.im‖ := by
  have hr : 0 < ‖q‖ := norm_pos_iff.mpr hq
  obtain ⟨h1, h2⟩ := re_ratio_bounds hq
  constructor
  · rw [angleH, Real.cos_arccos h1 h2]; field_simp
  · rw [angleH, Real.sin_arccos]
    have h3 : 0 ≤ 1 - (q.re / ‖q‖) ^ 2 := by nlinarith
    have h4 : (‖q‖ * Real.sqrt (1 - (q.re / ‖q‖) ^ 2)) ^ 2 = ‖q.im‖ ^ 2 := by
      rw [mul_pow, Real.sq_sqrt h3]
      have := norm_im_sq q
      field_simp
      linarith
    exact (pow_left_inj₀ (by positivity) (norm_nonneg _) two_ne_zero).mp h4

theorem arg_ofH {q : ℍ[ℝ]} (hq : q ≠ 0) : Quat.arg (ofH q) = fin (angleH q) := by
  have hr : ‖q‖ ≠ 0 := norm_ne_zero_iff.mpr hq
  obtain ⟨h1, h2⟩ := re_ratio_bounds hq
  rw [Quat.arg, abs_ofH, one_eq, fin_div _ hr]
  show XR.arccos (fin q.re * fin (1 / ‖q‖)) = _
  rw [fin_mul, mul_one_div, fin_arccos h1 h2, angleH]

theorem vnorm_im (q : ℍ[ℝ]) : vnorm (ofH q).im = fin ‖q.im‖ := by
  rw [ofH_im, vnorm_fin]
  congr 1
  have h2 : ∑ i, imv q i * imv q i = ‖q.im‖ ^ 2 := by
    rw [norm_sq_H]; simp [imv, Fin.sum_univ_three]; ring
  rw [h2, Real.sqrt_sq (norm_nonneg _)]

theorem log_big {eps : ℝ} (he : 0 < eps) {q : ℍ[ℝ]} (h : eps < ‖q.im‖) {u : Fin 3 → ℝ}
    (hu : imv q = ‖q.im‖ • u) :
    Quat.log eps (ofH q) = ofH (axial (Real.log ‖q‖) (angleH q) u) := by
  have hm : ‖q.im‖ ≠ 0 := by linarith
  have hq : q ≠ 0 := by rintro rfl; simp at hm
  have hr : 0 < ‖q‖ := norm_pos_iff.mpr hq
  rw [ofH_axial]
  ext i
  · show XR.log (ofH q).abs = _
    rw [abs_ofH, fin_log hr]
  · show sgn eps (ofH q).im i * Quat.arg (ofH q) = _
    have h1 : sgn eps (ofH q).im i = fin (imv q i / ‖q.im‖) := by
      rw [sgn, vnorm_im, fin_le, if_neg (not_le.mpr h), ofH_im, vfin_apply, fin_div _ hm]
    rw [h1, arg_ofH hq, hu, fin_mul]
    simp only [vfin_apply, Pi.smul_apply, smul_eq_mul, fin_inj]
    field_simp

theorem log_small {eps : ℝ} {q : ℍ[ℝ]} (hq : q ≠ 0) (h : ‖q.im‖ ≤ eps) :
    Quat.log eps (ofH q) = ofH ((Real.log ‖q‖ : ℝ) : ℍ[ℝ]) := by
  have hr : 0 < ‖q‖ := norm_pos_iff.mpr hq
  ext i
  · show XR.log (ofH q).abs = _
    rw [abs_ofH, fin_log hr]; rfl
  · show sgn eps (ofH q).im i * Quat.arg (ofH q) = _
    have h1 : sgn eps (ofH q).im i = fin 0 := by
      rw [sgn, vnorm_im, fin_le, if_pos h, zero_eq]
    rw [h1, arg_ofH hq, fin_mul, zero_mul]
    fin_cases i <;> simp [ofH]

theorem coe_eq_axial (a : ℝ) : (a : ℍ[ℝ]) = axial a 0 ![1, 0, 0] := by
  ext <;> simp [axial]

theorem e0_unit : (![1, 0, 0] : Fin 3 → ℝ) ⬝ᵥ ![1, 0, 0] = 1 := by
  simp [dotProduct, Fin.sum_univ_three]

theorem eq_polar {q : ℍ[ℝ]} (hq : q ≠ 0) {u : Fin 3 → ℝ} (hu : imv q = ‖q.im‖ • u) :
    q = polar ‖q‖ (angleH q) u := by
  obtain ⟨h1, h2⟩ := cos_sin_angle hq
  have h (i : Fin 3) : imv q i = ‖q.im‖ * u i := by rw [hu]; rfl
  rw [polar, h1, h2]
  ext
  · simp
  · simpa [imv] using h 0
  · simpa [imv] using h 1
  · simpa [imv] using h 2

/-! ## C28 -/

/-- C28 (partial). With `eps` the machine epsilon used by `sgn`: `exp(log q) = q` whenever vector part and
angle exceed `eps`, and for positive real `q`. For every other `q` with positive real part the error is at
most `eps · max 2 |q|`. Missing: quaternions with negative real part and vector part not exceeding `eps`,
where the statement is false (next theorem). -/
theorem C28_exp_log_partial (eps : ℝ) (he : 0 < eps) (q : ℍ[ℝ]) (hq : q ≠ 0) :
    (eps < ‖q.im‖ → eps < angleH q → Quat.exp eps (Quat.log eps (ofH q)) = ofH q) ∧
    (q.im = 0 → 0 < q.re → Quat.exp eps (Quat.log eps (ofH q)) = ofH q) ∧
    (eps < 1 → 0 < q.re ∨ eps < ‖q.im‖ → ∃ p : ℍ[ℝ], Quat.exp eps (Quat.log eps (ofH q)) = ofH p ∧
      ‖p - q‖ ≤ eps * max 2 ‖q‖) := by
  have hr : 0 < ‖q‖ := norm_pos_iff.mpr hq
  have main : eps < ‖q.im‖ → eps < angleH q → Quat.exp eps (Quat.log eps (ofH q)) = ofH q := by
    intro h1 h2
    obtain ⟨u, hu, hu'⟩ := exists_direction (he.trans h1)
    rw [log_big he h1 hu', exp_axial he hu _ (.inl (h2.trans_le (le_abs_self _))), Real.exp_log hr,
      ← eq_polar hq hu']
  have small : ‖q.im‖ ≤ eps → Quat.exp eps (Quat.log eps (ofH q)) = ofH ((‖q‖ : ℝ) : ℍ[ℝ]) := by
    intro h1
    rw [log_small hq h1, coe_eq_axial, exp_axial he e0_unit _ (.inr rfl), Real.exp_log hr,
      polar_eq_axial]
    simp [coe_eq_axial]
  refine ⟨main, fun h1 h2 => ?_, fun he1 h0 => ?_⟩
  · rw [small (by rw [h1, norm_zero]; exact he.le)]
    congr 1
    have h3 := norm_im_sq q
    rw [h1, norm_zero] at h3
    have h4 : ‖q‖ = q.re := by nlinarith
    rw [h4]
    calc ((q.re : ℝ) : ℍ[ℝ]) = q.re + q.im := by rw [h1, add_zero]
      _ = q := Quaternion.re_add_im q
  · rcases le_or_gt ‖q.im‖ eps with h1 | h1
    · refine ⟨_, small h1, ?_⟩
      have hre : 0 < q.re := by
        rcases h0 with h | h
        · exact h
        · linarith
      have h3 := norm_im_sq q
      have h4 : |‖q‖ - q.re| ≤ ‖q.im‖ := by
        rw [abs_le]
        constructor <;> nlinarith [norm_nonneg q.im]
      have h5 : ((‖q‖ : ℝ) : ℍ[ℝ]) - q = ((‖q‖ - q.re : ℝ) : ℍ[ℝ]) - q.im := by
        rw [Quaternion.coe_sub, sub_sub, Quaternion.re_add_im]
      calc ‖((‖q‖ : ℝ) : ℍ[ℝ]) - q‖ ≤ ‖((‖q‖ - q.re : ℝ) : ℍ[ℝ])‖ + ‖q.im‖ := by
            rw [h5]; exact norm_sub_le _ _
        _ ≤ 2 * eps := by
            rw [Quaternion.norm_coe, Real.norm_eq_abs]; linarith
        _ ≤ eps * max 2 ‖q‖ := by nlinarith [le_max_left 2 ‖q‖]
    · rcases lt_or_ge eps (angleH q) with h2 | h2
      · refine ⟨q, main h1 h2, ?_⟩
        simp only [sub_self, norm_zero]; positivity
      · obtain ⟨u, hu, hu'⟩ := exists_direction (he.trans h1)
        obtain ⟨hc, hs⟩ := cos_sin_angle hq
        have hθ : 0 ≤ angleH q := Real.arccos_nonneg _
        refine ⟨((q.re : ℝ) : ℍ[ℝ]), ?_, ?_⟩
        · rw [log_big he h1 hu', exp_small hu _ (by rwa [abs_of_nonneg hθ]), Real.exp_log hr, hc]
        · have h5 : ((q.re : ℝ) : ℍ[ℝ]) - q = -q.im := by
            rw [← Quaternion.sub_re_self, neg_sub]
          rw [h5, norm_neg, ← hs]
          calc ‖q‖ * Real.sin (angleH q) ≤ ‖q‖ * eps := by
                gcongr; exact (Real.sin_le hθ).trans h2
            _ ≤ eps * max 2 ‖q‖ := by nlinarith [le_max_right 2 ‖q‖]

/-- Non-vacuity: `q = 1 + 2i` for `eps = 2^-23`. -/
example : ∃ q : ℍ[ℝ], q ≠ 0 ∧ (2 : ℝ)⁻¹ ^ 23 < ‖q.im‖ ∧ (2 : ℝ)⁻¹ ^ 23 < angleH q := by
  have him : (pureH ![2, 0, 0]).im = pureH ![2, 0, 0] := by ext <;> simp
  have hn : ‖pureH ![2, 0, 0]‖ = 2 := by
    have := norm_sq_H (pureH ![2, 0, 0])
    simp at this
    nlinarith [norm_nonneg (pureH ![2, 0, 0])]
  refine ⟨pureH ![2, 0, 0], fun h => by rw [h, norm_zero] at hn; norm_num at hn, ?_, ?_⟩
  · rw [him, hn]; norm_num
  · rw [angleH, hn]
    simp only [pureH_re, zero_div, Real.arccos_zero]
    have := Real.pi_gt_three
    have h2 : (2 : ℝ)⁻¹ ^ 23 < 1 := by norm_num
    linarith

/-- C28 is false as stated: for every negative real quaternion `exp(log q) = -q`. -/
theorem C28_negative_real_counterexample (eps : ℝ) (he : 0 < eps) (a : ℝ) (ha : a < 0) :
    Quat.exp eps (Quat.log eps (ofH (a : ℍ[ℝ]))) = ofH ((-a : ℝ) : ℍ[ℝ]) ∧
    ofH ((-a : ℝ) : ℍ[ℝ]) ≠ ofH (a : ℍ[ℝ]) := by
  have hq : (a : ℍ[ℝ]) ≠ 0 := by
    intro h
    have := congrArg (fun q : ℍ[ℝ] => q.re) h
    simp at this
    linarith
  have hn : ‖(a : ℍ[ℝ])‖ = -a := by rw [Quaternion.norm_coe, Real.norm_eq_abs, abs_of_neg ha]
  constructor
  · rw [log_small hq (by simp [he.le]), coe_eq_axial, exp_axial he e0_unit _ (.inr rfl), hn,
      Real.exp_log (by linarith), polar_eq_axial]
    simp only [Real.cos_zero, mul_one, Real.sin_zero, mul_zero, ← coe_eq_axial]
  · intro h
    have := congrArg (fun q : ℍ[ℝ] => q.re) (ofH_injective h)
    simp at this
    linarith

example : Quat.exp 1e-9 (Quat.log 1e-9 (ofH ((-2 : ℝ) : ℍ[ℝ]))) = ofH ((-(-2) : ℝ) : ℍ[ℝ]) :=
  (C28_negative_real_counterexample 1e-9 (by norm_num) (-2) (by norm_num)).1

/-! ## C29 -/

/-- C29 (partial). `q ** n` is the group power for every integer `n` when vector part and angle exceed
`eps`, and for positive real `q`. Missing: the other quaternions, for which it is false in general (next
theorem). -/
theorem C29_pow_partial (eps : ℝ) (he : 0 < eps) (q : ℍ[ℝ]) (hq : q ≠ 0)
    (h : (eps < ‖q.im‖ ∧ eps < angleH q) ∨ (q.im = 0 ∧ 0 < q.re)) (n : ℤ) :
    Quat.pow eps (ofH q) (fin n) = ofH (q ^ n) := by
  have hr : 0 < ‖q‖ := norm_pos_iff.mpr hq
  have hexp : Real.exp (n * Real.log ‖q‖) = ‖q‖ ^ n := by
    rw [mul_comm, Real.exp_mul, Real.exp_log hr, Real.rpow_intCast]
  rcases h with ⟨h1, h2⟩ | ⟨h1, h2⟩
  · obtain ⟨u, hu, hu'⟩ := exists_direction (he.trans h1)
    have hsm : (n : ℝ) • axial (Real.log ‖q‖) (angleH q) u =
        axial (n * Real.log ‖q‖) (n * angleH q) u := by
      ext <;> simp [axial, mul_assoc]
    have hw : eps < |n * angleH q| ∨ (n : ℝ) * angleH q = 0 := by
      rcases eq_or_ne n 0 with rfl | hn
      · right; simp
      · left
        have h3 : (1 : ℝ) ≤ |(n : ℝ)| := by
          rw [← Int.cast_abs]; exact_mod_cast Int.one_le_abs hn
        rw [abs_mul]
        have h4 : |angleH q| = angleH q := abs_of_nonneg (Real.arccos_nonneg _)
        rw [h4]
        nlinarith
    rw [Quat.pow, log_big he h1 hu', mulScalar_ofH, hsm, exp_axial he hu _ hw, hexp,
      ← polar_zpow hu hr.ne', ← eq_polar hq hu']
  · have h3 := norm_im_sq q
    rw [h1, norm_zero] at h3
    have h4 : ‖q‖ = q.re := by nlinarith
    have h5 : q = ((q.re : ℝ) : ℍ[ℝ]) := by
      calc q = q.re + q.im := (Quaternion.re_add_im q).symm
        _ = _ := by rw [h1, add_zero]
    have hsm : (n : ℝ) • ((Real.log ‖q‖ : ℝ) : ℍ[ℝ]) = axial (n * Real.log ‖q‖) 0 ![1, 0, 0] := by
      ext <;> simp [axial]
    rw [Quat.pow, log_small hq (by rw [h1, norm_zero]; exact he.le), mulScalar_ofH, hsm,
      exp_axial he e0_unit _ (.inr rfl), hexp, polar_eq_axial]
    simp only [Real.cos_zero, mul_one, Real.sin_zero, mul_zero, ← coe_eq_axial]
    rw [h4]
    conv_rhs => rw [h5]
    rw [Quaternion.coe_zpow]

example : ∃ q : ℍ[ℝ], q ≠ 0 ∧ (q.im = 0 ∧ 0 < q.re) :=
  ⟨((2 : ℝ) : ℍ[ℝ]), by intro h; simpa using congrArg (fun q : ℍ[ℝ] => q.re) h, by simp, by simp⟩

/-- C29 is false as stated: `(-1) ** 1` evaluates to `1`. -/
theorem C29_pow_counterexample (eps : ℝ) (he : 0 < eps) :
    Quat.pow eps (ofH ((-1 : ℝ) : ℍ[ℝ])) (fin 1) = ofH ((1 : ℝ) : ℍ[ℝ]) ∧
    ofH ((1 : ℝ) : ℍ[ℝ]) ≠ ofH (((-1 : ℝ) : ℍ[ℝ]) ^ 1) := by
  have h := C28_negative_real_counterexample eps he (-1) (by norm_num)
  rw [neg_neg] at h
  refine ⟨?_, by rw [pow_one]; exact h.2⟩
  rw [Quat.pow]
  have hq : ((-1 : ℝ) : ℍ[ℝ]) ≠ 0 := by
    intro h; simpa using congrArg (fun q : ℍ[ℝ] => q.re) h
  have h1 := h.1
  rw [log_small hq (by simp [he.le])] at h1 ⊢
  rw [mulScalar_ofH, one_smul]
  exact h1

end Verif
