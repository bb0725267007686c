import Verif.Lemmas.QuatAD
import Verif.Props.Transforms
import Verif.Props.Isometry

/-! # Property C158: forward differentiation of quaternions

`IsADQ p F x`: the program `p` returns, for every direction, the quaternion `F x` and the derivative of `F` in that
direction. The input of the differentiated function is arbitrary: the theorems speak about functions `F` of whatever the
derivative is taken with respect to. -/

namespace Verif

open XR Quat Matrix

open scoped Quaternion

/-- **C158, values**. The values which the differentiated functions carry along are those of the functions. -/
theorem C158_primal (p q : QuatD) (eps : ℝ) (s : XR) (x n : Fin 3 → Dual) (t : Dual) :
    (p.neg.val = p.val.neg ∧ (p.add q).val = p.val.add q.val ∧ (p.sub q).val = p.val.sub q.val ∧
      (p.mul q).val = p.val.mul q.val ∧ p.conj.val = p.val.conj ∧ p.abs.val = p.val.abs) ∧
    (p.reciprocal.val = p.val.reciprocal ∧ (p.rightDiv q).val = p.val.rightDiv q.val ∧ (p.leftDiv q).val = p.val.leftDiv q.val) ∧
    ((p.exp eps).val = p.val.exp eps ∧ (p.log eps).val = p.val.log eps ∧ (p.pow eps s).val = p.val.pow eps s ∧
      (QuatD.rpow eps s p).val = Quat.rpow eps s p.val) ∧
    (fun i => (QuatD.rotation x p i).val) = quaternionRotation (fun i => (x i).val) p.val ∧
    (fun i => (QuatD.reflection x n i).val) = quaternionReflection (fun i => (x i).val) (fun i => (n i).val) ∧
    (QuatD.fromEulerAngles x).val = Verif.fromEulerAngles (fun i => (x i).val) ∧
    (QuatD.fromAxisAngle t x).val = Verif.fromAxisAngle t.val fun i => (x i).val := by
  have hc : ∀ (x y : Fin 3 → Dual) i, (QuatD.cross x y i).val = Quat.cross (fun i => (x i).val) (fun i => (y i).val) i :=
    fun x y i => by fin_cases i <;> rfl
  have hm : ∀ p q : QuatD, (p.mul q).val = p.val.mul q.val := fun p q => by
    ext i
    · rfl
    · show _ + _ + (QuatD.cross p.im q.im i).val = _
      rw [hc]; rfl
  have hs : ∀ (v : Fin 3 → Dual) i, (QuatD.sgn eps v i).val = Quat.sgn eps (fun i => (v i).val) i := fun v i => by
    by_cases h : vnorm (fun i => (v i).val) ≤ fin eps
    · rw [QuatD.sgn, Quat.sgn, if_pos (show (vnormD v).val ≤ fin eps from h), if_pos h]; rfl
    · rw [QuatD.sgn, Quat.sgn, if_neg (show ¬ (vnormD v).val ≤ fin eps from h), if_neg h]; rfl
  have he : ∀ p : QuatD, (p.exp eps).val = p.val.exp eps := fun p => by
    ext i
    · rfl
    · show XR.exp p.re.val * (QuatD.sgn eps p.im i).val * _ = _
      rw [hs]; rfl
  have hl : (p.log eps).val = p.val.log eps := by
    ext i
    · rfl
    · show (QuatD.sgn eps p.im i).val * _ = _
      rw [hs]; rfl
  have hr : ∀ p : QuatD, p.reciprocal.val = p.val.reciprocal := fun p => rfl
  refine ⟨⟨rfl, rfl, rfl, hm p q, rfl, rfl⟩, ⟨hr p, ?_, ?_⟩, ⟨he p, hl, ?_, ?_⟩, ?_, ?_, ?_, rfl⟩
  · rw [QuatD.rightDiv, hm, hr]; rfl
  · rw [QuatD.leftDiv, hm, hr]; rfl
  · rw [QuatD.pow, he, Quat.pow, ← hl]; rfl
  · rw [QuatD.rpow, he]; rfl
  · show ((p.reciprocal.mul ⟨Dual.const 0, x⟩).mul p).val.im = _
    rw [hm, hm, hr]; rfl
  · show ((QuatD.mul ⟨Dual.const 0, fun i => (n i).div (vnormD n)⟩ ⟨Dual.const 0, x⟩).mul ⟨Dual.const 0, fun i => (n i).div (vnormD n)⟩).val.im = _
    rw [hm, hm]; rfl
  · ext i
    · rfl
    · fin_cases i <;> rfl

section
variable {E : Type*} [NormedAddCommGroup E] [NormedSpace ℝ E]
variable {p q : E → QuatD} {F G : E → ℍ[ℝ]} {x : E}

/-- **C158, arithmetic**. Sums, products, conjugates and absolute values. -/
theorem C158_arithmetic (hp : IsADQ p F x) (hq : IsADQ q G x) :
    IsADQ (fun v => (p v).neg) (fun y => -F y) x ∧ IsADQ (fun v => (p v).add (q v)) (fun y => F y + G y) x ∧
    IsADQ (fun v => (p v).sub (q v)) (fun y => F y - G y) x ∧ IsADQ (fun v => (p v).mul (q v)) (fun y => F y * G y) x ∧
    IsADQ (fun v => (p v).conj) (fun y => star (F y)) x ∧
    (F x ≠ 0 → IsAD (fun v => (p v).abs) (fun y => ‖F y‖) x) ∧ (F x = 0 → NoTangent (fun v => (p v).abs) 0) := by
  refine ⟨hp.neg, hp.add hq, hp.sub hq, hp.mul hq, hp.conj, hp.abs, fun h v => ?_⟩
  obtain ⟨f', -, h2⟩ := hp
  beta_reduce
  rw [h2, h]
  have : (Dual.sq ⟨fin (0 : ℍ[ℝ]).re, fin (f' v).re⟩ +
      dotD (dualH 0 (f' v)).im (dualH 0 (f' v)).im : Dual) = ⟨fin 0, fin 0⟩ := by
    simp [Dual.sq, dotD, Dual.add_def, Dual.mul_def, dualH, imv, Fin.sum_univ_three]
  show Dual.sqrt (Dual.sq ⟨fin (0 : ℍ[ℝ]).re, fin (f' v).re⟩ + dotD (dualH 0 (f' v)).im (dualH 0 (f' v)).im) = _
  rw [this, Dual.sqrt_zero]

theorem QuatD.NanTangent.mul {p : QuatD} (h : p.NanTangent) (q : QuatD) : (p.mul q).NanTangent := by
  constructor
  · show p.re.tan * _ + _ - _ = nan
    rw [h.1]; simp
  · intro i
    show p.re.tan * _ + _ + _ + _ = nan
    rw [h.1]; simp

theorem reciprocal_nan (hp : IsADQ p F x) (h : F x = 0) (v : E) : (p v).reciprocal.NanTangent := by
  have ha : (p v).abs = ⟨fin 0, nan⟩ := (C158_arithmetic hp hp).2.2.2.2.2.2 h v
  have hr : ((p v).abs.sq.recip).tan = nan := by rw [ha]; simp [Dual.sq, Dual.recip]
  constructor
  · show _ + _ * ((p v).abs.sq.recip).tan = nan
    rw [hr]; simp
  · intro i
    show _ + _ * ((p v).abs.sq.recip).tan = nan
    rw [hr]; simp

/-- **C158, division and rotation**. Reciprocals, quotients and rotated vectors are differentiated correctly, with respect to
the quaternion and the vector at once, unless the quaternion is zero; then all tangents are `nan`. -/
theorem C158_rotation (hp : IsADQ p F x) (hq : IsADQ q G x) {z : E → Fin 3 → Dual} {a : E → Fin 3 → ℝ}
    (hz : ∀ i, IsAD (fun v => z v i) (fun y => a y i) x) :
    (G x ≠ 0 → IsADQ (fun v => (q v).reciprocal) (fun y => (G y)⁻¹) x ∧
      IsADQ (fun v => (p v).rightDiv (q v)) (fun y => F y * (G y)⁻¹) x ∧
      IsADQ (fun v => (p v).leftDiv (q v)) (fun y => (G y)⁻¹ * F y) x ∧
      ∀ i, IsAD (fun v => QuatD.rotation (z v) (q v) i) (fun y => imv ((G y)⁻¹ * pureH (a y) * G y) i) x) ∧
    (G x = 0 → ∀ v, (q v).reciprocal.NanTangent ∧ ((p v).leftDiv (q v)).NanTangent ∧
      ∀ i, (QuatD.rotation (z v) (q v) i).tan = nan) := by
  constructor
  · intro h
    have hr := hq.reciprocal h
    exact ⟨hr, hp.mul hr, hr.mul hp, ((hr.mul (IsADQ.pure hz)).mul hq).im⟩
  · intro h v
    have hr := reciprocal_nan hq h v
    exact ⟨hr, hr.mul _, ((hr.mul _).mul _).2⟩

/-- **C158, reflections**. Differentiated with respect to the vector and the normal at once. -/
theorem C158_reflection {z w : E → Fin 3 → Dual} {a n : E → Fin 3 → ℝ}
    (hz : ∀ i, IsAD (fun v => z v i) (fun y => a y i) x) (hw : ∀ i, IsAD (fun v => w v i) (fun y => n y i) x) (h0 : n x ≠ 0) :
    ∃ h : E → Fin 3 → ℝ, (∀ i, IsAD (fun v => QuatD.reflection (z v) (w v) i) (fun y => h y i) x) ∧
      ∀ y, n y ≠ 0 → IsMirror (n y) (a y) (h y) := by
  have hpos : ∀ y, n y ≠ 0 → 0 < ∑ i, n y i * n y i := fun y h => by
    obtain ⟨j, hj⟩ := Function.ne_iff.mp h
    exact Finset.sum_pos' (fun i _ => mul_self_nonneg _) ⟨j, Finset.mem_univ j, mul_self_pos.mpr hj⟩
  have hn := IsAD.norm hw (hpos x h0)
  have hu : ∀ i, IsAD (fun v => (w v i).div (vnormD (w v))) (fun y => n y i / Real.sqrt (∑ i, n y i * n y i)) x := fun i =>
    (hw i).div hn (Real.sqrt_pos.mpr (hpos x h0)).ne'
  have hq := IsADQ.pure (z := fun v i => (w v i).div (vnormD (w v))) hu
  refine ⟨fun y => imv (pureH (fun i => n y i / Real.sqrt (∑ i, n y i * n y i)) * pureH (a y) *
    pureH (fun i => n y i / Real.sqrt (∑ i, n y i * n y i))), ((hq.mul (IsADQ.pure hz)).mul hq).im, fun y hy => ?_⟩
  obtain ⟨b, h1, h2, -⟩ := (C30_reflection (n y) (a y)).1 hy
  have hs := (Real.sqrt_pos.mpr (hpos y hy)).ne'
  have h3 : quaternionReflection (vfin (a y)) (vfin (n y)) = vfin (imv (pureH (fun i => n y i / Real.sqrt (∑ i, n y i * n y i)) *
      pureH (a y) * pureH (fun i => n y i / Real.sqrt (∑ i, n y i * n y i)))) := by
    have e1 : (⟨0, fun i => vfin (n y) i / vnorm (vfin (n y))⟩ : Quat) = ofH (pureH fun i => n y i / Real.sqrt (∑ i, n y i * n y i)) := by
      ext i
      · rw [zero_eq]; rfl
      · show vfin (n y) i / vnorm (vfin (n y)) = _
        rw [vnorm_fin, vfin_apply, fin_div _ hs, ofH_im, imv_pureH, vfin_apply]
    have e2 : (⟨0, vfin (a y)⟩ : Quat) = ofH (pureH (a y)) := by
      ext i
      · rw [zero_eq]; rfl
      · rw [ofH_im, imv_pureH]
    rw [quaternionReflection, e1, e2, mul_ofH, mul_ofH, ofH_im]
  rw [h3] at h1
  have h4 : (imv (pureH (fun i => n y i / Real.sqrt (∑ i, n y i * n y i)) *
      pureH (a y) * pureH (fun i => n y i / Real.sqrt (∑ i, n y i * n y i)))) = b := by
    funext i
    simpa using congrFun h1 i
  show IsMirror (n y) (a y) (imv _)
  rwa [h4]

/-- **C158, constructors**. `from_euler_angles` and `from_axis_angle` are differentiated correctly everywhere. -/
theorem C158_constructors {z : E → Fin 3 → Dual} {a : E → Fin 3 → ℝ} {d : E → Dual} {t : E → ℝ}
    (hz : ∀ i, IsAD (fun v => z v i) (fun y => a y i) x) (hd : IsAD d t x) :
    (∀ h : E → ℍ[ℝ], (∀ y, Verif.fromEulerAngles (vfin (a y)) = ofH (h y)) → IsADQ (fun v => QuatD.fromEulerAngles (z v)) h x) ∧
    (∀ h : E → ℍ[ℝ], (∀ y, Verif.fromAxisAngle (fin (t y)) (vfin (a y)) = ofH (h y)) →
      IsADQ (fun v => QuatD.fromAxisAngle (d v) (z v)) h x) := by
  have h2 : (2 : ℝ) ≠ 0 := two_ne_zero
  constructor
  · intro h hh
    have s : ∀ i, IsAD (fun v => Dual.sin ((z v i).divc 2)) (fun y => Real.sin (a y i / 2)) x := fun i =>
      ((hz i).divc h2).sin
    have c : ∀ i, IsAD (fun v => Dual.cos ((z v i).divc 2)) (fun y => Real.cos (a y i / 2)) x := fun i =>
      ((hz i).divc h2).cos
    have e : ∀ y, h y = ⟨Real.cos (a y 0 / 2) * Real.cos (a y 1 / 2) * Real.cos (a y 2 / 2) +
          Real.sin (a y 0 / 2) * Real.sin (a y 1 / 2) * Real.sin (a y 2 / 2),
        Real.sin (a y 0 / 2) * Real.cos (a y 1 / 2) * Real.cos (a y 2 / 2) -
          Real.cos (a y 0 / 2) * Real.sin (a y 1 / 2) * Real.sin (a y 2 / 2),
        Real.cos (a y 0 / 2) * Real.sin (a y 1 / 2) * Real.cos (a y 2 / 2) +
          Real.sin (a y 0 / 2) * Real.cos (a y 1 / 2) * Real.sin (a y 2 / 2),
        Real.cos (a y 0 / 2) * Real.cos (a y 1 / 2) * Real.sin (a y 2 / 2) -
          Real.sin (a y 0 / 2) * Real.sin (a y 1 / 2) * Real.cos (a y 2 / 2)⟩ := fun y => by
      apply ofH_injective
      rw [← hh]
      ext i
      · simp [Verif.fromEulerAngles, ofH, lit_eq, fin_div _ h2]
      · fin_cases i <;> simp [Verif.fromEulerAngles, ofH, lit_eq, fin_div _ h2]
    rw [isADQ_iff]
    refine ⟨((((c 0).mul (c 1)).mul (c 2)).add (((s 0).mul (s 1)).mul (s 2))).congr (fun _ => rfl) fun y => by rw [e], fun i => ?_⟩
    fin_cases i
    · exact ((((s 0).mul (c 1)).mul (c 2)).sub (((c 0).mul (s 1)).mul (s 2))).congr (fun _ => rfl) fun y => by rw [e]; rfl
    · exact ((((c 0).mul (s 1)).mul (c 2)).add (((s 0).mul (c 1)).mul (s 2))).congr (fun _ => rfl) fun y => by rw [e]; rfl
    · exact ((((c 0).mul (c 1)).mul (s 2)).sub (((s 0).mul (s 1)).mul (c 2))).congr (fun _ => rfl) fun y => by rw [e]; rfl
  · intro h hh
    have e : ∀ y, h y = ⟨Real.cos (t y / 2), a y 0 * Real.sin (t y / 2), a y 1 * Real.sin (t y / 2), a y 2 * Real.sin (t y / 2)⟩ :=
      fun y => ofH_injective (by rw [← hh, fromAxisAngle_fin])
    rw [isADQ_iff]
    have hs := (hd.divc h2).sin
    refine ⟨(hd.divc h2).cos.congr (fun _ => rfl) fun y => by rw [e], fun i => ((hz i).mul hs).congr (fun _ => rfl) fun y => ?_⟩
    rw [e]
    fin_cases i <;> rfl

theorem exp_nan {eps : ℝ} {q : QuatD} (h : (vnormD q.im).tan = nan) : (q.exp eps).NanTangent := by
  constructor
  · show _ + _ * -((vnormD q.im).tan * _) = nan
    rw [h]; simp
  · intro i
    show _ + _ * ((vnormD q.im).tan * _) = nan
    rw [h]; simp

theorem vnormD_zero {z : Fin 3 → Dual} (h : ∀ i, ∃ t : ℝ, z i = ⟨fin 0, fin t⟩) : vnormD z = ⟨fin 0, nan⟩ := by
  choose t ht using h
  have : (⟨∑ i, (z i * z i).val, ∑ i, (z i * z i).tan⟩ : Dual) = ⟨fin 0, fin 0⟩ := by
    simp only [Fin.sum_univ_three, ht, Dual.mul_def]
    simp
  rw [vnormD, this, Dual.sqrt_zero]

theorem imv_of_im {q : ℍ[ℝ]} (h : q.im = 0) (i : Fin 3) : imv q i = 0 := by
  have h1 : q.im.imI = 0 ∧ q.im.imJ = 0 ∧ q.im.imK = 0 := by rw [h]; simp
  simp only [Quaternion.imI_im, Quaternion.imJ_im, Quaternion.imK_im] at h1
  fin_cases i
  exacts [h1.1, h1.2.1, h1.2.2]

/-- **C158, exponential function**. If the vector part is longer than `eps`, the tangent is the derivative of the exponential
function of the quaternions. At real numbers, where that function is smooth as well, all tangents are `nan`, also for the
zero direction. -/
theorem C158_exp {eps : ℝ} (he : 0 < eps) (hp : IsADQ p F x) :
    (eps < ‖(F x).im‖ → IsADQ (fun v => (p v).exp eps) (fun y => NormedSpace.exp (F y)) x) ∧
    ((F x).im = 0 → ∀ v, ((p v).exp eps).NanTangent) := by
  refine ⟨hp.exp he, fun h v => exp_nan ?_⟩
  obtain ⟨f', -, h2⟩ := hp
  rw [vnormD_zero fun i => ⟨imv (f' v) i, by rw [h2]; show Dual.mk _ _ = _; rw [imv_of_im h]⟩]

/-- **C158, exponential function near the real numbers**. If the vector part is not zero and not longer than `eps`, the real
part is differentiated correctly, and the tangent of the vector part is zero in all directions. The derivative of the
exponential function in the direction of the vector part is `exp(re) cos(|im|)` times the vector part. -/
theorem C158_exp_near {eps : ℝ} {c : ℍ[ℝ]} {p : ℍ[ℝ] → QuatD} (hp : IsADQ p (fun y => y) c) (h0 : c.im ≠ 0)
    (h1 : ‖c.im‖ ≤ eps) :
    IsAD (fun v => ((p v).exp eps).re) (fun y => (NormedSpace.exp y : ℍ[ℝ]).re) c ∧
    (∀ v i, ((p v).exp eps).im i = ⟨fin 0, fin 0⟩) ∧
    ∀ D : ℍ[ℝ] →L[ℝ] ℍ[ℝ], HasFDerivAt (fun y : ℍ[ℝ] => (NormedSpace.exp y : ℍ[ℝ])) D c →
      imv (D c.im) = (Real.exp c.re * Real.cos ‖c.im‖) • imv c := by
  have hn := hp.norm_im h0
  have hr := (isADQ_iff.mp hp).1.exp
  refine ⟨(hr.mul hn.cos).congr (fun _ => rfl) fun y => (exp_parts _).1, fun v i => ?_, fun D hD => ?_⟩
  · have hs : QuatD.sgn eps (p v).im i = Dual.const 0 := by
      rw [QuatD.sgn, hn.val, fin_le, if_pos h1]
    show Dual.exp (p v).re * QuatD.sgn eps (p v).im i * Dual.sin (vnormD (p v).im) = _
    obtain ⟨g', -, h3⟩ := hn
    obtain ⟨r', -, h4⟩ := hr
    have h3' := h3 v
    have h4' := h4 v
    beta_reduce at h3' h4'
    rw [hs, h3', h4']
    simp [Dual.const, Dual.sin, Dual.mul_def, XR.sin, XR.cos, zero_eq]
  · have hc : HasDerivAt (fun t : ℝ => c + t • c.im) c.im 0 := by
      have := ((hasDerivAt_id (0 : ℝ)).smul_const c.im).const_add c
      simpa using this
    have hw := norm_pos_iff.mpr h0
    funext i
    have h3 : HasDerivAt (fun t : ℝ => imv (NormedSpace.exp (c + t • c.im)) i) (imv (D c.im) i) 0 := by
      have hD' : HasFDerivAt (fun y : ℍ[ℝ] => (NormedSpace.exp y : ℍ[ℝ])) D (c + (0 : ℝ) • c.im) := by simpa using hD
      exact ((imL i).hasFDerivAt.comp _ hD').comp_hasDerivAt (0 : ℝ) hc
    have h4 : ∀ᶠ t : ℝ in nhds 0, imv (NormedSpace.exp (c + t • c.im)) i =
        Real.exp c.re * (imv c i / ‖c.im‖) * Real.sin ((1 + t) * ‖c.im‖) := by
      filter_upwards [lt_mem_nhds (show (-1 : ℝ) < 0 by norm_num)] with t ht
      have e1 : (c + t • c.im).im = (1 + t) • c.im := by ext <;> simp <;> ring
      have e2 : (c + t • c.im).re = c.re := by simp
      have e3 : imv (c + t • c.im) i = (1 + t) * imv c i := by fin_cases i <;> simp [imv] <;> ring
      have e4 : (0 : ℝ) < 1 + t := by linarith
      rw [(exp_parts _).2 i, e1, e2, e3, norm_smul, Real.norm_of_nonneg e4.le]
      field_simp
    have h5 : HasDerivAt (fun t : ℝ => Real.exp c.re * (imv c i / ‖c.im‖) * Real.sin ((1 + t) * ‖c.im‖))
        (Real.exp c.re * (imv c i / ‖c.im‖) * (Real.cos ((1 + 0) * ‖c.im‖) * ‖c.im‖)) 0 := by
      have := (((hasDerivAt_id (0 : ℝ)).const_add 1).mul_const ‖c.im‖).sin.const_mul (Real.exp c.re * (imv c i / ‖c.im‖))
      simpa using this
    have h6 := h3.unique (h5.congr_of_eventuallyEq h4)
    rw [h6]
    simp only [Pi.smul_apply, smul_eq_mul, add_zero, one_mul]
    field_simp

/-- **C158, logarithm**. If the vector part is longer than `eps`, the tangent is the derivative of the logarithm; otherwise,
unless the quaternion is zero, the tangent of the real part is right and that of the vector part is `nan` at real
numbers and zero between. -/
theorem C158_log {eps : ℝ} (he : 0 < eps) (hp : IsADQ p F x) (h0 : F x ≠ 0) :
    (eps < ‖(F x).im‖ → ∃ L : E → ℍ[ℝ], (∀ y, (F y).im ≠ 0 → NormedSpace.exp (L y) = F y) ∧
      (∀ y, eps < ‖(F y).im‖ → Quat.log eps (ofH (F y)) = ofH (L y)) ∧ IsADQ (fun v => (p v).log eps) L x) ∧
    (‖(F x).im‖ ≤ eps → IsAD (fun v => ((p v).log eps).re) (fun y => Real.log ‖F y‖) x ∧
      ∀ v i, ((F x).im = 0 → ((p v).log eps).im i = ⟨fin 0, nan⟩) ∧ ((F x).im ≠ 0 → ((p v).log eps).im i = ⟨fin 0, fin 0⟩)) := by
  refine ⟨fun h => ⟨fun y => logH (F y), fun y => exp_logH, fun y => log_ofH he, hp.log he h⟩, fun h =>
    ⟨((hp.abs h0).log (norm_pos_iff.mpr h0)).congr (fun _ => rfl) fun _ => rfl, fun v i => ?_⟩⟩
  have hval : (vnormD (p v).im).val = fin ‖(F x).im‖ := by
    obtain ⟨f', -, h2⟩ := hp
    rw [h2]
    show vnorm (fun i => fin (imv (F x) i)) = _
    exact vnorm_im (F x)
  have hs : QuatD.sgn eps (p v).im i = Dual.const 0 := by
    rw [QuatD.sgn, hval, fin_le, if_pos h]
  have hi : ((p v).log eps).im i = Dual.const 0 * (p v).arg := by
    show QuatD.sgn eps (p v).im i * (p v).arg = _
    rw [hs]
  rw [hi]
  refine ⟨fun him => ?_, fun him => ?_⟩
  · have hr := (isADQ_iff.mp hp).1.mul ((hp.abs h0).recip (norm_ne_zero_iff.mpr h0))
    obtain ⟨g', -, h3⟩ := hr
    have h3' := h3 v
    beta_reduce at h3'
    have hsq : ((F x).re * (1 / ‖F x‖)) ^ 2 = 1 := by
      have e := norm_im_sq (F x)
      rw [him, norm_zero] at e
      have := norm_ne_zero_iff.mpr h0
      field_simp
      linarith
    have hb : -1 ≤ (F x).re * (1 / ‖F x‖) ∧ (F x).re * (1 / ‖F x‖) ≤ 1 := by
      constructor <;> nlinarith
    have harg : (p v).arg = ⟨fin (Real.arccos ((F x).re * (1 / ‖F x‖))), fin (g' v) * ninf⟩ := by
      rw [QuatD.arg, h3', Dual.arccos, fin_arccos hb.1 hb.2]
      congr 1
      rw [fin_npow, hsq, one_eq, fin_sub, sub_self, fin_sqrt le_rfl, Real.sqrt_zero, fin_div_zero,
        show infSign 1 = pinf by simp [infSign]]
      rfl
    rw [harg, Dual.mul_def, Dual.const]
    have hz : (0 : XR) * (fin (g' v) * ninf) = nan := by
      rw [zero_eq]
      have h1 : fin 0 * pinf = nan := by show infSign 0 = nan; simp [infSign]
      have h2 : fin 0 * ninf = nan := by show infSign (-0) = nan; simp [infSign]
      show fin 0 * infSign (-(g' v)) = nan
      unfold infSign
      split_ifs
      exacts [h1, h2, mul_nan _]
    show Dual.mk (0 * fin _) (0 * fin _ + 0 * (fin (g' v) * ninf)) = _
    rw [hz]
    simp [zero_eq]
  · obtain ⟨g', -, h3⟩ := hp.arg him
    have h3' := h3 v
    beta_reduce at h3'
    rw [h3']
    simp [Dual.const, Dual.mul_def, zero_eq]

theorem Dual.sqrt_zero_nan : Dual.sqrt ⟨fin 0, nan⟩ = ⟨fin 0, nan⟩ := by
  simp only [Dual.sqrt, nan_mul]
  rw [fin_sqrt le_rfl, Real.sqrt_zero]

theorem vnormD_zero' {z : Fin 3 → Dual} (h : ∀ i, z i = ⟨fin 0, fin 0⟩ ∨ z i = ⟨fin 0, nan⟩) : (vnormD z).tan = nan := by
  by_cases hn : ∀ i, z i = ⟨fin 0, fin 0⟩
  · rw [vnormD_zero fun i => ⟨0, hn i⟩]
  · have hv : ∑ i, (z i * z i).val = fin 0 := by
      have : ∀ i, (z i * z i).val = fin 0 := fun i => by rcases h i with h | h <;> rw [h, Dual.mul_def] <;> simp
      simp only [Fin.sum_univ_three, this]; simp
    have ht : ∑ i, (z i * z i).tan = nan := by
      push Not at hn
      obtain ⟨j, hj⟩ := hn
      have h1 : ∀ i, (z i * z i).tan = fin 0 ∨ (z i * z i).tan = nan := fun i => by
        rcases h i with h | h <;> rw [h, Dual.mul_def] <;> simp
      have h2 : (z j * z j).tan = nan := by rw [(h j).resolve_left hj, Dual.mul_def]; simp
      rw [Fin.sum_univ_three]
      fin_cases j
      · rw [show (z 0 * z 0).tan = nan from h2]; simp
      · rw [show (z 1 * z 1).tan = nan from h2]; simp
      · rw [show (z 2 * z 2).tan = nan from h2]; simp
    rw [vnormD, hv, ht, Dual.sqrt_zero_nan]

/-- **C158, powers**. The power of a quaternion with an integer exponent is differentiated correctly if the vector part and
that of `n log q` are longer than `eps`. -/
theorem C158_pow {eps : ℝ} (he : 0 < eps) (hp : IsADQ p F x) (n : ℤ) (h : eps < ‖(F x).im‖)
    (h' : eps < |(n : ℝ)| * Real.arccos ((F x).re / ‖F x‖)) :
    IsADQ (fun v => (p v).pow eps (fin n)) (fun y => F y ^ n) x := by
  have h1 : (F x).im ≠ 0 := norm_pos_iff.mp (he.trans h)
  have hl := (hp.log he h).mulc n
  have him : ‖((n : ℝ) • logH (F x)).im‖ = |(n : ℝ)| * angleH (F x) := by
    obtain ⟨u, hu, -, e⟩ := logH_axial h1
    rw [e]
    have h2 : ‖((n : ℝ) • axial (Real.log ‖F x‖) (angleH (F x)) u).im‖ ^ 2 = (|(n : ℝ)| * angleH (F x)) ^ 2 := by
      rw [norm_sq_H, mul_pow, sq_abs]
      simp only [dotProduct, Fin.sum_univ_three] at hu
      simp [axial]
      linear_combination (n : ℝ) ^ 2 * angleH (F x) ^ 2 * hu
    exact (sq_eq_sq₀ (norm_nonneg _) (mul_nonneg (abs_nonneg _) (Real.arccos_nonneg _))).mp h2
  have hx := hl.exp he (by rw [him]; exact h')
  refine IsADQ.congr_nhds (hx.congr (fun _ => rfl) fun _ => rfl) ?_
  obtain ⟨f', hf, -⟩ := hp
  have hc : ContinuousAt (fun y => (F y).im) x := Quaternion.continuous_im.continuousAt.comp hf.continuousAt
  filter_upwards [hc.eventually_ne h1] with y hy
  let _ : NormedAlgebra ℚ ℍ[ℝ] := NormedAlgebra.restrictScalars ℚ ℝ ℍ[ℝ]
  rw [Int.cast_smul_eq_zsmul ℝ n (logH (F y)), NormedSpace.exp_zsmul, exp_logH hy]

/-- **C158, powers of almost real quaternions**. If the vector part is not longer than `eps`, or the exponent is zero, all
tangents of the power are `nan`, whatever the exponent. -/
theorem C158_pow_nan {eps : ℝ} (he : 0 < eps) (hp : IsADQ p F x) (h0 : F x ≠ 0) (s : ℝ) (h : ‖(F x).im‖ ≤ eps ∨ s = 0) (v : E) :
    ((p v).pow eps (fin s)).NanTangent := by
  refine exp_nan (vnormD_zero' fun i => ?_)
  show Dual.mulc (((p v).log eps).im i) (fin s) = _ ∨ Dual.mulc (((p v).log eps).im i) (fin s) = _
  rcases le_or_gt ‖(F x).im‖ eps with h | hgt
  · obtain ⟨h1, h2⟩ := ((C158_log he hp h0).2 h).2 v i
    by_cases him : (F x).im = 0
    · rw [h1 him]; right; simp [Dual.mulc]
    · rw [h2 him]; left; simp [Dual.mulc]
  · have hs : s = 0 := h.resolve_left (not_le.mpr hgt)
    obtain ⟨l', -, h2⟩ := (hp.log he hgt).im i
    have h3 := h2 v
    beta_reduce at h3
    left
    rw [h3, hs]; simp [Dual.mulc]

/-- **C158, powers with a positive base**. -/
theorem C158_rpow {eps : ℝ} (he : 0 < eps) (hp : IsADQ p F x) {b : ℝ} (hb : 0 < b) :
    (eps < |Real.log b| * ‖(F x).im‖ →
      IsADQ (fun v => QuatD.rpow eps (fin b) (p v)) (fun y => NormedSpace.exp (Real.log b • F y)) x) ∧
    ((F x).im = 0 ∨ b = 1 → ∀ v, (QuatD.rpow eps (fin b) (p v)).NanTangent) := by
  have hm := hp.mulc (Real.log b)
  have e : ∀ v, QuatD.rpow eps (fin b) (p v) =
      QuatD.exp eps ⟨(p v).re.mulc (fin (Real.log b)), fun i => ((p v).im i).mulc (fin (Real.log b))⟩ := fun v => by
    rw [QuatD.rpow, fin_log hb]
  have hn : ‖(Real.log b • F x).im‖ = |Real.log b| * ‖(F x).im‖ := by
    rw [show (Real.log b • F x).im = Real.log b • (F x).im by ext <;> simp, norm_smul, Real.norm_eq_abs]
  refine ⟨fun h => (hm.exp he (by rw [hn]; exact h)).congr e fun _ => rfl, fun h v => ?_⟩
  rw [e]
  refine (C158_exp he hm).2 ?_ v
  rw [← norm_eq_zero, hn]
  rcases h with h | rfl
  · rw [h]; simp
  · simp

end

/-! ## Transformations of ADFs -/

theorem turn_isAD {x : Pt 2} {z : Pt 2 → Fin 2 → Dual} {a : Pt 2 → Fin 2 → ℝ} (hz : ∀ i, IsAD (fun v => z v i) (fun y => a y i) x)
    (t : ℝ) (i : Fin 2) : IsAD (fun v => Dual.cmul (rotate2d.M (.float (fin t)) i 0) (z v 0) +
      Dual.cmul (rotate2d.M (.float (fin t)) i 1) (z v 1)) (fun y => turn2 (-t) (a y) i) x := by
  fin_cases i
  · exact (((hz 0).cmul (Real.cos t)).add ((hz 1).cmul (Real.sin t))).congr (fun _ => rfl) fun y => by simp [turn2]
  · exact (((hz 0).cmul (-Real.sin t)).add ((hz 1).cmul (Real.cos t))).congr (fun _ => rfl) fun y => by simp [turn2]

theorem addo_isAD {n : ℕ} {x : Pt n} {z : Pt n → Fin n → Dual} {a : Pt n → Fin n → ℝ}
    (hz : ∀ i, IsAD (fun v => z v i) (fun y => a y i) x) (o : Pt n) (i : Fin n) :
    IsAD (fun v => (z v i).subc (-efin o i)) (fun y => (a y + fun i => o i) i) x :=
  ((hz i).subc (-o i)).congr (fun _ => by rw [efin_apply, fin_neg]) fun y => by simp

theorem subo_isAD {n : ℕ} (x o : Pt n) (i : Fin n) :
    IsAD (fun v => (seed x v i).subc (efin o i)) (fun y => ((fun i => y i) - fun i => o i : Fin n → ℝ) i) x :=
  (seed_isAD x i).subc (o i)

theorem dotc_isAD {n : ℕ} {x : Pt n} {z : Pt n → Fin n → Dual} {a : Pt n → Fin n → ℝ}
    (hz : ∀ i, IsAD (fun v => z v i) (fun y => a y i) x) (u : Fin n → ℝ) :
    IsAD (fun v => dotcD (z v) (vfin u)) (fun y => a y ⬝ᵥ u) x := by
  choose t ht using fun i => (hz i).mulc (u i)
  refine ⟨∑ i, t i, ?_, fun v => ?_⟩
  · have := HasFDerivAt.fun_sum (u := Finset.univ) fun i _ => (ht i).1
    simpa [dotProduct] using this
  · have h2 := fun i => (ht i).2 v
    beta_reduce at h2
    simp only [dotcD, vfin_apply, h2, fin_sum, dotProduct, _root_.sum_apply]

/-- **C158, transformations of ADFs**. `rotate2d`, `reflect` and `project` move the points where the tangent is right, and
those where it is `nan`, with the solid. -/
theorem C158_transforms {n : ℕ} (x o : Pt n) (u : Fin n → ℝ) (hu : u ≠ 0) (fD : DADF n) (h : Pt n → ℝ) (p : Prop) :
    (∀ T : Pt n → Pt n, (∀ y, IsMirror u (fun i => y i - o i) fun i => T y i - o i) →
      Outcome p (fun w => fD (seed (T x) w)) h (T x) →
      Outcome p (fun v => reflectD fD (vfin u) (efin o) (seed x v)) (fun y => h (T y)) x) ∧
    (∀ T : Pt n → Pt n, (∀ y, (∃ c : ℝ, (fun i => T y i - y i) = c • u) ∧ (fun i => T y i - o i) ⬝ᵥ u = 0) →
      Outcome p (fun w => fD (seed (T x) w)) h (T x) →
      Outcome p (fun v => projectD fD (vfin u) (efin o) (seed x v)) (fun y => h (T y)) x) := by
  have huu := dot_self_ne_zero hu
  have hz := subo_isAD x o
  have hd := dotc_isAD hz u
  constructor
  · intro T hT ho
    have key : ∀ y i, T y i = ((fun i => (y i - o i) - 2 * ((fun i => y i - o i) ⬝ᵥ u) / (u ⬝ᵥ u) * u i) + fun i => o i : Fin n → ℝ) i := by
      intro y i
      obtain ⟨⟨c, hc⟩, h2⟩ := hT y
      have e : (fun i => T y i - o i) = (fun i => y i - o i) + c • u := by rw [← hc]; abel
      rw [e, dotProduct_comm, add_dotProduct, add_dotProduct, smul_dotProduct, smul_eq_mul] at h2
      have hc' : c = -(2 * ((fun i => y i - o i) ⬝ᵥ u) / (u ⬝ᵥ u)) := by
        field_simp; linarith
      have := congrFun e i
      simp only [Pi.add_apply, Pi.smul_apply, smul_eq_mul] at this ⊢
      rw [hc'] at this
      linarith
    refine Outcome.coords ho fun i => (addo_isAD (fun i => (hz i).sub (((hd.cmul 2).divc huu).mulc (u i))) o i).congr (fun v => ?_) fun y => ?_
    · rw [vnorm_sq_fin]; rfl
    · rw [key]; rfl
  · intro T hT ho
    have key : ∀ y i, T y i = ((fun i => (y i - o i) - ((fun i => y i - o i) ⬝ᵥ u) / (u ⬝ᵥ u) * u i) + fun i => o i : Fin n → ℝ) i := by
      intro y i
      obtain ⟨⟨c, hc⟩, h2⟩ := hT y
      have e : (fun i => T y i - o i) = (fun i => y i - o i) + c • u := by rw [← hc]; ext i; simp
      rw [e, add_dotProduct, smul_dotProduct, smul_eq_mul] at h2
      have hc' : c = -(((fun i => y i - o i) ⬝ᵥ u) / (u ⬝ᵥ u)) := by
        field_simp; linarith
      have := congrFun e i
      simp only [Pi.add_apply, Pi.smul_apply, smul_eq_mul] at this ⊢
      rw [hc'] at this
      linarith
    refine Outcome.coords ho fun i => (addo_isAD (fun i => (hz i).sub ((hd.divc huu).mulc (u i))) o i).congr (fun v => ?_) fun y => ?_
    · rw [vnorm_sq_fin]; rfl
    · rw [key]; rfl

/-- **C158, values of transformed ADFs**. -/
theorem C158_transforms_primal {n : ℕ} (fD : DADF n) (f : ADF n) (hf : Primal fD f) (u o : Vec n) (gD : DADF 2) (g : ADF 2)
    (hg : Primal gD g) (angle : NumArg) (c : Vec 2) (kD : DADF 3) (k : ADF 3) (hk : Primal kD k) (q : AngleArg)
    (axis : Option (Vec 3)) (m : Vec 3) :
    Primal (reflectD fD u o) (reflect f u o) ∧ Primal (projectD fD u o) (project f u o) ∧
    Primal (rotate2dD gD angle c) (rotate2d g angle c) ∧
    (∀ err, rotate3dD kD q axis m = .error err ↔ rotate3d k q axis m = .error err) ∧
    ∀ lD l, rotate3dD kD q axis m = .ok lD → rotate3d k q axis m = .ok l → Primal lD l := by
  refine ⟨fun z => hf _, fun z => hf _, fun z => ?_, fun err => ?_, fun lD l h1 h2 => ?_⟩
  · refine (hg _).trans ?_
    show g _ = g _
    congr 1
    funext i
    show _ + _ - -c i = vdot _ _ - -c i
    rw [vdot, Fin.sum_univ_two]; rfl
  · rw [rotate3dD, rotate3d]
    cases rotate3d.quat q axis with
    | error e => exact ⟨fun h => by cases h; rfl, fun h => by cases h; rfl⟩
    | ok r =>
      constructor
      · intro h; cases h
      · intro h; cases h
  · rw [rotate3dD] at h1
    rw [rotate3d] at h2
    cases hq : rotate3d.quat q axis with
    | error e => rw [hq] at h1; exact absurd h1 (by intro h; cases h)
    | ok r =>
      rw [hq] at h1 h2
      cases h1; cases h2
      intro z
      refine (hk _).trans ?_
      have h3 := (C158_primal (QuatD.const r) (QuatD.const r) 0 0 (fun i => (z i).subc (m i)) (fun i => (z i).subc (m i)) (z 0)).2.2.2.1
      show k (fun i => (QuatD.rotation (fun i => (z i).subc (m i)) (QuatD.const r) i).val - -m i) = _
      rw [show (fun i => (QuatD.rotation (fun i => (z i).subc (m i)) (QuatD.const r) i).val - -m i) =
        fun i => quaternionRotation (fun i => (z i).val - m i) r i - -m i from funext fun i => by rw [congrFun h3 i]; rfl]
      rfl

/-- **C158, `rotate2d`** with a float angle. -/
theorem C158_rotate2d (x o : Pt 2) (t : ℝ) (fD : DADF 2) (h : Pt 2 → ℝ) (p : Prop) (T : Pt 2 → Pt 2)
    (hT : ∀ y, (fun i => T y i - o i) = turn2 (-t) fun i => y i - o i) (ho : Outcome p (fun w => fD (seed (T x) w)) h (T x)) :
    Outcome p (fun v => rotate2dD fD (.float (fin t)) (efin o) (seed x v)) (fun y => h (T y)) x := by
  refine Outcome.coords ho fun i => (addo_isAD (turn_isAD (subo_isAD x o) t) o i).congr (fun v => rfl) fun y => ?_
  have := congrFun (hT y) i
  show T y i = turn2 (-t) (fun i => y i - o i) i + o i
  rw [← this]; ring

example (h : Pt 2 → ℝ) (fD : DADF 2) (T : Pt 2 → Pt 2) (hT : ∀ y, (fun i => T y i - (0 : Pt 2) i) = turn2 (-1) fun i => y i - (0 : Pt 2) i)
    (x : Pt 2) (ho : IsAD (fun w => fD (seed (T x) w)) h (T x)) :
    IsAD (fun v => rotate2dD fD (.float (fin 1)) (efin 0) (seed x v)) (fun y => h (T y)) x :=
  (C158_rotate2d x 0 1 fD h True T hT ⟨fun _ => ho, fun h => absurd trivial h⟩).1 trivial

/-- **C158, `rotate3d`** about a unit axis and by Euler angles. -/
theorem C158_rotate3d (x o : Pt 3) (fD : DADF 3) (h : Pt 3 → ℝ) (p : Prop) (T : Pt 3 → Pt 3)
    (ho : Outcome p (fun w => fD (seed (T x) w)) h (T x)) :
    (∀ (t : ℝ) (u : Fin 3 → ℝ), u ⬝ᵥ u = 1 → (∀ y, (fun i => T y i - o i) = rodrigues u t fun i => y i - o i) →
      ∃ gD, rotate3dD fD (.scalar (fin t)) (some (vfin u)) (efin o) = .ok gD ∧
        Outcome p (fun v => gD (seed x v)) (fun y => h (T y)) x) ∧
    (∀ a b c : ℝ, (∀ y, (fun i => T y i - o i) = rodrigues ex a (rodrigues ey b (rodrigues ez c fun i => y i - o i))) →
      ∃ gD, rotate3dD fD (.euler (vfin ![a, b, c])) none (efin o) = .ok gD ∧
        Outcome p (fun v => gD (seed x v)) (fun y => h (T y)) x) := by
  have hrot : ∀ q : ℍ[ℝ], q ≠ 0 → ∀ i, IsAD (fun v => (QuatD.rotation (fun i => (seed x v i).subc (efin o i)) (QuatD.const (ofH q)) i))
      (fun y : Pt 3 => rotH q (fun i => y i - o i) i) x := fun q hq i =>
    ((C158_rotation (IsADQ.const q) (IsADQ.const q) (subo_isAD x o)).1 hq).2.2.2 i
  have key : ∀ (angle : AngleArg) (axis : Option (Vec 3)) (q : ℍ[ℝ]), rotate3d.quat angle axis = .ok (ofH q) → q ≠ 0 →
      (∀ (i : Fin 3) (F : ADF 3), rotate3d (fun y => y i) angle axis (efin o) = .ok F → ∀ y : Pt 3, F (efin y) = fin (T y i)) →
      ∃ gD, rotate3dD fD angle axis (efin o) = .ok gD ∧ Outcome p (fun v => gD (seed x v)) (fun y => h (T y)) x := by
    intro angle axis q hq hq0 hF
    refine ⟨translateD (fun x => translateD fD (fun i => -efin o i) (QuatD.rotation x (QuatD.const (ofH q)))) (efin o), ?_, ?_⟩
    · rw [rotate3dD, hq]; rfl
    · refine Outcome.coords ho fun i => (addo_isAD (hrot q hq0) o i).congr (fun v => rfl) fun y => ?_
      have h1 := hF i (translate (fun x => translate (fun y => y i) (fun i => -efin o i) (quaternionRotation x (ofH q))) (efin o))
        (by rw [rotate3d, hq]; rfl) y
      have h2 : translate (fun x => translate (fun y => y i) (fun i => -efin o i) (quaternionRotation x (ofH q))) (efin o) (efin y) =
          fin (rotH q (fun i => y i - o i) i + o i) := by
        show quaternionRotation (vfin fun i => y i - o i) (ofH q) i - -fin (o i) = _
        rw [quaternionRotation_ofH hq0]
        simp
      rw [h1, fin_inj] at h2
      exact h2
  have hne : ∀ q : ℍ[ℝ], (ofH q).abs = fin 1 → q ≠ 0 := by
    rintro q hq rfl
    rw [abs_ofH, fin_inj, norm_zero] at hq
    exact zero_ne_one hq
  have hax : ∀ (t : ℝ) (u : Fin 3 → ℝ), ∃ q : ℍ[ℝ], Verif.fromAxisAngle (fin t) (vfin u) = ofH q := fun t u =>
    ⟨_, fromAxisAngle_fin t u⟩
  refine ⟨fun t u hu hT => ?_, fun a b c hT => ?_⟩
  · have h1 := (C26_axis_angle (-t) u 0 hu).1
    obtain ⟨q, hq⟩ := hax (-t) u
    refine key _ _ q (show rotate3d.quat (.scalar (fin t)) (some (vfin u)) = _ by
      show Except.ok (Verif.fromAxisAngle (-fin t) (vfin u)) = _
      rw [fin_neg, hq]) (hne _ (by rwa [hq] at h1)) fun i F hF y => ?_
    obtain ⟨F', h2, h3⟩ := rotate3d_axis (fun y => y i) t hu (fun i => o i)
    have h4 : F = F' := Except.ok.inj (hF.symm.trans h2)
    rw [h4]
    refine (h3 _).trans ?_
    have := congrFun (hT y) i
    rw [vfin_apply, fin_inj, Pi.add_apply]
    show rodrigues u t (fun i => y i - o i) i + o i = _
    rw [← this]; ring
  · have h1 := (C27_euler (-a) (-b) (-c)).2
    have hneg : (fun i => -vfin ![a, b, c] i) = vfin ![-a, -b, -c] := by
      funext i; fin_cases i <;> simp
    obtain ⟨q, hq⟩ : ∃ q : ℍ[ℝ], Verif.fromEulerAngles (vfin ![-a, -b, -c]) = ofH q := by
      obtain ⟨q1, h1⟩ := hax (-c) ![0, 0, 1]
      obtain ⟨q2, h2⟩ := hax (-b) ![0, 1, 0]
      obtain ⟨q3, h3⟩ := hax (-a) ![1, 0, 0]
      exact ⟨q1 * q2 * q3, by rw [(C27_euler (-a) (-b) (-c)).1, h1, h2, h3, mul_ofH, mul_ofH]⟩
    refine key _ _ q (show rotate3d.quat (.euler (vfin ![a, b, c])) none = _ by
      show Except.ok (Verif.fromEulerAngles fun i => -vfin ![a, b, c] i) = _
      rw [hneg, hq]) (hne _ (by rwa [hq] at h1)) fun i F hF y => ?_
    obtain ⟨F', h2, h3⟩ := rotate3d_euler (fun y => y i) a b c (fun i => o i)
    have h4 : F = F' := Except.ok.inj (hF.symm.trans h2)
    rw [h4]
    refine (h3 _).trans ?_
    have := congrFun (hT y) i
    rw [vfin_apply, fin_inj, Pi.add_apply]
    show rodrigues ex a (rodrigues ey b (rodrigues ez c fun i => y i - o i)) i + o i = _
    rw [← this]; ring

/-! ## Examples -/

theorem dualH_isADQ (c : ℍ[ℝ]) : IsADQ (fun v => dualH c v) (fun y => y) c :=
  ⟨ContinuousLinearMap.id ℝ _, hasFDerivAt_id c, fun _ => rfl⟩

theorem norm_im_pure (a : ℝ) (ha : 0 ≤ a) : ‖(pureH ![a, 0, 0]).im‖ = a := by
  have : ‖(pureH ![a, 0, 0]).im‖ ^ 2 = a ^ 2 := by rw [norm_sq_H]; simp
  exact (sq_eq_sq₀ (norm_nonneg _) ha).mp this

/-- The square of a quaternion has the right derivative at `i`; at the identity the tangent is `nan` in all directions. -/
example : IsADQ (fun v => (dualH (pureH ![1, 0, 0]) v).pow (1 / 10 ^ 8) (fin (2 : ℤ))) (fun y => y ^ (2 : ℤ)) (pureH ![1, 0, 0]) ∧
    ∀ v, ((dualH 1 v).pow (1 / 10 ^ 8) (fin 2)).NanTangent := by
  refine ⟨C158_pow (by norm_num) (dualH_isADQ _) 2 (by rw [norm_im_pure 1 zero_le_one]; norm_num) ?_,
    C158_pow_nan (by norm_num) (dualH_isADQ 1) one_ne_zero 2 (Or.inl (by simp))⟩
  have : (pureH ![1, 0, 0]).re = 0 := rfl
  rw [this, zero_div, Real.arccos_zero]
  have := Real.pi_gt_three
  norm_num
  linarith

/-- The exponential function at `i`, at the identity and within the tube of radius `eps`. -/
example : IsADQ (fun v => (dualH (pureH ![1, 0, 0]) v).exp (1 / 10 ^ 8)) (fun y => NormedSpace.exp y) (pureH ![1, 0, 0]) ∧
    (∀ v, ((dualH 1 v).exp (1 / 10 ^ 8)).NanTangent) ∧
    ∀ v i, ((dualH (pureH ![1 / 10 ^ 9, 0, 0]) v).exp (1 / 10 ^ 8)).im i = ⟨fin 0, fin 0⟩ :=
  ⟨(C158_exp (by norm_num) (dualH_isADQ _)).1 (by rw [norm_im_pure 1 zero_le_one]; norm_num),
    (C158_exp (by norm_num) (dualH_isADQ 1)).2 (by simp),
    (C158_exp_near (dualH_isADQ _) (norm_ne_zero_iff.mp (by rw [norm_im_pure _ (by norm_num)]; norm_num))
      (by rw [norm_im_pure _ (by norm_num)]; norm_num)).2.1⟩

/-- The logarithm at `1`. -/
example : ∀ v i, ((dualH 1 v).log (1 / 10 ^ 8)).im i = ⟨fin 0, nan⟩ := fun v i =>
  (((C158_log (by norm_num) (dualH_isADQ 1) one_ne_zero).2 (by simp)).2 v i).1 (by simp)

/-- Powers with the base `e`. -/
example : IsADQ (fun v => QuatD.rpow (1 / 10 ^ 8) (fin (Real.exp 1)) (dualH (pureH ![1, 0, 0]) v))
    (fun y => NormedSpace.exp (Real.log (Real.exp 1) • y)) (pureH ![1, 0, 0]) :=
  (C158_rpow (by norm_num) (dualH_isADQ _) (Real.exp_pos 1)).1
    (by rw [norm_im_pure 1 zero_le_one, Real.log_exp]; norm_num)

/-- A vector rotated by a quaternion, differentiated with respect to the quaternion. -/
example (z : Fin 3 → ℝ) (i : Fin 3) : IsAD (fun v => QuatD.rotation (fun i => ⟨fin (z i), fin 0⟩) (dualH 1 v) i)
    (fun y : ℍ[ℝ] => imv (y⁻¹ * pureH z * y) i) 1 :=
  (((C158_rotation (dualH_isADQ 1) (dualH_isADQ 1) (z := fun _ i => ⟨fin (z i), fin 0⟩) (a := fun _ => z)
    fun _ => ⟨0, hasFDerivAt_const _ _, fun _ => rfl⟩).1 one_ne_zero).2.2.2) i

/-- A ball mirrored in the first axis: the tangent is `nan` at its centre only. -/
example (x : Pt 2) (h : Pt 2 → ℝ) (hh : ∀ y, sphere (fin 1) (efin y) = fin (h y)) :
    Outcome (!₂[x 0, -x 1] ≠ (0 : Pt 2)) (fun v => reflectD (sphereD (fin 1)) (vfin ![0, 1]) (efin 0) (seed x v))
      (fun y => h !₂[y 0, -y 1]) x := by
  have h0 : (![0, 1] : Fin 2 → ℝ) ≠ 0 := fun h => one_ne_zero (congrFun h 1)
  refine (C158_transforms x 0 ![0, 1] h0 (sphereD (fin 1)) h _).1 (fun y => !₂[y 0, -y 1]) (fun y => ⟨⟨-2 * y 1, ?_⟩, ?_⟩)
    (sphereD_outcome one_ne_zero _ h hh)
  · funext i; fin_cases i <;> simp; ring
  · simp [dotProduct]

end Verif
