import Verif.Props.Quaternions
import Verif.Props.Mumag3
import Mathlib.LinearAlgebra.UnitaryGroup
import Mathlib.LinearAlgebra.Matrix.Adjugate
import Mathlib.LinearAlgebra.Matrix.DotProduct

/-!
# C134: the rotations of the code are all rotations
-/

namespace Verif

open XR Matrix Quat

open scoped Quaternion

/-- The entries of a rotation: it is orthogonal and its own cofactor matrix. -/
theorem rotation_entries {R : Matrix (Fin 3) (Fin 3) ℝ} (hR : R ∈ specialOrthogonalGroup (Fin 3) ℝ) :
    (∀ i j, ∑ k, R i k * R j k = (1 : Matrix (Fin 3) (Fin 3) ℝ) i j) ∧
    (∀ i j, ∑ k, R k i * R k j = (1 : Matrix (Fin 3) (Fin 3) ℝ) i j) ∧ R.adjugate = R.transpose := by
  obtain ⟨hO, hdet⟩ := mem_specialOrthogonalGroup_iff.mp hR
  have h1 : R * R.transpose = 1 := (mem_orthogonalGroup_iff _ _).mp hO
  have h2 : R.transpose * R = 1 := (mem_orthogonalGroup_iff' _ _).mp hO
  refine ⟨fun i j => ?_, fun i j => ?_, ?_⟩
  · rw [← h1, mul_apply]; rfl
  · rw [← h2, mul_apply]; rfl
  · calc R.adjugate = R.transpose * (R * R.adjugate) := by rw [← mul_assoc, h2, one_mul]
      _ = R.transpose := by rw [mul_adjugate, hdet, one_smul, mul_one]

/-- A quaternion from its components. -/
def mkH (a b c d : ℝ) : ℍ[ℝ] := ⟨a, b, c, d⟩

@[simp] theorem mkH_re (a b c d : ℝ) : (mkH a b c d).re = a := rfl
@[simp] theorem mkH_imI (a b c d : ℝ) : (mkH a b c d).imI = b := rfl
@[simp] theorem mkH_imJ (a b c d : ℝ) : (mkH a b c d).imJ = c := rfl
@[simp] theorem mkH_imK (a b c d : ℝ) : (mkH a b c d).imK = d := rfl

theorem intertwine {R : Matrix (Fin 3) (Fin 3) ℝ} {a b c d : ℝ}
    (h00 : b * R 0 0 + c * R 1 0 + d * R 2 0 = b) (h01 : b * R 0 1 + c * R 1 1 + d * R 2 1 = c)
    (h02 : b * R 0 2 + c * R 1 2 + d * R 2 2 = d)
    (h10 : a * R 0 0 + c * R 2 0 - d * R 1 0 = a) (h11 : a * R 0 1 + c * R 2 1 - d * R 1 1 = d)
    (h12 : a * R 0 2 + c * R 2 2 - d * R 1 2 = -c)
    (h20 : a * R 1 0 + d * R 0 0 - b * R 2 0 = -d) (h21 : a * R 1 1 + d * R 0 1 - b * R 2 1 = a)
    (h22 : a * R 1 2 + d * R 0 2 - b * R 2 2 = b)
    (h30 : a * R 2 0 + b * R 1 0 - c * R 0 0 = c) (h31 : a * R 2 1 + b * R 1 1 - c * R 0 1 = -b)
    (h32 : a * R 2 2 + b * R 1 2 - c * R 0 2 = a) (x : Fin 3 → ℝ) :
    pureH x * mkH a b c d = mkH a b c d * pureH (R.mulVec x) := by
  ext
  · simp [mulVec, dotProduct, Fin.sum_univ_three]
    linear_combination x 0 * h00 + x 1 * h01 + x 2 * h02
  · simp [mulVec, dotProduct, Fin.sum_univ_three]
    linear_combination -(x 0) * h10 - x 1 * h11 - x 2 * h12
  · simp [mulVec, dotProduct, Fin.sum_univ_three]
    linear_combination -(x 0) * h20 - x 1 * h21 - x 2 * h22
  · simp [mulVec, dotProduct, Fin.sum_univ_three]
    linear_combination -(x 0) * h30 - x 1 * h31 - x 2 * h32

theorem exists_intertwine {R : Matrix (Fin 3) (Fin 3) ℝ} (hR : R ∈ specialOrthogonalGroup (Fin 3) ℝ) :
    ∃ q : ℍ[ℝ], q ≠ 0 ∧ (1 + R.trace ≠ 0 → q = mkH (1 + R.trace) (R 1 2 - R 2 1) (R 2 0 - R 0 2) (R 0 1 - R 1 0)) ∧
      ∀ x, pureH x * q = q * pureH (R.mulVec x) := by
  obtain ⟨hr, hc, ha⟩ := rotation_entries hR
  have ha' := fun i j => congrFun (congrFun ha i) j
  have r00 := hr 0 0; have r01 := hr 0 1; have r02 := hr 0 2; have r11 := hr 1 1; have r12 := hr 1 2; have r22 := hr 2 2
  have c00 := hc 0 0; have c01 := hc 0 1; have c02 := hc 0 2; have c11 := hc 1 1; have c12 := hc 1 2; have c22 := hc 2 2
  have a00 := ha' 0 0; have a01 := ha' 0 1; have a02 := ha' 0 2
  have a10 := ha' 1 0; have a11 := ha' 1 1; have a12 := ha' 1 2
  have a20 := ha' 2 0; have a21 := ha' 2 1; have a22 := ha' 2 2
  simp [adjugate_fin_three, Fin.sum_univ_three] at r00 r01 r02 r11 r12 r22 c00 c01 c02 c11 c12 c22 a00 a01 a02 a10 a11 a12 a20 a21 a22
  have ht : R.trace = R 0 0 + R 1 1 + R 2 2 := by simp [trace, Fin.sum_univ_three]
  rw [ht]
  clear ha ha' hr hc hR ht
  by_cases h0 : 1 + (R 0 0 + R 1 1 + R 2 2) ≠ 0
  · refine ⟨mkH _ _ _ _, ?_, fun _ => rfl, intertwine ?_ ?_ ?_ ?_ ?_ ?_ ?_ ?_ ?_ ?_ ?_ ?_⟩
    · exact fun h => h0 (congrArg (fun q : ℍ[ℝ] => q.re) h)
    all_goals linarith
  by_cases h1 : 1 + (R 0 0 - R 1 1 - R 2 2) ≠ 0
  · refine ⟨mkH (R 1 2 - R 2 1) (1 + (R 0 0 - R 1 1 - R 2 2)) (R 0 1 + R 1 0) (R 0 2 + R 2 0), ?_, fun h => absurd h h0,
      intertwine ?_ ?_ ?_ ?_ ?_ ?_ ?_ ?_ ?_ ?_ ?_ ?_⟩
    · exact fun h => h1 (congrArg (fun q : ℍ[ℝ] => q.imI) h)
    all_goals linarith
  by_cases h2 : 1 + (R 1 1 - R 0 0 - R 2 2) ≠ 0
  · refine ⟨mkH (R 2 0 - R 0 2) (R 0 1 + R 1 0) (1 + (R 1 1 - R 0 0 - R 2 2)) (R 1 2 + R 2 1), ?_, fun h => absurd h h0,
      intertwine ?_ ?_ ?_ ?_ ?_ ?_ ?_ ?_ ?_ ?_ ?_ ?_⟩
    · exact fun h => h2 (congrArg (fun q : ℍ[ℝ] => q.imJ) h)
    all_goals linarith
  refine ⟨mkH (R 0 1 - R 1 0) (R 0 2 + R 2 0) (R 1 2 + R 2 1) (1 + (R 2 2 - R 0 0 - R 1 1)), ?_, fun h => absurd h h0,
      intertwine ?_ ?_ ?_ ?_ ?_ ?_ ?_ ?_ ?_ ?_ ?_ ?_⟩
  · intro h
    have h3 : 1 + (R 2 2 - R 0 0 - R 1 1) = 0 := congrArg (fun q : ℍ[ℝ] => q.imK) h
    push Not at h0 h1 h2
    linarith
  all_goals linarith

/-- The matrix of the rotation which belongs to `q`. -/
noncomputable def rotMatrix (q : ℍ[ℝ]) : Matrix (Fin 3) (Fin 3) ℝ := Matrix.of fun i j => rotH q (Pi.single j 1) i

theorem rotMatrix_mulVec (q : ℍ[ℝ]) (x : Fin 3 → ℝ) : (rotMatrix q).mulVec x = rotH q x := by
  have hx : x = x 0 • Pi.single 0 1 + (1 : ℝ) • (x 1 • Pi.single 1 1 + x 2 • Pi.single 2 1) := by
    funext i; fin_cases i <;> simp
  conv_rhs => rw [hx, rotH_linear, rotH_linear]
  funext i
  simp [rotMatrix, mulVec, dotProduct, Fin.sum_univ_three]
  ring

theorem rotMatrix_mem {q : ℍ[ℝ]} (hq : q ≠ 0) : rotMatrix q ∈ specialOrthogonalGroup (Fin 3) ℝ := by
  have hdot := fun i j => (rotH_dot_cross hq (Pi.single i 1) (Pi.single j 1)).1
  have hO : (rotMatrix q).transpose * rotMatrix q = 1 := by
    ext i j
    rw [mul_apply]
    have := hdot i j
    rw [dotProduct_single, mul_one, Pi.single_comm] at this
    simpa [rotMatrix, dotProduct, one_apply, Pi.single_apply] using this
  refine mem_specialOrthogonalGroup_iff.mpr ⟨(mem_orthogonalGroup_iff' _ _).mpr hO, ?_⟩
  have hcr := (rotH_dot_cross hq (Pi.single 0 1) (Pi.single 1 1)).2
  have he : (Pi.single 0 1 : Fin 3 → ℝ) ⨯₃ Pi.single 1 1 = Pi.single 2 1 := by
    rw [cross_apply]; funext i; fin_cases i <;> simp
  rw [he, cross_apply] at hcr
  have h0 := congrFun hcr 0
  have h1 := congrFun hcr 1
  have h2 := congrFun hcr 2
  have h3 := hdot 2 2
  simp [dotProduct, Fin.sum_univ_three] at h0 h1 h2 h3
  rw [det_fin_three]
  simp only [rotMatrix, of_apply]
  linear_combination h3 - rotH q (Pi.single 2 1) 0 * h0 - rotH q (Pi.single 2 1) 1 * h1 - rotH q (Pi.single 2 1) 2 * h2

/-- The maps `x ↦ quaternion_rotation(x, q)` with `q ≠ 0` are rotations of the space. -/
theorem C134_rotations (q : ℍ[ℝ]) (hq : q ≠ 0) : ∃ R ∈ specialOrthogonalGroup (Fin 3) ℝ,
    ∀ x, quaternionRotation (vfin x) (ofH q) = vfin (R.mulVec x) :=
  ⟨rotMatrix q, rotMatrix_mem hq, fun x => by rw [quaternionRotation_ofH hq, rotMatrix_mulVec]⟩

theorem exists_rotH {R : Matrix (Fin 3) (Fin 3) ℝ} (hR : R ∈ specialOrthogonalGroup (Fin 3) ℝ) :
    ∃ q : ℍ[ℝ], ‖q‖ = 1 ∧ ∀ x, rotH q x = R.mulVec x := by
  obtain ⟨q, hq, -, h⟩ := exists_intertwine hR
  have hn : ‖q‖ ≠ 0 := norm_ne_zero_iff.mpr hq
  refine ⟨‖q‖⁻¹ • q, by rw [norm_smul, norm_inv, norm_norm, inv_mul_cancel₀ hn], fun x => ?_⟩
  rw [rotH_smul (inv_ne_zero hn)]
  apply pureH_injective
  rw [pure_rotH hq, mul_assoc, h, ← mul_assoc, inv_mul_cancel₀ hq, one_mul]

/-- Every rotation of the space is `x ↦ quaternion_rotation(x, q)` for a unit quaternion `q`. -/
theorem C134_onto (R : Matrix (Fin 3) (Fin 3) ℝ) (hR : R ∈ specialOrthogonalGroup (Fin 3) ℝ) :
    ∃ q : ℍ[ℝ], (ofH q).abs = fin 1 ∧ ∀ x, quaternionRotation (vfin x) (ofH q) = vfin (R.mulVec x) := by
  obtain ⟨q, hq, h⟩ := exists_rotH hR
  have hq0 : q ≠ 0 := fun h0 => by rw [h0, norm_zero] at hq; norm_num at hq
  exact ⟨q, by rw [abs_ofH, hq], fun x => by rw [quaternionRotation_ofH hq0, h]⟩

/-- Two quaternions give the same rotation exactly when they differ by a real factor. -/
theorem C134_same_rotation (p q : ℍ[ℝ]) (hp : p ≠ 0) (hq : q ≠ 0) :
    (∀ x : Fin 3 → ℝ, quaternionRotation (vfin x) (ofH p) = quaternionRotation (vfin x) (ofH q)) ↔
      ∃ c : ℝ, q = c • p := by
  constructor
  · intro h
    have h' : ∀ x, p⁻¹ * pureH x * p = q⁻¹ * pureH x * q := by
      intro x
      have := h x
      rw [quaternionRotation_ofH hp, quaternionRotation_ofH hq] at this
      rw [← pure_rotH hp, ← pure_rotH hq]
      exact congrArg pureH (funext fun i => fin_inj.mp (congrFun this i))
    have hcomm : ∀ x, (q * p⁻¹) * pureH x = pureH x * (q * p⁻¹) := by
      intro x
      have := congrArg (fun z => q * z * p⁻¹) (h' x)
      simp only [mul_assoc, mul_inv_cancel₀ hp, mul_one] at this
      rw [← mul_assoc q q⁻¹, mul_inv_cancel₀ hq, one_mul] at this
      rw [mul_assoc]; exact this
    set r := q * p⁻¹ with hr
    have e1 := congrArg (fun q : ℍ[ℝ] => q.imJ) (hcomm ![1, 0, 0])
    have e2 := congrArg (fun q : ℍ[ℝ] => q.imK) (hcomm ![1, 0, 0])
    have e3 := congrArg (fun q : ℍ[ℝ] => q.imK) (hcomm ![0, 1, 0])
    simp at e1 e2 e3
    have hre : r = ((r.re : ℝ) : ℍ[ℝ]) := by
      ext <;> simp <;> linarith
    refine ⟨r.re, ?_⟩
    rw [← Quaternion.coe_mul_eq_smul, ← hre, hr, mul_assoc, inv_mul_cancel₀ hp, mul_one]
  · rintro ⟨c, rfl⟩ x
    have hc : c ≠ 0 := fun h => hq (by rw [h, zero_smul])
    rw [quaternionRotation_ofH hp, quaternionRotation_ofH hq, rotH_smul hc]

theorem exists_angle {x y : ℝ} (h : x ^ 2 + y ^ 2 = 1) : ∃ t : ℝ, Real.cos t = x ∧ Real.sin t = y := by
  have hn : ‖(⟨x, y⟩ : ℂ)‖ = 1 := by
    rw [Complex.norm_def, Complex.normSq_mk]
    rw [show x * x + y * y = 1 by linarith, Real.sqrt_one]
  refine ⟨Complex.arg ⟨x, y⟩, ?_, ?_⟩
  · have := Complex.norm_mul_cos_arg ⟨x, y⟩
    rwa [hn, one_mul] at this
  · have := Complex.norm_mul_sin_arg ⟨x, y⟩
    rwa [hn, one_mul] at this

theorem exists_unit_smul (v : Fin 3 → ℝ) : ∃ (w : ℝ) (u : Fin 3 → ℝ), u ⬝ᵥ u = 1 ∧ v = w • u := by
  by_cases hv : v = 0
  · exact ⟨0, ![1, 0, 0], by simp, by simp [hv]⟩
  · have hpos : 0 < v ⬝ᵥ v := lt_of_le_of_ne (by simp [dotProduct]; exact Finset.sum_nonneg fun i _ => mul_self_nonneg _)
      (fun h => hv (dotProduct_self_eq_zero.mp h.symm))
    have hs := (Real.sqrt_pos.mpr hpos).ne'
    refine ⟨Real.sqrt (v ⬝ᵥ v), (Real.sqrt (v ⬝ᵥ v))⁻¹ • v, ?_, ?_⟩
    · rw [smul_dotProduct, dotProduct_smul, smul_eq_mul, smul_eq_mul, ← mul_assoc, ← mul_inv, Real.mul_self_sqrt hpos.le,
        inv_mul_cancel₀ hpos.ne']
    · rw [smul_smul, mul_inv_cancel₀ hs, one_smul]

/-- Every rotation is the rotation of `from_axis_angle(θ, u)` for a unit vector `u` and an angle `θ`. -/
theorem C134_axis_angle (R : Matrix (Fin 3) (Fin 3) ℝ) (hR : R ∈ specialOrthogonalGroup (Fin 3) ℝ) :
    ∃ (t : ℝ) (u : Fin 3 → ℝ), u ⬝ᵥ u = 1 ∧
      ∀ x, quaternionRotation (vfin x) (fromAxisAngle (fin t) (vfin u)) = vfin (R.mulVec x) := by
  obtain ⟨q, hq, h⟩ := exists_rotH hR
  have hq0 : q ≠ 0 := fun h0 => by rw [h0, norm_zero] at hq; norm_num at hq
  obtain ⟨w, u, hu, hv⟩ := exists_unit_smul (imv q)
  have hu' : u 0 * u 0 + u 1 * u 1 + u 2 * u 2 = 1 := by simpa [dotProduct, Fin.sum_univ_three] using hu
  have e0 : q.imI = w * u 0 := congrFun hv 0
  have e1 : q.imJ = w * u 1 := congrFun hv 1
  have e2 : q.imK = w * u 2 := congrFun hv 2
  have hsq := norm_sq_H q
  rw [hq, e0, e1, e2] at hsq
  obtain ⟨t, hc, hs⟩ := exists_angle (x := q.re) (y := w) (by linear_combination -hsq - w ^ 2 * hu')
  refine ⟨2 * t, u, hu, fun x => ?_⟩
  have he : fromAxisAngle (fin (2 * t)) (vfin u) = ofH q := by
    rw [fromAxisAngle_fin, show 2 * t / 2 = t by ring, hc, hs]
    congr 1
    ext
    · rfl
    · show u 0 * w = q.imI
      rw [e0, mul_comm]
    · show u 1 * w = q.imJ
      rw [e1, mul_comm]
    · show u 2 * w = q.imK
      rw [e2, mul_comm]
  rw [he, quaternionRotation_ofH hq0, h]

theorem exists_cos_sin (x y : ℝ) : ∃ r t : ℝ, r ^ 2 = x ^ 2 + y ^ 2 ∧ r * Real.cos t = x ∧ r * Real.sin t = y := by
  refine ⟨‖(⟨x, y⟩ : ℂ)‖, Complex.arg ⟨x, y⟩, ?_, Complex.norm_mul_cos_arg ⟨x, y⟩, Complex.norm_mul_sin_arg ⟨x, y⟩⟩
  rw [Complex.sq_norm, Complex.normSq_mk]
  ring

theorem rodrigues_basis (t : ℝ) (x : Fin 3 → ℝ) :
    rodrigues ![1, 0, 0] (-t) x = ![x 0, Real.cos t * x 1 + Real.sin t * x 2, -Real.sin t * x 1 + Real.cos t * x 2] ∧
    rodrigues ![0, 1, 0] (-t) x = ![Real.cos t * x 0 - Real.sin t * x 2, x 1, Real.sin t * x 0 + Real.cos t * x 2] ∧
    rodrigues ![0, 0, 1] (-t) x = ![Real.cos t * x 0 + Real.sin t * x 1, -Real.sin t * x 0 + Real.cos t * x 1, x 2] := by
  refine ⟨?_, ?_, ?_⟩ <;> funext i <;> fin_cases i <;>
    simp [rodrigues, cross_apply, dotProduct, Fin.sum_univ_three, vecHead, vecTail] <;> ring

/-- Every rotation is the rotation of `from_euler_angles` for some angles. -/
theorem C134_euler (R : Matrix (Fin 3) (Fin 3) ℝ) (hR : R ∈ specialOrthogonalGroup (Fin 3) ℝ) :
    ∃ a b c : ℝ, ∀ x, quaternionRotation (vfin x) (fromEulerAngles (vfin ![a, b, c])) = vfin (R.mulVec x) := by
  obtain ⟨hr, hc, ha⟩ := rotation_entries hR
  have ha' := fun i j => congrFun (congrFun ha i) j
  have r00 := hr 0 0; have r01 := hr 0 1; have r11 := hr 1 1
  have a02 := ha' 0 2; have a12 := ha' 1 2; have a22 := ha' 2 2
  simp [adjugate_fin_three, Fin.sum_univ_three] at r00 r01 r11 a02 a12 a22
  obtain ⟨ρ, c, hρ, h00, h01⟩ := exists_cos_sin (R 0 0) (R 0 1)
  obtain ⟨b, hcb, hsb⟩ := exists_angle (x := ρ) (y := -R 0 2) (by linear_combination r00 + hρ)
  rw [← hcb] at h00 h01
  have hcc := Real.cos_sq_add_sin_sq c
  have hbb := Real.cos_sq_add_sin_sq b
  have h02 : R 0 2 = -Real.sin b := by linarith
  set cc := Real.cos c
  set sc := Real.sin c
  set cb := Real.cos b
  set sb := Real.sin b
  obtain ⟨α, hα⟩ : ∃ α, α = -sc * R 1 0 + cc * R 1 1 := ⟨_, rfl⟩
  obtain ⟨β, hβ⟩ : ∃ β, β = sb * cc * R 1 0 + sb * sc * R 1 1 + cb * R 1 2 := ⟨_, rfl⟩
  rw [← h00, ← h01, h02] at r01
  rw [← h01, h02] at a02
  rw [← h00, h02] at a12
  rw [← h00, ← h01] at a22
  have e0 : R 1 0 = α * -sc + β * (sb * cc) := by
    rw [hα, hβ]
    linear_combination cb * cc * r01 - R 1 0 * hcc - (cc ^ 2 * R 1 0 + sc * cc * R 1 1) * hbb
  have e1 : R 1 1 = α * cc + β * (sb * sc) := by
    rw [hα, hβ]
    linear_combination cb * sc * r01 - R 1 1 * hcc - (sc * cc * R 1 0 + sc ^ 2 * R 1 1) * hbb
  have e2 : R 1 2 = β * cb := by
    rw [hβ]
    linear_combination -sb * r01 - R 1 2 * hbb
  have hαβ : α ^ 2 + β ^ 2 = 1 := by
    have : α ^ 2 + β ^ 2 = R 1 0 * R 1 0 + R 1 1 * R 1 1 + R 1 2 * R 1 2 := by
      calc α ^ 2 + β ^ 2 = R 1 0 * (α * -sc + β * (sb * cc)) + R 1 1 * (α * cc + β * (sb * sc)) + R 1 2 * (β * cb) := by
            linear_combination α * hα + β * hβ
        _ = _ := by rw [← e0, ← e1, ← e2]
    rw [this, r11]
  obtain ⟨a, hca, hsa⟩ := exists_angle hαβ
  refine ⟨a, b, c, fun x => ?_⟩
  have hz : (![0, 0, 1] : Fin 3 → ℝ) ⬝ᵥ ![0, 0, 1] = 1 := by simp [dotProduct, Fin.sum_univ_three]
  have hy : (![0, 1, 0] : Fin 3 → ℝ) ⬝ᵥ ![0, 1, 0] = 1 := by simp [dotProduct, Fin.sum_univ_three]
  have hx : (![1, 0, 0] : Fin 3 → ℝ) ⬝ᵥ ![1, 0, 0] = 1 := by simp [dotProduct, Fin.sum_univ_three]
  have unit : ∀ (t : ℝ) (u : Fin 3 → ℝ), u ⬝ᵥ u = 1 → ∃ q : ℍ[ℝ], fromAxisAngle (fin t) (vfin u) = ofH q ∧ q ≠ 0 := by
    intro t u hu
    refine ⟨_, fromAxisAngle_fin t u, fun h0 => ?_⟩
    have := (C26_axis_angle t u 0 hu).1
    rw [fromAxisAngle_fin, h0, abs_ofH, norm_zero, fin_inj] at this
    norm_num at this
  obtain ⟨qz, hqz, nz⟩ := unit c _ hz
  obtain ⟨qy, hqy, ny⟩ := unit b _ hy
  obtain ⟨qx, hqx, nx⟩ := unit a _ hx
  have sz := (C26_axis_angle c _ x hz).2
  have sy := fun x => (C26_axis_angle b _ x hy).2
  have sx := fun x => (C26_axis_angle a _ x hx).2
  rw [(C27_euler a b c).1, hqz, hqy, hqx, mul_ofH, ← (C25_rotation qx).2.1 (qz * qy) (mul_ne_zero nz ny) nx, ← mul_ofH,
    ← (C25_rotation qy).2.1 qz nz ny, ← hqz, ← hqy, ← hqx, sz, sy, sx, (rodrigues_basis c x).2.2, (rodrigues_basis b _).2.1,
    (rodrigues_basis a _).1, hca, hsa]
  congr 1
  funext i
  fin_cases i
  · show cb * (cc * x 0 + sc * x 1) - sb * x 2 = R.mulVec x 0
    rw [mulVec, dotProduct, Fin.sum_univ_three, ← h00, ← h01, h02]
    ring
  · show α * (-sc * x 0 + cc * x 1) + β * (sb * (cc * x 0 + sc * x 1) + cb * x 2) = R.mulVec x 1
    rw [mulVec, dotProduct, Fin.sum_univ_three, e0, e1, e2]
    ring
  · show -β * (-sc * x 0 + cc * x 1) + α * (sb * (cc * x 0 + sc * x 1) + cb * x 2) = R.mulVec x 2
    rw [mulVec, dotProduct, Fin.sum_univ_three, ← a02, ← a12, ← a22, e0, e1, e2]
    linear_combination β * (-sc * x 0 + cc * x 1) * hbb - α * (cb * x 2) * hcc

/-- A rotation by a right angle about the third axis, which is a rotation. -/
theorem quarter_mem : (!![0, -1, 0; 1, 0, 0; 0, 0, 1] : Matrix (Fin 3) (Fin 3) ℝ) ∈ specialOrthogonalGroup (Fin 3) ℝ := by
  refine mem_specialOrthogonalGroup_iff.mpr ⟨(mem_orthogonalGroup_iff' _ _).mpr ?_, ?_⟩
  · show (!![0, -1, 0; 1, 0, 0; 0, 0, 1] : Matrix (Fin 3) (Fin 3) ℝ).transpose * _ = 1
    ext i j
    fin_cases i <;> fin_cases j <;> simp [mul_apply, Fin.sum_univ_three]
  · simp [det_fin_three]

example : ∃ q : ℍ[ℝ], (ofH q).abs = fin 1 ∧ ∀ x : Fin 3 → ℝ, quaternionRotation (vfin x) (ofH q) =
    vfin ((!![0, -1, 0; 1, 0, 0; 0, 0, 1] : Matrix (Fin 3) (Fin 3) ℝ).mulVec x) := C134_onto _ quarter_mem

example : ∃ a b c : ℝ, ∀ x : Fin 3 → ℝ, quaternionRotation (vfin x) (fromEulerAngles (vfin ![a, b, c])) =
    vfin ((!![0, -1, 0; 1, 0, 0; 0, 0, 1] : Matrix (Fin 3) (Fin 3) ℝ).mulVec x) := C134_euler _ quarter_mem

theorem cayley_entries (p : Pt 3) (R : Matrix (Fin 3) (Fin 3) ℝ)
    (h : ∀ x : Pt 3, cayleyRotation p x = WithLp.toLp 2 (R.mulVec x.ofLp)) :
    (1 + (p 0 ^ 2 + p 1 ^ 2 + p 2 ^ 2)) * (1 + R.trace) = 4 ∧
    (1 + R.trace) * p 0 = R 2 1 - R 1 2 ∧ (1 + R.trace) * p 1 = R 0 2 - R 2 0 ∧ (1 + R.trace) * p 2 = R 1 0 - R 0 1 := by
  have hne : 1 + (p 0 ^ 2 + p 1 ^ 2 + p 2 ^ 2) ≠ 0 := by positivity
  have key : ∀ i j : Fin 3, (1 + (p 0 ^ 2 + p 1 ^ 2 + p 2 ^ 2)) * R i j =
      (1 - (p 0 ^ 2 + p 1 ^ 2 + p 2 ^ 2)) * (Pi.single j 1 : Fin 3 → ℝ) i + 2 * p j * p i +
        2 * crossProduct p.ofLp (Pi.single j 1 : Fin 3 → ℝ) i := by
    intro i j
    have hr := C90_rodrigues p (EuclideanSpace.single j 1)
    rw [h] at hr
    have hn : ‖p‖ ^ 2 = p 0 ^ 2 + p 1 ^ 2 + p 2 ^ 2 := by
      rw [EuclideanSpace.norm_sq_eq]; simp [Fin.sum_univ_three]
    have := congrArg (fun v : Pt 3 => v i) hr
    simp only [hn, PiLp.smul_apply, PiLp.add_apply, smul_eq_mul] at this
    have e1 : R.mulVec (EuclideanSpace.single j (1 : ℝ)).ofLp i = R i j := by
      simp [mulVec, dotProduct, EuclideanSpace.single]
    have e2 : inner ℝ p (EuclideanSpace.single j (1 : ℝ)) = p j := by
      rw [PiLp.inner_apply, Finset.sum_eq_single j] <;> simp +contextual
    rw [e1, e2] at this
    rw [this, ← mul_assoc, mul_inv_cancel₀ hne, one_mul]
    simp [EuclideanSpace.single, Pi.single_apply]
  have ht : R.trace = R 0 0 + R 1 1 + R 2 2 := by simp [trace, Fin.sum_univ_three]
  have k00 := key 0 0; have k01 := key 0 1; have k02 := key 0 2
  have k10 := key 1 0; have k11 := key 1 1; have k12 := key 1 2
  have k20 := key 2 0; have k21 := key 2 1; have k22 := key 2 2
  simp [cross_apply] at k00 k01 k02 k10 k11 k12 k20 k21 k22
  have h1 : (1 + (p 0 ^ 2 + p 1 ^ 2 + p 2 ^ 2)) * (1 + R.trace) = 4 := by
    rw [ht]
    linear_combination k00 + k11 + k22
  refine ⟨h1, ?_, ?_, ?_⟩ <;> apply mul_left_cancel₀ hne <;> rw [← mul_assoc, h1]
  · linear_combination k12 - k21
  · linear_combination k20 - k02
  · linear_combination k01 - k10

/-- The rotations of `cayley_rotation` are the rotations whose angle is not `π` (these have the trace `-1`). -/
theorem C134_cayley (R : Matrix (Fin 3) (Fin 3) ℝ) (hR : R ∈ specialOrthogonalGroup (Fin 3) ℝ) :
    (∃ p : Pt 3, ∀ x : Pt 3, cayleyRotation p x = WithLp.toLp 2 (R.mulVec x.ofLp)) ↔ R.trace ≠ -1 := by
  constructor
  · rintro ⟨p, h⟩ htr
    have := (cayley_entries p R h).1
    rw [htr] at this
    norm_num at this
  · intro htr
    have ht : 1 + R.trace ≠ 0 := fun h => htr (by linarith)
    obtain ⟨q, hq, hqe, h⟩ := exists_intertwine hR
    rw [hqe ht] at h
    refine ⟨!₂[(R 2 1 - R 1 2) / (1 + R.trace), (R 0 2 - R 2 0) / (1 + R.trace), (R 1 0 - R 0 1) / (1 + R.trace)],
      fun x => (cayley_coords _ _ _).mpr ?_⟩
    have h1 := congrArg (fun q : ℍ[ℝ] => q.imI) (h x.ofLp)
    have h2 := congrArg (fun q : ℍ[ℝ] => q.imJ) (h x.ofLp)
    have h3 := congrArg (fun q : ℍ[ℝ] => q.imK) (h x.ofLp)
    generalize R.trace = τ at *
    obtain ⟨z, hz⟩ : ∃ z, R.mulVec x.ofLp = z := ⟨_, rfl⟩
    rw [hz] at h1 h2 h3 ⊢
    simp at h1 h2 h3 ⊢
    refine ⟨?_, ?_, ?_⟩ <;> field_simp
    · linear_combination -h1
    · linear_combination -h2
    · linear_combination -h3

/-- The parameter of a rotation is unique. -/
theorem C134_cayley_injective (p p' : Pt 3) (h : ∀ x, cayleyRotation p x = cayleyRotation p' x) : p = p' := by
  obtain ⟨R, hR⟩ : ∃ R : Matrix (Fin 3) (Fin 3) ℝ, ∀ x : Pt 3, cayleyRotation p x = WithLp.toLp 2 (R.mulVec x.ofLp) :=
    ⟨(1 - toSkewSimmetricMatrix p)⁻¹ * (1 + toSkewSimmetricMatrix p), fun x => by simp [cayleyRotation, mulVec_mulVec]⟩
  obtain ⟨h1, ha, hb, hc⟩ := cayley_entries p R hR
  obtain ⟨-, ha', hb', hc'⟩ := cayley_entries p' R fun x => by rw [← h, hR]
  have ht : 1 + R.trace ≠ 0 := fun h0 => by rw [h0] at h1; norm_num at h1
  ext i
  apply mul_left_cancel₀ ht
  fin_cases i
  · exact ha.trans ha'.symm
  · exact hb.trans hb'.symm
  · exact hc.trans hc'.symm

example : ∃ R ∈ specialOrthogonalGroup (Fin 3) ℝ, ∀ x, quaternionRotation (vfin x) (ofH ⟨1, 2, 0, 0⟩) = vfin (R.mulVec x) :=
  C134_rotations _ fun h => by simpa using congrArg (fun q : ℍ[ℝ] => q.re) h

example (q : ℍ[ℝ]) (hq : q.re = 1) (x : Fin 3 → ℝ) : quaternionRotation (vfin x) (ofH q) = quaternionRotation (vfin x) (ofH ((-3 : ℝ) • q)) := by
  have h0 : q ≠ 0 := by rintro rfl; simp at hq
  exact (C134_same_rotation _ _ h0 (smul_ne_zero (by norm_num) h0)).2 ⟨-3, rfl⟩ x

example : (∃ p : Pt 3, ∀ x : Pt 3, cayleyRotation p x = WithLp.toLp 2 ((1 : Matrix (Fin 3) (Fin 3) ℝ).mulVec x.ofLp)) :=
  (C134_cayley 1 (one_mem _)).2 (by simp; norm_num)

/-- What the parametrisation of the magnetisation reaches: starting at the unit vector `m₀`, all unit vectors other
than `-m₀`. -/
theorem C134_magnetisation (m₀ m : Pt 3) (h₀ : ‖m₀‖ = 1) (hm : ‖m‖ = 1) :
    (∃ p : Pt 3, cayleyRotation p m₀ = m) ↔ m ≠ -m₀ := by
  have sq : ∀ v : Pt 3, ‖v‖ = 1 → v 0 ^ 2 + v 1 ^ 2 + v 2 ^ 2 = 1 := by
    intro v hv
    have : ‖v‖ ^ 2 = v 0 ^ 2 + v 1 ^ 2 + v 2 ^ 2 := by rw [EuclideanSpace.norm_sq_eq]; simp [Fin.sum_univ_three]
    rw [← this, hv, one_pow]
  have s0 := sq _ h₀
  have s1 := sq _ hm
  constructor
  · rintro ⟨p, hp⟩ rfl
    obtain ⟨e0, e1, e2⟩ := (cayley_coords p m₀ _).mp hp
    simp at e0 e1 e2
    have z0 : m₀ 0 = 0 := by linarith
    have z1 : m₀ 1 = 0 := by linarith
    have z2 : m₀ 2 = 0 := by linarith
    rw [z0, z1, z2] at s0
    norm_num at s0
  · intro hne
    have hpos : 1 + (m₀ 0 * m 0 + m₀ 1 * m 1 + m₀ 2 * m 2) ≠ 0 := by
      intro h
      apply hne
      have : (m 0 + m₀ 0) ^ 2 + (m 1 + m₀ 1) ^ 2 + (m 2 + m₀ 2) ^ 2 = 0 := by linear_combination s0 + s1 + 2 * h
      ext i
      fin_cases i
      · show m 0 = -(m₀ 0)
        nlinarith [sq_nonneg (m 0 + m₀ 0), sq_nonneg (m 1 + m₀ 1), sq_nonneg (m 2 + m₀ 2)]
      · show m 1 = -(m₀ 1)
        nlinarith [sq_nonneg (m 0 + m₀ 0), sq_nonneg (m 1 + m₀ 1), sq_nonneg (m 2 + m₀ 2)]
      · show m 2 = -(m₀ 2)
        nlinarith [sq_nonneg (m 0 + m₀ 0), sq_nonneg (m 1 + m₀ 1), sq_nonneg (m 2 + m₀ 2)]
    set D := 1 + (m₀ 0 * m 0 + m₀ 1 * m 1 + m₀ 2 * m 2) with hD
    refine ⟨!₂[(m₀ 1 * m 2 - m₀ 2 * m 1) / D, (m₀ 2 * m 0 - m₀ 0 * m 2) / D, (m₀ 0 * m 1 - m₀ 1 * m 0) / D],
      (cayley_coords _ _ _).mpr ?_⟩
    simp
    refine ⟨?_, ?_, ?_⟩ <;> field_simp
    · linear_combination (m 0 - m₀ 0) * hD + m₀ 0 * s1 - m 0 * s0
    · linear_combination (m 1 - m₀ 1) * hD + m₀ 1 * s1 - m 1 * s0
    · linear_combination (m 2 - m₀ 2) * hD + m₀ 2 * s1 - m 2 * s0

example : ∃ p : Pt 3, cayleyRotation p (EuclideanSpace.single 0 1) = EuclideanSpace.single 2 1 := by
  refine (C134_magnetisation _ _ (by simp) (by simp)).mpr fun h => ?_
  have := congrArg (fun v : Pt 3 => v 2) h
  simp at this

end Verif
