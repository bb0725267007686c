import Verif.Model.Quaternions
import Verif.Num.Alg
import Verif.Spec.Rotation
import Mathlib.Analysis.Quaternion

/-! # The model's quaternions on finite inputs are Mathlib's real quaternions (helpers) -/

namespace Verif

open XR Matrix

open scoped Quaternion

/-- A real quaternion as a model quaternion. -/
noncomputable def Quat.ofH (q : ℍ[ℝ]) : Quat := ⟨fin q.re, vfin ![q.imI, q.imJ, q.imK]⟩

/-- Vector part. -/
def imv (q : ℍ[ℝ]) : Fin 3 → ℝ := ![q.imI, q.imJ, q.imK]

/-- Pure quaternion of a vector. -/
def pureH (x : Fin 3 → ℝ) : ℍ[ℝ] := ⟨0, x 0, x 1, x 2⟩

@[simp] theorem pureH_re (x : Fin 3 → ℝ) : (pureH x).re = 0 := rfl
@[simp] theorem pureH_imI (x : Fin 3 → ℝ) : (pureH x).imI = x 0 := rfl
@[simp] theorem pureH_imJ (x : Fin 3 → ℝ) : (pureH x).imJ = x 1 := rfl
@[simp] theorem pureH_imK (x : Fin 3 → ℝ) : (pureH x).imK = x 2 := rfl

@[simp] theorem imv_pureH (x : Fin 3 → ℝ) : imv (pureH x) = x := by
  funext i; fin_cases i <;> rfl

namespace Quat

theorem ofH_injective : Function.Injective ofH := by
  intro p q h
  have h1 : p.re = q.re := fin_inj.mp (congrArg Quat.re h)
  have h2 (i : Fin 3) : ![p.imI, p.imJ, p.imK] i = ![q.imI, q.imJ, q.imK] i :=
    fin_inj.mp (congrFun (congrArg Quat.im h) i)
  ext
  · exact h1
  · exact h2 0
  · exact h2 1
  · exact h2 2

theorem ofH_eq_of (a : ℝ) (v : Fin 3 → ℝ) : (⟨fin a, vfin v⟩ : Quat) = ofH ⟨a, v 0, v 1, v 2⟩ := by
  ext i
  · rfl
  · fin_cases i <;> rfl

theorem ofH_im (q : ℍ[ℝ]) : (ofH q).im = vfin (imv q) := rfl

theorem neg_ofH (p : ℍ[ℝ]) : (ofH p).neg = ofH (-p) := by
  ext i
  · simp [neg, ofH]
  · fin_cases i <;> simp [neg, ofH]

theorem add_ofH (p q : ℍ[ℝ]) : (ofH p).add (ofH q) = ofH (p + q) := by
  ext i
  · simp [add, ofH]
  · fin_cases i <;> simp [add, ofH]

theorem sub_ofH (p q : ℍ[ℝ]) : (ofH p).sub (ofH q) = ofH (p - q) := by
  ext i
  · simp [sub, ofH]
  · fin_cases i <;> simp [sub, ofH]

theorem mul_ofH (p q : ℍ[ℝ]) : (ofH p).mul (ofH q) = ofH (p * q) := by
  ext i
  · simp [mul, ofH, vdot, Fin.sum_univ_three]; ring
  · fin_cases i <;> simp [mul, ofH, cross] <;> ring

theorem mulScalar_ofH (p : ℍ[ℝ]) (s : ℝ) : (ofH p).mulScalar (fin s) = ofH (s • p) := by
  ext i
  · simp [mulScalar, ofH, mul_comm]
  · fin_cases i <;> simp [mulScalar, ofH, mul_comm]

theorem conj_ofH (p : ℍ[ℝ]) : (ofH p).conj = ofH (star p) := by
  ext i
  · simp [conj, ofH]
  · fin_cases i <;> simp [conj, ofH]

theorem norm_sq_H (p : ℍ[ℝ]) : ‖p‖ ^ 2 = p.re ^ 2 + p.imI ^ 2 + p.imJ ^ 2 + p.imK ^ 2 := by
  rw [sq, ← Quaternion.normSq_eq_norm_mul_self, Quaternion.normSq_def']

theorem abs_ofH (p : ℍ[ℝ]) : (ofH p).abs = fin ‖p‖ := by
  have h : p.re ^ 2 + (p.imI * p.imI + p.imJ * p.imJ + p.imK * p.imK) = ‖p‖ ^ 2 := by
    rw [norm_sq_H]; ring
  simp only [abs, ofH, Fin.sum_univ_three, vfin_apply, fin_npow, fin_mul, fin_add]
  simp only [Matrix.cons_val_zero, Matrix.cons_val_one, Matrix.cons_val]
  rw [h, fin_sqrt (by positivity), Real.sqrt_sq (norm_nonneg p)]

theorem reciprocal_ofH {q : ℍ[ℝ]} (hq : q ≠ 0) : (ofH q).reciprocal = ofH q⁻¹ := by
  have hn : ‖q‖ ^ 2 ≠ 0 := by simpa using hq
  rw [reciprocal, abs_ofH, conj_ofH, fin_npow, one_eq, fin_div _ hn, mulScalar_ofH]
  congr 1
  rw [sq, ← Quaternion.normSq_eq_norm_mul_self, one_div]
  rfl

theorem reciprocal_zero : (ofH 0).reciprocal = ⟨nan, fun _ => nan⟩ := by
  have h : (0 : XR) * pinf = nan := by rw [zero_eq]; show infSign 0 = _; simp [infSign]
  rw [reciprocal, abs_ofH, conj_ofH, norm_zero]
  have h1 : (1 : XR) / fin 0 ^ 2 = pinf := by
    simp only [fin_npow, one_eq]
    norm_num
    rw [fin_div_zero]; simp [infSign]
  rw [h1]
  ext i
  · simp only [mulScalar, ofH]; simpa using h
  · fin_cases i <;> simp only [mulScalar, ofH] <;> simpa using h

end Quat

open Quat

theorem pure_mul_pure (x y : Fin 3 → ℝ) :
    pureH x * pureH y = ((-(x ⬝ᵥ y) : ℝ) : ℍ[ℝ]) + pureH (x ⨯₃ y) := by
  ext
  · simp only [Quaternion.re_mul, Quaternion.re_add, Quaternion.re_coe, pureH_re, pureH_imI, pureH_imJ,
      pureH_imK, dotProduct, Fin.sum_univ_three]
    ring
  · simp [cross_apply]
  · simp [cross_apply]; ring
  · simp [cross_apply]

theorem re_mul_comm (p q : ℍ[ℝ]) : (p * q).re = (q * p).re := by
  simp; ring

theorem pure_imv_of_re {q : ℍ[ℝ]} (h : q.re = 0) : pureH (imv q) = q := by
  ext
  · simp [pureH, h]
  · rfl
  · rfl
  · rfl

/-- The rotation of the code on real vectors. -/
noncomputable def rotH (q : ℍ[ℝ]) (x : Fin 3 → ℝ) : Fin 3 → ℝ := imv (q⁻¹ * pureH x * q)

theorem pure_rotH {q : ℍ[ℝ]} (hq : q ≠ 0) (x : Fin 3 → ℝ) : pureH (rotH q x) = q⁻¹ * pureH x * q := by
  refine pure_imv_of_re ?_
  rw [re_mul_comm, ← mul_assoc, mul_inv_cancel₀ hq, one_mul]; rfl

theorem pureH_injective : Function.Injective pureH := by
  intro x y h
  rw [← imv_pureH x, h, imv_pureH]

theorem quaternionRotation_ofH {q : ℍ[ℝ]} (hq : q ≠ 0) (x : Fin 3 → ℝ) :
    quaternionRotation (vfin x) (ofH q) = vfin (rotH q x) := by
  have h : (⟨0, vfin x⟩ : Quat) = ofH (pureH x) := by
    rw [zero_eq, ofH_eq_of]; rfl
  rw [quaternionRotation, reciprocal_ofH hq, h, mul_ofH, mul_ofH, ofH_im]; rfl

theorem rotH_dot_cross {q : ℍ[ℝ]} (hq : q ≠ 0) (x y : Fin 3 → ℝ) :
    rotH q x ⬝ᵥ rotH q y = x ⬝ᵥ y ∧ rotH q (x ⨯₃ y) = rotH q x ⨯₃ rotH q y := by
  have h1 := pure_mul_pure (rotH q x) (rotH q y)
  rw [pure_rotH hq, pure_rotH hq] at h1
  have h2 : q⁻¹ * pureH x * q * (q⁻¹ * pureH y * q) = q⁻¹ * (pureH x * pureH y) * q := by
    rw [show q⁻¹ * pureH x * q * (q⁻¹ * pureH y * q) = q⁻¹ * pureH x * (q * q⁻¹) * pureH y * q by
      simp only [mul_assoc], mul_inv_cancel₀ hq, mul_one]
    simp only [mul_assoc]
  rw [h2, pure_mul_pure x y, mul_add, add_mul, ← pure_rotH hq] at h1
  have h3 : q⁻¹ * ((-(x ⬝ᵥ y) : ℝ) : ℍ[ℝ]) * q = ((-(x ⬝ᵥ y) : ℝ) : ℍ[ℝ]) := by
    rw [mul_assoc, Quaternion.coe_commutes, ← mul_assoc, inv_mul_cancel₀ hq, one_mul]
  rw [h3] at h1
  constructor
  · have := congrArg (fun q : ℍ[ℝ] => q.re) h1
    simp only [Quaternion.re_add, Quaternion.re_coe, pureH_re] at this
    linarith
  · apply pureH_injective
    have hre : (x ⬝ᵥ y) = rotH q x ⬝ᵥ rotH q y := by
      have := congrArg (fun q : ℍ[ℝ] => q.re) h1
      simp only [Quaternion.re_add, Quaternion.re_coe, pureH_re] at this
      linarith
    rw [hre] at h1
    exact add_left_cancel h1

theorem rotH_linear (q : ℍ[ℝ]) (a b : ℝ) (x y : Fin 3 → ℝ) :
    rotH q (a • x + b • y) = a • rotH q x + b • rotH q y := by
  have h : pureH (a • x + b • y) = a • pureH x + b • pureH y := by
    ext <;> simp
  unfold rotH
  rw [h, mul_add, add_mul, mul_smul_comm, mul_smul_comm, smul_mul_assoc, smul_mul_assoc]
  funext i; fin_cases i <;> simp [imv]

theorem rotH_comp {p q : ℍ[ℝ]} (hp : p ≠ 0) (x : Fin 3 → ℝ) :
    rotH q (rotH p x) = rotH (p * q) x := by
  unfold rotH
  rw [show pureH (imv (p⁻¹ * pureH x * p)) = _ from pure_rotH hp x, _root_.mul_inv_rev]
  simp only [mul_assoc]

theorem rotH_smul {c : ℝ} (hc : c ≠ 0) (q : ℍ[ℝ]) (x : Fin 3 → ℝ) : rotH (c • q) x = rotH q x := by
  unfold rotH
  have : (c • q)⁻¹ = c⁻¹ • q⁻¹ := by
    rw [← Quaternion.coe_mul_eq_smul, _root_.mul_inv_rev, ← Quaternion.coe_inv, ← Quaternion.coe_commutes,
      Quaternion.coe_mul_eq_smul]
  rw [this, smul_mul_assoc, smul_mul_assoc, mul_smul_comm, smul_smul, inv_mul_cancel₀ hc, one_smul]

end Verif
