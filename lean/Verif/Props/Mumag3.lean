import Verif.Model.Mumag3
import Verif.Props.Calc
import Mathlib.Analysis.SpecialFunctions.Trigonometric.Arctan

/-! # The example `mumag3.py` (C90) -/

namespace Verif

/-- The matrix is that of the cross product with `p`. -/
theorem skew_mulVec (p x : Pt 3) : (toSkewSimmetricMatrix p).mulVec x.ofLp = crossProduct p.ofLp x.ofLp := by
  ext i
  fin_cases i <;>
    simp [toSkewSimmetricMatrix, Matrix.mulVec, dotProduct, Fin.sum_univ_three, cross_apply, Matrix.updateRow_apply,
      Function.update] <;> ring

theorem skew_eq (p : Pt 3) : toSkewSimmetricMatrix p = !![0, -p 2, p 1; p 2, 0, -p 0; -p 1, p 0, 0] := by
  ext i j
  fin_cases i <;> fin_cases j <;> simp [toSkewSimmetricMatrix, Matrix.updateRow_apply, Function.update]

theorem det_one_sub_skew (p : Pt 3) : (1 - toSkewSimmetricMatrix p).det = 1 + p 0 ^ 2 + p 1 ^ 2 + p 2 ^ 2 := by
  rw [skew_eq, Matrix.det_fin_three]
  simp
  ring

/-- The linear system which `cayley_rotation` solves has exactly one solution. -/
theorem C90_invertible (p : Pt 3) : IsUnit (1 - toSkewSimmetricMatrix p).det := by
  rw [det_one_sub_skew]
  exact (by positivity : (1 + p 0 ^ 2 + p 1 ^ 2 + p 2 ^ 2) ≠ 0).isUnit

/-- The defining equation: `z - p × z = x + p × x`. -/
theorem C90_equation (p x z : Pt 3) : cayleyRotation p x = z ↔
    z.ofLp - crossProduct p.ofLp z.ofLp = x.ofLp + crossProduct p.ofLp x.ofLp := by
  have hz : (1 - toSkewSimmetricMatrix p).mulVec z.ofLp = z.ofLp - crossProduct p.ofLp z.ofLp := by
    rw [Matrix.sub_mulVec, Matrix.one_mulVec, skew_mulVec]
  have hx : (1 + toSkewSimmetricMatrix p).mulVec x.ofLp = x.ofLp + crossProduct p.ofLp x.ofLp := by
    rw [Matrix.add_mulVec, Matrix.one_mulVec, skew_mulVec]
  rw [← hz, ← hx]
  constructor
  · rintro rfl
    simp only [cayleyRotation]
    rw [Matrix.mulVec_mulVec, Matrix.mul_nonsing_inv _ (C90_invertible p), Matrix.one_mulVec]
  · intro h
    simp only [cayleyRotation]
    rw [← h, Matrix.mulVec_mulVec, Matrix.nonsing_inv_mul _ (C90_invertible p), Matrix.one_mulVec]

theorem cayley_coords (p x z : Pt 3) : cayleyRotation p x = z ↔
    z 0 - (p 1 * z 2 - p 2 * z 1) = x 0 + (p 1 * x 2 - p 2 * x 1) ∧
    z 1 - (p 2 * z 0 - p 0 * z 2) = x 1 + (p 2 * x 0 - p 0 * x 2) ∧
    z 2 - (p 0 * z 1 - p 1 * z 0) = x 2 + (p 0 * x 1 - p 1 * x 0) := by
  rw [C90_equation, funext_iff, Fin.forall_fin_succ, Fin.forall_fin_succ, Fin.forall_fin_succ]
  simp [cross_apply]

/-- The rotation about `p` by the angle `2 arctan ‖p‖` (right hand rule): Rodrigues' formula with
`cos = (1 - ‖p‖²) / (1 + ‖p‖²)` and `sin = 2 ‖p‖ / (1 + ‖p‖²)`. -/
theorem C90_rodrigues (p x : Pt 3) : cayleyRotation p x =
    (1 + ‖p‖ ^ 2)⁻¹ • ((1 - ‖p‖ ^ 2) • x + (2 * inner ℝ p x) • p + (2 : ℝ) • WithLp.toLp 2 (crossProduct p.ofLp x.ofLp)) := by
  rw [cayley_coords]
  have hn : ‖p‖ ^ 2 = p 0 ^ 2 + p 1 ^ 2 + p 2 ^ 2 := by
    rw [EuclideanSpace.norm_sq_eq]; simp [Fin.sum_univ_three]
  have hi : inner ℝ p x = p 0 * x 0 + p 1 * x 1 + p 2 * x 2 := by
    simp [PiLp.inner_apply, Fin.sum_univ_three]; ring
  rw [hn, hi]
  have hne : 1 + (p 0 ^ 2 + p 1 ^ 2 + p 2 ^ 2) ≠ 0 := by positivity
  refine ⟨?_, ?_, ?_⟩ <;> simp only [PiLp.smul_apply, PiLp.add_apply, smul_eq_mul, cross_apply] <;> simp <;> field_simp <;> ring

/-- The rotation angle. -/
theorem C90_angle (p x : Pt 3) (hp : inner ℝ p x = 0) : cayleyRotation p x =
    Real.cos (2 * Real.arctan ‖p‖) • x +
      Real.sin (2 * Real.arctan ‖p‖) • WithLp.toLp 2 (crossProduct (‖p‖⁻¹ • p).ofLp x.ofLp) := by
  have hne : 1 + ‖p‖ ^ 2 ≠ 0 := by positivity
  have hc : Real.cos (2 * Real.arctan ‖p‖) = (1 + ‖p‖ ^ 2)⁻¹ * (1 - ‖p‖ ^ 2) := by
    rw [Real.cos_two_mul, Real.cos_sq_arctan]
    field_simp
    ring
  have hs : Real.sin (2 * Real.arctan ‖p‖) = (1 + ‖p‖ ^ 2)⁻¹ * (2 * ‖p‖) := by
    have h1 : Real.sin (Real.arctan ‖p‖) = ‖p‖ * Real.cos (Real.arctan ‖p‖) := by
      rw [Real.sin_arctan, Real.cos_arctan]; ring
    rw [Real.sin_two_mul, h1]
    have h2 := Real.cos_sq_arctan ‖p‖
    linear_combination (2 * ‖p‖) * h2
  rw [C90_rodrigues, hp, hc, hs, mul_zero, zero_smul, add_zero, smul_add, smul_smul, smul_smul]
  congr 1
  rcases eq_or_ne p 0 with rfl | h
  · simp
  · have : ‖p‖ ≠ 0 := norm_ne_zero_iff.mpr h
    rw [show (‖p‖⁻¹ • p).ofLp = ‖p‖⁻¹ • p.ofLp from rfl, map_smul, LinearMap.smul_apply, WithLp.toLp_smul, smul_smul]
    congr 1
    field_simp

example : cayleyRotation (EuclideanSpace.single 2 1) (EuclideanSpace.single 0 1) =
    Real.cos (2 * Real.arctan ‖(EuclideanSpace.single 2 1 : Pt 3)‖) • EuclideanSpace.single 0 1 +
      Real.sin (2 * Real.arctan ‖(EuclideanSpace.single 2 1 : Pt 3)‖) •
        WithLp.toLp 2 (crossProduct (‖(EuclideanSpace.single 2 1 : Pt 3)‖⁻¹ • (EuclideanSpace.single 2 1 : Pt 3)).ofLp
          (EuclideanSpace.single 0 1 : Pt 3).ofLp) :=
  C90_angle _ _ (by simp [EuclideanSpace.inner_single_left])

/-- `cayley_rotation` keeps inner products, lengths and cross products (so it is a rotation), and it fixes `p`. -/
theorem C90_rotation (p x y : Pt 3) :
    inner ℝ (cayleyRotation p x) (cayleyRotation p y) = inner ℝ x y ∧ ‖cayleyRotation p x‖ = ‖x‖ ∧
      crossProduct (cayleyRotation p x).ofLp (cayleyRotation p y).ofLp =
        (cayleyRotation p (WithLp.toLp 2 (crossProduct x.ofLp y.ofLp))).ofLp ∧
      cayleyRotation p p = p := by
  have hin : ∀ x y, inner ℝ (cayleyRotation p x) (cayleyRotation p y) = inner ℝ x y := by
    intro x y
    obtain ⟨a0, a1, a2⟩ := (cayley_coords p x _).mp rfl
    obtain ⟨b0, b1, b2⟩ := (cayley_coords p y _).mp rfl
    generalize cayleyRotation p x = z at *
    generalize cayleyRotation p y = w at *
    simp only [PiLp.inner_apply, Fin.sum_univ_three, RCLike.inner_apply, conj_trivial]
    linear_combination ((w 0 + y 0) * a0 + (w 1 + y 1) * a1 + (w 2 + y 2) * a2 + (z 0 + x 0) * b0 + (z 1 + x 1) * b1 +
      (z 2 + x 2) * b2) / 2
  refine ⟨hin x y, ?_, ?_, ?_⟩
  · have h := hin x x
    rw [real_inner_self_eq_norm_sq, real_inner_self_eq_norm_sq] at h
    exact (sq_eq_sq₀ (norm_nonneg _) (norm_nonneg _)).mp h
  · have : cayleyRotation p (WithLp.toLp 2 (crossProduct x.ofLp y.ofLp)) =
        WithLp.toLp 2 (crossProduct (cayleyRotation p x).ofLp (cayleyRotation p y).ofLp) := by
      have hn : ‖p‖ ^ 2 = p 0 ^ 2 + p 1 ^ 2 + p 2 ^ 2 := by
        rw [EuclideanSpace.norm_sq_eq]; simp [Fin.sum_univ_three]
      have hi : ∀ x : Pt 3, inner ℝ p x = p 0 * x 0 + p 1 * x 1 + p 2 * x 2 := by
        intro x
        simp [PiLp.inner_apply, Fin.sum_univ_three]; ring
      have hne : 1 + (p 0 ^ 2 + p 1 ^ 2 + p 2 ^ 2) ≠ 0 := by positivity
      have key : ∀ x : Pt 3, (cayleyRotation p x) 0 = (1 + (p 0 ^ 2 + p 1 ^ 2 + p 2 ^ 2))⁻¹ *
            ((1 - (p 0 ^ 2 + p 1 ^ 2 + p 2 ^ 2)) * x 0 + 2 * (p 0 * x 0 + p 1 * x 1 + p 2 * x 2) * p 0 +
              2 * (p 1 * x 2 - p 2 * x 1)) ∧
          (cayleyRotation p x) 1 = (1 + (p 0 ^ 2 + p 1 ^ 2 + p 2 ^ 2))⁻¹ *
            ((1 - (p 0 ^ 2 + p 1 ^ 2 + p 2 ^ 2)) * x 1 + 2 * (p 0 * x 0 + p 1 * x 1 + p 2 * x 2) * p 1 +
              2 * (p 2 * x 0 - p 0 * x 2)) ∧
          (cayleyRotation p x) 2 = (1 + (p 0 ^ 2 + p 1 ^ 2 + p 2 ^ 2))⁻¹ *
            ((1 - (p 0 ^ 2 + p 1 ^ 2 + p 2 ^ 2)) * x 2 + 2 * (p 0 * x 0 + p 1 * x 1 + p 2 * x 2) * p 2 +
              2 * (p 0 * x 1 - p 1 * x 0)) := by
        intro x
        rw [C90_rodrigues, hn, hi]
        simp only [PiLp.smul_apply, PiLp.add_apply, smul_eq_mul, cross_apply]
        simp
      obtain ⟨a0, a1, a2⟩ := key x
      obtain ⟨b0, b1, b2⟩ := key y
      rw [cayley_coords]
      simp only [cross_apply]
      simp
      rw [a0, a1, a2, b0, b1, b2]
      refine ⟨?_, ?_, ?_⟩ <;> field_simp <;> ring
    rw [this]
  · rw [cayley_coords]
    refine ⟨?_, ?_, ?_⟩ <;> ring

/-- A quarter turn about the third axis. -/
example : cayleyRotation !₂[0, 0, 1] !₂[1, 0, 0] = !₂[0, 1, 0] := by
  rw [cayley_coords]
  simp

end Verif
