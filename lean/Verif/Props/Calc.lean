import Verif.Model.Calc
import Verif.Props.BC
import Mathlib.Analysis.InnerProductSpace.Laplacian
import Mathlib.Analysis.Calculus.FDeriv.Symmetric
import Mathlib.Analysis.InnerProductSpace.Trace
import Mathlib.LinearAlgebra.CrossProduct

/-! # Properties of the differential operators -/

namespace Verif

open InnerProductSpace Laplacian

section
variable {E : Type} [NormedAddCommGroup E] [NormedSpace ℝ E] {n : ℕ}

theorem hasFDerivAt_fderiv_apply {D : Type} [NormedAddCommGroup D] [NormedSpace ℝ D] {f : D → E} {x : D}
    (hf : DifferentiableAt ℝ (fderiv ℝ f) x) (w : D) :
    HasFDerivAt (fun y => fderiv ℝ f y w) ((fderiv ℝ (fderiv ℝ f) x).flip w) x := by
  have h := hf.hasFDerivAt.clm_apply (hasFDerivAt_const w x)
  refine h.congr_fderiv ?_
  ext v
  simp

theorem differentiableAt_fderiv {D : Type} [NormedAddCommGroup D] [NormedSpace ℝ D] {f : D → E} {x : D}
    (hf : ContDiffAt ℝ 2 f x) : DifferentiableAt ℝ (fderiv ℝ f) x :=
  (hf.fderiv_right (m := 1) (by norm_num)).differentiableAt (by norm_num)

theorem hasFDerivAt_jacfwd {f : Pt n → E} {x : Pt n} (hf : DifferentiableAt ℝ (fderiv ℝ f) x) :
    HasFDerivAt (jacfwd f) (ContinuousLinearMap.pi fun j => (fderiv ℝ (fderiv ℝ f) x).flip (unitVec j)) x :=
  hasFDerivAt_pi.mpr fun j => hasFDerivAt_fderiv_apply hf (unitVec j)

theorem hvp_eq {f : Pt n → E} {x : Pt n} (hf : DifferentiableAt ℝ (fderiv ℝ f) x) (v : Pt n) (j : Fin n) :
    hvp f x v j = fderiv ℝ (fderiv ℝ f) x v (unitVec j) := by
  simp only [hvp, jvp, (hasFDerivAt_jacfwd hf).fderiv]
  rfl

theorem hessianDiag_eq {f : Pt n → E} {x : Pt n} (hf : DifferentiableAt ℝ (fderiv ℝ f) x) (i : Fin n) :
    hessianDiag f x i = fderiv ℝ (fderiv ℝ f) x (unitVec i) (unitVec i) := by
  simp only [hessianDiag]
  rw [Finset.sum_eq_single i]
  · simp [hvp_eq hf]
  · intro j _ hj
    simp [unitVec, hj]
  · simp

theorem jacMatrix_gradient {f : Pt n → ℝ} {x : Pt n} (hf : ContDiffAt ℝ 2 f x) (i j : Fin n) :
    jacMatrix (gradient f) x i j = fderiv ℝ (fderiv ℝ f) x (unitVec j) (unitVec i) := by
  have hev : ∀ᶠ y in nhds x, DifferentiableAt ℝ f y := by
    filter_upwards [hf.eventually (by simp)] with y hy
    exact hy.differentiableAt (by norm_num)
  have hg : gradient f =ᶠ[nhds x] jacVec f := by
    filter_upwards [hev] with y hy
    exact (jacVec_eq_gradient hy).symm
  simp only [jacMatrix, jacfwd, jvp]
  rw [hg.fderiv_eq]
  have h := (PiLp.continuousLinearEquiv 2 ℝ (fun _ : Fin n => ℝ)).symm.hasFDerivAt.comp x
    (hasFDerivAt_jacfwd (differentiableAt_fderiv hf))
  have e : jacVec f = (PiLp.continuousLinearEquiv 2 ℝ (fun _ : Fin n => ℝ)).symm ∘ jacfwd f := rfl
  rw [e, h.fderiv]
  rfl

/-! ## C81 -/

/-- `laplace` is the Laplacian, for values in any normed space. -/
theorem C81_laplace (f : Pt n → E) (x : Pt n) (hf : ContDiffAt ℝ 2 f x) : laplace f x = (Δ f) x := by
  rw [laplacian_eq_iteratedFDeriv_orthonormalBasis f (EuclideanSpace.basisFun (Fin n) ℝ), laplace]
  refine Finset.sum_congr rfl fun i _ => ?_
  rw [hessianDiag_eq (differentiableAt_fderiv hf), iteratedFDeriv_two_apply]
  simp

example : laplace (fun y : Pt 2 => y 0 ^ 3 * y 1) !₂[1, 2] = (Δ fun y : Pt 2 => y 0 ^ 3 * y 1) !₂[1, 2] :=
  C81_laplace _ _ (by fun_prop)

/-- For a function of a number it is the second derivative. -/
theorem C81_laplace_number (f : ℝ → E) (x : ℝ) : laplace1 f x = (Δ f) x := by
  rw [laplacian_eq_iteratedDeriv_real, iteratedDeriv_succ, iteratedDeriv_one]
  simp only [laplace1, hessianDiag1, jacfwd1, jvp, Finset.sum_const, Finset.card_univ, Fintype.card_fin, one_smul]
  simp only [fderiv_apply_one_eq_deriv]
  rfl

/-- A smooth function of a number. -/
example (x : ℝ) : laplace1 (fun y : ℝ => y ^ 3) x = (Δ fun y : ℝ => y ^ 3) x := C81_laplace_number _ x

/-- It is the divergence of the gradient. -/
theorem C81_div_grad (f : Pt n → ℝ) (x : Pt n) (hf : ContDiffAt ℝ 2 f x) :
    laplace f x = divergence (gradient f) x := by
  rw [laplace, divergence, valueAndDivergence, sumDiag]
  simp only [jacMatrix_gradient hf]
  rw [Finset.sum_congr rfl fun i _ => hessianDiag_eq (differentiableAt_fderiv hf) i]
  refine (Fintype.sum_equiv (finCongr (by simp)) _ _ fun i => ?_).symm
  rfl

end

/-! ## C82 -/

theorem hessian_symm {D F : Type} [NormedAddCommGroup D] [NormedSpace ℝ D] [NormedAddCommGroup F] [NormedSpace ℝ F]
    {f : D → F} {x : D} (hf : ContDiffAt ℝ 2 f x) (v w : D) :
    fderiv ℝ (fderiv ℝ f) x v w = fderiv ℝ (fderiv ℝ f) x w v :=
  (hf.isSymmSndFDerivAt (by simp)).eq v w

/-- The curl of a gradient vanishes in two dimensions ... -/
theorem C82_curl_grad_2d (f : Pt 2 → ℝ) (x : Pt 2) (hf : ContDiffAt ℝ 2 f x) : curl (gradient f) x = .ok (.inl 0) := by
  simp only [curl, curl2d, jacMatrix_gradient hf]
  rw [hessian_symm hf, sub_self]

example : curl (gradient fun y : Pt 2 => y 0 ^ 3 * y 1) !₂[1, 2] = .ok (.inl 0) :=
  C82_curl_grad_2d _ _ (by fun_prop)

/-- ... and in three. -/
theorem C82_curl_grad_3d (f : Pt 3 → ℝ) (x : Pt 3) (hf : ContDiffAt ℝ 2 f x) : curl (gradient f) x = .ok (.inr 0) := by
  simp only [curl, curl3d, jacMatrix_gradient hf]
  rw [hessian_symm hf (unitVec 1), hessian_symm hf (unitVec 2) (unitVec 0), hessian_symm hf (unitVec 0) (unitVec 1),
    sub_self, sub_self, sub_self]
  congr 2
  ext i
  fin_cases i <;> rfl

/-- The divergence of a curl vanishes. -/
theorem C82_div_curl (F : Pt 3 → Pt 3) (x : Pt 3) (hF : ContDiffAt ℝ 2 F x) :
    ∃ c : Pt 3 → Pt 3, (∀ y, curl F y = .ok (.inr (c y))) ∧ divergence c x = 0 := by
  refine ⟨curl3d F, fun y => rfl, ?_⟩
  set H := fderiv ℝ (fderiv ℝ F) x with hH
  have hentry : ∀ i j : Fin 3, HasFDerivAt (fun y => jacMatrix F y i j)
      ((EuclideanSpace.proj i : Pt 3 →L[ℝ] ℝ).comp (H.flip (unitVec j))) x := by
    intro i j
    exact (EuclideanSpace.proj i : Pt 3 →L[ℝ] ℝ).hasFDerivAt.comp x
      (hasFDerivAt_fderiv_apply (differentiableAt_fderiv hF) (unitVec j))
  have hc : HasFDerivAt (fun y => ![jacMatrix F y 2 1 - jacMatrix F y 1 2, jacMatrix F y 0 2 - jacMatrix F y 2 0,
      jacMatrix F y 1 0 - jacMatrix F y 0 1]) (ContinuousLinearMap.pi ![
        (EuclideanSpace.proj 2 : Pt 3 →L[ℝ] ℝ).comp (H.flip (unitVec 1)) - (EuclideanSpace.proj 1 : Pt 3 →L[ℝ] ℝ).comp (H.flip (unitVec 2)),
        (EuclideanSpace.proj 0 : Pt 3 →L[ℝ] ℝ).comp (H.flip (unitVec 2)) - (EuclideanSpace.proj 2 : Pt 3 →L[ℝ] ℝ).comp (H.flip (unitVec 0)),
        (EuclideanSpace.proj 1 : Pt 3 →L[ℝ] ℝ).comp (H.flip (unitVec 0)) - (EuclideanSpace.proj 0 : Pt 3 →L[ℝ] ℝ).comp (H.flip (unitVec 1))]) x := by
    rw [hasFDerivAt_pi]
    intro i
    fin_cases i
    · exact (hentry 2 1).sub (hentry 1 2)
    · exact (hentry 0 2).sub (hentry 2 0)
    · exact (hentry 1 0).sub (hentry 0 1)
  have h := (PiLp.continuousLinearEquiv 2 ℝ (fun _ : Fin 3 => ℝ)).symm.hasFDerivAt.comp x hc
  have hd : ∀ i j : Fin 3, jacMatrix (curl3d F) x i j = fderiv ℝ (curl3d F) x (unitVec j) i := fun i j => rfl
  have e : curl3d F = (PiLp.continuousLinearEquiv 2 ℝ (fun _ : Fin 3 => ℝ)).symm ∘
      (fun y => ![jacMatrix F y 2 1 - jacMatrix F y 1 2, jacMatrix F y 0 2 - jacMatrix F y 2 0,
        jacMatrix F y 1 0 - jacMatrix F y 0 1]) := rfl
  have hdiv : divergence (curl3d F) x = jacMatrix (curl3d F) x 0 0 + jacMatrix (curl3d F) x 1 1 + jacMatrix (curl3d F) x 2 2 := by
    show sumDiag _ = _
    unfold sumDiag
    exact Fin.sum_univ_three _
  rw [hdiv]
  simp only [hd]
  rw [e, h.fderiv]
  show (H (unitVec 0) (unitVec 1) 2 - H (unitVec 0) (unitVec 2) 1) + (H (unitVec 1) (unitVec 2) 0 - H (unitVec 1) (unitVec 0) 2) +
    (H (unitVec 2) (unitVec 0) 1 - H (unitVec 2) (unitVec 1) 0) = 0
  rw [hH, hessian_symm hF (unitVec 1) (unitVec 0), hessian_symm hF (unitVec 2) (unitVec 0), hessian_symm hF (unitVec 2) (unitVec 1)]
  ring

/-- The field `(y² , z², x²)`. -/
example (x : Pt 3) : ∃ c : Pt 3 → Pt 3, (∀ y, curl (fun z : Pt 3 => !₂[z 1 ^ 2, z 2 ^ 2, z 0 ^ 2]) y = .ok (.inr (c y))) ∧
    divergence c x = 0 := by
  refine C82_div_curl _ x (ContDiff.contDiffAt ?_)
  refine (contDiff_euclidean (𝕜 := ℝ)).mpr fun i => ?_
  have h : ∀ j : Fin 3, ContDiff ℝ 2 fun z : Pt 3 => z j := fun j => contDiff_euclidean.mp contDiff_id j
  fin_cases i
  · exact (h 1).pow 2
  · exact (h 2).pow 2
  · exact (h 0).pow 2

/-- Any other dimension of the argument is an error, and so is a value of another dimension than the argument. -/
theorem C82_dimension {n m : ℕ} (f : Pt n → Pt m) (x : Pt n) :
    (n ≠ 2 → n ≠ 3 → curl f x = .error .valueError) ∧ ((n = 2 ∨ n = 3) → (m ≠ n → curl f x = .error .assertion)) := by
  constructor
  · intro h2 h3
    unfold curl
    split <;> first | rfl | omega
  · intro h hm
    rcases h with rfl | rfl
    · rcases m with _ | _ | _ | m
      · rfl
      · rfl
      · exact absurd rfl hm
      · rfl
    · rcases m with _ | _ | _ | _ | m
      · rfl
      · rfl
      · rfl
      · exact absurd rfl hm
      · rfl

example (f : Pt 4 → Pt 4) (x : Pt 4) : curl f x = .error .valueError := (C82_dimension f x).1 (by norm_num) (by norm_num)

/-! ## C84 -/

section
variable {n : ℕ} {A : Type}

/-- The function `u` has the values of `f` and, if it gives gradients, the gradient of `f`. -/
def UserFun.Represents (u : UserFun n A) (f : Pt n → ℝ) : Prop :=
  match u with
  | .plain g => g = f
  | .aux g => (fun x => (g x).1) = f
  | .grad g => (fun x => (g x).1) = f ∧ (fun x => (g x).2) = gradient f
  | .gradAux g => (fun x => (g x).1.1) = f ∧ (fun x => (g x).2) = gradient f

theorem gradF_eq {u : UserFun n A} {f : Pt n → ℝ} (h : u.Represents f) {x : Pt n} (hf : DifferentiableAt ℝ f x) :
    gradF u x = gradient f x := by
  cases u with
  | plain g => rw [← jacVec_eq_gradient hf, ← (h : g = f)]; rfl
  | aux g => rw [← jacVec_eq_gradient hf, ← (h : _ = f)]; rfl
  | grad g => exact congrFun h.2 x
  | gradAux g => exact congrFun h.2 x

theorem hasFDerivAt_gradF {u : UserFun n A} {f : Pt n → ℝ} (h : u.Represents f) {x : Pt n} (hf : ContDiffAt ℝ 2 f x) :
    HasFDerivAt (gradF u) (((PiLp.continuousLinearEquiv 2 ℝ (fun _ : Fin n => ℝ)).symm : (Fin n → ℝ) →L[ℝ] Pt n).comp
      (ContinuousLinearMap.pi fun j => (fderiv ℝ (fderiv ℝ f) x).flip (unitVec j))) x := by
  have hd := (PiLp.continuousLinearEquiv 2 ℝ (fun _ : Fin n => ℝ)).symm.hasFDerivAt.comp x
    (hasFDerivAt_jacfwd (differentiableAt_fderiv hf))
  refine hd.congr_of_eventuallyEq ?_
  filter_upwards [hf.eventually (by simp)] with y hy
  rw [gradF_eq h (hy.differentiableAt (by norm_num)), ← jacVec_eq_gradient (hy.differentiableAt (by norm_num))]
  rfl

/-- All Hessian vector products agree with the second derivative, in all calling conventions. -/
theorem C84_hvp (u : UserFun n A) (f : Pt n → ℝ) (h : u.Represents f) (x : Pt n) (hf : ContDiffAt ℝ 2 f x)
    (v w : Pt n) :
    inner ℝ w (WithLp.toLp 2 (hvp f x v)) = fderiv ℝ (fderiv ℝ f) x v w ∧
    inner ℝ w (hvpForwardOverReverse u x v none) = fderiv ℝ (fderiv ℝ f) x v w ∧
    inner ℝ w (hvpReverseOverReverse u x v) = fderiv ℝ (fderiv ℝ f) x v w ∧
    inner ℝ w ((valueGradHvp u x).2.2.1 v) = fderiv ℝ (fderiv ℝ f) x v w := by
  have hsum : ∀ (L : Pt n →L[ℝ] ℝ), ∑ i, w i * L (unitVec i) = L w := by
    intro L
    have : w = ∑ i, w i • (unitVec i : Pt n) := by
      ext j
      simp [Pi.single_apply]
    conv_rhs => rw [this]
    simp [map_sum]
  have hg := hasFDerivAt_gradF h hf
  have h1 : inner ℝ w (WithLp.toLp 2 (hvp f x v)) = fderiv ℝ (fderiv ℝ f) x v w := by
    rw [PiLp.inner_apply, ← hsum]
    refine Finset.sum_congr rfl fun i _ => ?_
    simp [hvp_eq (differentiableAt_fderiv hf), mul_comm]
  have h2 : fderiv ℝ (gradF u) x v = WithLp.toLp 2 (hvp f x v) := by
    rw [hg.fderiv]
    ext i
    show _ = hvp f x v i
    rw [hvp_eq (differentiableAt_fderiv hf)]
    rfl
  refine ⟨h1, ?_, ?_, ?_⟩
  · show inner ℝ w (fderiv ℝ (gradF u) x v) = _
    rw [h2, h1]
  · have h3 : HasFDerivAt (fun y => ∑ i, gradF u y i * v i) (∑ i, v i •
        (EuclideanSpace.proj i : Pt n →L[ℝ] ℝ).comp (fderiv ℝ (gradF u) x)) x := by
      refine HasFDerivAt.fun_sum fun i _ => ?_
      have := ((EuclideanSpace.proj i : Pt n →L[ℝ] ℝ).hasFDerivAt.comp x hg.differentiableAt.hasFDerivAt).mul_const (v i)
      exact this
    have h4 : hvpReverseOverReverse u x v = WithLp.toLp 2 (hvp f x v) := by
      ext i
      show fderiv ℝ (fun y => ∑ i, gradF u y i * v i) x (unitVec i) = hvp f x v i
      rw [h3.fderiv, hvp_eq (differentiableAt_fderiv hf), hessian_symm hf]
      have e : ∀ j, fderiv ℝ (gradF u) x (unitVec i) j = fderiv ℝ (fderiv ℝ f) x (unitVec i) (unitVec j) := by
        intro j
        rw [hg.fderiv]
        rfl
      have : v = ∑ j, v j • (unitVec j : Pt n) := by
        ext j
        simp [Pi.single_apply]
      conv_rhs => rw [this]
      simp [map_sum, e]
    rw [h4, h1]
  · show inner ℝ w (fderiv ℝ (gradF u) x v) = _
    rw [h2, h1]

/-- The squared norm with an auxiliary output. -/
example (x v w : Pt 3) : inner ℝ w (hvpForwardOverReverse (A := ℕ) (.aux fun x : Pt 3 => (‖x‖ ^ 2, 7)) x v none) =
    fderiv ℝ (fderiv ℝ fun x : Pt 3 => ‖x‖ ^ 2) x v w :=
  (C84_hvp (.aux fun x : Pt 3 => (‖x‖ ^ 2, 7)) (fun x => ‖x‖ ^ 2) rfl x (contDiff_norm_sq ℝ).contDiffAt v w).2.1

/-- They are linear in the direction and symmetric. -/
theorem C84_symmetric (u : UserFun n A) (f : Pt n → ℝ) (h : u.Represents f) (x : Pt n) (hf : ContDiffAt ℝ 2 f x)
    (v w : Pt n) : inner ℝ w ((valueGradHvp u x).2.2.1 v) = inner ℝ v ((valueGradHvp u x).2.2.1 w) := by
  rw [(C84_hvp u f h x hf v w).2.2.2, (C84_hvp u f h x hf w v).2.2.2, hessian_symm hf]

example (x v w : Pt 3) : inner ℝ w ((valueGradHvp (A := ℕ) (.aux fun x : Pt 3 => (‖x‖ ^ 2, 7)) x).2.2.1 v) =
    inner ℝ v ((valueGradHvp (A := ℕ) (.aux fun x : Pt 3 => (‖x‖ ^ 2, 7)) x).2.2.1 w) :=
  C84_symmetric (.aux fun x : Pt 3 => (‖x‖ ^ 2, 7)) (fun x => ‖x‖ ^ 2) rfl x (contDiff_norm_sq ℝ).contDiffAt v w

theorem C84_linear (u : UserFun n A) (x v w : Pt n) (a b : ℝ) :
    (valueGradHvp u x).2.2.1 (a • v + b • w) = a • (valueGradHvp u x).2.2.1 v + b • (valueGradHvp u x).2.2.1 w := by
  simp [valueGradHvp]

/-- `alpha` adds the multiple of the direction. -/
theorem C84_alpha (u : UserFun n A) (x v : Pt n) (alpha : ℝ) :
    hvpForwardOverReverse u x v (some alpha) = hvpForwardOverReverse u x v none + alpha • v := rfl

/-- The other results of `value_grad_hvp` are the value and the gradient of `f`. -/
theorem C84_value_grad (u : UserFun n A) (f : Pt n → ℝ) (h : u.Represents f) (x : Pt n) (hf : DifferentiableAt ℝ f x) :
    (valueGradHvp u x).1 = f x ∧ (valueGradHvp u x).2.1 = gradient f x := by
  refine ⟨?_, gradF_eq h hf⟩
  cases u with
  | plain g => exact congrFun (h : g = f) x
  | aux g => exact congrFun (h : _ = f) x
  | grad g => exact congrFun h.1 x
  | gradAux g => exact congrFun h.1 x

example (x : Pt 3) : (valueGradHvp (A := ℕ) (.aux fun x : Pt 3 => (‖x‖ ^ 2, 7)) x).2.1 = gradient (fun x => ‖x‖ ^ 2) x :=
  (C84_value_grad (.aux fun x : Pt 3 => (‖x‖ ^ 2, 7)) (fun x => ‖x‖ ^ 2) rfl x ((contDiff_norm_sq ℝ (n := 1)).differentiable (by norm_num) x)).2

/-! ## C88 -/

/-- The auxiliary output of the user's function. -/
def UserFun.auxOut (u : UserFun n A) (x : Pt n) : Option A :=
  match u with
  | .plain _ => none
  | .aux g => some (g x).2
  | .grad _ => none
  | .gradAux g => some (g x).1.2

/-- The last result of `value_grad_hvp` is the auxiliary output. -/
theorem C84_aux (u : UserFun n A) (x : Pt n) : (valueGradHvp u x).2.2.2 = u.auxOut x := by cases u <;> rfl

/-- In all four conventions the derived functions give the value, the gradient and the auxiliary output. -/
theorem C88_normalised (u : UserFun n A) (f : Pt n → ℝ) (h : u.Represents f) (x : Pt n) (hf : DifferentiableAt ℝ f x) :
    (makeFunsWithAux u).1 x = (f x, u.auxOut x) ∧
    (makeFunsWithAux u).2.1 x = (gradient f x, u.auxOut x) ∧
    (makeFunsWithAux u).2.2 x = ((f x, u.auxOut x), gradient f x) := by
  cases u with
  | plain g =>
    have : g = f := h
    subst this
    simp [makeFunsWithAux, UserFun.auxOut, jaxValueAndGradAux, jacVec_eq_gradient hf]
  | aux g =>
    have hv : ∀ y, (g y).1 = f y := fun y => congrFun (h : _ = f) y
    simp [makeFunsWithAux, UserFun.auxOut, jaxValueAndGradAux, hv, jacVec_eq_gradient hf]
  | grad g =>
    have hv := congrFun h.1 x
    have hg := congrFun h.2 x
    simp [makeFunsWithAux, UserFun.auxOut, hv, hg]
  | gradAux g =>
    have hv := congrFun h.1 x
    have hg := congrFun h.2 x
    simp [makeFunsWithAux, UserFun.auxOut, hv, hg]

/-- A function which returns value, auxiliary output and gradient itself. -/
example (x : Pt 3) : (makeFunsWithAux (A := ℕ) (.aux fun x : Pt 3 => (‖x‖ ^ 2, 7))).2.2 x =
    ((‖x‖ ^ 2, some 7), gradient (fun x => ‖x‖ ^ 2) x) :=
  (C88_normalised (.aux fun x : Pt 3 => (‖x‖ ^ 2, 7)) (fun x => ‖x‖ ^ 2) rfl x
    ((contDiff_norm_sq ℝ (n := 1)).differentiable (by norm_num) x)).2.2

end

/-! ## C83 -/

section
variable {E : Type} [NormedAddCommGroup E] [NormedSpace ℝ E] {k : ℕ} {s : Fin k → ℕ}

/-- The partial derivative with respect to entry `c.2` of argument `c.1`. -/
noncomputable def partialDeriv (f : Args s → E) (c : (i : Fin k) × Fin (s i)) (x : Args s) : E :=
  deriv (fun t => f (Function.update x c.1 (Function.update (x c.1) c.2 t))) (x c.1 c.2)

/-- What an entry of `wrt` together with its `argnum` denotes: a position or a name denotes the argument, which must be a
number; with `argnum`, the position denotes an entry of this argument. Both may be counted from the end. -/
inductive Denotes (names : List String) : Partials → Option ℤ → (i : Fin k) × Fin (s i) → Prop where
  | pos (i : Fin k) (c : Fin (s i)) (hc : s i = 1) : Denotes names (.int (i : ℕ)) none ⟨i, c⟩
  | name (i : Fin k) (c : Fin (s i)) (hc : s i = 1) (nm : String) (hn : names[(i : ℕ)]? = some nm)
      (huniq : ∀ j < (i : ℕ), names[j]? ≠ some nm) : Denotes names (.str nm) none ⟨i, c⟩
  | entry (i : Fin k) (c : Fin (s i)) (w a : ℤ) (hw : w = (c : ℕ) ∨ w = (c : ℕ) - (s i : ℤ))
      (ha : a = (i : ℕ) ∨ a = (i : ℕ) - (k : ℤ)) : Denotes names (.int w) (some a) ⟨i, c⟩

/-- The direction of an entry. -/
def coordDir (c : (i : Fin k) × Fin (s i)) : Args s := Function.update 0 c.1 (Pi.single c.2 1)

theorem coordDir_apply (c : (i : Fin k) × Fin (s i)) (i : Fin k) (e : Fin (s i)) :
    coordDir c i e = if i = c.1 ∧ (e : ℕ) = c.2 then 1 else 0 := by
  obtain ⟨j, d⟩ := c
  by_cases h : i = j
  · subst h
    simp [coordDir, Pi.single_apply, Fin.ext_iff]
  · simp [coordDir, h]

theorem partialDeriv_eq {f : Args s → E} {x : Args s} (hf : DifferentiableAt ℝ f x) (c : (i : Fin k) × Fin (s i)) :
    partialDeriv f c x = fderiv ℝ f x (coordDir c) := by
  have h : ∀ t : ℝ, Function.update x c.1 (Function.update (x c.1) c.2 t) = x + (t - x c.1 c.2) • coordDir c := by
    intro t
    funext i e
    rw [Pi.add_apply, Pi.smul_apply, Pi.add_apply, Pi.smul_apply, coordDir_apply]
    by_cases hi : i = c.1
    · subst hi
      by_cases he : e = c.2
      · subst he; simp
      · have : (e : ℕ) ≠ c.2 := fun h => he (Fin.ext h)
        simp [he, this]
    · simp [hi]
  unfold partialDeriv
  simp only [h]
  have hd : HasDerivAt (fun t : ℝ => x + (t - x c.1 c.2) • coordDir c) (coordDir c) (x c.1 c.2) := by
    have := (((hasDerivAt_id (x c.1 c.2)).sub_const (x c.1 c.2)).smul_const (coordDir c)).const_add x
    simpa using this
  have hf' : HasFDerivAt f (fderiv ℝ f x) (x + (x c.1 c.2 - x c.1 c.2) • coordDir c) := by
    simpa using hf.hasFDerivAt
  exact (hf'.comp_hasDerivAt _ hd).deriv

theorem derivative_df_eq {names : List String} {w : Partials} {a : Option ℤ} {c : (i : Fin k) × Fin (s i)}
    (h : Denotes names w a c) (f : Args s → E) :
    derivative.df names f w a = .ok fun x => fderiv ℝ f x (coordDir c) := by
  have hpos : ∀ (i : Fin k) (c : Fin (s i)), s i = 1 →
      (fun (i' : Fin k) (_ : Fin (s i')) => if (i' : ℤ) = ((i : ℕ) : ℤ) then (1 : ℝ) else 0) = coordDir ⟨i, c⟩ := by
    intro i c hc
    funext i' e
    rw [coordDir_apply]
    by_cases hi : i' = i
    · subst hi
      have h1 := e.isLt
      have h2 := c.isLt
      rw [if_pos rfl, if_pos ⟨rfl, by simp only; omega⟩]
    · rw [if_neg (by intro h; exact hi (Fin.ext (by exact_mod_cast h))), if_neg (by rintro ⟨h, -⟩; exact hi h)]
  cases h with
  | pos i c hc =>
    simp only [derivative.df, valueAndDerivative, derivativeDirection, bind, Except.bind, pure, Except.pure, jvp]
    rw [hpos i c hc]
  | name i c hc nm hn huniq =>
    have hmem : nm ∈ names := List.mem_of_getElem? hn
    have hidx : names.idxOf nm = i := by
      have hlt : (i : ℕ) < names.length := (List.getElem?_eq_some_iff.mp hn).1
      have hget : names[(i : ℕ)] = nm := (List.getElem?_eq_some_iff.mp hn).2
      refine le_antisymm ?_ ?_
      · by_contra hlt'
        have := List.not_of_lt_findIdx (not_le.mp hlt')
        simp [hget] at this
      · by_contra hlt'
        refine huniq _ (not_le.mp hlt') ?_
        rw [List.getElem?_eq_getElem (List.idxOf_lt_length_of_mem hmem), List.getElem_idxOf]
    simp only [derivative.df, valueAndDerivative, derivativeDirection, bind, Except.bind, pure, Except.pure, jvp, hmem,
      if_true, hidx]
    rw [hpos i c hc]
  | entry i c w a hw ha =>
    have hx : pyIndex (List.finRange k) a = .ok i := by
      rw [pyIndex_iff]
      rcases ha with rfl | rfl
      · left
        exact ⟨by omega, by simp⟩
      · right
        refine ⟨by omega, ?_⟩
        rw [List.getElem?_reverse (by simp; omega), List.length_finRange,
          show k - 1 - (-((i : ℕ) - (k : ℤ)) - 1).toNat = (i : ℕ) by omega]
        simp
    simp only [derivative.df, valueAndDerivative, derivativeDirection, bind, Except.bind, pure, Except.pure, jvp, hx]
    congr 1
    funext x
    congr 1
    funext i' e
    rw [coordDir_apply]
    have hw' : (if w < 0 then w + (s i : ℤ) else w) = (c : ℕ) := by
      have := c.isLt
      rcases hw with rfl | rfl
      · rw [if_neg (by omega)]
      · rw [if_pos (by omega)]; ring
    simp only [hw']
    by_cases hi : i' = i ∧ (e : ℕ) = c
    · rw [if_pos hi, if_pos ⟨hi.1, by exact_mod_cast hi.2⟩]
    · rw [if_neg hi, if_neg (by rintro ⟨h1, h2⟩; exact hi ⟨h1, by exact_mod_cast h2⟩)]

/-- `derivative([..], argnums=[..])(f)` is the iterated partial derivative in the listed order. -/
theorem C83_iterated (names : List String) (wrt : List Partials) (argnums : List (Option ℤ))
    (cs : List ((i : Fin k) × Fin (s i)))
    (h : List.Forall₂ (fun wa c => Denotes names wa.1 wa.2 c) (wrt.zip argnums) cs) (hlen : argnums.length = wrt.length)
    (f : Args s → E) (hf : ContDiff ℝ cs.length f) :
    derivative names (.seq wrt) (.inr argnums) f = .ok (cs.foldl partialDeriv f) := by
  refine (if_pos hlen).trans ?_
  show (wrt.zip argnums).foldlM _ f = _
  generalize wrt.zip argnums = l at h
  induction h generalizing f with
  | nil => rfl
  | @cons wa c l cs h1 _ ih =>
    rw [List.length_cons] at hf
    have hd : Differentiable ℝ f := hf.differentiable (by simp)
    have e : (fun x => fderiv ℝ f x (coordDir c)) = partialDeriv f c :=
      funext fun x => (partialDeriv_eq (hd x) c).symm
    rw [List.foldlM_cons, List.foldl_cons]
    simp only [derivative_df_eq h1, bind, Except.bind]
    rw [e]
    refine ih _ ?_
    rw [← e]
    exact (hf.fderiv_right (m := cs.length) (by norm_num)).clm_apply contDiff_const

/-- `value_and_derivative` returns the value beside the derivative. -/
theorem C83_value (names : List String) {w : Partials} {a : Option ℤ} {c : (i : Fin k) × Fin (s i)}
    (h : Denotes names w a c) (f : Args s → E) (hf : Differentiable ℝ f) :
    valueAndDerivative names f w a = .ok fun x => (f x, partialDeriv f c x) := by
  have h1 := derivative_df_eq h f
  have h2 : ∀ g, valueAndDerivative names f w a = .ok g → ∀ x, (g x).1 = f x := by
    intro g hg x
    simp only [valueAndDerivative, bind, Except.bind, pure, Except.pure, throw, throwThe, MonadExceptOf.throw] at hg
    repeat' split at hg
    all_goals first | cases hg; done | (cases hg; rfl)
  cases h3 : valueAndDerivative names f w a with
  | error e => simp [derivative.df, h3, bind, Except.bind] at h1
  | ok g =>
    simp only [derivative.df, h3, bind, Except.bind, pure, Except.pure, Except.ok.injEq] at h1
    congr 1
    funext x
    refine Prod.ext (h2 g h3 x) ?_
    rw [partialDeriv_eq (hf x) c]
    exact congrFun h1 x

/-- The value and the second partial derivative of a function of two numbers. -/
example (f : Args (fun _ : Fin 2 => 1) → ℝ) (hf : Differentiable ℝ f) :
    valueAndDerivative ["x", "y"] f (.int 1) none = .ok fun x => (f x, partialDeriv f ⟨1, 0⟩ x) :=
  C83_value _ (Denotes.pos 1 0 rfl) f hf

theorem contDiff_partialDeriv {m : ℕ} {f : Args s → E} (hf : ContDiff ℝ (m + 1 : ℕ) f) (c : (i : Fin k) × Fin (s i)) :
    ContDiff ℝ m (partialDeriv f c) := by
  have hd : Differentiable ℝ f := hf.differentiable (by simp)
  have e : (fun x => fderiv ℝ f x (coordDir c)) = partialDeriv f c :=
    funext fun x => (partialDeriv_eq (hd x) c).symm
  rw [← e]
  exact (hf.fderiv_right (m := m) (by norm_num)).clm_apply contDiff_const

/-- The order does not matter. -/
theorem C83_order (cs cs' : List ((i : Fin k) × Fin (s i))) (hp : cs.Perm cs') (f : Args s → E)
    (hf : ContDiff ℝ cs.length f) : cs.foldl partialDeriv f = cs'.foldl partialDeriv f := by
  induction hp generalizing f with
  | nil => rfl
  | cons c _ ih =>
    rw [List.foldl_cons, List.foldl_cons]
    exact ih _ (contDiff_partialDeriv hf c)
  | swap c d l =>
    simp only [List.foldl_cons]
    congr 1
    rw [List.length_cons, List.length_cons] at hf
    have h2 : ContDiff ℝ 2 f := hf.of_le (by norm_cast; omega)
    have hd : Differentiable ℝ f := h2.differentiable (by simp)
    have e : ∀ c, (fun x => fderiv ℝ f x (coordDir c)) = partialDeriv f c := fun c =>
      funext fun x => (partialDeriv_eq (hd x) c).symm
    funext x
    have hx := fun c => (hasFDerivAt_fderiv_apply (differentiableAt_fderiv (h2.contDiffAt (x := x))) (coordDir (s := s) c))
    rw [partialDeriv_eq (by rw [← e]; exact (hx d).differentiableAt), partialDeriv_eq (by rw [← e]; exact (hx c).differentiableAt),
      ← e, ← e, (hx c).fderiv, (hx d).fderiv]
    exact hessian_symm h2.contDiffAt _ _
  | trans h1 _ ih1 ih2 =>
    rw [ih1 f hf, ih2 f (by rwa [← h1.length_eq])]

/-- Three partial derivatives of a function of two numbers. -/
example (f : Args (fun _ : Fin 2 => 1) → ℝ) (hf : ContDiff ℝ 3 f) :
    partialDeriv (partialDeriv (partialDeriv f ⟨0, 0⟩) ⟨0, 0⟩) ⟨1, 0⟩ =
      partialDeriv (partialDeriv (partialDeriv f ⟨1, 0⟩) ⟨0, 0⟩) ⟨0, 0⟩ :=
  C83_order [⟨0, 0⟩, ⟨0, 0⟩, ⟨1, 0⟩] [⟨1, 0⟩, ⟨0, 0⟩, ⟨0, 0⟩] ((List.Perm.cons _ (.swap _ _ _)).trans (.swap _ _ _)) f hf

/-- `derivative(f)` and `derivative(f, i)`. -/
theorem C83_direct (names : List String) (f : Args s → E) (i : Fin k) (c : Fin (s i)) (hc : s i = 1)
    (hf : Differentiable ℝ f) :
    derivativeDirect names f (some (i : ℕ)) = .ok (partialDeriv f ⟨i, c⟩) ∧
      ((i : ℕ) = 0 → derivativeDirect names f none = .ok (partialDeriv f ⟨i, c⟩)) := by
  have e : (fun x => fderiv ℝ f x (coordDir ⟨i, c⟩)) = partialDeriv f ⟨i, c⟩ :=
    funext fun x => (partialDeriv_eq (hf x) _).symm
  have h := derivative_df_eq (Denotes.pos (names := names) i c hc) f
  rw [e] at h
  refine ⟨h, fun hi => ?_⟩
  rw [hi] at h
  exact h

example (f : Args (fun _ : Fin 2 => 1) → ℝ) (hf : Differentiable ℝ f) :
    derivativeDirect ["x", "y"] f (some 1) = .ok (partialDeriv f ⟨1, 0⟩) := (C83_direct ["x", "y"] f 1 0 rfl hf).1

/-- A position which is not that of an argument, for example a negative one, is no error: the result is zero. -/
theorem C83_out_of_range (names : List String) (f : Args s → E) (i : ℤ) (hi : ∀ j : Fin k, (j : ℤ) ≠ i) :
    derivative names (.int i) (.inl none) f = .ok fun _ => 0 := by
  have : (fun (i' : Fin k) (_ : Fin (s i')) => if (i' : ℤ) = i then (1 : ℝ) else 0) = 0 := by
    funext i' e
    rw [if_neg (hi i')]
    rfl
  simp [derivative, Wrt.toList, derivative.df, valueAndDerivative, derivativeDirection, bind, Except.bind, pure,
    Except.pure, jvp, this]

example (f : Args (fun _ : Fin 2 => 1) → ℝ) : derivative ["x", "y"] (.int (-1)) (.inl none) f = .ok fun _ => 0 :=
  C83_out_of_range _ f (-1) (by omega)

/-- Unknown names are rejected. -/
theorem C83_unknown (names : List String) (f : Args s → E) (nm : String) (h : nm ∉ names) :
    derivative names (.seq [.str nm]) (.inl none) f = .error .assertion := by
  simp [derivative, Wrt.toList, derivative.df, valueAndDerivative, bind, Except.bind, pure,
    Except.pure, h, throw, throwThe, MonadExceptOf.throw]

example (f : Args (fun _ : Fin 2 => 1) → ℝ) : derivative ["x", "y"] (.seq [.str "z"]) (.inl none) f = .error .assertion :=
  C83_unknown _ f "z" (by decide)

/-- A name cannot be combined with `argnums`. -/
theorem C83_name_argnum (names : List String) (f : Args s → E) (nm : String) (a : ℤ) :
    derivative names (.seq [.str nm]) (.inr [some a]) f = .error .assertion := by
  simp [derivative, Wrt.toList, derivative.df, valueAndDerivative, bind, Except.bind, throw, throwThe, MonadExceptOf.throw]

/-- A single string is not a name but the sequence of its characters: it is rejected if one of them is not the name of an
argument. -/
theorem C83_string (names : List String) (name : String) (h : ∃ c ∈ name.toList, c.toString ∉ names) (a : Option ℤ) (f : Args s → E) :
    derivative names (.str name) (.inl a) f = .error .assertion := by
  have key : ∀ (l : List Char) (f : Args s → E), (∃ c ∈ l, c.toString ∉ names) →
      ((l.map fun c => Partials.str c.toString).zip ((l.map fun c => Partials.str c.toString).map fun _ => a)).foldlM
        (fun df (x : Partials × Option ℤ) => derivative.df names df x.1 x.2) f = .error .assertion := by
    intro l
    induction l with
    | nil => rintro f ⟨c, hc, -⟩; simp at hc
    | cons c l ih =>
      rintro f ⟨d, hd, hdn⟩
      simp only [List.map_cons, List.zip_cons_cons, List.foldlM_cons]
      cases a with
      | some a => rfl
      | none =>
        by_cases hc : c.toString ∈ names
        · have hdl : d ∈ l := by
            rcases List.mem_cons.mp hd with rfl | h
            · exact absurd hc hdn
            · exact h
          simp only [derivative.df, valueAndDerivative, if_pos hc, bind, Except.bind, pure, Except.pure, derivativeDirection]
          exact ih _ ⟨d, hdl, hdn⟩
        · simp only [derivative.df, valueAndDerivative, if_neg hc, bind, Except.bind, pure, Except.pure, throw, throwThe,
            MonadExceptOf.throw]
  exact (if_pos (by simp)).trans (key name.toList f h)

/-- `derivative("phi")` of a function of one argument `phi`. -/
example (f : Args s → E) : derivative ["phi"] (.str "phi") (.inl none) f = .error .assertion :=
  C83_string ["phi"] "phi" ⟨'p', by simp, by decide⟩ none f

/-- One `argnums` for all entries. -/
theorem C83_common (names : List String) (wrt : List Partials) (a : Option ℤ) (f : Args s → E) :
    derivative names (.seq wrt) (.inl a) f = derivative names (.seq wrt) (.inr (wrt.map fun _ => a)) f := rfl

end

/-- `derivative(["x", "y"])` of a function of two numbers `x`, `y`. -/
example (f : Args (fun _ : Fin 2 => 1) → ℝ) (hf : ContDiff ℝ 2 f) :
    derivative ["x", "y"] (.seq [.str "x", .str "y"]) (.inl none) f =
      .ok (partialDeriv (partialDeriv f ⟨0, 0⟩) ⟨1, 0⟩) := by
  rw [C83_common]
  refine C83_iterated ["x", "y"] [.str "x", .str "y"] [none, none] [⟨0, 0⟩, ⟨1, 0⟩] ?_ rfl f hf
  refine .cons (Denotes.name 0 0 rfl "x" rfl (by simp)) (.cons (Denotes.name 1 0 rfl "y" rfl ?_) .nil)
  intro j hj
  have : j = 0 := by simpa using hj
  subst this
  simp

/-- `derivative([0, 0], argnums=[0, 1])` of a function of two vectors. -/
example (f : Args (fun _ : Fin 2 => 2) → ℝ) (hf : ContDiff ℝ 2 f) :
    derivative ["x", "y"] (.seq [.int 0, .int 0]) (.inr [some 0, some 1]) f =
      .ok (partialDeriv (partialDeriv f ⟨0, 0⟩) ⟨1, 0⟩) :=
  C83_iterated ["x", "y"] [.int 0, .int 0] [some 0, some 1] [⟨0, 0⟩, ⟨1, 0⟩]
    (.cons (Denotes.entry 0 0 _ _ (Or.inl rfl) (Or.inl rfl)) (.cons (Denotes.entry 1 0 _ _ (Or.inl rfl) (Or.inl rfl)) .nil)) rfl f hf

/-- A smooth function: the squared norm. -/
example (x : Pt 3) : laplace (fun y : Pt 3 => ‖y‖ ^ 2) x = divergence (gradient fun y : Pt 3 => ‖y‖ ^ 2) x :=
  C81_div_grad _ x (contDiff_norm_sq ℝ).contDiffAt

example (x : Pt 3) : curl (gradient fun y : Pt 3 => ‖y‖ ^ 2) x = .ok (.inr 0) :=
  C82_curl_grad_3d _ x (contDiff_norm_sq ℝ).contDiffAt

example : UserFun.Represents (A := ℕ) (.aux fun x : Pt 3 => (‖x‖ ^ 2, 7)) fun x => ‖x‖ ^ 2 := rfl

/-! ## C91 -/

/-- The derivative of a vector field in coordinates. -/
theorem fderiv_coord {n m : ℕ} (F : Pt n → Pt m) (x v : Pt n) (i : Fin m) :
    fderiv ℝ F x v i = ∑ j, v j * jacMatrix F x i j := by
  have hv : v = ∑ j, v j • (unitVec j : Pt n) := by
    ext j
    simp [Pi.single_apply]
  conv_lhs => rw [hv]
  simp [map_sum, jacMatrix, jacfwd, jvp]

/-- The curl in three dimensions has the orientation of the right hand: its flux through the parallelogram spanned by `v`
and `w` is the circulation of the linearised field around it. -/
theorem C91_curl_3d (F : Pt 3 → Pt 3) (x v w : Pt 3) :
    ∃ c : Pt 3, curl F x = .ok (.inr c) ∧
      inner ℝ c (WithLp.toLp 2 (crossProduct v.ofLp w.ofLp)) = inner ℝ (fderiv ℝ F x v) w - inner ℝ (fderiv ℝ F x w) v := by
  refine ⟨curl3d F x, rfl, ?_⟩
  simp only [PiLp.inner_apply, Fin.sum_univ_three, RCLike.inner_apply, conj_trivial, fderiv_coord, cross_apply]
  simp only [curl3d]
  simp
  ring

/-- In two dimensions as well. -/
theorem C91_curl_2d (F : Pt 2 → Pt 2) (x v w : Pt 2) :
    ∃ c : ℝ, curl F x = .ok (.inl c) ∧
      c * (v 0 * w 1 - v 1 * w 0) = inner ℝ (fderiv ℝ F x v) w - inner ℝ (fderiv ℝ F x w) v := by
  refine ⟨curl2d F x, rfl, ?_⟩
  simp only [PiLp.inner_apply, Fin.sum_univ_two, RCLike.inner_apply, conj_trivial, fderiv_coord]
  simp only [curl2d]
  ring

/-- The rotation about the third axis has curl `(0, 0, 2)`. -/
example (c : Pt 3) (F : Pt 3 → Pt 3) (x : Pt 3) (hF : ∀ y, F y = !₂[-y 1, y 0, 0]) (hc : curl F x = .ok (.inr c)) :
    c 2 = 2 := by
  have hL : HasFDerivAt F ((PiLp.continuousLinearEquiv 2 ℝ (fun _ : Fin 3 => ℝ)).symm.toContinuousLinearMap.comp
      (ContinuousLinearMap.pi ![-(EuclideanSpace.proj 1 : Pt 3 →L[ℝ] ℝ), EuclideanSpace.proj 0, 0])) x := by
    have e : F = (PiLp.continuousLinearEquiv 2 ℝ (fun _ : Fin 3 => ℝ)).symm ∘
        (ContinuousLinearMap.pi ![-(EuclideanSpace.proj 1 : Pt 3 →L[ℝ] ℝ), EuclideanSpace.proj 0, 0]) := by
      funext y
      rw [hF]
      ext i
      fin_cases i <;> rfl
    rw [e]
    exact (PiLp.continuousLinearEquiv 2 ℝ (fun _ : Fin 3 => ℝ)).symm.toContinuousLinearMap.hasFDerivAt.comp x
      (ContinuousLinearMap.hasFDerivAt _)
  obtain ⟨c', h1, h2⟩ := C91_curl_3d F x (unitVec 0) (unitVec 1)
  rw [hc] at h1
  cases h1
  rw [hL.fderiv] at h2
  simp [PiLp.inner_apply, Fin.sum_univ_three, cross_apply] at h2
  linarith

/-! ## C92 -/

/-- The divergence is the trace of the derivative. -/
theorem C92_trace {n : ℕ} (F : Pt n → Pt n) (x : Pt n) :
    divergence F x = LinearMap.trace ℝ (Pt n) (fderiv ℝ F x) := by
  rw [LinearMap.trace_eq_sum_inner _ (EuclideanSpace.basisFun (Fin n) ℝ)]
  rw [divergence, valueAndDivergence, sumDiag]
  refine Fintype.sum_equiv (finCongr (by simp)) _ _ fun i => ?_
  simp [jacMatrix, jacfwd, jvp, EuclideanSpace.inner_single_left]
  rfl

/-- `value_and_divergence` returns the value beside the divergence. -/
theorem C92_value {n : ℕ} (F : Pt n → Pt n) (x : Pt n) :
    valueAndDivergence F x = (F x, LinearMap.trace ℝ (Pt n) (fderiv ℝ F x)) :=
  Prod.ext rfl (C92_trace F x)

/-- For values of shape `(b, n)` it is the divergence of each row. -/
theorem C92_batch {b n : ℕ} (F : Pt n → Fin b → Pt n) (x : Pt n) (hF : DifferentiableAt ℝ F x) (r : Fin b) :
    divergenceBatch F x r = divergence (fun y => F y r) x := by
  rw [divergenceBatch, divergence, valueAndDivergence]
  congr 1
  funext i j
  have h := (hasFDerivAt_pi'.mp hF.hasFDerivAt r).fderiv
  simp only [jacMatrix, jacfwd, jvp]
  rw [h]
  rfl

/-- Two fields in the plane at once. -/
example (x : Pt 2) (r : Fin 2) : divergenceBatch (fun y : Pt 2 => ![y, (2 : ℝ) • y]) x r =
    divergence (fun y : Pt 2 => ![y, (2 : ℝ) • y] r) x :=
  C92_batch _ x (differentiableAt_pi.mpr fun i => by fin_cases i; exacts [differentiableAt_id, differentiableAt_id.const_smul (2 : ℝ)]) r

/-- A function with a number as value is accepted: the result is the sum of its partial derivatives. -/
theorem C92_scalar {n : ℕ} (f : Pt n → ℝ) (x : Pt n) :
    divergenceScalar f x = fderiv ℝ f x (∑ i, unitVec i) := by
  simp [divergenceScalar, Matrix.diagonal_apply, jacfwd, jvp, map_sum]

/-- The position field has divergence `n`. -/
example {n : ℕ} (x : Pt n) : divergence (fun y : Pt n => y) x = n := by
  rw [C92_trace]
  simp

end Verif
