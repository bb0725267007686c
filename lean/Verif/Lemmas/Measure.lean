import Mathlib.MeasureTheory.Function.Jacobian
import Mathlib.MeasureTheory.Measure.Haar.InnerProductSpace
import Mathlib.MeasureTheory.Constructions.Pi
import Mathlib.LinearAlgebra.Matrix.ToLin
import Mathlib.Topology.Algebra.Module.FiniteDimension
import Mathlib.Analysis.Calculus.FDeriv.Prod
import Mathlib.Analysis.Calculus.Deriv.Comp

/-! # Change of variables with constant Jacobian -/

namespace Verif

open MeasureTheory

/-- A map with constant Jacobian determinant that is injective on `s` scales measures by that constant. -/
theorem volume_of_jacobian {n : ℕ} {s : Set (Fin n → ℝ)} (hs : MeasurableSet s)
    {T : (Fin n → ℝ) → Fin n → ℝ} (hT : Measurable T)
    {T' : (Fin n → ℝ) → (Fin n → ℝ) →L[ℝ] Fin n → ℝ} (hd : ∀ x ∈ s, HasFDerivAt T (T' x) x)
    (inj : Set.InjOn T s) {c : ℝ} (hc : ∀ x ∈ s, |(T' x).det| = c) {A : Set (Fin n → ℝ)}
    (hA : MeasurableSet A) :
    ENNReal.ofReal c * volume (s ∩ T ⁻¹' A) = volume (A ∩ T '' s) := by
  have hm : MeasurableSet (s ∩ T ⁻¹' A) := hs.inter (hT hA)
  have h := lintegral_abs_det_fderiv_eq_addHaar_image volume hm
    (fun x hx => (hd x hx.1).hasFDerivWithinAt) (inj.mono Set.inter_subset_left)
  rw [Set.image_inter_preimage, Set.inter_comm (T '' s)] at h
  rw [← h, setLIntegral_congr_fun hm (g := fun _ => ENNReal.ofReal c), setLIntegral_const]
  intro x hx
  simp only [hc x hx.1]

/-- Version up to null sets. -/
theorem volume_of_jacobian_ae {n : ℕ} {s C R : Set (Fin n → ℝ)} (hs : MeasurableSet s)
    {T : (Fin n → ℝ) → Fin n → ℝ} (hT : Measurable T)
    {T' : (Fin n → ℝ) → (Fin n → ℝ) →L[ℝ] Fin n → ℝ} (hd : ∀ x ∈ s, HasFDerivAt T (T' x) x)
    (inj : Set.InjOn T s) {c : ℝ} (hc : ∀ x ∈ s, |(T' x).det| = c)
    (hsC : s ⊆ C) (hC : volume (C \ s) = 0) (hTR : T '' s ⊆ R) (hR : volume (R \ T '' s) = 0)
    {A : Set (Fin n → ℝ)} (hA : MeasurableSet A) :
    ENNReal.ofReal c * volume (C ∩ T ⁻¹' A) = volume (A ∩ R) := by
  have h1 : (s : Set (Fin n → ℝ)) =ᵐ[volume] C :=
    ae_eq_set.mpr ⟨by rw [Set.sdiff_eq_empty.mpr hsC, measure_empty], hC⟩
  have h2 : (T '' s : Set (Fin n → ℝ)) =ᵐ[volume] R :=
    ae_eq_set.mpr ⟨by rw [Set.sdiff_eq_empty.mpr hTR, measure_empty], hR⟩
  rw [← measure_congr (ae_eq_set_inter h1 (ae_eq_refl (T ⁻¹' A))),
    ← measure_congr (ae_eq_set_inter (ae_eq_refl A) h2)]
  exact volume_of_jacobian hs hT hd inj hc hA

/-- Coordinate hyperplanes are null sets. -/
theorem volume_hyperplane {n : ℕ} (i : Fin n) (a : ℝ) : volume {x : Fin n → ℝ | x i = a} = 0 := by
  rw [volume_pi]
  exact Measure.pi_hyperplane (α := fun _ => ℝ) (fun _ => volume) i a

/-- A matrix as a continuous linear map. -/
noncomputable def matCLM {n : ℕ} (M : Matrix (Fin n) (Fin n) ℝ) : (Fin n → ℝ) →L[ℝ] Fin n → ℝ :=
  LinearMap.toContinuousLinearMap (Matrix.toLin' M)

theorem matCLM_det {n : ℕ} (M : Matrix (Fin n) (Fin n) ℝ) : (matCLM M).det = M.det := by
  rw [matCLM, LinearMap.det_toContinuousLinearMap, LinearMap.det_toLin']

theorem matCLM_apply {n : ℕ} (M : Matrix (Fin n) (Fin n) ℝ) (v : Fin n → ℝ) (i : Fin n) :
    matCLM M v i = ∑ j, M i j * v j := by
  simp [matCLM, Matrix.mulVec, dotProduct]

theorem hasFDerivAt_matCLM {n : ℕ} {T : (Fin n → ℝ) → Fin n → ℝ} {M : Matrix (Fin n) (Fin n) ℝ}
    {x : Fin n → ℝ} (h : ∀ i, ∃ L : (Fin n → ℝ) →L[ℝ] ℝ, HasFDerivAt (fun y => T y i) L x ∧
      ∀ v, L v = ∑ j, M i j * v j) : HasFDerivAt T (matCLM M) x := by
  rw [hasFDerivAt_pi']
  intro i
  obtain ⟨L, hL, hLv⟩ := h i
  have : (ContinuousLinearMap.proj i).comp (matCLM M) = L := by
    ext v
    rw [hLv]
    exact matCLM_apply M v i
  rw [this]
  exact hL

theorem hasFDerivAt_coord {n : ℕ} {f : ℝ → ℝ} {f' : ℝ} {x : Fin n → ℝ} (j : Fin n)
    (h : HasDerivAt f f' (x j)) :
    HasFDerivAt (fun y : Fin n → ℝ => f (y j)) (f' • (ContinuousLinearMap.proj j : (Fin n → ℝ) →L[ℝ] ℝ)) x :=
  h.comp_hasFDerivAt x (hasFDerivAt_apply j x)

end Verif
