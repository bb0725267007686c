import Verif.Model.Notebooks
import Verif.Props.MumagField
import Mathlib.Analysis.Calculus.FDeriv.Symmetric
import Mathlib.Analysis.Calculus.ContDiff.Comp
import Mathlib.Analysis.Calculus.ContDiff.Operations

/-! # Derivatives with respect to parameters and points commute -/

namespace Verif

open Filter Topology

variable {P G : Type} [NormedAddCommGroup P] [NormedSpace ℝ P] [NormedAddCommGroup G] [NormedSpace ℝ G]

theorem partial_contDiffAt {F : P → Pt 3 → G} {p0 : P} {y : Pt 3} {j k : ℕ} (hF : ContDiffAt ℝ k (Function.uncurry F) (p0, y))
    (hk : j + 1 ≤ k) (w : Pt 3) : ContDiffAt ℝ j (Function.uncurry fun p y => fderiv ℝ (F p) y w) (p0, y) := by
  have h1 : ContDiffAt ℝ k (Function.uncurry fun (z : P × Pt 3) (y : Pt 3) => F z.1 y) ((p0, y), y) := by
    have : ContDiffAt ℝ k (fun z : (P × Pt 3) × Pt 3 => (z.1.1, z.2)) ((p0, y), y) := by fun_prop
    exact ContDiffAt.comp ((p0, y), y) (f := fun z : (P × Pt 3) × Pt 3 => (z.1.1, z.2)) (g := Function.uncurry F) hF this
  have h2 := ContDiffAt.fderiv (m := j) (f := fun (z : P × Pt 3) (y : Pt 3) => F z.1 y) (g := fun z : P × Pt 3 => z.2) (x₀ := (p0, y)) h1
    contDiffAt_snd (by exact_mod_cast hk)
  exact h2.clm_apply contDiffAt_const

theorem fderiv_slice_point {F : P → Pt 3 → G} {p : P} {y : Pt 3} (h : DifferentiableAt ℝ (Function.uncurry F) (p, y)) (w : Pt 3) :
    fderiv ℝ (F p) y w = fderiv ℝ (Function.uncurry F) (p, y) (0, w) := by
  have h1 := h.hasFDerivAt.comp y (hasFDerivAt_prodMk_right p y)
  rw [show F p = Function.uncurry F ∘ fun y => (p, y) from rfl, h1.fderiv]
  simp

theorem fderiv_slice_param {F : P → Pt 3 → G} {p : P} {y : Pt 3} (h : DifferentiableAt ℝ (Function.uncurry F) (p, y)) (v : P) :
    fderiv ℝ (fun p => F p y) p v = fderiv ℝ (Function.uncurry F) (p, y) (v, 0) := by
  have h1 := HasFDerivAt.comp (f := fun p => (p, y)) p h.hasFDerivAt (hasFDerivAt_prodMk_left p y)
  rw [show (fun p => F p y) = Function.uncurry F ∘ fun p => (p, y) from rfl, h1.fderiv]
  simp

theorem swap1 {F : P → Pt 3 → G} {p0 : P} {y : Pt 3} (hF : ContDiffAt ℝ 2 (Function.uncurry F) (p0, y)) (w : Pt 3) :
    ∃ L : P →L[ℝ] G, HasFDerivAt (fun p => fderiv ℝ (F p) y w) L p0 ∧
      ∀ v, L v = fderiv ℝ (fun y => fderiv ℝ (fun p => F p y) p0 v) y w := by
  set U := Function.uncurry F
  have hd : ∀ᶠ z in 𝓝 (p0, y), DifferentiableAt ℝ U z :=
    (hF.eventually (by simp)).mono fun z hz => hz.differentiableAt (by simp)
  have h2 : DifferentiableAt ℝ (fderiv ℝ U) (p0, y) := (hF.fderiv_right (m := 1) (by norm_num)).differentiableAt (by simp)
  have h3 := h2.hasFDerivAt
  set S := fderiv ℝ (fderiv ℝ U) (p0, y)
  have hsymm : ∀ a b, S a b = S b a := by
    have := hF.isSymmSndFDerivAt (by simp)
    exact this
  have hp : HasFDerivAt (fun p => fderiv ℝ U (p, y) (0, w)) _ p0 :=
    (h3.comp p0 (hasFDerivAt_prodMk_left p0 y)).clm_apply (hasFDerivAt_const (0, w) p0)
  have hcp : Tendsto (fun p => (p, y)) (𝓝 p0) (𝓝 (p0, y)) := (Continuous.prodMk_left y).tendsto p0
  have hcy : Tendsto (fun y => (p0, y)) (𝓝 y) (𝓝 (p0, y)) := (Continuous.prodMk_right p0).tendsto y
  refine ⟨_, hp.congr_of_eventuallyEq ((hcp.eventually hd).mono fun p h => fderiv_slice_point h w), fun v => ?_⟩
  have hy : HasFDerivAt (fun y => fderiv ℝ U (p0, y) (v, 0)) _ y :=
    (h3.comp y (hasFDerivAt_prodMk_right p0 y)).clm_apply (hasFDerivAt_const (v, 0) y)
  have hy' := hy.congr_of_eventuallyEq ((hcy.eventually hd).mono fun y h => fderiv_slice_param h v)
  rw [hy'.fderiv]
  simp [hsymm (v, 0) (0, w)]

theorem swap2 {F : P → Pt 3 → G} {p0 : P} {y : Pt 3} (hF : ContDiffAt ℝ 3 (Function.uncurry F) (p0, y)) (a b : Pt 3) :
    ∃ L : P →L[ℝ] G, HasFDerivAt (fun p => fderiv ℝ (fun y => fderiv ℝ (F p) y a) y b) L p0 ∧
      ∀ v, L v = fderiv ℝ (fun y => fderiv ℝ (fun y => fderiv ℝ (fun p => F p y) p0 v) y a) y b := by
  obtain ⟨L, h1, h2⟩ := swap1 (F := fun p y => fderiv ℝ (F p) y a) (partial_contDiffAt (j := 2) (k := 3) hF (by norm_num) a) b
  refine ⟨L, h1, fun v => ?_⟩
  rw [h2]
  congr 1
  refine Filter.EventuallyEq.fderiv_eq ?_
  have hcy : Tendsto (fun y => (p0, y)) (𝓝 y) (𝓝 (p0, y)) := (Continuous.prodMk_right p0).tendsto y
  have hd := hcy.eventually (hF.eventually (by simp))
  filter_upwards [hd] with y hy
  obtain ⟨L, h1, h2⟩ := swap1 (hy.of_le (by norm_num)) a
  rw [h1.fderiv, h2]

theorem param_differentiable {F : P → Pt 3 → G} {p0 : P} {y : Pt 3} (hF : ContDiffAt ℝ 1 (Function.uncurry F) (p0, y)) :
    DifferentiableAt ℝ (fun p => F p y) p0 :=
  DifferentiableAt.comp (f := fun p => (p, y)) (g := Function.uncurry F) p0 (hF.differentiableAt (by simp))
    (hasFDerivAt_prodMk_left p0 y).differentiableAt

end Verif
