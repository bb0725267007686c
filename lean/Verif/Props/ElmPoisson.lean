import Verif.Model.Notebooks
import Verif.Props.MumagStray
import Verif.Props.Cuboid
import Mathlib.Analysis.SpecialFunctions.ExpDeriv
import Mathlib.Analysis.SpecialFunctions.Trigonometric.Deriv
import Mathlib.Analysis.InnerProductSpace.Calculus

/-! # C163: the solver for Poisson's equation of `elm_poisson.ipynb` -/

namespace Verif

open XR InnerProductSpace Laplacian

/-! ## The ansatz -/

theorem elmAdf_fin (x : Pt 2) : ∃ c : ℝ, cube 1 false (RAlpha.sys 0) (efin x) = fin c ∧ ElmPoisson.adf x = c ∧
    (0 < c ↔ x.ofLp ∈ interior (Set.Icc (0 : Fin 2 → ℝ) 1)) ∧ (c = 0 ↔ x.ofLp ∈ frontier (Set.Icc (0 : Fin 2 → ℝ) 1)) := by
  have hS : SignLaw (RAlpha.sys 0).conj (RAlpha.sys 0).disj :=
    (C01_ralpha_sign_law 0).1 _ (by rw [RAlpha, if_pos (by norm_num)])
  obtain ⟨⟨c, h1, h2, h3, -⟩, h4⟩ := C10_cuboid_classifies (n := 2) (by norm_num) (RAlpha.sys 0) hS (fun _ => 1) false x.ofLp
  have e1 : boxLo (fun _ : Fin 2 => (1 : ℝ)) false = 0 := by
    funext i
    simp [boxLo]
  have e2 : boxHi (fun _ : Fin 2 => (1 : ℝ)) false = 1 := by
    funext i
    simp [boxHi]
  rw [e1, e2] at h2 h3
  have h5 : cube 1 false (RAlpha.sys 0) (efin x) = fin c := by
    rw [h4, ← h1]
    simp only [one_eq]
    rfl
  exact ⟨c, h5, by rw [ElmPoisson.adf, h5]; rfl, h2, h3⟩

theorem elmAdf_contDiff {x : Pt 2} (hx : x.ofLp ∈ interior (Set.Icc (0 : Fin 2 → ℝ) 1)) (j : WithTop ℕ∞) :
    ContDiffAt ℝ j ElmPoisson.adf x := by
  have hx' : ∀ i, 0 < x i ∧ x i < 1 := by
    rw [← Set.pi_univ_Icc, interior_pi_set Set.finite_univ] at hx
    simpa [interior_Icc] using hx
  have hc : ∀ i : Fin 2, ContDiffAt ℝ j (fun y : Pt 2 => y i) x := fun i => by fun_prop
  obtain ⟨g, h1, -, h2⟩ := foldl_conj_contDiff (j := j) (x := x)
    [fun y => y 0 - 0, fun y => 1 - y 1, fun y => y 1 - 0] (fun y => 1 - y 0) (by fun_prop) (by linarith [(hx' 0).2]) (by
      simp only [List.forall_mem_cons]
      refine ⟨⟨by fun_prop, ?_⟩, ⟨by fun_prop, ?_⟩, ⟨by fun_prop, ?_⟩, by simp⟩
      · linarith [(hx' 0).1]
      · linarith [(hx' 1).2]
      · linarith [(hx' 1).1])
  refine h1.congr_of_eventuallyEq (.of_forall fun y => ?_)
  have h3 := h2 y
  have e : cube 1 false (RAlpha.sys 0) (efin y) = fin (g y) := by
    rw [← h3]
    simp only [cube, cuboid, compose, cuboid.ub, cuboid.lb, EdgeArg.get, efin, reduce, List.finRange_succ,
      List.finRange_zero, List.map_cons, List.map_nil, List.flatMap_cons, List.flatMap_nil, List.append_nil, List.cons_append,
      List.nil_append, zero_eq, one_eq, Bool.false_eq_true, if_false]
    rfl
  rw [ElmPoisson.adf, e]
  rfl

variable {N k r : ℕ} (s : ElmPoisson N k r)

theorem elmPoisson_u_contDiff {x : Pt 2} (hx : x.ofLp ∈ interior (Set.Icc (0 : Fin 2 → ℝ) 1)) (j : WithTop ℕ∞) :
    ContDiffAt ℝ j s.u_elm x := by
  refine contDiffAt_pi.mpr fun a => (elmAdf_contDiff hx j).mul ?_
  have h : ContDiff ℝ j fun y : Pt 2 => -s.gamma * ‖y - s.W_elm a‖ ^ 2 :=
    contDiff_const.mul ((contDiff_id.sub contDiff_const).norm_sq ℝ)
  exact (Real.contDiff_exp.comp h).contDiffAt

/-- **C163, boundary.** Whatever the samples and weights are, the solution vanishes on the boundary of the square. -/
theorem C163_boundary (x : Pt 2) (hx : x.ofLp ∈ frontier (Set.Icc (0 : Fin 2 → ℝ) 1)) : s.elm_model x = 0 := by
  obtain ⟨c, -, h1, -, h2⟩ := elmAdf_fin x
  rw [h2.mpr hx] at h1
  simp [ElmPoisson.elm_model, ElmPoisson.u_elm, h1]

/-- **C163, data.** The right hand side is that of the equation `Δ u = -8 π² u` of the exact solution, which also vanishes on the
boundary of the square. -/
theorem C163_solution (x : Pt 2) : laplace ElmPoisson.solution x = -(8 * Real.pi ^ 2) * ElmPoisson.solution x ∧
    (x.ofLp ∈ frontier (Set.Icc (0 : Fin 2 → ℝ) 1) → ElmPoisson.solution x = 0) := by
  refine ⟨?_, fun hx => ?_⟩
  · let p : Fin 2 → Pt 2 →L[ℝ] ℝ := fun i => EuclideanSpace.proj i
    have hp : ∀ (i : Fin 2) (y : Pt 2), HasFDerivAt (fun y : Pt 2 => 2 * Real.pi * y i) ((2 * Real.pi) • p i) y := fun i y =>
      ((p i).hasFDerivAt (x := y)).const_mul (2 * Real.pi)
    have hs : ∀ (i : Fin 2) (y : Pt 2), HasFDerivAt (fun y : Pt 2 => Real.sin (2 * Real.pi * y i))
        (Real.cos (2 * Real.pi * y i) • (2 * Real.pi) • p i) y := fun i y => (hp i y).sin
    have hc : ∀ (i : Fin 2) (y : Pt 2), HasFDerivAt (fun y : Pt 2 => Real.cos (2 * Real.pi * y i))
        (-Real.sin (2 * Real.pi * y i) • (2 * Real.pi) • p i) y := fun i y => (hp i y).cos
    have hC : ∀ y, ContDiffAt ℝ 2 ElmPoisson.solution y := fun y => by
      have e : ElmPoisson.solution = fun y : Pt 2 => Real.sin (2 * Real.pi * y 0) * Real.sin (2 * Real.pi * y 1) := rfl
      rw [e]
      fun_prop
    have h1 : ∀ j, (fun y : Pt 2 => jacfwd ElmPoisson.solution y j) = fun y =>
        (Real.sin (2 * Real.pi * y 0) * (Real.cos (2 * Real.pi * y 1) * (2 * Real.pi)) * p 1 (unitVec j) +
          Real.sin (2 * Real.pi * y 1) * (Real.cos (2 * Real.pi * y 0) * (2 * Real.pi)) * p 0 (unitVec j)) := by
      intro j
      funext y
      rw [jacfwd, jvp, show ElmPoisson.solution = fun y : Pt 2 => Real.sin (2 * Real.pi * y 0) * Real.sin (2 * Real.pi * y 1) from rfl,
        HasFDerivAt.fderiv (f := fun y : Pt 2 => Real.sin (2 * Real.pi * y 0) * Real.sin (2 * Real.pi * y 1)) ((hs 0 y).mul (hs 1 y))]
      simp
      ring
    have h2 : ∀ j, HasFDerivAt (fun y : Pt 2 => jacfwd ElmPoisson.solution y j) _ x := fun j => by
      rw [h1]
      exact ((((hs 0 x).mul ((hc 1 x).mul_const (2 * Real.pi))).mul_const _).add
        (((hs 1 x).mul ((hc 0 x).mul_const (2 * Real.pi))).mul_const _))
    have h3 : HasFDerivAt (jacfwd ElmPoisson.solution) _ x := hasFDerivAt_pi.mpr h2
    simp only [laplace, hessianDiag, hvp, jvp, h3.fderiv, Fin.sum_univ_two, ElmPoisson.solution]
    simp [p]
    ring
  · have h : ∃ i, x i = 0 ∨ x i = 1 := by
      by_contra h
      push Not at h
      rw [isClosed_Icc.frontier_eq, ← Set.pi_univ_Icc, interior_pi_set Set.finite_univ] at hx
      obtain ⟨h1, h2⟩ := hx
      refine h2 fun i hi => ?_
      have h3 := h1 i hi
      show x i ∈ interior (Set.Icc (0 : ℝ) 1)
      rw [interior_Icc]
      exact ⟨lt_of_le_of_ne h3.1 (Ne.symm (h i).1), lt_of_le_of_ne h3.2 (h i).2⟩
    have h0 : ∀ i, x i = 0 ∨ x i = 1 → Real.sin (2 * Real.pi * x i) = 0 := by
      rintro i (h | h)
      · simp [h]
      · rw [h, mul_one, Real.sin_two_pi]
    obtain ⟨i, hi⟩ := h
    fin_cases i
    · rw [ElmPoisson.solution, h0 0 hi, zero_mul]
    · rw [ElmPoisson.solution, h0 1 hi, mul_zero]

/-! ## Ridge regression -/

open Matrix in
theorem ridge_normal (Q : Matrix (Fin N) (Fin k) ℝ) (U : Matrix (Fin N) (Fin r) ℝ) (S : Fin r → ℝ) (VT : Matrix (Fin r) (Fin k) ℝ)
    (lam : ℝ) (hlam : 0 < lam) (hQ : Q = U * diagonal S * VT) (hU : Uᵀ * U = 1) (hV : VT * VTᵀ = 1) (b : Fin N → ℝ) (c : Fin k → ℝ) :
    let p := (VTᵀ * diagonal (fun i => S i / (S i ^ 2 + lam)) * Uᵀ) *ᵥ b
    (Q *ᵥ c - b) ⬝ᵥ (Q *ᵥ c - b) + lam * (c ⬝ᵥ c) =
      (Q *ᵥ p - b) ⬝ᵥ (Q *ᵥ p - b) + lam * (p ⬝ᵥ p) + (Q *ᵥ (c - p)) ⬝ᵥ (Q *ᵥ (c - p)) + lam * ((c - p) ⬝ᵥ (c - p)) := by
  intro p
  have h1 : Qᵀ *ᵥ (Q *ᵥ p - b) + lam • p = 0 := by
    have e1 : Qᵀ *ᵥ (Q *ᵥ p) = (VTᵀ * diagonal (fun i => S i ^ 2 * (S i / (S i ^ 2 + lam))) * Uᵀ) *ᵥ b := by
      simp only [p, hQ, mulVec_mulVec, transpose_mul, diagonal_transpose]
      congr 1
      calc VTᵀ * (diagonal S * Uᵀ) * (U * diagonal S * VT * (VTᵀ * diagonal (fun i => S i / (S i ^ 2 + lam)) * Uᵀ))
          = VTᵀ * (diagonal S * (Uᵀ * U) * diagonal S * (VT * VTᵀ) * diagonal (fun i => S i / (S i ^ 2 + lam))) * Uᵀ := by
            simp only [Matrix.mul_assoc]
        _ = _ := by
          rw [hU, hV, Matrix.mul_one, Matrix.mul_one, diagonal_mul_diagonal, diagonal_mul_diagonal]
          simp only [sq]
    have e2 : Qᵀ *ᵥ b = (VTᵀ * diagonal S * Uᵀ) *ᵥ b := by
      rw [hQ]
      simp only [transpose_mul, diagonal_transpose, Matrix.mul_assoc]
    have e3 : lam • p = (VTᵀ * diagonal (fun i => lam * (S i / (S i ^ 2 + lam))) * Uᵀ) *ᵥ b := by
      simp only [p, ← smul_mulVec]
      congr 1
      rw [← Matrix.smul_mul, ← Matrix.mul_smul, ← diagonal_smul]
      rfl
    rw [mulVec_sub, e1, e2, e3, ← sub_mulVec, ← add_mulVec, ← Matrix.sub_mul, ← Matrix.add_mul, ← Matrix.mul_sub, ← Matrix.mul_add,
      diagonal_sub, diagonal_add]
    have : (fun i => S i ^ 2 * (S i / (S i ^ 2 + lam)) - S i + lam * (S i / (S i ^ 2 + lam))) = 0 := by
      funext i
      have : S i ^ 2 + lam ≠ 0 := by positivity
      simp only [Pi.zero_apply]
      field_simp
      ring
    rw [this]
    simp
  have h2 : (Q *ᵥ (c - p)) ⬝ᵥ (Q *ᵥ p - b) + lam * ((c - p) ⬝ᵥ p) = 0 := by
    rw [← vecMul_transpose, ← dotProduct_mulVec, ← smul_eq_mul, ← dotProduct_smul, ← dotProduct_add, h1, dotProduct_zero]
  have e : Q *ᵥ c - b = Q *ᵥ (c - p) + (Q *ᵥ p - b) := by rw [mulVec_sub]; abel
  have e' : c ⬝ᵥ c = (c - p) ⬝ᵥ (c - p) + 2 * ((c - p) ⬝ᵥ p) + p ⬝ᵥ p := by
    have e : c = (c - p) + p := by abel
    conv_lhs => rw [e]
    rw [add_dotProduct, dotProduct_add, dotProduct_add, dotProduct_comm p]
    ring
  rw [e, e', add_dotProduct, dotProduct_add, dotProduct_add, dotProduct_comm (Q *ᵥ p - b) (Q *ᵥ (c - p))]
  linear_combination 2 * h2

theorem elmPoisson_combination (n : Fin N) (hin : (s.x_dom n).ofLp ∈ interior (Set.Icc (0 : Fin 2 → ℝ) 1)) (c : Fin k → ℝ) :
    (Δ fun x => ∑ a, s.u_elm x a * c a) (s.x_dom n) = (s.Q.mulVec c) n := by
  have hu := elmPoisson_u_contDiff s hin 2
  let l : (Fin k → ℝ) →L[ℝ] ℝ := ∑ a, c a • ContinuousLinearMap.proj (R := ℝ) (φ := fun _ : Fin k => ℝ) a
  have hl : ∀ v, l v = ∑ a, v a * c a := by
    intro v
    simp [l, mul_comm]
  have e : (fun x => ∑ a, s.u_elm x a * c a) = l ∘ s.u_elm := by
    funext x
    rw [Function.comp_apply, hl]
  rw [e, hu.laplacian_CLM_comp_left, Function.comp_apply, hl]
  simp only [Matrix.mulVec, dotProduct, ElmPoisson.Q, C81_laplace _ _ hu]

/-- **C163, equation.** For every singular value decomposition, also with singular values that are zero, and samples in the open square
the computed coefficients are the only minimizer of the sum of squares of the residuals of Poisson's equation at the samples plus
`l2_reg` times the sum of squares of the coefficients. -/
theorem C163_ridge (hlam : 0 < s.l2_reg) (hin : ∀ n, (s.x_dom n).ofLp ∈ interior (Set.Icc (0 : Fin 2 → ℝ) 1))
    (hQ : s.Q = s.U * Matrix.diagonal s.S * s.VT) (hU : s.U.transpose * s.U = 1) (hV : s.VT * s.VT.transpose = 1) (c : Fin k → ℝ) :
    let objective := fun c : Fin k → ℝ =>
      ∑ n, ((Δ fun x => ∑ a, s.u_elm x a * c a) (s.x_dom n) - (Δ ElmPoisson.solution) (s.x_dom n)) ^ 2 + s.l2_reg * ∑ a, c a ^ 2
    s.elm_model = (fun x => ∑ a, s.u_elm x a * s.beta a) ∧ (c ≠ s.beta → objective s.beta < objective c) := by
  intro objective
  refine ⟨rfl, fun hc => ?_⟩
  set b : Fin N → ℝ := fun n => laplace ElmPoisson.solution (s.x_dom n) with hb
  have h1 := ridge_normal s.Q s.U s.S s.VT s.l2_reg hlam hQ hU hV b c
  have h2 : s.Q_inv = s.VT.transpose * Matrix.diagonal (fun i => s.S i / (s.S i ^ 2 + s.l2_reg)) * s.U.transpose := by
    rw [ElmPoisson.Q_inv]
    congr 1
    ext a i
    rw [Matrix.mul_diagonal]
    rfl
  have h3 : s.beta = (s.VT.transpose * Matrix.diagonal (fun i => s.S i / (s.S i ^ 2 + s.l2_reg)) * s.U.transpose).mulVec b := by
    rw [← h2]
    rfl
  rw [← h3] at h1
  have hC : ∀ y, ContDiffAt ℝ 2 ElmPoisson.solution y := fun y => by
    have e : ElmPoisson.solution = fun y : Pt 2 => Real.sin (2 * Real.pi * y 0) * Real.sin (2 * Real.pi * y 1) := rfl
    rw [e]
    fun_prop
  have h4 : ∀ c, objective c = dotProduct (s.Q.mulVec c - b) (s.Q.mulVec c - b) + s.l2_reg * dotProduct c c := by
    intro c
    simp only [objective, elmPoisson_combination s _ (hin _), ← C81_laplace _ _ (hC _), dotProduct, Pi.sub_apply, hb, sq]
  have h5 : 0 ≤ dotProduct (s.Q.mulVec (c - s.beta)) (s.Q.mulVec (c - s.beta)) := Finset.sum_nonneg fun i _ => mul_self_nonneg _
  have h6 : 0 < dotProduct (c - s.beta) (c - s.beta) :=
    lt_of_le_of_ne (Finset.sum_nonneg fun i _ => mul_self_nonneg _) (Ne.symm fun h => hc (sub_eq_zero.mp (dotProduct_self_eq_zero.mp h)))
  rw [h4, h4]
  have := mul_pos hlam h6
  linarith

/-- One sample and one ansatz function: the decomposition of the `1 × 1` matrix. -/
example (x w : Pt 2) (hx : x.ofLp ∈ interior (Set.Icc (0 : Fin 2 → ℝ) 1)) : ∃ s : ElmPoisson 1 1 1, s.x_dom = (fun _ => x) ∧
    s.W_elm = (fun _ => w) ∧ s.l2_reg = 1e-4 ∧ s.gamma = 20 ∧ s.elm_model !₂[0, 0.5] = 0 ∧ ∀ c, c ≠ s.beta →
      ((Δ fun x => ∑ a, s.u_elm x a * s.beta a) x - (Δ ElmPoisson.solution) x) ^ 2 + 1e-4 * s.beta 0 ^ 2 <
        ((Δ fun x => ∑ a, s.u_elm x a * c a) x - (Δ ElmPoisson.solution) x) ^ 2 + 1e-4 * c 0 ^ 2 := by
  let s0 : ElmPoisson 1 1 1 := ⟨fun _ => x, fun _ => w, 1e-4, 20, 1, fun _ => 0, 1⟩
  let s : ElmPoisson 1 1 1 := { s0 with S := fun _ => s0.Q 0 0 }
  refine ⟨s, rfl, rfl, rfl, rfl, C163_boundary s _ ?_, fun c hc => ?_⟩
  · rw [isClosed_Icc.frontier_eq]
    refine ⟨⟨fun i => ?_, fun i => ?_⟩, fun h => ?_⟩
    · fin_cases i <;> simp
      norm_num
    · fin_cases i <;> simp
      norm_num
    · rw [← Set.pi_univ_Icc, interior_pi_set Set.finite_univ] at h
      have := h 0 (Set.mem_univ _)
      simp at this
  · have h := (C163_ridge s (by norm_num [s, s0]) (fun _ => hx) (by
      ext i j
      fin_cases i
      fin_cases j
      simp [s, s0]
      rfl) (by simp [s, s0]) (by simp [s, s0]) c).2 hc
    simpa [s, s0] using h

end Verif
