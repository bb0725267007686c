import Verif.Props.MumagPot2
import Verif.Props.Calc
import Mathlib.Analysis.SpecialFunctions.Trigonometric.DerivHyp
import Mathlib.Analysis.SpecialFunctions.Sqrt
import Mathlib.LinearAlgebra.Matrix.DotProduct

/-! # The stray field solver of `mumag3.py` (C98, C99) -/

namespace Verif

open XR InnerProductSpace Laplacian

/-! ## Smoothness of the ansatz -/

theorem contDiff_tanh {j : WithTop ℕ∞} : ContDiff ℝ j Real.tanh := by
  have e : Real.tanh = fun x => Real.sinh x / Real.cosh x := funext Real.tanh_eq_sinh_div_cosh
  rw [e]
  exact Real.contDiff_sinh.div Real.contDiff_cosh fun x => (Real.cosh_pos x).ne'

theorem foldl_conj_contDiff {E : Type} [NormedAddCommGroup E] [NormedSpace ℝ E] {j : WithTop ℕ∞} {x : E} :
    ∀ (fs : List (E → ℝ)) (d : E → ℝ), ContDiffAt ℝ j d x → 0 < d x → (∀ f ∈ fs, ContDiffAt ℝ j f x ∧ 0 < f x) →
      ∃ g : E → ℝ, ContDiffAt ℝ j g x ∧ 0 < g x ∧
        ∀ y, (fs.map fun f => fin (f y)).foldl (RAlpha.sys 0).conj (fin (d y)) = fin (g y) := by
  intro fs
  induction fs with
  | nil => exact fun d h1 h2 _ => ⟨d, h1, h2, fun y => rfl⟩
  | cons f fs ih =>
    intro d h1 h2 h3
    obtain ⟨h4, h5⟩ := h3 f (by simp)
    obtain ⟨g, h6, h7, h8⟩ := ih (fun y => 1 / (1 + 0) * (d y + f y - Real.sqrt (d y ^ 2 + f y ^ 2 - 2 * 0 * d y * f y)))
      (contDiffAt_const.mul ((h1.add h4).sub (ContDiffAt.sqrt (((h1.pow 2).add (h4.pow 2)).sub
        ((contDiffAt_const.mul h1).mul h4)) (by nlinarith [pow_pos h2 2, pow_pos h5 2]))))
      (by have := alpha_conj_pos (α := 0) (by norm_num) h2 h5; simp only [add_zero, div_one, one_mul]; linarith) fun f hf => h3 f (by simp [hf])
    refine ⟨g, h6, h7, fun y => ?_⟩
    rw [← h8 y, List.map_cons, List.foldl_cons]
    congr 1
    exact RAlpha.conj_fin (by norm_num) (by norm_num) _ _

/-- The ADF is smooth in the interior of the cuboid. -/
theorem adf_contDiff {xs ys zs : List ℝ} {D : Cuboid} (hD : Cuboid.init xs ys zs = .ok D) {x : Pt 3}
    (hx : x.ofLp ∈ interior (Set.Icc (gridLo ![xs, ys, zs]) (gridHi ![xs, ys, zs]))) (j : WithTop ℕ∞) :
    ContDiffAt ℝ j D.adfReal x := by
  obtain ⟨-, -, -, rfl⟩ := init_inv hD
  set lo := gridLo ![xs, ys, zs] with hlo
  set hi := gridHi ![xs, ys, zs] with hhi
  have hx' : ∀ i, lo i < x i ∧ x i < hi i := by
    rw [← Set.pi_univ_Icc, interior_pi_set Set.finite_univ] at hx
    simpa [interior_Icc] using hx
  have hc : ∀ i : Fin 3, ContDiffAt ℝ j (fun y : Pt 3 => y i) x := fun i => by fun_prop
  obtain ⟨g, h1, -, h2⟩ := foldl_conj_contDiff (j := j) (x := x)
    [fun y => y 0 - lo 0 - 0, fun y => hi 1 - lo 1 - (y 1 - lo 1), fun y => y 1 - lo 1 - 0,
      fun y => hi 2 - lo 2 - (y 2 - lo 2), fun y => y 2 - lo 2 - 0]
    (fun y => hi 0 - lo 0 - (y 0 - lo 0)) (by fun_prop) (by have := (hx' 0).2; linarith) (by
      simp only [List.forall_mem_cons]
      refine ⟨⟨by fun_prop, ?_⟩, ⟨by fun_prop, ?_⟩, ⟨by fun_prop, ?_⟩, ⟨by fun_prop, ?_⟩, ⟨by fun_prop, ?_⟩, by simp⟩
      · linarith [(hx' 0).1]
      · linarith [(hx' 1).2]
      · linarith [(hx' 1).1]
      · linarith [(hx' 2).2]
      · linarith [(hx' 2).1])
  refine h1.congr_of_eventuallyEq (.of_forall fun y => ?_)
  have h3 := h2 y
  have e : (Cuboid.adf ⟨xs, ys, zs, ⟨vfin lo, vfin hi⟩, sides xs ys zs⟩) (efin y) = fin (g y) := by
    rw [← h3]
    simp only [Cuboid.adf, translate, cuboid, compose, cuboid.ub, cuboid.lb, EdgeArg.get, vfin, efin, reduce, List.finRange_succ,
      List.finRange_zero, List.map_cons, List.map_nil, List.flatMap_cons, List.flatMap_nil, List.append_nil, List.cons_append,
      List.nil_append, zero_eq, fin_sub, Bool.false_eq_true, if_false]
    rfl
  simp only [Cuboid.adfReal]
  rw [e]
  rfl

theorem normalize_toReal {xs ys zs : List ℝ} {D : Cuboid} (hD : Cuboid.init xs ys zs = .ok D)
    (hlt : ∀ i, gridLo ![xs, ys, zs] i < gridHi ![xs, ys, zs] i) (x : Pt 3) (i : Fin 3) :
    XR.toReal (D.normalize (efin x) i) =
      2 * (x i - gridLo ![xs, ys, zs] i) / (gridHi ![xs, ys, zs] i - gridLo ![xs, ys, zs] i) - 1 := by
  obtain ⟨-, -, -, rfl⟩ := init_inv hD
  have := congrFun (normalize_fin ⟨xs, ys, zs, ⟨vfin (gridLo (grids xs ys zs)), vfin (gridHi (grids xs ys zs))⟩,
    sides xs ys zs⟩ _ _ rfl rfl hlt x.ofLp) i
  rw [show efin x = vfin x.ofLp from rfl, this]
  rfl

variable {N k r : ℕ}

theorem h_elm_contDiff {xs ys zs : List ℝ} (s : StrayField N k r) (hD : Cuboid.init xs ys zs = .ok s.domain)
    (hlt : ∀ i, gridLo ![xs, ys, zs] i < gridHi ![xs, ys, zs] i) (a : Fin k) (j : WithTop ℕ∞) :
    ContDiff ℝ j fun x => s.h_elm x a := by
  refine contDiff_tanh.comp (ContDiff.add (ContDiff.sum fun i _ => contDiff_const.mul ?_) contDiff_const)
  simp only [normalize_toReal hD hlt]
  fun_prop

theorem u_elm_contDiff {xs ys zs : List ℝ} (s : StrayField N k r) (hD : Cuboid.init xs ys zs = .ok s.domain)
    (hlt : ∀ i, gridLo ![xs, ys, zs] i < gridHi ![xs, ys, zs] i) {x : Pt 3}
    (hx : x.ofLp ∈ interior (Set.Icc (gridLo ![xs, ys, zs]) (gridHi ![xs, ys, zs]))) (j : WithTop ℕ∞) :
    ContDiffAt ℝ j s.u_elm x :=
  contDiffAt_pi.mpr fun a => (h_elm_contDiff s hD hlt a j).contDiffAt.mul (adf_contDiff hD hx j)

/-! ## Least squares -/

open Matrix in
theorem pinv_least_squares (Q : Matrix (Fin N) (Fin k) ℝ) (U : Matrix (Fin N) (Fin r) ℝ) (S : Fin r → ℝ)
    (VT : Matrix (Fin r) (Fin k) ℝ) (hQ : Q = U * diagonal S * VT) (hU : Uᵀ * U = 1) (hV : VT * VTᵀ = 1)
    (hS : ∀ i, S i ≠ 0) (b : Fin N → ℝ) (c : Fin k → ℝ) :
    let p := (VTᵀ * diagonal (fun i => 1 / S i) * Uᵀ) *ᵥ b
    (Q *ᵥ p - b) ⬝ᵥ (Q *ᵥ p - b) ≤ (Q *ᵥ c - b) ⬝ᵥ (Q *ᵥ c - b) ∧
    ((Q *ᵥ c - b) ⬝ᵥ (Q *ᵥ c - b) = (Q *ᵥ p - b) ⬝ᵥ (Q *ᵥ p - b) → p ⬝ᵥ p ≤ c ⬝ᵥ c) := by
  intro p
  have hD : diagonal S * diagonal (fun i => 1 / S i) = 1 := by
    rw [diagonal_mul_diagonal, ← diagonal_one]
    congr 1
    funext i
    rw [mul_one_div, div_self (hS i)]
  have h1 : Q *ᵥ p = (U * Uᵀ) *ᵥ b := by
    simp only [p, hQ, mulVec_mulVec]
    congr 1
    calc U * diagonal S * VT * (VTᵀ * diagonal (fun i => 1 / S i) * Uᵀ)
        = U * (diagonal S * (VT * VTᵀ) * diagonal (fun i => 1 / S i)) * Uᵀ := by simp only [Matrix.mul_assoc]
      _ = _ := by rw [hV, Matrix.mul_one, hD, Matrix.mul_one]
  have h2 : Qᵀ *ᵥ (Q *ᵥ p - b) = 0 := by
    rw [h1, mulVec_sub, mulVec_mulVec, hQ, ← sub_mulVec]
    have e : (U * diagonal S * VT)ᵀ * (U * Uᵀ) - (U * diagonal S * VT)ᵀ = 0 := by
      simp only [transpose_mul]
      calc VTᵀ * ((diagonal S)ᵀ * Uᵀ) * (U * Uᵀ) - VTᵀ * ((diagonal S)ᵀ * Uᵀ)
          = VTᵀ * (diagonal S)ᵀ * (Uᵀ * U) * Uᵀ - VTᵀ * ((diagonal S)ᵀ * Uᵀ) := by simp only [Matrix.mul_assoc]
        _ = 0 := by rw [hU]; simp [Matrix.mul_assoc]
    rw [e, zero_mulVec]
  have h3 : (Q *ᵥ (c - p)) ⬝ᵥ (Q *ᵥ p - b) = 0 := by
    rw [← vecMul_transpose, ← dotProduct_mulVec, h2, dotProduct_zero]
  have h4 : (Q *ᵥ c - b) ⬝ᵥ (Q *ᵥ c - b) = (Q *ᵥ (c - p)) ⬝ᵥ (Q *ᵥ (c - p)) + (Q *ᵥ p - b) ⬝ᵥ (Q *ᵥ p - b) := by
    have e : Q *ᵥ c - b = Q *ᵥ (c - p) + (Q *ᵥ p - b) := by rw [mulVec_sub]; abel
    rw [e, add_dotProduct, dotProduct_add, dotProduct_add, h3, dotProduct_comm (Q *ᵥ p - b), h3]
    ring
  have h5 : 0 ≤ (Q *ᵥ (c - p)) ⬝ᵥ (Q *ᵥ (c - p)) := Finset.sum_nonneg fun i _ => mul_self_nonneg _
  refine ⟨by linarith, fun h6 => ?_⟩
  have h7 : Q *ᵥ (c - p) = 0 := dotProduct_self_eq_zero.mp (by linarith)
  have h8 : VT *ᵥ (c - p) = 0 := by
    have h9 : (diagonal (fun i => 1 / S i) * Uᵀ) *ᵥ (Q *ᵥ (c - p)) = VT *ᵥ (c - p) := by
      rw [mulVec_mulVec, hQ]
      congr 1
      calc diagonal (fun i => 1 / S i) * Uᵀ * (U * diagonal S * VT)
          = diagonal (fun i => 1 / S i) * (Uᵀ * U) * diagonal S * VT := by simp only [Matrix.mul_assoc]
        _ = VT := by
          have hD' : diagonal (fun i => 1 / S i) * diagonal S = 1 := by
            rw [diagonal_mul_diagonal, ← diagonal_one]
            congr 1
            funext i
            rw [one_div_mul_cancel (hS i)]
          rw [hU, Matrix.mul_one, hD', Matrix.one_mul]
    rw [← h9, h7, mulVec_zero]
  have h10 : (c - p) ⬝ᵥ p = 0 := by
    have e : p = VTᵀ *ᵥ ((diagonal (fun i => 1 / S i) * Uᵀ) *ᵥ b) := by
      simp only [p, mulVec_mulVec, Matrix.mul_assoc]
    rw [e, dotProduct_mulVec, vecMul_transpose, ← e, h8, zero_dotProduct]
  have h11 : 0 ≤ (c - p) ⬝ᵥ (c - p) := Finset.sum_nonneg fun i _ => mul_self_nonneg _
  have h12 : c ⬝ᵥ c = (c - p) ⬝ᵥ (c - p) + p ⬝ᵥ p := by
    have e : c = (c - p) + p := by abel
    conv_lhs => rw [e]
    rw [add_dotProduct, dotProduct_add, dotProduct_add, h10, dotProduct_comm p, h10]
    ring
  linarith

theorem laplacian_combination {xs ys zs : List ℝ} (s : StrayField N k r) (hD : Cuboid.init xs ys zs = .ok s.domain)
    (hlt : ∀ i, gridLo ![xs, ys, zs] i < gridHi ![xs, ys, zs] i) (n : Fin N)
    (hin : (s.X_dom n).ofLp ∈ interior (Set.Icc (gridLo ![xs, ys, zs]) (gridHi ![xs, ys, zs]))) (c : Fin k → ℝ) :
    (Δ fun x => ∑ a, s.u_elm x a * c a) (s.X_dom n) = -(s.Q_phi1.mulVec c) n := by
  have hu := u_elm_contDiff s hD hlt hin 2
  let l : (Fin k → ℝ) →L[ℝ] ℝ := ∑ a, c a • ContinuousLinearMap.proj (R := ℝ) (φ := fun _ : Fin k => ℝ) a
  have hl : ∀ v, l v = ∑ a, v a * c a := by
    intro v
    simp [l, mul_comm]
  have e : (fun x => ∑ a, s.u_elm x a * c a) = l ∘ s.u_elm := by
    funext x
    rw [Function.comp_apply, hl]
  rw [e, hu.laplacian_CLM_comp_left, Function.comp_apply, hl]
  simp only [Matrix.mulVec, dotProduct, StrayField.Q_phi1, C81_laplace _ _ hu, Pi.neg_apply, neg_mul, Finset.sum_neg_distrib,
    neg_neg]

/-- The potential `phi1` solves Poisson's equation `Δ phi1 = div m` at the collocation points in the least squares sense
among all combinations of the ansatz functions, with the smallest coefficients among all solutions. -/
theorem C98_least_squares (xs ys zs : List ℝ) (s : StrayField N k r) (hD : Cuboid.init xs ys zs = .ok s.domain)
    (hlt : ∀ i, gridLo ![xs, ys, zs] i < gridHi ![xs, ys, zs] i)
    (hin : ∀ n, (s.X_dom n).ofLp ∈ interior (Set.Icc (gridLo ![xs, ys, zs]) (gridHi ![xs, ys, zs])))
    (hQ : s.Q_phi1 = s.U * Matrix.diagonal s.S * s.VT) (hU : s.U.transpose * s.U = 1) (hV : s.VT * s.VT.transpose = 1)
    (hS : ∀ i, s.S i ≠ 0) (m : Pt 3 → Pt 3) (c : Fin k → ℝ) :
    let residual := fun φ : Pt 3 → ℝ => ∑ n, ((Δ φ) (s.X_dom n) - LinearMap.trace ℝ (Pt 3) (fderiv ℝ m (s.X_dom n))) ^ 2
    residual (s.phi1 m) ≤ residual (fun x => ∑ a, s.u_elm x a * c a) ∧
    (residual (fun x => ∑ a, s.u_elm x a * c a) = residual (s.phi1 m) → ∑ a, s.params_phi1 m a ^ 2 ≤ ∑ a, c a ^ 2) := by
  intro residual
  set b : Fin N → ℝ := fun n => -divergence m (s.X_dom n) with hb
  have h1 := pinv_least_squares s.Q_phi1 s.U s.S s.VT hQ hU hV hS b c
  have h2 : s.Pinv_phi1 = s.VT.transpose * Matrix.diagonal (fun i => 1 / s.S i) * s.U.transpose := by
    rw [StrayField.Pinv_phi1]
    congr 1
    ext a i
    rw [Matrix.mul_diagonal]
    rfl
  have h3 : s.params_phi1 m = (s.VT.transpose * Matrix.diagonal (fun i => 1 / s.S i) * s.U.transpose).mulVec b := by
    rw [← h2]
    rfl
  rw [← h3] at h1
  have h4 : ∀ c, residual (fun x => ∑ a, s.u_elm x a * c a) = dotProduct (s.Q_phi1.mulVec c - b) (s.Q_phi1.mulVec c - b) := by
    intro c
    simp only [residual, laplacian_combination s hD hlt _ (hin _), ← C92_trace, dotProduct, Pi.sub_apply, hb]
    exact Finset.sum_congr rfl fun n _ => by ring
  have h5 : residual (s.phi1 m) = _ := h4 (s.params_phi1 m)
  have h6 : ∀ c : Fin k → ℝ, ∑ a, c a ^ 2 = dotProduct c c := fun c => by simp only [dotProduct, sq]
  rw [h5, h4 c, h6, h6]
  exact h1

/-- With as many singular values as collocation points the equation holds at these points. -/
theorem C98_collocation (xs ys zs : List ℝ) (s : StrayField N k N) (hD : Cuboid.init xs ys zs = .ok s.domain)
    (hlt : ∀ i, gridLo ![xs, ys, zs] i < gridHi ![xs, ys, zs] i)
    (hin : ∀ n, (s.X_dom n).ofLp ∈ interior (Set.Icc (gridLo ![xs, ys, zs]) (gridHi ![xs, ys, zs])))
    (hQ : s.Q_phi1 = s.U * Matrix.diagonal s.S * s.VT) (hU : s.U.transpose * s.U = 1) (hV : s.VT * s.VT.transpose = 1)
    (hS : ∀ i, s.S i ≠ 0) (m : Pt 3 → Pt 3) (n : Fin N) :
    (Δ (s.phi1 m)) (s.X_dom n) = LinearMap.trace ℝ (Pt 3) (fderiv ℝ m (s.X_dom n)) := by
  have hU' : s.U * s.U.transpose = 1 := mul_eq_one_comm.mp hU
  set b : Fin N → ℝ := fun n => -divergence m (s.X_dom n) with hb
  have h1 := laplacian_combination s hD hlt n (hin n) (s.params_phi1 m)
  have hD : Matrix.diagonal s.S * Matrix.diagonal (fun i => 1 / s.S i) = 1 := by
    rw [Matrix.diagonal_mul_diagonal, ← Matrix.diagonal_one]
    congr 1
    funext i
    rw [mul_one_div, div_self (hS i)]
  have h2 : s.Q_phi1 * s.Pinv_phi1 = 1 := by
    have h3 : s.Pinv_phi1 = s.VT.transpose * Matrix.diagonal (fun i => 1 / s.S i) * s.U.transpose := by
      rw [StrayField.Pinv_phi1]
      congr 1
      ext a i
      rw [Matrix.mul_diagonal]
      rfl
    rw [h3, hQ]
    calc s.U * Matrix.diagonal s.S * s.VT * (s.VT.transpose * Matrix.diagonal (fun i => 1 / s.S i) * s.U.transpose)
        = s.U * (Matrix.diagonal s.S * (s.VT * s.VT.transpose) * Matrix.diagonal (fun i => 1 / s.S i)) * s.U.transpose := by
          simp only [Matrix.mul_assoc]
      _ = 1 := by rw [hV, Matrix.mul_one, hD, Matrix.mul_one, hU']
  have h4 : s.Q_phi1.mulVec (s.params_phi1 m) = b := by
    change s.Q_phi1.mulVec (s.Pinv_phi1.mulVec b) = b
    rw [Matrix.mulVec_mulVec, h2, Matrix.one_mulVec]
  rw [h4] at h1
  rw [← C92_trace]
  change (Δ fun x => ∑ a, s.u_elm x a * s.params_phi1 m a) (s.X_dom n) = _
  rw [h1, hb]
  simp

/-- The ansatz: `phi1` is the ADF of the cuboid times a combination of the neurons `tanh (W y + b)`, where `y` is the point moved
to the cube `[-1, 1]³`. The coefficients do not depend on the point. -/
theorem C98_ansatz (xs ys zs : List ℝ) (s : StrayField N k r) (hD : Cuboid.init xs ys zs = .ok s.domain)
    (hlt : ∀ i, gridLo ![xs, ys, zs] i < gridHi ![xs, ys, zs] i) (m : Pt 3 → Pt 3) :
    ∃ c : Fin k → ℝ, ∀ (x : Pt 3) (ω : ℝ), s.domain.adf (efin x) = fin ω →
      s.phi1 m x = ω * ∑ a, c a * Real.tanh ((∑ i, s.W_elm a i *
        (2 * (x i - gridLo ![xs, ys, zs] i) / (gridHi ![xs, ys, zs] i - gridLo ![xs, ys, zs] i) - 1)) + s.b_elm a) := by
  refine ⟨s.params_phi1 m, fun x ω h => ?_⟩
  have h1 : s.domain.adfReal x = ω := by rw [Cuboid.adfReal, h]; rfl
  simp only [StrayField.phi1, StrayField.u_elm, StrayField.h_elm, normalize_toReal hD hlt, h1, Finset.mul_sum]
  exact Finset.sum_congr rfl fun a _ => by ring

/-! ## Boundary -/

/-- `phi1` is zero on the boundary. -/
theorem C98_boundary (xs ys zs : List ℝ) (s : StrayField N k r) (hD : Cuboid.init xs ys zs = .ok s.domain)
    (m : Pt 3 → Pt 3) (x : Pt 3) (hx : x.ofLp ∈ frontier (Set.Icc (gridLo ![xs, ys, zs]) (gridHi ![xs, ys, zs]))) :
    s.phi1 m x = 0 := by
  obtain ⟨c, h1, -, h2, -⟩ := C94_adf xs ys zs s.domain hD x.ofLp
  have h3 : s.domain.adfReal x = 0 := by
    rw [Cuboid.adfReal, show efin x = vfin x.ofLp from rfl, h1, h2.mpr hx]
    rfl
  simp [StrayField.phi1, StrayField.u_elm, h3]

/-- On the open sides of the cuboid with outward unit normal `n` the charge of the second potential is `m · n - ∂ phi1 / ∂ n`. -/
theorem C98_charge (xs ys zs : List ℝ) (s : StrayField N k r) (hD : Cuboid.init xs ys zs = .ok s.domain) (m : Pt 3 → Pt 3)
    (x : Pt 3) (i : Fin 3) (upper : Bool) (hi : x i = if upper then gridHi ![xs, ys, zs] i else gridLo ![xs, ys, zs] i)
    (hlt : ∀ i, gridLo ![xs, ys, zs] i < gridHi ![xs, ys, zs] i)
    (hx : ∀ j ≠ i, gridLo ![xs, ys, zs] j < x j ∧ x j < gridHi ![xs, ys, zs] j) :
    let n : Pt 3 := EuclideanSpace.single i (if upper then (1 : ℝ) else -1)
    DifferentiableAt ℝ (s.phi1 m) x ∧ s.g m x x = inner ℝ (m x) n - fderiv ℝ (s.phi1 m) x n := by
  intro n
  have h1 := adf_hasGradientAt xs ys zs s.domain hD x i upper hi hlt hx
  have h2 : ∀ a, DifferentiableAt ℝ (fun y => s.h_elm y a) x := fun a =>
    ((h_elm_contDiff s hD hlt a 1).differentiable (by norm_num)).differentiableAt
  have h3 : DifferentiableAt ℝ (s.phi1_without_adf m) x := by
    unfold StrayField.phi1_without_adf
    fun_prop
  have h4 : s.phi1 m = fun y => s.phi1_without_adf m y * s.domain.adfReal y := by
    funext y
    simp only [StrayField.phi1, StrayField.u_elm, StrayField.phi1_without_adf, Finset.sum_mul]
    exact Finset.sum_congr rfl fun a _ => by ring
  have h0 : s.domain.adfReal x = 0 := by
    obtain ⟨c, h1, -, h2, -⟩ := C94_adf xs ys zs s.domain hD x.ofLp
    rw [Cuboid.adfReal, show efin x = vfin x.ofLp from rfl, h1, h2.mpr ?_]
    · rfl
    · have e : x.ofLp ∈ Set.Icc (gridLo ![xs, ys, zs]) (gridHi ![xs, ys, zs]) := by
        have key : ∀ j, gridLo ![xs, ys, zs] j ≤ x j ∧ x j ≤ gridHi ![xs, ys, zs] j := by
          intro j
          by_cases h : j = i
          · subst h
            rw [hi]
            cases upper <;> simp [(hlt j).le]
          · exact ⟨(hx j h).1.le, (hx j h).2.le⟩
        exact ⟨fun j => (key j).1, fun j => (key j).2⟩
      rw [frontier, isClosed_Icc.closure_eq]
      refine ⟨e, fun h => ?_⟩
      rw [← Set.pi_univ_Icc, interior_pi_set Set.finite_univ] at h
      have h' := h i (Set.mem_univ _)
      simp only [interior_Icc, hi] at h'
      cases upper
      · exact absurd h'.1 (by simp)
      · exact absurd h'.2 (by simp)
  have h5 := h3.hasFDerivAt.mul h1.hasFDerivAt
  rw [show s.phi1_without_adf m * s.domain.adfReal = s.phi1 m from h4.symm] at h5
  refine ⟨h5.differentiableAt, ?_⟩
  rw [h5.fderiv, StrayField.g, C94_normal_vec xs ys zs s.domain hD x i upper hi hlt hx]
  simp only [h0, smul_apply, smul_eq_mul, zero_smul, add_zero]
  have h6 : inner ℝ (EuclideanSpace.single i (if upper then (-1 : ℝ) else 1)) n = -1 := by
    cases upper <;> simp [n, EuclideanSpace.inner_single_left]
  rw [InnerProductSpace.toDual_apply_apply, h6]
  ring

theorem hessian_mul {h a : Pt 3 → ℝ} {x : Pt 3} (hh : ContDiffAt ℝ 2 h x) (ha : ContDiffAt ℝ 2 a x) (v : Pt 3) :
    fderiv ℝ (fderiv ℝ fun y => h y * a y) x v v =
      h x * fderiv ℝ (fderiv ℝ a) x v v + 2 * (fderiv ℝ h x v * fderiv ℝ a x v) + a x * fderiv ℝ (fderiv ℝ h) x v v := by
  have e1 : ∀ᶠ y in nhds x, DifferentiableAt ℝ h y := by
    filter_upwards [hh.eventually (by simp)] with y hy using hy.differentiableAt (by norm_num)
  have e2 : ∀ᶠ y in nhds x, DifferentiableAt ℝ a y := by
    filter_upwards [ha.eventually (by simp)] with y hy using hy.differentiableAt (by norm_num)
  have e : fderiv ℝ (fun y => h y * a y) =ᶠ[nhds x] fun y => h y • fderiv ℝ a y + a y • fderiv ℝ h y := by
    filter_upwards [e1, e2] with y h1 h2
    exact fderiv_mul h1 h2
  have d1 := differentiableAt_fderiv hh
  have d2 := differentiableAt_fderiv ha
  have h1 := hh.differentiableAt (by norm_num : (2 : WithTop ℕ∞) ≠ 0)
  have h2 := ha.differentiableAt (by norm_num : (2 : WithTop ℕ∞) ≠ 0)
  rw [e.fderiv_eq]
  change fderiv ℝ (h • fderiv ℝ a + a • fderiv ℝ h) x v v = _
  rw [((h1.hasFDerivAt.smul d2.hasFDerivAt).add (h2.hasFDerivAt.smul d1.hasFDerivAt)).fderiv]
  simp
  ring

theorem hasDerivAt_tanh (t : ℝ) : HasDerivAt Real.tanh (1 - Real.tanh t ^ 2) t := by
  have e : Real.tanh = fun x => Real.sinh x / Real.cosh x := funext Real.tanh_eq_sinh_div_cosh
  have h := (Real.hasDerivAt_sinh t).div (Real.hasDerivAt_cosh t) (Real.cosh_pos t).ne'
  have hc := (Real.cosh_pos t).ne'
  have e' : (Real.cosh t * Real.cosh t - Real.sinh t * Real.sinh t) / Real.cosh t ^ 2 = 1 - Real.tanh t ^ 2 := by
    rw [Real.tanh_eq_sinh_div_cosh]
    field_simp
  rw [e'] at h
  rw [e] at h ⊢
  exact h

theorem hessian_tanh (w b : ℝ) (x v : Pt 3) :
    fderiv ℝ (fun y : Pt 3 => Real.tanh (w * y 0 + b)) x v = w * (1 - Real.tanh (w * x 0 + b) ^ 2) * v 0 ∧
    fderiv ℝ (fderiv ℝ fun y : Pt 3 => Real.tanh (w * y 0 + b)) x v v =
      -2 * Real.tanh (w * x 0 + b) * (1 - Real.tanh (w * x 0 + b) ^ 2) * w ^ 2 * v 0 ^ 2 := by
  let l : Pt 3 →L[ℝ] ℝ := EuclideanSpace.proj (𝕜 := ℝ) (ι := Fin 3) 0
  have hl : ∀ v, l v = v 0 := fun v => rfl
  have h1 : ∀ y : Pt 3, HasFDerivAt (fun y : Pt 3 => w * y 0 + b) (w • l) y := fun y =>
    (l.hasFDerivAt.const_mul w).add_const b
  have h2 : ∀ y : Pt 3, HasFDerivAt (fun y : Pt 3 => Real.tanh (w * y 0 + b)) ((1 - Real.tanh (w * y 0 + b) ^ 2) • w • l) y :=
    fun y => (hasDerivAt_tanh _).comp_hasFDerivAt y (h1 y)
  have h3 : fderiv ℝ (fun y : Pt 3 => Real.tanh (w * y 0 + b)) = fun y => (1 - Real.tanh (w * y 0 + b) ^ 2) • w • l :=
    funext fun y => (h2 y).fderiv
  have h4 : HasFDerivAt (fun y : Pt 3 => 1 - Real.tanh (w * y 0 + b) ^ 2) _ x := ((h2 x).pow 2).const_sub 1
  have h5 := h4.smul_const (w • l)
  rw [h3]
  constructor
  · simp [hl]
    ring
  · rw [h5.fderiv]
    simp [hl]
    ring

/-- The cube `[-1, 1]³`, one collocation point and one ansatz function. -/
theorem exists_strayField : ∃ s : StrayField 1 1 1, Cuboid.init [-1, 1] [-1, 1] [-1, 1] = .ok s.domain ∧ s.subintervals = .int 1 ∧
    (∀ i, gridLo ![[-1, 1], [-1, 1], [-1, 1]] i < gridHi ![[-1, 1], [-1, 1], [-1, 1]] i) ∧
    (∀ n, (s.X_dom n).ofLp ∈ interior (Set.Icc (gridLo ![[-1, 1], [-1, 1], [-1, 1]]) (gridHi ![[-1, 1], [-1, 1], [-1, 1]]))) ∧
    s.Q_phi1 = s.U * Matrix.diagonal s.S * s.VT ∧ s.U.transpose * s.U = 1 ∧ s.VT * s.VT.transpose = 1 ∧ ∀ i, s.S i ≠ 0 := by
  have g : IsGrid [-1, 1] := ⟨by simp, by simp⟩
  have hD := init_ok g g g
  set D : Cuboid := _ with hDD
  have hlt : ∀ i, gridLo ![[-1, 1], [-1, 1], [-1, 1]] i < gridHi ![[-1, 1], [-1, 1], [-1, 1]] i := by
    intro i
    fin_cases i <;> simp [gridLo, gridHi]
  have hin : (0 : Pt 3).ofLp ∈ interior (Set.Icc (gridLo ![[-1, 1], [-1, 1], [-1, 1]]) (gridHi ![[-1, 1], [-1, 1], [-1, 1]])) := by
    rw [← Set.pi_univ_Icc, interior_pi_set Set.finite_univ]
    intro i _
    simp only [interior_Icc]
    fin_cases i <;> simp [gridLo, gridHi]
  have ha := adf_contDiff hD hin 2
  set a := D.adfReal with haa
  have hpos : 0 < a 0 := by
    obtain ⟨c, h1, h2, -⟩ := C94_adf _ _ _ D hD (0 : Pt 3).ofLp
    rw [haa, Cuboid.adfReal, show efin (0 : Pt 3) = vfin (0 : Pt 3).ofLp from rfl, h1]
    exact h2.mpr hin
  let S0 : ℝ → ℝ → StrayField 1 1 1 := fun w b =>
    ⟨fun _ => 0, D, fun _ i => if i = 0 then w else 0, fun _ => b, midpoint, .int 1, 1, fun _ => 1, 1⟩
  have key : ∃ w b, (S0 w b).Q_phi1 0 0 ≠ 0 := by
    by_contra hne
    push Not at hne
    have val : ∀ w b, (S0 w b).Q_phi1 0 0 = -(Real.tanh b * ∑ i, fderiv ℝ (fderiv ℝ a) 0 (unitVec i) (unitVec i) +
        2 * (w * (1 - Real.tanh b ^ 2) * fderiv ℝ a 0 (unitVec 0)) +
        a 0 * (-2 * Real.tanh b * (1 - Real.tanh b ^ 2) * w ^ 2)) := by
      intro w b
      have hn : ∀ (x : Pt 3) (i : Fin 3), XR.toReal (D.normalize (efin x) i) = x i := by
        intro x i
        rw [normalize_toReal hD hlt]
        fin_cases i <;> simp [gridLo, gridHi] <;> ring
      have hu : (fun y => (S0 w b).u_elm y 0) = fun y => Real.tanh (w * y 0 + b) * a y := by
        funext y
        simp only [StrayField.u_elm, StrayField.h_elm, S0, hn]
        simp
        exact Or.inl rfl
      have hc : ContDiffAt ℝ 2 (S0 w b).u_elm 0 := u_elm_contDiff (S0 w b) hD hlt hin 2
      have hc' : ContDiffAt ℝ 2 (fun y : Pt 3 => Real.tanh (w * y 0 + b)) 0 :=
        (contDiff_tanh.comp (by fun_prop : ContDiff ℝ 2 fun y : Pt 3 => w * y 0 + b)).contDiffAt
      have h1 : (S0 w b).Q_phi1 0 0 = -laplace (fun y => (S0 w b).u_elm y 0) 0 := by
        rw [C81_laplace _ _ (contDiffAt_pi.mp hc 0)]
        change (-laplace (S0 w b).u_elm 0) 0 = _
        rw [C81_laplace _ _ hc, Pi.neg_apply]
        congr 1
        let l : (Fin 1 → ℝ) →L[ℝ] ℝ := ContinuousLinearMap.proj (R := ℝ) (φ := fun _ : Fin 1 => ℝ) 0
        exact (hc.laplacian_CLM_comp_left (l := l)).symm
      rw [h1, hu, laplace]
      congr 1
      simp only [hessianDiag_eq (differentiableAt_fderiv (hc'.mul ha)), hessian_mul hc' ha, (hessian_tanh _ _ _ _).1,
        (hessian_tanh _ _ _ _).2, Fin.sum_univ_three]
      simp [unitVec]
      ring
    have h0 := hne 0 1
    have h1 := hne 1 0
    have h2 := hne 1 1
    rw [val] at h0 h1 h2
    have ht : 0 < Real.tanh 1 := by
      rw [Real.tanh_eq_sinh_div_cosh]
      exact div_pos (Real.sinh_pos_iff.mpr one_pos) (Real.cosh_pos 1)
    have ht' : Real.tanh 1 < 1 := Real.tanh_lt_one 1
    simp at h0 h1
    have h3 : ∑ i, fderiv ℝ (fderiv ℝ a) 0 (unitVec i) (unitVec i) = 0 := by
      rcases h0 with h0 | h0
      · exact absurd h0 ht.ne'
      · exact h0
    rw [h3, h1] at h2
    have h4 : 0 < a 0 * Real.tanh 1 * (1 - Real.tanh 1 ^ 2) := by
      have : 0 < 1 - Real.tanh 1 ^ 2 := by nlinarith
      positivity
    nlinarith
  obtain ⟨w, b, hwb⟩ := key
  refine ⟨{ S0 w b with S := fun _ => (S0 w b).Q_phi1 0 0 }, hD, rfl, hlt, fun _ => hin, ?_, ?_, ?_, fun _ => hwb⟩
  · ext i j
    fin_cases i
    fin_cases j
    simp [S0]
    rfl
  · simp [S0]
  · simp [S0]

/-- Non-vacuity of `C98_boundary` and `C98_ansatz`. -/
example : ∃ s : StrayField 1 1 1, ∀ m : Pt 3 → Pt 3, s.phi1 m (EuclideanSpace.single 0 1) = 0 ∧
    ∃ c : Fin 1 → ℝ, ∀ (x : Pt 3) (ω : ℝ), s.domain.adf (efin x) = fin ω →
      s.phi1 m x = ω * ∑ a, c a * Real.tanh ((∑ i, s.W_elm a i *
        (2 * (x i - gridLo ![[-1, 1], [-1, 1], [-1, 1]] i) /
          (gridHi ![[-1, 1], [-1, 1], [-1, 1]] i - gridLo ![[-1, 1], [-1, 1], [-1, 1]] i) - 1)) + s.b_elm a) := by
  obtain ⟨s, hD, -, hlt, -⟩ := exists_strayField
  refine ⟨s, fun m => ⟨C98_boundary _ _ _ s hD m _ ?_, C98_ansatz _ _ _ s hD hlt m⟩⟩
  rw [isClosed_Icc.frontier_eq]
  refine ⟨⟨fun i => ?_, fun i => ?_⟩, fun h => ?_⟩
  · fin_cases i <;> simp [gridLo]
  · fin_cases i <;> simp [gridHi]
  · rw [← Set.pi_univ_Icc, interior_pi_set Set.finite_univ] at h
    have := h 0 (Set.mem_univ _)
    simp [gridHi] at this

example : ∃ s : StrayField 1 1 1, ∀ (m : Pt 3 → Pt 3) (c : Fin 1 → ℝ),
    ∑ n, ((Δ (s.phi1 m)) (s.X_dom n) - LinearMap.trace ℝ (Pt 3) (fderiv ℝ m (s.X_dom n))) ^ 2 ≤
      ∑ n, ((Δ fun x => ∑ a, s.u_elm x a * c a) (s.X_dom n) - LinearMap.trace ℝ (Pt 3) (fderiv ℝ m (s.X_dom n))) ^ 2 := by
  obtain ⟨s, hD, -, hlt, hin, hQ, hU, hV, hS⟩ := exists_strayField
  exact ⟨s, fun m c => (C98_least_squares _ _ _ s hD hlt hin hQ hU hV hS m c).1⟩

/-- Non-vacuity: the equation holds at the collocation point. -/
example : ∃ s : StrayField 1 1 1, ∀ m, (Δ (s.phi1 m)) (s.X_dom 0) = LinearMap.trace ℝ (Pt 3) (fderiv ℝ m (s.X_dom 0)) := by
  obtain ⟨s, hD, -, hlt, hin, hQ, hU, hV, hS⟩ := exists_strayField
  exact ⟨s, fun m => C98_collocation _ _ _ s hD hlt hin hQ hU hV hS m 0⟩

end Verif
