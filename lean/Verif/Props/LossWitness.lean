import Verif.Props.LossObjective
import Verif.Props.BoxConv
import Verif.Props.TRInexact

/-! # C172: a case in which the gradient is not the gradient of the values -/

namespace Verif

open Micromag

theorem isPolynomial_const (c : ℝ) (k : ℕ) : IsPolynomial (fun _ : Pt 3 => c) k :=
  ⟨{0}, fun _ => c, by simp, by simp⟩

theorem phi1_const {N k r : ℕ} (s : StrayField N k r) (u x : Pt 3) : s.phi1 (fun _ => u) x = 0 ∧ s.phi1_without_adf (fun _ => u) x = 0 := by
  have h : s.params_phi1 (fun _ => u) = 0 := by
    have : (fun n => -divergence (fun _ : Pt 3 => u) (s.X_dom n)) = 0 := by
      funext n
      simp [divergence, valueAndDivergence, sumDiag, jacMatrix, jacfwd, jvp]
    simp only [StrayField.params_phi1, this, Matrix.mulVec_zero]
  simp [StrayField.phi1, StrayField.phi1_without_adf, h]

/-- The potential of a uniform magnetisation of the cube with one cell and one node on each side: two point charges for each axis. -/
theorem phi2_uniform {N k r : ℕ} (s : StrayField N k r) (hD : Cuboid.init [-1, 1] [-1, 1] [-1, 1] = .ok s.domain)
    (hl : s.subintervals = .int 1) (hm : s.method = midpoint) (u y : Pt 3) :
    s.phi2 (fun _ => u) y = .ok (1 / (4 * Real.pi) * ∑ k, (4 * (-u k / ‖y - planePoint k (-1) 0 0‖) + 4 * (u k / ‖y - planePoint k 1 0 0‖))) := by
  have hlin : ∀ a b : ℝ, linspace a b (1 + 1) = [a, b] := by
    intro a b
    norm_num [linspace, List.range_succ]
  have h := C96_potential [-1, 1] [-1, 1] [-1, 1] s.domain hD (s.g fun _ => u) y 1 midpoint (by simp [hlin, midpoint])
    (fun F _ row _ m _ => by
      have : s.g (fun _ => u) m = fun _ => inner ℝ u (s.domain.normalVec m) := by
        funext z
        simp [StrayField.g, (phi1_const s u z).2]
      rw [this]
      exact contDiffAt_const)
  rw [StrayField.phi2, hl, hm, h]
  congr 2
  have hc : ∀ z w, taylorPoly (s.g (fun _ => u) z) 2 z w = inner ℝ u (s.domain.normalVec z) := by
    intro z w
    have : s.g (fun _ => u) z = fun _ => inner ℝ u (s.domain.normalVec z) := by
      funext z
      simp [StrayField.g, (phi1_const s u z).2]
    rw [this, taylorPoly_of_isPolynomial _ 2 (isPolynomial_const _ 2)]
  have hlt : ∀ i, gridLo ![[-1, 1], [-1, 1], [-1, 1]] i < gridHi ![[-1, 1], [-1, 1], [-1, 1]] i := fun i => by
    fin_cases i <;> simp [gridLo, gridHi]
  have hlo : ∀ i, gridLo ![[-1, 1], [-1, 1], [-1, 1]] i = -1 := fun i => by fin_cases i <;> simp [gridLo]
  have hhi : ∀ i, gridHi ![[-1, 1], [-1, 1], [-1, 1]] i = 1 := fun i => by fin_cases i <;> simp [gridHi]
  have hG : ∀ i, (![[-1, 1], [-1, 1], [-1, 1]] : Fin 3 → List ℝ) i = [-1, 1] := fun i => by fin_cases i <;> rfl
  have hn : ∀ k (upper : Bool), s.domain.normalVec (planePoint k (if upper then 1 else -1) 0 0) =
      EuclideanSpace.single k (if upper then (1 : ℝ) else -1) := by
    intro k upper
    refine C94_normal_vec _ _ _ s.domain hD _ k upper ?_ hlt fun i hi => ?_
    · rw [hlo, hhi]
      simp [planePoint]
    · rw [hlo, hhi]
      obtain ⟨j, rfl⟩ := Fin.exists_succAbove_eq hi
      fin_cases j <;> simp [planePoint]
  have hn1 := fun k => hn k true
  have hn0 := fun k => hn k false
  simp only [if_true, Bool.false_eq_true, if_false] at hn1 hn0
  rw [boxSum]
  refine Finset.sum_congr rfl fun k _ => ?_
  simp only [hG, hlo, hhi, gridSum, hc]
  simp [hlin, midpoint, quad, hn1, hn0, EuclideanSpace.inner_single_right]
  ring

/-- The field of a uniform magnetisation along the second axis has a component along the first axis in the sample point. -/
theorem field_offdiagonal {N k r : ℕ} (s : StrayField N k r) (hD : Cuboid.init [-1, 1] [-1, 1] [-1, 1] = .ok s.domain)
    (hl : s.subintervals = .int 1) (hm : s.method = midpoint) (dt : List (List (List (Fin 6 → Pt 3))))
    (hdt : surfaceTensorsGrad !₂[1 / 2, 1 / 2, 0] s.domain s.subintervals s.method = .ok dt) {c : ℝ} (hc : c ≠ 0) {b : Pt 3}
    (hb : s.hsTensors (fun _ => !₂[0, c, 0]) !₂[1 / 2, 1 / 2, 0] dt = .ok b) : b 0 ≠ 0 := by
  have hlt : ∀ i, gridLo ![[-1, 1], [-1, 1], [-1, 1]] i < gridHi ![[-1, 1], [-1, 1], [-1, 1]] i := fun i => by
    fin_cases i <;> simp [gridLo, gridHi]
  have hx : (!₂[1 / 2, 1 / 2, 0] : Pt 3).ofLp ∈ interior (Set.Icc (gridLo ![[-1, 1], [-1, 1], [-1, 1]]) (gridHi ![[-1, 1], [-1, 1], [-1, 1]])) := by
    rw [← Set.pi_univ_Icc, interior_pi_set Set.finite_univ]
    intro i _
    simp only [interior_Icc]
    fin_cases i <;> norm_num [gridLo, gridHi]
  obtain ⟨φ, h1, -, dt', h2, h3⟩ := C99_inside _ _ _ s hD 1 hl (fun _ => !₂[0, c, 0]) _ hlt hx
  obtain rfl : dt = dt' := Except.ok.inj (hdt.symm.trans h2)
  obtain rfl := Except.ok.inj (hb.symm.trans h3)
  have hφ : φ = fun y => c / Real.pi * (1 / ‖y - planePoint 1 1 0 0‖ - 1 / ‖y - planePoint 1 (-1) 0 0‖) := by
    funext y
    rw [← Except.ok.inj ((phi2_uniform s hD hl hm _ y).symm.trans (h1 y))]
    rw [Fin.sum_univ_three]
    simp
    ring
  have e : (fun y => s.phi1 (fun _ => !₂[0, c, 0]) y + φ y) = φ := by
    funext y
    rw [(phi1_const s _ y).1, zero_add]
  rw [e]
  have p1 : (!₂[1 / 2, 1 / 2, 0] : Pt 3) - planePoint 1 1 0 0 = !₂[1 / 2, -1 / 2, 0] := by
    ext i; fin_cases i <;> norm_num [planePoint, Fin.insertNth, Fin.succAboveCases]
  have p2 : (!₂[1 / 2, 1 / 2, 0] : Pt 3) - planePoint 1 (-1) 0 0 = !₂[1 / 2, 3 / 2, 0] := by
    ext i; fin_cases i <;> norm_num [planePoint, Fin.insertNth, Fin.succAboveCases]
  have ne1 : (!₂[1 / 2, -1 / 2, 0] : Pt 3) ≠ 0 := fun h => by simpa using congrFun (congrArg WithLp.ofLp h) 0
  have ne2 : (!₂[1 / 2, 3 / 2, 0] : Pt 3) ≠ 0 := fun h => by simpa using congrFun (congrArg WithLp.ofLp h) 0
  have hd : DifferentiableAt ℝ φ !₂[1 / 2, 1 / 2, 0] := by
    rw [hφ]
    have d1 : DifferentiableAt ℝ (fun y : Pt 3 => ‖y - planePoint 1 1 0 0‖) !₂[1 / 2, 1 / 2, 0] :=
      DifferentiableAt.norm ℝ (by fun_prop) (by rw [p1]; exact ne1)
    have d2 : DifferentiableAt ℝ (fun y : Pt 3 => ‖y - planePoint 1 (-1) 0 0‖) !₂[1 / 2, 1 / 2, 0] :=
      DifferentiableAt.norm ℝ (by fun_prop) (by rw [p2]; exact ne2)
    have z1 : ‖(!₂[1 / 2, 1 / 2, 0] : Pt 3) - planePoint 1 1 0 0‖ ≠ 0 := by rw [p1]; exact norm_ne_zero_iff.mpr ne1
    have z2 : ‖(!₂[1 / 2, 1 / 2, 0] : Pt 3) - planePoint 1 (-1) 0 0‖ ≠ 0 := by rw [p2]; exact norm_ne_zero_iff.mpr ne2
    simp only [one_div] at d1 d2 z1 z2 ⊢
    exact ((d1.fun_inv z1).fun_sub (d2.fun_inv z2)).const_mul _
  have h4 : (gradient φ !₂[1 / 2, 1 / 2, 0]) 0 = fderiv ℝ φ !₂[1 / 2, 1 / 2, 0] (EuclideanSpace.single 0 1) := by
    rw [← inner_gradient_left, EuclideanSpace.inner_single_right]
    simp only [one_mul]
    rfl
  have h5 : HasDerivAt (fun t : ℝ => φ (!₂[1 / 2, 1 / 2, 0] + t • EuclideanSpace.single 0 1))
      (fderiv ℝ φ !₂[1 / 2, 1 / 2, 0] (EuclideanSpace.single 0 1)) 0 := hd.hasFDerivAt.hasLineDerivAt _
  have h6 : (fun t : ℝ => φ (!₂[1 / 2, 1 / 2, 0] + t • EuclideanSpace.single 0 1)) = fun t =>
      c / Real.pi * (1 / √((1 / 2 + t) ^ 2 + 1 / 4) - 1 / √((1 / 2 + t) ^ 2 + 9 / 4)) := by
    funext t
    have w1 : (!₂[1 / 2, 1 / 2, 0] : Pt 3) + t • EuclideanSpace.single 0 1 - planePoint 1 1 0 0 = !₂[1 / 2 + t, -1 / 2, 0] := by
      ext i; fin_cases i <;> norm_num [planePoint, Fin.insertNth, Fin.succAboveCases]
    have w2 : (!₂[1 / 2, 1 / 2, 0] : Pt 3) + t • EuclideanSpace.single 0 1 - planePoint 1 (-1) 0 0 = !₂[1 / 2 + t, 3 / 2, 0] := by
      ext i; fin_cases i <;> norm_num [planePoint, Fin.insertNth, Fin.succAboveCases]
    rw [hφ]
    simp only [w1, w2]
    simp only [EuclideanSpace.norm_eq, Fin.sum_univ_three]
    show c / Real.pi * (1 / √(‖1 / 2 + t‖ ^ 2 + ‖-1 / 2‖ ^ 2 + ‖(0 : ℝ)‖ ^ 2) - 1 / √(‖1 / 2 + t‖ ^ 2 + ‖3 / 2‖ ^ 2 + ‖(0 : ℝ)‖ ^ 2)) = _
    simp only [Real.norm_eq_abs, sq_abs]
    norm_num
  have h7 : ∀ a : ℝ, 0 < a → HasDerivAt (fun t : ℝ => 1 / √((1 / 2 + t) ^ 2 + a)) (-(1 / 2) / (√(1 / 4 + a)) ^ 3) 0 := by
    intro a ha
    have q : HasDerivAt (fun t : ℝ => (1 / 2 + t) ^ 2 + a) 1 0 := by
      have := (((hasDerivAt_id (0 : ℝ)).const_add (1 / 2)).pow 2).add_const a
      simpa using this
    have q0 : (1 / 2 + (0 : ℝ)) ^ 2 + a = 1 / 4 + a := by norm_num
    have r : HasDerivAt (fun t : ℝ => (√((1 / 2 + t) ^ 2 + a))⁻¹) _ 0 :=
      (q.sqrt (by rw [q0]; positivity)).fun_inv (by rw [q0]; positivity)
    rw [q0] at r
    have e : (fun t : ℝ => 1 / √((1 / 2 + t) ^ 2 + a)) = fun t => (√((1 / 2 + t) ^ 2 + a))⁻¹ := funext fun t => one_div _
    have : √(1 / 4 + a) ≠ 0 := by positivity
    have e' : -(1 / 2) / √(1 / 4 + a) ^ 3 = -(1 / (2 * √(1 / 4 + a))) / √(1 / 4 + a) ^ 2 := by
      generalize √(1 / 4 + a) = w at *
      field_simp
    rw [e, e']
    exact r
  rw [h6] at h5
  have h8 := h5.unique (((h7 (1 / 4) (by norm_num)).sub (h7 (9 / 4) (by norm_num))).const_mul (c / Real.pi))
  intro h
  have h9 : fderiv ℝ φ !₂[1 / 2, 1 / 2, 0] (EuclideanSpace.single 0 1) = 0 := by
    rw [← h4]
    simpa using h
  rw [h9] at h8
  have hp := Real.pi_pos
  have s1 : √(1 / 4 + 1 / 4 : ℝ) < √(1 / 4 + 9 / 4) := Real.sqrt_lt_sqrt (by norm_num) (by norm_num)
  have s0 : 0 < √(1 / 4 + 1 / 4 : ℝ) := by positivity
  have s2 : √(1 / 4 + 1 / 4 : ℝ) ^ 3 < √(1 / 4 + 9 / 4) ^ 3 := pow_lt_pow_left₀ s1 s0.le (by norm_num)
  have s3 : 1 / √(1 / 4 + 9 / 4 : ℝ) ^ 3 < 1 / √(1 / 4 + 1 / 4) ^ 3 := one_div_lt_one_div_of_lt (by positivity) s2
  have s4 : c / Real.pi ≠ 0 := div_ne_zero hc hp.ne'
  rcases mul_eq_zero.mp h8.symm with h | h
  · exact s4 h
  · have : 1 / √(1 / 4 + 9 / 4 : ℝ) ^ 3 = 1 / √(1 / 4 + 1 / 4) ^ 3 := by
      rw [div_eq_mul_one_div, div_eq_mul_one_div (-(1 / 2 : ℝ))] at h
      linarith
    linarith

theorem cayley_line (v : Pt 3) : HasDerivAt (fun t : ℝ => cayleyRotation (t • v) (EuclideanSpace.single 0 1))
    (fderiv ℝ (fun p : Pt 3 => cayleyRotation p (EuclideanSpace.single 0 1)) 0 v) 0 := by
  have hd : DifferentiableAt ℝ (fun p : Pt 3 => cayleyRotation p (EuclideanSpace.single 0 1)) 0 :=
    (cayley_contDiff (j := 1) contDiffAt_id contDiffAt_const).differentiableAt (by norm_num)
  have h1 : HasDerivAt (fun t : ℝ => cayleyRotation (0 + t • v) (EuclideanSpace.single 0 1)) _ 0 :=
    hd.hasFDerivAt.hasLineDerivAt v
  simpa only [zero_add] using h1

theorem cayley_axis (t : ℝ) : cayleyRotation (t • EuclideanSpace.single 0 1) (EuclideanSpace.single 0 1) = EuclideanSpace.single 0 1 := by
  rw [cayley_coords]
  simp

/-- The derivative of the Cayley transform at zero is twice the cross product. -/
theorem cayley_deriv (v : Pt 3) : fderiv ℝ (fun p : Pt 3 => cayleyRotation p (EuclideanSpace.single 0 1)) 0 v = !₂[0, 2 * v 2, -(2 * v 1)] := by
  set n2 : ℝ := v 0 ^ 2 + v 1 ^ 2 + v 2 ^ 2 with hn2
  have h2 : (fun t : ℝ => cayleyRotation (t • v) (EuclideanSpace.single 0 1)) = fun t =>
      !₂[(1 + t ^ 2 * (2 * v 0 ^ 2 - n2)) / (1 + t ^ 2 * n2), (2 * t * v 2 + 2 * t ^ 2 * v 0 * v 1) / (1 + t ^ 2 * n2),
        (-(2 * t * v 1) + 2 * t ^ 2 * v 0 * v 2) / (1 + t ^ 2 * n2)] := by
    funext t
    rw [cayley_coords]
    have : 1 + t ^ 2 * n2 ≠ 0 := by positivity
    simp
    refine ⟨?_, ?_, ?_⟩ <;> field_simp <;> rw [hn2] <;> ring
  have h1 := cayley_line v
  rw [h2] at h1
  have q : HasDerivAt (fun t : ℝ => 1 + t ^ 2 * n2) 0 0 := by
    simpa using (((hasDerivAt_id (0 : ℝ)).pow 2).mul_const n2).const_add 1
  have q0 : HasDerivAt (fun t : ℝ => 1 + t ^ 2 * (2 * v 0 ^ 2 - n2)) 0 0 := by
    simpa using (((hasDerivAt_id (0 : ℝ)).pow 2).mul_const (2 * v 0 ^ 2 - n2)).const_add 1
  have q1 : HasDerivAt (fun t : ℝ => 2 * t * v 2 + 2 * t ^ 2 * v 0 * v 1) (2 * v 2) 0 := by
    simpa using (((hasDerivAt_id (0 : ℝ)).const_mul 2).mul_const (v 2)).fun_add
      (((((hasDerivAt_id (0 : ℝ)).pow 2).const_mul 2).mul_const (v 0)).mul_const (v 1))
  have q2 : HasDerivAt (fun t : ℝ => -(2 * t * v 1) + 2 * t ^ 2 * v 0 * v 2) (-(2 * v 1)) 0 := by
    simpa using (((hasDerivAt_id (0 : ℝ)).const_mul 2).mul_const (v 1)).fun_neg.fun_add
      (((((hasDerivAt_id (0 : ℝ)).pow 2).const_mul 2).mul_const (v 0)).mul_const (v 2))
  have h3 : HasDerivAt (fun t : ℝ => (![(1 + t ^ 2 * (2 * v 0 ^ 2 - n2)) / (1 + t ^ 2 * n2),
      (2 * t * v 2 + 2 * t ^ 2 * v 0 * v 1) / (1 + t ^ 2 * n2), (-(2 * t * v 1) + 2 * t ^ 2 * v 0 * v 2) / (1 + t ^ 2 * n2)] : Fin 3 → ℝ))
      ![0, 2 * v 2, -(2 * v 1)] 0 := by
    rw [hasDerivAt_pi]
    intro i
    fin_cases i
    · simpa using q0.fun_div q (by norm_num)
    · simpa using q1.fun_div q (by norm_num)
    · simpa using q2.fun_div q (by norm_num)
  exact h1.unique (((PiLp.continuousLinearEquiv 2 ℝ fun _ : Fin 3 => ℝ).symm.hasFDerivAt).comp_hasDerivAt (0 : ℝ) h3)

theorem eventually_gt_of_deriv {f : ℝ → ℝ} {d : ℝ} (h : HasDerivAt f d 0) (hd : 0 < d) : ∀ᶠ t in nhdsWithin 0 (Set.Ioi 0), f 0 < f t := by
  have h1 := (hasDerivAt_iff_tendsto_slope.mp h).eventually (lt_mem_nhds hd)
  have h2 : ∀ᶠ t in nhdsWithin (0 : ℝ) (Set.Ioi 0), 0 < slope f 0 t :=
    h1.filter_mono (nhdsWithin_mono _ fun t (ht : 0 < t) => ht.ne')
  filter_upwards [h2, self_mem_nhdsWithin] with t h3 (h4 : 0 < t)
  rw [slope_def_field, sub_zero] at h3
  have := (div_pos_iff_of_pos_right h4).mp h3
  linarith

/-- **C172, a case.** `hysteresis.ipynb` with its initial state, a network which is constant in space, a cube with one cell and
one sample. Whatever the constants of the material and the external field, the gradient which the trust region method gets at the
initial parameters is not the gradient of the values it compares. There are external fields for which the two gradients are opposite
and not zero: the loss increases along the direction of steepest descent of the model. -/
theorem C172_inconsistent (A Ka : ℝ) (easy : Pt 3) :
    ∃ (s : StrayField 1 1 1) (x : Pt 3) (xt : List (List (List (Fin 6 → Pt 3)))) (l : Pt 3 → Pt 3 → Pt 3 → ℝ),
      Cuboid.init [-1, 1] [-1, 1] [-1, 1] = .ok s.domain ∧ surfaceTensorsGrad x s.domain s.subintervals s.method = .ok xt ∧
      (∀ h p0 p, (hysteresisLoss A Ka easy h s (fun p y => mag s.domain (fun p _ => p) m0 y p) (fun _ : Fin 1 => x) (fun _ => xt) p0 p
        1).map (·.1) = .ok (l h p0 p)) ∧ (∀ h p0, ContDiff ℝ 2 (l h p0)) ∧
      (∀ h, DifferentiableAt ℝ (fun p => l h p p) 0 ∧ gradient (l h 0) 0 ≠ gradient (fun p => l h p p) 0) ∧
      ∃ h, gradient (l h 0) 0 ≠ 0 ∧ gradient (fun p => l h p p) 0 = -gradient (l h 0) 0 ∧
        ∀ᶠ t in nhdsWithin (0 : ℝ) (Set.Ioi 0), l h 0 0 < l h (-(t • gradient (l h 0) 0)) (-(t • gradient (l h 0) 0)) := by
  have g : IsGrid [-1, 1] := ⟨by simp, by simp⟩
  obtain ⟨D, hD⟩ : ∃ D, Cuboid.init [-1, 1] [-1, 1] [-1, 1] = .ok D := ⟨_, init_ok g g g⟩
  let s : StrayField 1 1 1 := ⟨fun _ => 0, D, fun _ _ => 1, fun _ => 0, midpoint, .int 1, 1, fun _ => 1, 1⟩
  have hlt : ∀ i, gridLo ![[-1, 1], [-1, 1], [-1, 1]] i < gridHi ![[-1, 1], [-1, 1], [-1, 1]] i := fun i => by
    fin_cases i <;> simp [gridLo, gridHi]
  let x : Pt 3 := !₂[1 / 2, 1 / 2, 0]
  have hx : x.ofLp ∈ interior (Set.Icc (gridLo ![[-1, 1], [-1, 1], [-1, 1]]) (gridHi ![[-1, 1], [-1, 1], [-1, 1]])) := by
    rw [← Set.pi_univ_Icc, interior_pi_set Set.finite_univ]
    intro i _
    simp only [interior_Icc]
    fin_cases i <;> norm_num [gridLo, gridHi, x]
  have hs := C164_smooth hD hlt (fun (p : Pt 3) (_ : Pt 3) => p) m0 4 contDiff_fst contDiff_const
  obtain ⟨-, -, -, dt, hdt, -⟩ := C99_inside _ _ _ s hD 1 rfl 0 x hlt hx
  have h3 : ∀ u, ∃ b, s.hsTensors u x dt = .ok b := by
    intro u
    obtain ⟨_, _, _, dt', e1, e2⟩ := C99_inside _ _ _ s hD 1 rfl u x hlt hx
    obtain rfl : dt = dt' := Except.ok.inj (hdt.symm.trans e1)
    exact ⟨_, e2⟩
  choose H h3 using h3
  let M : Pt 3 → Pt 3 → Pt 3 := fun p x => mag s.domain (fun p _ => p) m0 x p
  have hM : ∀ p, M p = fun _ => cayleyRotation p (EuclideanSpace.single 0 1) := fun p => rfl
  choose l1 E1 hl1 using fun (h : Pt 3) p0 p => C165_hysteresis_loss s M (fun _ : Fin 1 => x) (fun _ => dt) p0 p A Ka easy h 1 _ fun _ => h3 (M p0)
  have a1 : ∀ h p0 p, (hysteresisLoss A Ka easy h s M (fun _ : Fin 1 => x) (fun _ => dt) p0 p 1).map (·.1) = .ok (l1 h p0 p) := fun h p0 p => by
    rw [(hl1 h p0 p).1]
    rfl
  have a3 : ∀ h p, (hysteresisLoss A Ka easy h s M (fun _ : Fin 1 => x) (fun _ => dt) p p 1).map (·.2.e_mag) = .ok (E1 h p p).e_mag :=
    fun h p => by
      rw [(hl1 h p p).1]
      rfl
  have h4 : ∀ h, _ := fun h => C172_hysteresis s hD hlt 1 rfl (fun _ : Fin 1 => x) (fun _ => hx) (fun _ => dt) (fun _ => hdt) M 0
    (fun _ => hs.contDiffAt) (fun _ _ _ _ _ _ => hs.contDiffAt.of_le (by norm_num)) (fun _ => hs.contDiffAt.of_le (by norm_num)) A Ka
    easy h 1 (l1 h 0) (fun p => l1 h p p) (fun p => (E1 h p p).e_mag) (a1 h 0) (fun p => a1 h p p) (a3 h)
  have hMd : HasFDerivAt (fun p => M p x) (fderiv ℝ (fun p : Pt 3 => cayleyRotation p (EuclideanSpace.single 0 1)) 0) 0 :=
    ((cayley_contDiff (j := 1) contDiffAt_id contDiffAt_const).differentiableAt (by norm_num)).hasFDerivAt
  -- the difference of the derivatives does not depend on the external field
  have hdiff : ∀ h v, fderiv ℝ (fun p => l1 h p p) 0 v - fderiv ℝ (l1 h 0) 0 v = -(H fun _ => !₂[0, 2 * v 2, -(2 * v 1)]) 0 := by
    intro h v
    obtain ⟨-, -, -, H', e1, e2⟩ := h4 h
    rw [(e2 v).1]
    have h7 : (fun y => fderiv ℝ (fun p => M p y) 0 v) = fun _ => !₂[0, 2 * v 2, -(2 * v 1)] := by
      funext y
      exact cayley_deriv v
    have h8 : H' 0 (fun _ => !₂[0, 2 * v 2, -(2 * v 1)]) = H fun _ => !₂[0, 2 * v 2, -(2 * v 1)] :=
      Except.ok.inj ((e1 0 _).symm.trans (h3 _))
    have h10 : M 0 x = EuclideanSpace.single 0 1 := by
      show cayleyRotation 0 (EuclideanSpace.single 0 1) = _
      simpa using cayley_axis 0
    rw [Fin.sum_univ_one, h7, h8, h10]
    simp [EuclideanSpace.inner_single_left]
  -- the dependence on the external field
  have hext : ∀ h p, l1 h 0 p = l1 0 0 p - inner ℝ (M p x) h := by
    intro h p
    obtain ⟨-, e1, e2, e3, e4, e5, e6⟩ := hl1 h 0 p
    obtain ⟨-, f1, f2, f3, f4, f5, f6⟩ := hl1 0 0 p
    rw [e6, f6, e5, f5, e1, e2, e3, e4, f1, f2, f3, f4]
    simp [ext_energy, mean]
    ring
  have hder : ∀ h v, fderiv ℝ (l1 h 0) 0 v = fderiv ℝ (l1 0 0) 0 v - (2 * v 2 * h 1 - 2 * v 1 * h 2) := by
    intro h v
    have e : HasFDerivAt (fun p => l1 0 0 p - inner ℝ (M p x) h) _ 0 :=
      (h4 0).1.hasFDerivAt.fun_sub (hMd.inner ℝ (hasFDerivAt_const h 0))
    rw [show l1 h 0 = fun p => l1 0 0 p - inner ℝ (M p x) h from funext (hext h), e.fderiv]
    simp [cayley_deriv, PiLp.inner_apply, Fin.sum_univ_three]
    ring
  have hzero : fderiv ℝ (l1 0 0) 0 (EuclideanSpace.single 0 1) = 0 := by
    have e : HasDerivAt (fun t : ℝ => l1 0 0 (0 + t • EuclideanSpace.single 0 1)) _ 0 :=
      (h4 0).1.hasFDerivAt.hasLineDerivAt (EuclideanSpace.single 0 1)
    have e' : (fun t : ℝ => l1 0 0 (0 + t • EuclideanSpace.single 0 1)) = fun _ => l1 0 0 0 := by
      funext t
      have hm : M (0 + t • EuclideanSpace.single 0 1) = M 0 := by
        rw [hM, hM, zero_add, cayley_axis, show (0 : Pt 3) = (0 : ℝ) • EuclideanSpace.single 0 1 by simp, cayley_axis]
      obtain ⟨-, e1, e2, e3, e4, e5, e6⟩ := hl1 0 0 (0 + t • EuclideanSpace.single 0 1)
      obtain ⟨-, f1, f2, f3, f4, f5, f6⟩ := hl1 0 0 0
      rw [e6, f6, e5, f5, e1, e2, e3, e4, f1, f2, f3, f4, hm]
    rw [e'] at e
    exact e.unique (hasDerivAt_const _ _)
  have hzero' : fderiv ℝ (fun p => l1 0 p p) 0 (EuclideanSpace.single 0 1) = 0 := by
    have e : HasDerivAt (fun t : ℝ => l1 0 (0 + t • EuclideanSpace.single 0 1) (0 + t • EuclideanSpace.single 0 1)) _ 0 :=
      (h4 0).2.1.hasFDerivAt.hasLineDerivAt (EuclideanSpace.single 0 1)
    have e' : (fun t : ℝ => l1 0 (0 + t • EuclideanSpace.single 0 1) (0 + t • EuclideanSpace.single 0 1)) = fun _ => l1 0 0 0 := by
      funext t
      have hm : M (0 + t • EuclideanSpace.single 0 1) = M 0 := by
        rw [hM, hM, zero_add, cayley_axis, show (0 : Pt 3) = (0 : ℝ) • EuclideanSpace.single 0 1 by simp, cayley_axis]
      obtain ⟨-, e1, e2, e3, e4, e5, e6⟩ := hl1 0 (0 + t • EuclideanSpace.single 0 1) (0 + t • EuclideanSpace.single 0 1)
      obtain ⟨-, f1, f2, f3, f4, f5, f6⟩ := hl1 0 0 0
      rw [e6, f6, e5, f5, e1, e2, e3, e4, f1, f2, f3, f4, hm]
    rw [e'] at e
    exact e.unique (hasDerivAt_const _ _)
  have hne : (H fun _ => !₂[0, 2, 0]) 0 ≠ 0 := field_offdiagonal s hD rfl rfl dt hdt two_ne_zero (h3 _)
  have hlin : ∀ v : Pt 3, v = v 0 • EuclideanSpace.single 0 1 + v 1 • EuclideanSpace.single 1 1 + v 2 • EuclideanSpace.single 2 1 := by
    intro v
    ext i
    fin_cases i <;> simp
  have hC : ∀ h p0, ContDiff ℝ 2 (l1 h p0) := by
    intro h p0
    have e : l1 h p0 = fun p => Ka * (1 - inner ℝ (M p x) easy ^ 2) - inner ℝ (M p x) h - inner ℝ (M p x) (H (M p0)) := by
      funext p
      obtain ⟨-, e1, e2, e3, e4, e5, e6⟩ := hl1 h p0 p
      rw [e6, e5, e1, e2, e3, e4]
      simp [exchange_eq, ani_energy, ext_energy, mean, hM]
      ring
    have hMc : ContDiff ℝ 2 fun p => M p x := contDiff_iff_contDiffAt.mpr fun p => cayley_contDiff contDiffAt_id contDiffAt_const
    have hi : ∀ w : Pt 3, ContDiff ℝ 2 fun p => inner ℝ (M p x) w := fun w => hMc.inner ℝ contDiff_const
    rw [e]
    exact ((contDiff_const.mul (contDiff_const.sub ((hi easy).pow 2))).sub (hi h)).sub (hi _)
  refine ⟨s, x, dt, l1, hD, hdt, a1, hC, fun h => ⟨(h4 h).2.1, fun hg => ?_⟩, ?_⟩
  · have h6 : fderiv ℝ (l1 h 0) 0 = fderiv ℝ (fun p => l1 h p p) 0 := (InnerProductSpace.toDual ℝ (Pt 3)).symm.injective hg
    have := hdiff h (EuclideanSpace.single 2 1)
    rw [h6, sub_self] at this
    refine hne ?_
    simpa using this.symm
  · set K := fderiv ℝ (l1 0 0) 0 with hK
    set Df := fderiv ℝ (fun p => l1 0 p p) 0 - K with hDf
    have hDv : ∀ h v, fderiv ℝ (fun p => l1 h p p) 0 v = fderiv ℝ (l1 h 0) 0 v + Df v := by
      intro h v
      have e1 := hdiff h v
      have e2 := hdiff 0 v
      rw [hDf, sub_apply]
      linarith
    have hD0 : Df (EuclideanSpace.single 0 1) = 0 := by
      have e1 := hDv 0 (EuclideanSpace.single 0 1)
      rw [hzero', ← hK, hzero] at e1
      linarith
    have hD2 : Df (EuclideanSpace.single 2 1) ≠ 0 := by
      have e1 := hDv 0 (EuclideanSpace.single 2 1)
      have e2 := hdiff 0 (EuclideanSpace.single 2 1)
      have e3 : (!₂[0, 2 * (EuclideanSpace.single 2 1 : Pt 3) 2, -(2 * (EuclideanSpace.single 2 1 : Pt 3) 1)] : Pt 3) = !₂[0, 2, 0] := by
        simp
      rw [e3] at e2
      intro e
      apply hne
      linarith
    let h : Pt 3 := !₂[0, (K (EuclideanSpace.single 2 1) + Df (EuclideanSpace.single 2 1) / 2) / 2,
      -((K (EuclideanSpace.single 1 1) + Df (EuclideanSpace.single 1 1) / 2) / 2)]
    have hL : ∀ v, fderiv ℝ (l1 h 0) 0 v = -(Df v / 2) := by
      intro v
      rw [hder]
      have e1 : K v = v 1 * K (EuclideanSpace.single 1 1) + v 2 * K (EuclideanSpace.single 2 1) := by
        conv_lhs => rw [hlin v]
        simp [hzero]
      have e2 : Df v = v 1 * Df (EuclideanSpace.single 1 1) + v 2 * Df (EuclideanSpace.single 2 1) := by
        conv_lhs => rw [hlin v]
        simp [hD0]
      rw [e1, e2]
      simp [h]
      ring
    have hV : fderiv ℝ (fun p => l1 h p p) 0 = -fderiv ℝ (l1 h 0) 0 := by
      ext v
      rw [hDv, neg_apply, hL]
      ring
    have hg : gradient (fun p => l1 h p p) 0 = -gradient (l1 h 0) 0 := by
      rw [gradient, hV, map_neg, gradient]
    have hg0 : gradient (l1 h 0) 0 ≠ 0 := by
      intro e
      have e1 : fderiv ℝ (l1 h 0) 0 = 0 := by
        rw [gradient] at e
        simpa using e
      have := hL (EuclideanSpace.single 2 1)
      rw [e1] at this
      apply hD2
      simp at this
      exact this
    refine ⟨h, hg0, hg, ?_⟩
    have e : HasDerivAt (fun t : ℝ => l1 h (0 + t • -gradient (l1 h 0) 0) (0 + t • -gradient (l1 h 0) 0)) _ 0 :=
      (h4 h).2.1.hasFDerivAt.hasLineDerivAt (-gradient (l1 h 0) 0)
    have hpos : 0 < fderiv ℝ (fun p => l1 h p p) 0 (-gradient (l1 h 0) 0) := by
      rw [← inner_gradient_left, hg, inner_neg_neg, real_inner_self_eq_norm_sq]
      positivity
    filter_upwards [eventually_gt_of_deriv e hpos] with t ht
    simpa using ht

/-- The same with the constants of a material. -/
example : ∃ (s : StrayField 1 1 1) (x : Pt 3) (xt : List (List (List (Fin 6 → Pt 3)))) (l : Pt 3 → Pt 3 → ℝ) (h : Pt 3),
    surfaceTensorsGrad x s.domain s.subintervals s.method = .ok xt ∧
    (∀ p0 p, (hysteresisLoss 1 2 (EuclideanSpace.single 2 1) h s (fun p y => mag s.domain (fun p _ => p) m0 y p)
      (fun _ : Fin 1 => x) (fun _ => xt) p0 p 1).map (·.1) = .ok (l p0 p)) ∧
    gradient (l 0) 0 ≠ 0 ∧ gradient (fun p => l p p) 0 = -gradient (l 0) 0 := by
  obtain ⟨s, x, xt, l, -, h1, h2, -, -, h, h4, h5, -⟩ := C172_inconsistent 1 2 (EuclideanSpace.single 2 1)
  exact ⟨s, x, xt, l h, h, h1, h2 h, h4, h5⟩

/-- **C172, stagnation.** In this case the trust region method, which compares the values `l p p` and gets the gradient and the
Hessian-vector products of `l p` at `p`, never leaves the initial parameters once its radius is small, although they are not
stationary: every step is rejected. -/
theorem C172_stuck (A Ka : ℝ) (easy : Pt 3) :
    ∃ (s : StrayField 1 1 1) (x : Pt 3) (xt : List (List (List (Fin 6 → Pt 3)))) (l : Pt 3 → Pt 3 → ℝ) (h : Pt 3)
      (B : Pt 3 → Pt 3 →ₗ[ℝ] Pt 3),
      surfaceTensorsGrad x s.domain s.subintervals s.method = .ok xt ∧
      (∀ p0 p, (hysteresisLoss A Ka easy h s (fun p y => mag s.domain (fun p _ => p) m0 y p) (fun _ : Fin 1 => x) (fun _ => xt) p0 p
        1).map (·.1) = .ok (l p0 p)) ∧
      (∀ p v, HasFDerivAt (fun q => inner ℝ (gradient (l p) q) v) (innerSL ℝ (B p v)) p) ∧
      gradient (l 0) 0 ≠ 0 ∧
      ∀ c : TRConf, c.Valid → c.postInit = .ok c → c.approx_hvp = false → 0 ≤ c.decrease_factor → c.decrease_factor < 1 →
        -1 < c.rho_accept → c.tol ≤ ‖gradient (l 0) 0‖ → ∀ f : Objective 3 Unit,
        (∀ p, f.value (efin p) = XR.fin (l p p)) → (∀ p, f.grad (efin p) = efin (gradient (l p) p)) →
        (∀ p v, f.hvp (efin p) (efin v) = efin (B p v)) →
        ∃ r > 0, ∀ (st : OptStep 3 Unit) (Δ : ℝ), Regular c f st 0 Δ → Δ ≤ r →
          (∀ k, (TR.updates c f st k).params = efin 0) ∧
          (0 < c.min_tr_radius → ∃ K, ∀ k ≥ K, (TR.updates c f st k).state.tr_radius ≤ XR.fin c.min_tr_radius) := by
  obtain ⟨s, x, xt, l, -, h1, h2, h3, h4, h, h5, h6, -⟩ := C172_inconsistent A Ka easy
  have hgr : ∀ p, ContDiff ℝ 1 (gradient (l h p)) := fun p =>
    (InnerProductSpace.toDual ℝ (Pt 3)).symm.toContinuousLinearEquiv.contDiff.comp ((h3 h p).fderiv_right (m := 1) (by norm_num))
  have hd : ∀ p, DifferentiableAt ℝ (gradient (l h p)) p := fun p => (hgr p).differentiable (by norm_num) p
  have hB : ∀ p u v, inner ℝ (fderiv ℝ (gradient (l h p)) p u) v = fderiv ℝ (fderiv ℝ (l h p)) p u v := by
    intro p u v
    have e1 : HasFDerivAt (fun q => inner ℝ (gradient (l h p) q) v) _ p := (hd p).hasFDerivAt.inner ℝ (hasFDerivAt_const v p)
    have hdd : DifferentiableAt ℝ (fderiv ℝ (l h p)) p := ((h3 h p).fderiv_right (m := 1) (by norm_num)).differentiable (by norm_num) p
    have e2 : HasFDerivAt (fun q => fderiv ℝ (l h p) q v) _ p := hdd.hasFDerivAt.clm_apply (hasFDerivAt_const v p)
    have e3 : (fun q => inner ℝ (gradient (l h p) q) v) = fun q => fderiv ℝ (l h p) q v := funext fun q => inner_gradient_left
    rw [e3] at e1
    have := congrArg (fun T => T u) (e1.unique e2)
    simpa using this
  have hsym : ∀ p u v, inner ℝ (fderiv ℝ (gradient (l h p)) p u) v = inner ℝ u (fderiv ℝ (gradient (l h p)) p v) := by
    intro p u v
    rw [← real_inner_comm u (fderiv ℝ (gradient (l h p)) p v), hB, hB]
    exact ((h3 h p).contDiffAt.isSymmSndFDerivAt (by simp)) u v
  refine ⟨s, x, xt, l h, h, fun p => (fderiv ℝ (gradient (l h p)) p : Pt 3 →ₗ[ℝ] Pt 3), h1, h2 h, fun p v => ?_, h5, ?_⟩
  · have e1 : HasFDerivAt (fun q => inner ℝ (gradient (l h p) q) v) _ p := (hd p).hasFDerivAt.inner ℝ (hasFDerivAt_const v p)
    refine e1.congr_fderiv ?_
    ext u
    simp [hsym p u v, real_inner_comm]
  · intro c hc hok ha hd0 hd1 hacc htol f f1 f2 f3
    have hf : SecondOrder c f (fun p => gradient (l h p) p) fun p => (fderiv ℝ (gradient (l h p)) p : Pt 3 →ₗ[ℝ] Pt 3) :=
      ⟨f2, fun p v => by rw [TR.hvp, if_neg (by simp [ha])]; exact f3 p v, hsym⟩
    obtain ⟨r, hr, H⟩ := C174_stuck hc hf f1 (h4 h).1.hasGradientAt htol hok hd0 hd1 (by
      rw [h6, inner_neg_left, real_inner_self_eq_norm_sq, neg_div, div_self (by have := norm_pos_iff.mpr h5; positivity)]
      exact hacc)
    exact ⟨r, hr, fun st Δ hst hle => ⟨fun k => ((H st Δ hst hle).1 k).1, (H st Δ hst hle).2⟩⟩

/-- Non-vacuity: there are such an objective, such a configuration and such a state with which the method starts. -/
example : ∃ (l : Pt 3 → Pt 3 → ℝ) (f : Objective 3 Unit) (c : TRConf) (st : OptStep 3 Unit), c.Valid ∧
    (∀ p, f.value (efin p) = XR.fin (l p p)) ∧ (∀ p, f.grad (efin p) = efin (gradient (l p) p)) ∧ gradient (l 0) 0 ≠ 0 ∧
    ∀ k, (TR.updates c f (TR.start c f (.inr st)) k).params = efin 0 := by
  obtain ⟨s, x, xt, l, h, B, -, -, -, hg, H⟩ := C172_stuck 1 2 (EuclideanSpace.single 2 1)
  let pt : Vec 3 → Pt 3 := fun v => WithLp.toLp 2 fun i => XR.toReal (v i)
  let f : Objective 3 Unit :=
    ⟨fun v => XR.fin (l (pt v) (pt v)), fun _ => (), fun v => efin (gradient (l (pt v)) (pt v)), fun v w => efin (B (pt v) (pt w))⟩
  have hn : 0 < ‖gradient (l 0) 0‖ := norm_pos_iff.mpr hg
  let c : TRConf := { TRConf.default with tol := ‖gradient (l 0) 0‖, min_tr_radius := 0 }
  have hc : c.Valid := ⟨hn, le_rfl, by simp [c, TRConf.default], by simp [c, TRConf.default]⟩
  obtain ⟨r, hr, hs⟩ := H c hc (by simp [c, TRConf.postInit, TRConf.default]) rfl (by norm_num [c, TRConf.default])
    (by norm_num [c, TRConf.default]) (by norm_num [c, TRConf.default]) le_rfl f (fun p => rfl) (fun p => rfl) fun p v => rfl
  let st : OptStep 3 Unit := ⟨efin 0, { (TR.start c f (.inl (efin 0))).state with tr_radius := XR.fin r }⟩
  refine ⟨l, f, c, st, hc, fun p => rfl, fun p => rfl, hg, (hs _ r (regular_start rfl ?_) le_rfl).1⟩
  exact if_neg fun h => absurd h (by simpa [c, st] using hr)

end Verif
