import Verif.Props.MumagPotential

/-! # The single layer potential of `mumag3.py` (C96, C97) -/

namespace Verif

open XR

theorem jacfwd_eq_fderiv {E : Type} [NormedAddCommGroup E] [NormedSpace ℝ E] (f : Pt 3 → E) (x : Pt 3) (a : Fin 3) :
    jacfwd f x a = fderiv ℝ f x (unitVec a) := rfl

theorem jacfwd_jacfwd (f : Pt 3 → ℝ) (x : Pt 3) (a b : Fin 3) (hf : ContDiffAt ℝ 2 f x) :
    jacfwd (fun y => jacfwd f y a) x b = fderiv ℝ (fderiv ℝ f) x (unitVec b) (unitVec a) := by
  have h : DifferentiableAt ℝ (fderiv ℝ f) x :=
    (hf.fderiv_right (m := 1) (by norm_num)).differentiableAt (by norm_num)
  change fderiv ℝ (fun y => fderiv ℝ f y (unitVec a)) x (unitVec b) = _
  rw [fderiv_clm_apply h (differentiableAt_const _)]
  simp

/-- The second order Taylor polynomial in coordinates. -/
theorem taylorPoly_two (f : Pt 3 → ℝ) (c y : Pt 3) (hf : ContDiffAt ℝ 2 f c) :
    taylorPoly f 2 c y = f c + ∑ a, (y - c) a * jacfwd f c a +
      1 / 2 * ∑ a, ∑ b, (y - c) a * (y - c) b * jacfwd (fun y => jacfwd f y a) c b := by
  rw [← tensordot_taylor f 2 c y (by exact_mod_cast hf)]
  simp only [sourceTerms, chargeTensor.charge, tensordot, outerPower, derivEntries, List.range_succ, List.range_zero,
    List.nil_append, List.flatMap_cons, List.flatMap_nil, List.append_nil, List.cons_append,
    List.map_cons, List.map_nil, List.zipWith_cons_cons, List.zipWith_nil_left, List.sum_cons, List.sum_nil,
    Fin.sum_univ_three, smul_eq_mul]
  simp only [Nat.factorial]
  norm_num
  ring

/-- The coefficients times the monomials of a side. -/
theorem coefs_taylor (f : Pt 3 → ℝ) (k : Fin 3) (c s t s' t' : ℝ)
    (hf : ContDiffAt ℝ 2 f (planePoint k c s' t')) :
    let m := planePoint k c s' t'
    let i := k.succAbove 0
    let j := k.succAbove 1
    f m + jacfwd f m i * (s - s') + jacfwd f m j * (t - t') +
      1 / 2 * jacfwd (fun y => jacfwd f y i) m i * (s - s') ^ 2 + jacfwd (fun y => jacfwd f y i) m j * ((s - s') * (t - t')) +
      1 / 2 * jacfwd (fun y => jacfwd f y j) m j * (t - t') ^ 2 = taylorPoly f 2 m (planePoint k c s t) := by
  intro m i j
  have hs : ∀ a b, jacfwd (fun y => jacfwd f y a) m b = jacfwd (fun y => jacfwd f y b) m a := by
    intro a b
    rw [jacfwd_jacfwd f m a b hf, jacfwd_jacfwd f m b a hf, hessian_symm hf]
  rw [taylorPoly_two f m _ hf]
  have hk : (planePoint k c s t - m) k = 0 := by simp [m, planePoint]
  have hi : (planePoint k c s t - m) i = s - s' := by simp [m, i, planePoint]
  have hj : (planePoint k c s t - m) j = t - t' := by simp [m, j, planePoint]
  have hsum : ∀ F : Fin 3 → ℝ, ∑ a, F a = F k + F i + F j := by
    intro F
    rw [Fin.sum_univ_succAbove F k, Fin.sum_univ_two, add_assoc]
  simp only [hsum, hk, hi, hj]
  rw [hs j i]
  ring

/-- The contraction with fixed coefficients as a linear map. -/
noncomputable def contract6 (q : Fin 6 → ℝ) : (Fin 6 → ℝ) →ₗ[ℝ] ℝ :=
  ∑ k, (LinearMap.proj k : (Fin 6 → ℝ) →ₗ[ℝ] ℝ).smulRight (q k)

theorem contract6_apply (q t : Fin 6 → ℝ) : contract6 q t = ∑ k, q k • t k := by
  simp [contract6, mul_comm]

/-- The quadrature over one cell of a side. -/
noncomputable def cellQuad (method : QuadRule) (n : ℕ) (x : Pt 3) (f : Pt 3 → Pt 3 → ℝ) (k : Fin 3) (c u0 u1 v0 v1 : ℝ) : ℝ :=
  quad (method (linspace u0 u1 (n + 1))) fun s => quad (method (linspace v0 v1 (n + 1))) fun t =>
    taylorPoly (f (planePoint k c ((u0 + u1) / 2) ((v0 + v1) / 2))) 2 (planePoint k c ((u0 + u1) / 2) ((v0 + v1) / 2))
      (planePoint k c s t) / ‖x - planePoint k c s t‖

theorem face_contribution (F : Face) (hF : F.IsSide) (f : Pt 3 → Pt 3 → ℝ) (x : Pt 3) (n : ℕ) (method : QuadRule)
    (hm : ∀ a b : ℝ, (method (linspace a b (n + 1))).1.length = (method (linspace a b (n + 1))).2.length)
    (hf : ∀ row ∈ F.midpoints, ∀ m ∈ row, ContDiffAt ℝ 2 (f m) m) :
    ∃ t, integrateFace F x (.int n) method = .ok t ∧ tensordot3 (chargeTaylorCoefs2 F f) t =
      .ok (gridSum F.axis1_vals F.axis2_vals (cellQuad method n x f F.const_axis F.const_val)) := by
  obtain ⟨h1, h2, h3⟩ := hF
  refine ⟨_, rfl, ?_⟩
  have e := midpoints_eq F.axis1_vals F.axis2_vals F.const_axis F.const_val
  rw [← h3] at e
  rw [tensordot3, chargeTaylorCoefs2, e, if_pos (by simp)]
  congr 1
  rw [gridSum]
  simp only [List.map_map, List.zipWith_map_left, List.zipWith_map_right, List.zipWith_self, Function.comp_def]
  rw [sum_gridCells]
  refine Finset.sum_congr rfl fun a ha => ?_
  rw [sum_gridCells]
  refine Finset.sum_congr rfl fun b hb => ?_
  have hd : ContDiffAt ℝ 2 (f (planePoint F.const_axis F.const_val
      ((F.axis1_vals.getD a 0 + F.axis1_vals.getD (a + 1) 0) / 2) ((F.axis2_vals.getD b 0 + F.axis2_vals.getD (b + 1) 0) / 2)))
      (planePoint F.const_axis F.const_val
      ((F.axis1_vals.getD a 0 + F.axis1_vals.getD (a + 1) 0) / 2)
      ((F.axis2_vals.getD b 0 + F.axis2_vals.getD (b + 1) 0) / 2)) := by
    rw [e] at hf
    refine hf _ (List.mem_map.mpr ⟨(F.axis1_vals.getD a 0, F.axis1_vals.getD (a + 1) 0), ?_, rfl⟩) _
      (List.mem_map.mpr ⟨(F.axis2_vals.getD b 0, F.axis2_vals.getD (b + 1) 0), ?_, rfl⟩)
    · exact (mem_gridCells_iff _ _).mpr ⟨a, by have := Finset.mem_range.mp ha; omega, rfl⟩
    · exact (mem_gridCells_iff _ _).mpr ⟨b, by have := Finset.mem_range.mp hb; omega, rfl⟩
  rw [← contract6_apply, C48_map, C48_nested _ _ _ (by
    intro d hd
    simp only [List.mem_cons, List.not_mem_nil, or_false] at hd
    rcases hd with rfl | rfl <;> exact hm _ _)]
  simp only [List.map_cons, List.map_nil, nestedQuad, cellQuad]
  congr 1
  funext s
  congr 1
  funext t
  rw [contract6_apply, ← coefs_taylor _ _ _ _ _ _ _ hd]
  have hp : ∀ s t, F.point s t = planePoint F.const_axis F.const_val s t := Face.IsSide.point ⟨h1, h2, h3⟩
  simp only [integrand_, hp, Fin.sum_univ_six, h1, h2]
  simp [planePoint]
  ring

theorem surface_contribution (xs ys zs : List ℝ) (D : Cuboid) (hD : Cuboid.init xs ys zs = .ok D) (f : Pt 3 → Pt 3 → ℝ)
    (x : Pt 3) (n : ℕ) (method : QuadRule)
    (hm : ∀ a b : ℝ, (method (linspace a b (n + 1))).1.length = (method (linspace a b (n + 1))).2.length)
    (hf : ∀ F ∈ D.faces, ∀ row ∈ F.midpoints, ∀ m ∈ row, ContDiffAt ℝ 2 (f m) m) :
    integrateSurfaceBox x D (charges D f) (.int n) method = .ok (boxSum ![xs, ys, zs] (cellQuad method n x f)) := by
  obtain ⟨-, -, -, rfl⟩ := init_inv hD
  have key : ∀ F ∈ sides xs ys zs, ∃ t, integrateFace F x (.int n) method = .ok t ∧
      tensordot3 (chargeTaylorCoefs2 F f) t =
        .ok (gridSum F.axis1_vals F.axis2_vals (cellQuad method n x f F.const_axis F.const_val)) :=
    fun F hF => face_contribution F (isSide_of_mem hF) f x n method hm (hf F hF)
  simp only [sides, List.forall_mem_cons] at key
  obtain ⟨⟨t1, a1, b1⟩, ⟨t2, a2, b2⟩, ⟨t3, a3, b3⟩, ⟨t4, a4, b4⟩, ⟨t5, a5, b5⟩, ⟨t6, a6, b6⟩, -⟩ := key
  have hT : surfaceTensors x ⟨xs, ys, zs, ⟨vfin (gridLo (grids xs ys zs)), vfin (gridHi (grids xs ys zs))⟩, sides xs ys zs⟩
      (.int n) method = .ok [t1, t2, t3, t4, t5, t6] := by
    simp only [surfaceTensors, sides, List.mapM_cons, List.mapM_nil, a1, a2, a3, a4, a5, a6]
    rfl
  rw [integrateSurfaceBox, hT]
  simp only [bind, Except.bind]
  rw [solveSufraceIntegral, if_neg (by simp [charges, sides])]
  simp only [charges, sides, List.map_cons, List.map_nil, List.zip_cons_cons, List.zip_nil_left, List.mapM_cons, List.mapM_nil,
    b1, b2, b3, b4, b5, b6]
  change Except.ok _ = Except.ok _
  congr 1
  simp only [List.sum_cons, List.sum_nil, boxSum, Fin.sum_univ_three, faces_.face]
  change _ = gridSum ys zs (cellQuad method n x f 0 _) + gridSum ys zs (cellQuad method n x f 0 _) +
    (gridSum xs zs (cellQuad method n x f 1 _) + gridSum xs zs (cellQuad method n x f 1 _)) +
    (gridSum xs ys (cellQuad method n x f 2 _) + gridSum xs ys (cellQuad method n x f 2 _))
  ring

/-- The single layer potential of the cuboid is the sum over all cells of all sides of the quadrature of the second order
Taylor polynomial of the charge about the centre of the cell divided by the distance from the target point. Although the
code only uses the derivatives in the plane of the side, it is the Taylor polynomial in space. The charge may depend on the centre
(`f m`), as for uses of `stop_gradient`. -/
theorem C96_potential (xs ys zs : List ℝ) (D : Cuboid) (hD : Cuboid.init xs ys zs = .ok D) (f : Pt 3 → Pt 3 → ℝ)
    (x : Pt 3) (n : ℕ) (method : QuadRule)
    (hm : ∀ a b : ℝ, (method (linspace a b (n + 1))).1.length = (method (linspace a b (n + 1))).2.length)
    (hf : ∀ F ∈ D.faces, ∀ row ∈ F.midpoints, ∀ m ∈ row, ContDiffAt ℝ 2 (f m) m) :
    singleLayerPotentialBox D f (.int n) method x = .ok (1 / (4 * Real.pi) *
      boxSum ![xs, ys, zs] fun k c u0 u1 v0 v1 =>
        let m := planePoint k c ((u0 + u1) / 2) ((v0 + v1) / 2)
        quad (method (linspace u0 u1 (n + 1))) fun s => quad (method (linspace v0 v1 (n + 1))) fun t =>
          taylorPoly (f m) 2 m (planePoint k c s t) / ‖x - planePoint k c s t‖) := by
  rw [singleLayerPotentialBox, surface_contribution xs ys zs D hD f x n method hm hf]
  rfl

example : ∃ D, Cuboid.init [0, 1] [0, 2, 3] [-1, 1] = .ok D ∧
    (∀ F ∈ D.faces, ∀ row ∈ F.midpoints, ∀ m ∈ row, ContDiffAt ℝ 2 (fun y : Pt 3 => m 0 * y 0 ^ 3 + y 2) m) ∧
    ∀ (n : ℕ) (a b : ℝ), (trap (linspace a b (n + 1))).1.length = (trap (linspace a b (n + 1))).2.length := by
  refine ⟨_, init_ok ⟨by simp, by simp⟩ ⟨by simp, by simp; norm_num⟩ ⟨by simp, by simp⟩, fun _ _ _ _ _ _ => by fun_prop,
    fun n a b => (C46_trap _ ?_).2.1⟩
  exact List.ne_nil_of_length_pos (by simp [linspace])

/-- For charges which are quadratic polynomials (in particular linear magnetisations) it is the quadrature of the charge
itself. -/
theorem C96_quadratic (xs ys zs : List ℝ) (D : Cuboid) (hD : Cuboid.init xs ys zs = .ok D) (f : Pt 3 → ℝ)
    (hf : IsPolynomial f 2) (x : Pt 3) (n : ℕ) (method : QuadRule)
    (hm : ∀ a b : ℝ, (method (linspace a b (n + 1))).1.length = (method (linspace a b (n + 1))).2.length) :
    singleLayerPotentialBox D (fun _ => f) (.int n) method x = .ok (1 / (4 * Real.pi) *
      boxSum ![xs, ys, zs] fun k c u0 u1 v0 v1 =>
        quad (method (linspace u0 u1 (n + 1))) fun s => quad (method (linspace v0 v1 (n + 1))) fun t =>
          f (planePoint k c s t) / ‖x - planePoint k c s t‖) := by
  rw [C96_potential xs ys zs D hD (fun _ => f) x n method hm fun _ _ _ _ m _ => (contDiff_of_isPolynomial f 2 hf 2).contDiffAt]
  simp only [taylorPoly_of_isPolynomial f 2 hf]

/-- With the default of `subintervals`, a tuple, all three functions raise a `TypeError`, for every cuboid and charge. -/
theorem C97_default_subintervals (xs ys zs : List ℝ) (D : Cuboid) (hD : Cuboid.init xs ys zs = .ok D)
    (f : Pt 3 → Pt 3 → ℝ) (q : List (List (List (Fin 6 → ℝ)))) (x : Pt 3) (method : QuadRule) :
    integrateSurfaceBox x D q .default method = .error .typeError ∧
    singleLayerPotentialBox D f .default method x = .error .typeError := by
  obtain ⟨-, -, -, rfl⟩ := init_inv hD
  exact ⟨rfl, rfl⟩

/-- Non-vacuity: a cuboid, a quadratic charge which depends on all coordinates, and Simpson's rule. -/
example : ∃ D, Cuboid.init [0, 1] [0, 2, 3] [-1, 1] = .ok D ∧ IsPolynomial (fun y : Pt 3 => y 0 * y 1 + y 2) 2 ∧
    ∀ (n : ℕ) (a b : ℝ), (midpoint (linspace a b (n + 1))).1.length = (midpoint (linspace a b (n + 1))).2.length := by
  refine ⟨_, init_ok ⟨by simp, by simp⟩ ⟨by simp, by simp; norm_num⟩ ⟨by simp, by simp⟩, ?_, fun n a b => by simp [midpoint]⟩
  refine ⟨{![1, 1, 0], ![0, 0, 1]}, fun _ => 1, ?_, fun y => ?_⟩
  · simp [Fin.sum_univ_three]
  · rw [Finset.sum_pair (by decide)]
    simp [Fin.prod_univ_three]

end Verif
