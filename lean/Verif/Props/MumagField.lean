import Verif.Props.MumagStray

/-! # The stray field with precomputed tensors (C99) -/

namespace Verif

theorem jacVec_add {n : ℕ} {f g : Pt n → ℝ} {x : Pt n} (hf : DifferentiableAt ℝ f x) (hg : DifferentiableAt ℝ g x) :
    jacVec (fun y => f y + g y) x = jacVec f x + jacVec g x := by
  ext i
  simp only [jacVec, PiLp.add_apply]
  rw [show (fun y => f y + g y) = f + g from rfl, fderiv_add hf hg]
  rfl

theorem jacVec_const_mul {n : ℕ} {f : Pt n → ℝ} {x : Pt n} (hf : DifferentiableAt ℝ f x) (c : ℝ) :
    jacVec (fun y => c * f y) x = c • jacVec f x := by
  ext i
  simp only [jacVec, PiLp.smul_apply, smul_eq_mul]
  rw [fderiv_const_mul hf]
  rfl

theorem jacVec_zero {n : ℕ} (x : Pt n) : jacVec (fun _ => 0) x = 0 := by
  ext i
  simp [jacVec]

theorem jacVec_list_sum {n : ℕ} {ι : Type} (l : List ι) (f : ι → Pt n → ℝ) (x : Pt n)
    (h : ∀ i ∈ l, DifferentiableAt ℝ (f i) x) :
    DifferentiableAt ℝ (fun y => (l.map fun i => f i y).sum) x ∧
      jacVec (fun y => (l.map fun i => f i y).sum) x = (l.map fun i => jacVec (f i) x).sum := by
  induction l with
  | nil => exact ⟨by simp, by simp [jacVec_zero]⟩
  | cons i l ih =>
    obtain ⟨h1, h2⟩ := ih fun j hj => h j (by simp [hj])
    have h3 := h i (by simp)
    simp only [List.map_cons, List.sum_cons]
    exact ⟨h3.add h1, by rw [jacVec_add h3 h1, h2]⟩

theorem jacVec_combination {n : ℕ} (c : Fin 6 → ℝ) (f : Fin 6 → Pt n → ℝ) (x : Pt n)
    (h : ∀ k, DifferentiableAt ℝ (f k) x) :
    DifferentiableAt ℝ (fun y => ∑ k, c k • f k y) x ∧
      jacVec (fun y => ∑ k, c k • f k y) x = ∑ k, c k • jacVec (f k) x := by
  have h1 : ∀ k, DifferentiableAt ℝ (fun y => c k * f k y) x := fun k => (h k).const_mul _
  have h2 := jacVec_list_sum (List.finRange 6) (fun k y => c k * f k y) x fun k _ => h1 k
  simp only [jacVec_const_mul (h _)] at h2
  have e : ∀ {M : Type} [AddCommMonoid M] (g : Fin 6 → M), ((List.finRange 6).map g).sum = ∑ k, g k := by
    intro M _ g
    rw [← List.ofFn_eq_map, List.sum_ofFn]
  simp only [e] at h2
  exact h2

theorem mapM_ok {α β : Type} (l : List α) (h : α → β) : l.mapM (fun a => (Except.ok (h a) : Except Err β)) = .ok (l.map h) := by
  induction l with
  | nil => rfl
  | cons a l ih =>
    rw [List.mapM_cons, ih]
    rfl

/-- One entry of the tensor as a function of the target point. -/
noncomputable def entryFun (method : QuadRule) (n : ℕ) (F : Face) (d1 d2 : ℝ × ℝ) (k : Fin 6) (x : Pt 3) : ℝ :=
  integrateN (fun y => integrand_ y x (F.point ((d1.1 + d1.2) / 2) ((d2.1 + d2.2) / 2)) F)
    [linspace d1.1 d1.2 (n + 1), linspace d2.1 d2.2 (n + 1)] method k

/-- A quantity for all cells of all faces. -/
def tabulate {α : Type} (L : List Face) (T : Face → ℝ × ℝ → ℝ × ℝ → α) : List (List (List α)) :=
  L.map fun F => (gridCells F.axis1_vals).map fun d1 => (gridCells F.axis2_vals).map fun d2 => T F d1 d2

theorem surfaceTensors_eq (x : Pt 3) (D : Cuboid) (n : ℕ) (method : QuadRule) :
    surfaceTensors x D (.int n) method = .ok (tabulate D.faces fun F d1 d2 k => entryFun method n F d1 d2 k x) := by
  rw [surfaceTensors, tabulate, ← mapM_ok]
  rfl

theorem surfaceTensorsGrad_eq (x : Pt 3) (D : Cuboid) (n : ℕ) (method : QuadRule) :
    surfaceTensorsGrad x D (.int n) method =
      .ok (tabulate D.faces fun F d1 d2 k => jacVec (entryFun method n F d1 d2 k) x) := by
  rw [surfaceTensorsGrad]
  simp only [surfaceTensors_eq]
  change Except.ok _ = Except.ok _
  congr 1
  simp only [tabulate]
  refine List.ext_getElem (by simp) fun a h1 h2 => ?_
  have ha : a < D.faces.length := by simpa using h2
  simp only [List.getElem_mapIdx, List.getElem_map]
  refine List.ext_getElem (by simp) fun i h1 h2 => ?_
  have hi : i < (gridCells D.faces[a].axis1_vals).length := by simpa using h2
  simp only [List.getElem_mapIdx, List.getElem_map]
  refine List.ext_getElem (by simp) fun j h1 h2 => ?_
  have hj : j < (gridCells D.faces[a].axis2_vals).length := by simpa using h2
  simp only [List.getElem_mapIdx, List.getElem_map]
  funext k
  congr 1
  funext y
  simp [List.getD_eq_getElem?_getD, ha, hi, hj]

theorem tensordot3_map {E : Type} [NormedAddCommGroup E] [NormedSpace ℝ E] (A B : List (ℝ × ℝ))
    (C : ℝ × ℝ → ℝ × ℝ → Fin 6 → ℝ) (T : ℝ × ℝ → ℝ × ℝ → Fin 6 → E) :
    tensordot3 (A.map fun d1 => B.map (C d1)) (A.map fun d1 => B.map (T d1)) =
      .ok ((A.map fun d1 => (B.map fun d2 => ∑ k, C d1 d2 k • T d1 d2 k).sum).sum) := by
  rw [tensordot3, if_pos (by simp)]
  simp only [List.zipWith_map_left, List.zipWith_map_right, List.zipWith_self]

theorem solve_tabulate {E : Type} [NormedAddCommGroup E] [NormedSpace ℝ E] (L : List Face)
    (C : Face → ℝ × ℝ → ℝ × ℝ → Fin 6 → ℝ) (T : Face → ℝ × ℝ → ℝ × ℝ → Fin 6 → E) :
    solveSufraceIntegral (tabulate L C) (tabulate L T) = .ok ((L.map fun F => ((gridCells F.axis1_vals).map fun d1 =>
      ((gridCells F.axis2_vals).map fun d2 => ∑ k, C F d1 d2 k • T F d1 d2 k).sum).sum).sum) := by
  rw [solveSufraceIntegral, if_neg (by simp [tabulate])]
  simp only [tabulate, List.zip_map', List.mapM_map]
  simp only [Function.comp_def, tensordot3_map]
  rw [mapM_ok]
  rfl

/-- The coefficients of the charge in a cell. -/
noncomputable def cellCoefs (f : Pt 3 → Pt 3 → ℝ) (F : Face) (d1 d2 : ℝ × ℝ) : Fin 6 → ℝ :=
  let x := planePoint F.const_axis F.const_val ((d1.1 + d1.2) / 2) ((d2.1 + d2.2) / 2)
  let g := jacfwd (f x) x
  let H := fun a b => jacfwd (fun y => jacfwd (f x) y a) x b
  ![f x x, g F.axis1, g F.axis2, 1 / 2 * H F.axis1 F.axis1, H F.axis1 F.axis2, 1 / 2 * H F.axis2 F.axis2]

theorem charges_eq (D : Cuboid) (hD : ∀ F ∈ D.faces, F.IsSide) (f : Pt 3 → Pt 3 → ℝ) :
    charges D f = tabulate D.faces (cellCoefs f) := by
  rw [charges, tabulate]
  refine List.map_congr_left fun F hF => ?_
  obtain ⟨-, -, h3⟩ := hD F hF
  rw [chargeTaylorCoefs2, h3, midpoints_eq]
  simp only [List.map_map, Function.comp_def]
  rfl

theorem differentiableAt_entryFun (method : QuadRule) (n : ℕ) (F : Face) (hF : F.IsSide) (d1 d2 : ℝ × ℝ) (k : Fin 6) (x : Pt 3)
    (hx : ∀ s ∈ (method (linspace d1.1 d1.2 (n + 1))).2, ∀ t ∈ (method (linspace d2.1 d2.2 (n + 1))).2,
      x ≠ planePoint F.const_axis F.const_val s t) : DifferentiableAt ℝ (entryFun method n F d1 d2 k) x := by
  have h := fun x => C48_map (LinearMap.proj k : (Fin 6 → ℝ) →ₗ[ℝ] ℝ)
    (fun y => integrand_ y x (F.point ((d1.1 + d1.2) / 2) ((d2.1 + d2.2) / 2)) F)
    [linspace d1.1 d1.2 (n + 1), linspace d2.1 d2.2 (n + 1)] method
  rw [show entryFun method n F d1 d2 k = _ from funext h]
  simp only [integrateN]
  refine differentiableAt_tensordot _ _ _ x ?_
  intro p hp
  simp only [List.map_cons, List.map_nil, meshgrid, product, List.mem_flatMap, List.mem_singleton] at hp
  obtain ⟨t, ht, s, hs, _, rfl, rfl⟩ := hp
  have hne : x - F.point s t ≠ 0 := by
    rw [hF.point]
    exact sub_ne_zero.mpr (hx s hs t ht)
  have hn : DifferentiableAt ℝ (fun x => ‖x - F.point s t‖) x := by
    refine DifferentiableAt.norm ℝ ?_ hne
    fun_prop
  have hn' : ‖x - F.point s t‖ ≠ 0 := norm_ne_zero_iff.mpr hne
  simp only [integrand_, LinearMap.proj_apply, div_eq_mul_inv]
  exact (hn.fun_inv hn').const_mul _

variable {N k r : ℕ}

/-- The second potential is differentiable away from the quadrature nodes, and its derivative is the contraction of the charges
with the derivatives of the tensors. -/
theorem phi2_gradient (xs ys zs : List ℝ) (s : StrayField N k r) (hD : Cuboid.init xs ys zs = .ok s.domain) (n : ℕ)
    (hn : s.subintervals = .int n) (m : Pt 3 → Pt 3) (x : Pt 3)
    (hx : ∀ F ∈ s.domain.faces, ∀ i, i + 1 < F.axis1_vals.length → ∀ j, j + 1 < F.axis2_vals.length →
      ∀ u ∈ (s.method (linspace (F.axis1_vals.getD i 0) (F.axis1_vals.getD (i + 1) 0) (n + 1))).2,
      ∀ v ∈ (s.method (linspace (F.axis2_vals.getD j 0) (F.axis2_vals.getD (j + 1) 0) (n + 1))).2,
        x ≠ planePoint F.const_axis F.const_val u v) :
    ∃ φ : Pt 3 → ℝ, (∀ y, s.phi2 m y = .ok (φ y)) ∧ DifferentiableAt ℝ φ x ∧
      ∃ dt v, surfaceTensorsGrad x s.domain s.subintervals s.method = .ok dt ∧
        solveSufraceIntegral (charges s.domain (s.g m)) dt = .ok v ∧ jacVec φ x = (1 / (4 * Real.pi)) • v := by
  have hside : ∀ F ∈ s.domain.faces, F.IsSide := by
    obtain ⟨-, -, -, h⟩ := init_inv hD
    rw [h]
    exact fun F hF => isSide_of_mem hF
  have hd : ∀ F ∈ s.domain.faces, ∀ d1 ∈ gridCells F.axis1_vals, ∀ d2 ∈ gridCells F.axis2_vals, ∀ k,
      DifferentiableAt ℝ (entryFun s.method n F d1 d2 k) x := by
    intro F hF d1 h1 d2 h2 k
    obtain ⟨i, hi, rfl⟩ := (mem_gridCells_iff _ _).mp h1
    obtain ⟨j, hj, rfl⟩ := (mem_gridCells_iff _ _).mp h2
    exact differentiableAt_entryFun s.method n F (hside F hF) _ _ k x (hx F hF i hi j hj)
  have hcell : ∀ F ∈ s.domain.faces, ∀ d1 ∈ gridCells F.axis1_vals, ∀ d2 ∈ gridCells F.axis2_vals, _ := fun F hF d1 h1 d2 h2 =>
    jacVec_combination (cellCoefs (s.g m) F d1 d2) (entryFun s.method n F d1 d2) x (hd F hF d1 h1 d2 h2)
  have hrow : ∀ F ∈ s.domain.faces, ∀ d1 ∈ gridCells F.axis1_vals, _ := fun F hF d1 h1 =>
    jacVec_list_sum (gridCells F.axis2_vals) (fun d2 y => ∑ k, cellCoefs (s.g m) F d1 d2 k • entryFun s.method n F d1 d2 k y) x
      fun d2 h2 => (hcell F hF d1 h1 d2 h2).1
  have hface : ∀ F ∈ s.domain.faces, _ := fun F hF =>
    jacVec_list_sum (gridCells F.axis1_vals) (fun d1 y => ((gridCells F.axis2_vals).map fun d2 =>
      ∑ k, cellCoefs (s.g m) F d1 d2 k • entryFun s.method n F d1 d2 k y).sum) x
      fun d1 h1 => (hrow F hF d1 h1).1
  have hall := jacVec_list_sum s.domain.faces (fun F y => ((gridCells F.axis1_vals).map fun d1 =>
    ((gridCells F.axis2_vals).map fun d2 => ∑ k, cellCoefs (s.g m) F d1 d2 k • entryFun s.method n F d1 d2 k y).sum).sum) x
    fun F hF => (hface F hF).1
  refine ⟨_, fun y => ?_, hall.1.const_mul (1 / (4 * Real.pi)),
    tabulate s.domain.faces fun F d1 d2 k => jacVec (entryFun s.method n F d1 d2 k) x,
    (s.domain.faces.map fun F => ((gridCells F.axis1_vals).map fun d1 => ((gridCells F.axis2_vals).map fun d2 =>
      ∑ k, cellCoefs (s.g m) F d1 d2 k • jacVec (entryFun s.method n F d1 d2 k) x).sum).sum).sum, ?_, ?_, ?_⟩
  rotate_left
  · rw [hn, surfaceTensorsGrad_eq]
  · rw [charges_eq _ hside, solve_tabulate]
  · rw [jacVec_const_mul hall.1, hall.2]
    congr 2
    refine List.map_congr_left fun F hF => ?_
    rw [(hface F hF).2]
    congr 1
    refine List.map_congr_left fun d1 h1 => ?_
    rw [(hrow F hF d1 h1).2]
    congr 1
    exact List.map_congr_left fun d2 h2 => (hcell F hF d1 h1 d2 h2).2
  · rw [StrayField.phi2, singleLayerPotentialBox, integrateSurfaceBox, hn, surfaceTensors_eq]
    simp only [bind, Except.bind]
    rw [charges_eq _ hside, solve_tabulate]
    rfl

/-- The stray field is minus the gradient of the sum of both potentials, and the version with precomputed tensors computes the
same field, at all points which are not quadrature nodes. -/
theorem C99_tensors (xs ys zs : List ℝ) (s : StrayField N k r) (hD : Cuboid.init xs ys zs = .ok s.domain) (n : ℕ)
    (hn : s.subintervals = .int n) (m : Pt 3 → Pt 3) (x : Pt 3) (h1 : DifferentiableAt ℝ (s.phi1 m) x)
    (hx : ∀ F ∈ s.domain.faces, ∀ i, i + 1 < F.axis1_vals.length → ∀ j, j + 1 < F.axis2_vals.length →
      ∀ u ∈ (s.method (linspace (F.axis1_vals.getD i 0) (F.axis1_vals.getD (i + 1) 0) (n + 1))).2,
      ∀ v ∈ (s.method (linspace (F.axis2_vals.getD j 0) (F.axis2_vals.getD (j + 1) 0) (n + 1))).2,
        x ≠ planePoint F.const_axis F.const_val u v) :
    ∃ φ : Pt 3 → ℝ, (∀ y, s.phi2 m y = .ok (φ y)) ∧
      s.hs m x = .ok (-gradient (fun y => s.phi1 m y + φ y) x) ∧
      ∃ dt, surfaceTensorsGrad x s.domain s.subintervals s.method = .ok dt ∧
        s.hsTensors m x dt = .ok (-gradient (fun y => s.phi1 m y + φ y) x) := by
  obtain ⟨φ, h2, h3, dt, v, h4, h5, h6⟩ := phi2_gradient xs ys zs s hD n hn m x hx
  refine ⟨φ, h2, ?_, dt, h4, ?_⟩
  · rw [StrayField.hs]
    simp only [h2]
    change Except.ok _ = Except.ok _
    rw [jacVec_eq_gradient (h1.fun_add h3)]
  · rw [StrayField.hsTensors]
    simp only [h5]
    change Except.ok _ = Except.ok _
    rw [← jacVec_eq_gradient (h1.fun_add h3), jacVec_add h1 h3, h6, neg_add, sub_eq_add_neg]

/-- In the interior of the cuboid this holds without further conditions. -/
theorem C99_inside (xs ys zs : List ℝ) (s : StrayField N k r) (hD : Cuboid.init xs ys zs = .ok s.domain) (n : ℕ)
    (hn : s.subintervals = .int n) (m : Pt 3 → Pt 3) (x : Pt 3)
    (hlt : ∀ i, gridLo ![xs, ys, zs] i < gridHi ![xs, ys, zs] i)
    (hx : x.ofLp ∈ interior (Set.Icc (gridLo ![xs, ys, zs]) (gridHi ![xs, ys, zs]))) :
    ∃ φ : Pt 3 → ℝ, (∀ y, s.phi2 m y = .ok (φ y)) ∧
      s.hs m x = .ok (-gradient (fun y => s.phi1 m y + φ y) x) ∧
      ∃ dt, surfaceTensorsGrad x s.domain s.subintervals s.method = .ok dt ∧
        s.hsTensors m x dt = .ok (-gradient (fun y => s.phi1 m y + φ y) x) := by
  refine C99_tensors xs ys zs s hD n hn m x ?_ ?_
  · have h1 : DifferentiableAt ℝ s.u_elm x := (u_elm_contDiff s hD hlt hx 1).differentiableAt (by norm_num)
    have h2 : ∀ a, DifferentiableAt ℝ (fun y => s.u_elm y a) x := differentiableAt_pi.mp h1
    unfold StrayField.phi1
    fun_prop
  · intro F hF i _ j _ u _ v _ e
    have hx' : ∀ i, gridLo ![xs, ys, zs] i < x i ∧ x i < gridHi ![xs, ys, zs] i := by
      rw [← Set.pi_univ_Icc, interior_pi_set Set.finite_univ] at hx
      simpa [interior_Icc] using hx
    have h1 : x F.const_axis = F.const_val := by
      rw [e]
      simp [planePoint]
    have h2 : F.const_val = gridLo ![xs, ys, zs] F.const_axis ∨ F.const_val = gridHi ![xs, ys, zs] F.const_axis := by
      obtain ⟨-, -, -, h⟩ := init_inv hD
      rw [h] at hF
      simp only [sides, List.mem_cons, List.not_mem_nil, or_false] at hF
      rcases hF with rfl | rfl | rfl | rfl | rfl | rfl <;> simp [faces_.face]
    have h3 := hx' F.const_axis
    rcases h2 with h2 | h2 <;> linarith

/-- Non-vacuity: the centre of the cube `[-1, 1]³`. -/
example : ∃ s : StrayField 1 1 1, Cuboid.init [-1, 1] [-1, 1] [-1, 1] = .ok s.domain ∧ s.subintervals = .int 1 ∧
    (∀ i, gridLo ![[-1, 1], [-1, 1], [-1, 1]] i < gridHi ![[-1, 1], [-1, 1], [-1, 1]] i) ∧
    (0 : Pt 3).ofLp ∈ interior (Set.Icc (gridLo ![[-1, 1], [-1, 1], [-1, 1]]) (gridHi ![[-1, 1], [-1, 1], [-1, 1]])) := by
  have g : IsGrid [-1, 1] := ⟨by simp, by simp⟩
  refine ⟨⟨fun _ => 0, _, fun _ _ => 1, fun _ => 0, midpoint, .int 1, 1, fun _ => 1, 1⟩, init_ok g g g, rfl, fun i => ?_, ?_⟩
  · fin_cases i <;> simp [gridLo, gridHi]
  · rw [← Set.pi_univ_Icc, interior_pi_set Set.finite_univ]
    intro i _
    simp only [interior_Icc]
    fin_cases i <;> simp [gridLo, gridHi]

end Verif
