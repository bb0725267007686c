import Mathlib.Tactic
import Verif.Props.GradConv
import Verif.Props.MumagField

/-!
# C132: convergence of the stray field of the cuboid
-/

namespace Verif

open MeasureTheory Set

/-- Spec: the surface of the box from `lo` to `hi`. -/
def boxSurface (lo hi : Fin 3 → ℝ) : Set (Pt 3) :=
  {x | ∃ k upper, x k = sideAt lo hi upper k ∧ ∀ i ≠ k, x i ∈ Icc (lo i) (hi i)}

theorem boxSurface_eq (lo hi : Fin 3 → ℝ) : boxSurface lo hi = ⋃ k, ⋃ upper, surfaceSet (plane k (sideAt lo hi upper k))
    (lo (k.succAbove 0)) (hi (k.succAbove 0)) (lo (k.succAbove 1)) (hi (k.succAbove 1)) := by
  ext x
  simp only [mem_iUnion]
  constructor
  · rintro ⟨k, upper, h1, h2⟩
    refine ⟨k, upper, ?_⟩
    have e : x = plane k (sideAt lo hi upper k) !₂[x (k.succAbove 0), x (k.succAbove 1)] := by
      ext i
      rcases eq_or_ne i k with rfl | h
      · simp [plane, planePoint, h1]
      · obtain ⟨j, rfl⟩ := Fin.exists_succAbove_eq h
        fin_cases j <;> simp [plane, planePoint]
    rw [e]
    exact mem_surfaceSet (h2 _ (Fin.succAbove_ne k 0)) (h2 _ (Fin.succAbove_ne k 1))
  · rintro ⟨k, upper, p, hp, rfl⟩
    refine ⟨k, upper, by simp [plane, planePoint], fun i hi => ?_⟩
    obtain ⟨j, rfl⟩ := Fin.exists_succAbove_eq hi
    have h0 := hp.1 j
    have h1 := hp.2 j
    fin_cases j
    · simpa [plane, planePoint] using ⟨h0, h1⟩
    · simpa [plane, planePoint] using ⟨h0, h1⟩

theorem not_mem_side {lo hi : Fin 3 → ℝ} {x : Pt 3} (hx : x ∉ boxSurface lo hi) (k : Fin 3) (upper : Bool) :
    x ∉ surfaceSet (plane k (sideAt lo hi upper k)) (lo (k.succAbove 0)) (hi (k.succAbove 0)) (lo (k.succAbove 1))
      (hi (k.succAbove 1)) := fun h => hx (by
  rw [boxSurface_eq]
  exact mem_iUnion.mpr ⟨k, mem_iUnion.mpr ⟨upper, h⟩⟩)

/-- The potential of the box is differentiable off its surface. -/
theorem boxPotential_hasFDerivAt {φ : Fin 3 → Bool → Pt 3 → ℝ} (hφ : ∀ k upper, Continuous (φ k upper)) {lo hi : Fin 3 → ℝ}
    {x : Pt 3} (hx : x ∉ boxSurface lo hi) :
    HasFDerivAt (boxPotential φ lo hi) (∑ k, ∑ upper, fderiv ℝ (layerPotential (φ k upper) (plane k (sideAt lo hi upper k))
      (lo (k.succAbove 0)) (hi (k.succAbove 0)) (lo (k.succAbove 1)) (hi (k.succAbove 1))) x) x := by
  unfold boxPotential
  refine HasFDerivAt.fun_sum fun k _ => HasFDerivAt.fun_sum fun upper _ => ?_
  exact (C131_layer (hφ k upper) (plane_contDiff k _) (not_mem_side hx k upper)).differentiableAt.hasFDerivAt

/-- Spec: the derivatives of the potentials computed for cuboids converge when the cells shrink, for all charges which are
given by `φ` on the open sides. -/
def BoxGradientConverges (method : QuadRule) (n : ℕ) (φ : Fin 3 → Bool → Pt 3 → ℝ) (lo hi : Fin 3 → ℝ) (x : Pt 3) : Prop :=
  ∀ ε > 0, ∃ δ > 0, ∀ (G : Fin 3 → List ℝ), (∀ i, FineGrid (G i) (lo i) (hi i) δ) → ∃ D, Cuboid.init (G 0) (G 1) (G 2) = .ok D ∧
    ∀ f : Pt 3 → Pt 3 → ℝ,
      (∀ k upper, ∀ s ∈ Ioo (lo (k.succAbove 0)) (hi (k.succAbove 0)), ∀ t ∈ Ioo (lo (k.succAbove 1)) (hi (k.succAbove 1)),
        f (planePoint k (sideAt lo hi upper k) s t) = φ k upper) →
      ∃ (P : Pt 3 → ℝ) (P' : Pt 3 →L[ℝ] ℝ), (∀ z, singleLayerPotentialBox D f (.int n) method z = .ok (P z)) ∧
        HasFDerivAt P P' x ∧ ‖fderiv ℝ (boxPotential φ lo hi) x - P'‖ ≤ ε

theorem boxGradientConverges_of {method : QuadRule} (hq : CellRule method ℝ) (hq' : CellRule method (Pt 3 →L[ℝ] ℝ)) {n : ℕ}
    (hn : 1 ≤ n) {φ : Fin 3 → Bool → Pt 3 → ℝ} (hφ : ∀ k upper, ContDiff ℝ 3 (φ k upper)) {lo hi : Fin 3 → ℝ}
    (hlt : ∀ i, lo i < hi i) {x : Pt 3} (hx : x ∉ boxSurface lo hi) : BoxGradientConverges method n φ lo hi x := by
  intro ε hε
  have hr := cellRule_refined hq hn
  have hr' := cellRule_refined hq' hn
  have H := fun (k : Fin 3) (upper : Bool) => gradientConverges_of hr hr' (order := 2) (f := φ k upper)
    (by exact_mod_cast hφ k upper) (plane_contDiff k (sideAt lo hi upper k)) (hlt (k.succAbove 0)).le (hlt (k.succAbove 1)).le
    (not_mem_side hx k upper) (ε / 6) (by positivity)
  choose δ hδ H using H
  have hne : (Finset.univ : Finset (Fin 3 × Bool)).Nonempty := Finset.univ_nonempty
  refine ⟨Finset.univ.inf' hne fun p => δ p.1 p.2, (Finset.lt_inf'_iff hne).mpr fun p _ => hδ p.1 p.2, fun G hG => ?_⟩
  have hmin : ∀ k upper, (Finset.univ.inf' hne fun p => δ p.1 p.2) ≤ δ k upper := fun k upper =>
    Finset.inf'_le (fun p : Fin 3 × Bool => δ p.1 p.2) (Finset.mem_univ (k, upper))
  have hGe : ![G 0, G 1, G 2] = G := by
    funext i
    fin_cases i <;> rfl
  have hD := init_ok (fineGrid_isGrid (hG 0)) (fineGrid_isGrid (hG 1)) (fineGrid_isGrid (hG 2))
  refine ⟨_, hD, fun f hf => ?_⟩
  have hlo : gridLo G = lo := funext fun i => (fineGrid_headD (hG i)).1
  have hhi : gridHi G = hi := funext fun i => (fineGrid_headD (hG i)).2
  have key : ∀ (k : Fin 3) (upper : Bool) (row : List (Pt 3)),
      row ∈ midpoints_ (G (k.succAbove 0)) (G (k.succAbove 1)) k (sideAt lo hi upper k) → ∀ m ∈ row, ContDiffAt ℝ 2 (f m) m := by
    intro k upper row hrow m hm
    rw [midpoints_eq, List.mem_map] at hrow
    obtain ⟨p, hp, rfl⟩ := hrow
    obtain ⟨q, hq, rfl⟩ := List.mem_map.mp hm
    obtain ⟨i, hi, rfl⟩ := (mem_gridCells_iff _ _).mp hp
    obtain ⟨j, hj, rfl⟩ := (mem_gridCells_iff _ _).mp hq
    obtain ⟨a1, a2, a3⟩ := fineGrid_cell (hG (k.succAbove 0)) (i := i) (by omega)
    obtain ⟨b1, b2, b3⟩ := fineGrid_cell (hG (k.succAbove 1)) (i := j) (by omega)
    rw [hf k upper _ ⟨by linarith, by linarith⟩ _ ⟨by linarith, by linarith⟩]
    exact ((hφ k upper).of_le (by norm_num)).contDiffAt
  have hlen : ∀ a b, (method (linspace a b (n + 1))).1.length = (method (linspace a b (n + 1))).2.length := fun a b =>
    hq.length _ (linspace_ne_nil a b (by omega)) (by rw [linspace_length]; omega)
  have hmid : ∀ F ∈ sides (G 0) (G 1) (G 2), ∀ row ∈ F.midpoints, ∀ m ∈ row, ContDiffAt ℝ 2 (f m) m := by
    intro F hF
    simp only [sides, grids, hGe, hlo, hhi, List.mem_cons, List.not_mem_nil, or_false] at hF
    rcases hF with rfl | rfl | rfl | rfl | rfl | rfl
    · exact key 2 false
    · exact key 2 true
    · exact key 1 false
    · exact key 1 true
    · exact key 0 false
    · exact key 0 true
  have hside := fun k upper => H k upper _ _ (fineGrid_mono (hmin k upper) (hG (k.succAbove 0)))
    (fineGrid_mono (hmin k upper) (hG (k.succAbove 1)))
  choose P P' hP hP' hb using hside
  have hPe : ∀ k upper z, P k upper z = 1 / (4 * Real.pi) * gridSum (G (k.succAbove 0)) (G (k.succAbove 1))
      (cellQuad method n z f k (sideAt lo hi upper k)) := by
    intro k upper z
    have := hP k upper z
    rw [C85_taylor (φ k upper) _ ((plane_contDiff k (sideAt lo hi upper k) (m := 1)).differentiable (by norm_num)) z 2 _ _
      (refined n method) (fun s t => hr.length _ (by simp) (by simp)) (hG _).2.1 (hG _).2.1
      (fun i _ j _ => ((hφ k upper).of_le (by norm_num)).contDiffAt)] at this
    rw [← Except.ok.inj this, gridSum_cellQuad method n (φ k upper) f k (sideAt lo hi upper k) z (hG _) (hG _) (hf k upper)]
    rfl
  refine ⟨fun z => ∑ k, ∑ upper, P k upper z, ∑ k, ∑ upper, P' k upper, fun z => ?_,
    HasFDerivAt.fun_sum fun k _ => HasFDerivAt.fun_sum fun upper _ => hP' k upper, ?_⟩
  · rw [C96_potential _ _ _ _ hD f z n method hlen hmid]
    change Except.ok (1 / (4 * Real.pi) * boxSum ![G 0, G 1, G 2] (cellQuad method n z f)) = _
    rw [hGe, boxSum, hlo, hhi, Finset.mul_sum]
    congr 1
    refine Finset.sum_congr rfl fun k _ => ?_
    rw [Fintype.sum_bool, mul_add, add_comm, hPe, hPe]
    rfl
  · rw [(boxPotential_hasFDerivAt (fun k upper => (hφ k upper).continuous) hx).fderiv, ← Finset.sum_sub_distrib]
    simp only [← Finset.sum_sub_distrib]
    refine (norm_sum_le _ _).trans ((Finset.sum_le_sum fun k _ =>
      (norm_sum_le _ _).trans (Finset.sum_le_sum fun upper _ => hb k upper)).trans ?_)
    simp
    linarith

/-- **C132**. Off the surface of the cuboid the derivatives of `single_layer_potential` of `mumag3.py` converge to the
derivative of the single layer potential over the six sides when the cells shrink. -/
theorem C132_gradient {n : ℕ} (hn : 1 ≤ n) {φ : Fin 3 → Bool → Pt 3 → ℝ} (hφ : ∀ k upper, ContDiff ℝ 3 (φ k upper))
    {lo hi : Fin 3 → ℝ} (hlt : ∀ i, lo i < hi i) {x : Pt 3} (hx : x ∉ boxSurface lo hi) :
    BoxGradientConverges midpoint n φ lo hi x ∧ BoxGradientConverges trap n φ lo hi x ∧
    BoxGradientConverges simpson n φ lo hi x ∧
    ∀ xs ws : List ℝ, WellFormed (ws, xs) (-1) 1 → BoxGradientConverges (gauss xs ws) n φ lo hi x :=
  ⟨boxGradientConverges_of cellRule_midpoint cellRule_midpoint hn hφ hlt hx,
    boxGradientConverges_of cellRule_trap cellRule_trap hn hφ hlt hx,
    boxGradientConverges_of cellRule_simpson cellRule_simpson hn hφ hlt hx,
    fun _ _ hw => boxGradientConverges_of (cellRule_gauss hw) (cellRule_gauss hw) hn hφ hlt hx⟩

/-- Non-vacuity: a different charge on every side of a box, and its centre. -/
example : BoxGradientConverges trap 3 (fun k upper y => if upper then Real.sin (y k) else Real.exp (y k)) (fun _ => -1)
    ![1, 2, 3] 0 := by
  refine (C132_gradient (by norm_num) (fun k upper => ?_) (fun i => ?_) ?_).2.1
  · cases upper <;> simp <;> fun_prop
  · fin_cases i <;> norm_num
  · rintro ⟨k, upper, h, -⟩
    cases upper <;> simp [sideAt] at h
    fin_cases k <;> simp at h

/-! ## The stray field -/

variable {N k r : ℕ}

theorem phi1_dom (s : StrayField N k r) (D : Cuboid) (h : D.dom = s.domain.dom) (m : Pt 3 → Pt 3) :
    StrayField.phi1 { s with domain := D } m = s.phi1 m ∧
    StrayField.phi1_without_adf { s with domain := D } m = s.phi1_without_adf m := by
  have h1 : StrayField.h_elm { s with domain := D } = s.h_elm := by
    funext x a
    simp only [StrayField.h_elm, Cuboid.normalize, h]
  have h2 : D.adfReal = s.domain.adfReal := by
    funext x
    simp only [Cuboid.adfReal, Cuboid.adf, h]
  have h3 : StrayField.u_elm { s with domain := D } = s.u_elm := by
    funext x a
    simp only [StrayField.u_elm, h1, h2]
  constructor
  · funext x
    simp only [StrayField.phi1, h3]
    rfl
  · funext x
    simp only [StrayField.phi1_without_adf, h1]
    rfl

/-- **C132, stray field**. In the interior of the cuboid the stray field, computed with or without precomputed tensors,
converges to minus the gradient of `phi1` plus the exact single layer potential of the charges `∓ m_k + phi1 / adf` when the
grid on the surface is refined. All other inputs of the solver are kept. -/
theorem C132_stray_field (xs ys zs : List ℝ) (s : StrayField N k r) (hD : Cuboid.init xs ys zs = .ok s.domain) {n : ℕ} (hn : 1 ≤ n)
    (hs : s.subintervals = .int n) (hq : CellRule s.method ℝ) (hq' : CellRule s.method (Pt 3 →L[ℝ] ℝ)) {m : Pt 3 → Pt 3}
    (hm : ContDiff ℝ 3 m) {lo hi : Fin 3 → ℝ} (hlo : gridLo ![xs, ys, zs] = lo) (hhi : gridHi ![xs, ys, zs] = hi)
    (hlt : ∀ i, lo i < hi i) {x : Pt 3} (hx : ∀ i, lo i < x i ∧ x i < hi i) {ε : ℝ} (hε : 0 < ε) :
    ∃ δ > 0, ∀ G : Fin 3 → List ℝ, (∀ i, FineGrid (G i) (lo i) (hi i) δ) → ∃ D dt H, Cuboid.init (G 0) (G 1) (G 2) = .ok D ∧
      StrayField.hs { s with domain := D } m x = .ok H ∧
      surfaceTensorsGrad x D s.subintervals s.method = .ok dt ∧ StrayField.hsTensors { s with domain := D } m x dt = .ok H ∧
      ‖H + gradient (fun y => s.phi1 m y +
        boxPotential (fun k upper y => (if upper then m y k else - m y k) + s.phi1_without_adf m y) lo hi y) x‖ ≤ ε := by
  have hmk : ∀ k : Fin 3, ContDiff ℝ 3 fun y => m y k := fun k => (contDiff_euclidean.mp hm) k
  have hlt' : ∀ i, gridLo ![xs, ys, zs] i < gridHi ![xs, ys, zs] i := by rw [hlo, hhi]; exact hlt
  have hqd : ContDiff ℝ 3 (s.phi1_without_adf m) := by
    unfold StrayField.phi1_without_adf
    exact ContDiff.sum fun a _ => (h_elm_contDiff s hD hlt' a 3).mul contDiff_const
  have hxs : x ∉ boxSurface lo hi := by
    rintro ⟨k, upper, h, -⟩
    have := hx k
    cases upper <;> simp [sideAt] at h <;> linarith [this.1, this.2]
  set φ : Fin 3 → Bool → Pt 3 → ℝ := fun k upper y => (if upper then m y k else - m y k) + s.phi1_without_adf m y with hφ
  have hφd : ∀ k upper, ContDiff ℝ 3 (φ k upper) := fun k upper => by
    cases upper
    · simpa [hφ] using (hmk k).neg.add hqd
    · simpa [hφ] using (hmk k).add hqd
  obtain ⟨δ, hδ, H⟩ := boxGradientConverges_of hq hq' hn hφd hlt hxs ε hε
  refine ⟨δ, hδ, fun G hG => ?_⟩
  obtain ⟨D, hDG, HD⟩ := H G hG
  have hGe : ![G 0, G 1, G 2] = G := by
    funext i
    fin_cases i <;> rfl
  have hGlo : gridLo G = lo := funext fun i => (fineGrid_headD (hG i)).1
  have hGhi : gridHi G = hi := funext fun i => (fineGrid_headD (hG i)).2
  have hdom : D.dom = s.domain.dom := by
    obtain ⟨-, -, -, h1⟩ := init_inv hDG
    obtain ⟨-, -, -, h2⟩ := init_inv hD
    rw [h1, h2]
    simp only [grids, hGe, hlo, hhi, hGlo, hGhi]
  obtain ⟨e1, e2⟩ := phi1_dom s D hdom m
  have hin : x.ofLp ∈ interior (Icc lo hi) := by
    rw [← Set.pi_univ_Icc, interior_pi_set Set.finite_univ]
    intro i _
    simpa [interior_Icc] using hx i
  obtain ⟨P, P', hP, hP', hb⟩ := HD (StrayField.g { s with domain := D } m) (by
    intro k upper u hu v hv
    have hk : (planePoint k (sideAt lo hi upper k) u v) k = sideAt lo hi upper k := by
      simp [planePoint]
    have hc : ∀ j, (planePoint k (sideAt lo hi upper k) u v) (k.succAbove j) = ![u, v] j := by
      intro j
      simp [planePoint]
    funext y
    simp only [StrayField.g, e2]
    rw [C94_normal_vec _ _ _ D hDG _ k upper (by rw [hGe, hGlo, hGhi, hk]; rfl) (by rw [hGe, hGlo, hGhi]; exact hlt) (by
      rw [hGe, hGlo, hGhi]
      intro i hi
      obtain ⟨j, rfl⟩ := Fin.exists_succAbove_eq hi
      rw [hc]
      fin_cases j
      · exact hu
      · exact hv)]
    cases upper <;> simp [hφ, EuclideanSpace.inner_single_right])
  obtain ⟨φ2, h2, h3, dt, h4, h5⟩ := C99_inside (G 0) (G 1) (G 2) { s with domain := D } hDG n hs m x
    (by rw [hGe, hGlo, hGhi]; exact hlt) (by rw [hGe, hGlo, hGhi]; exact hin)
  refine ⟨D, dt, _, hDG, h3, h4, h5, ?_⟩
  have hP2 : φ2 = P := by
    funext z
    have a := h2 z
    rw [StrayField.phi2] at a
    simp only [hs] at a
    exact Except.ok.inj (a.symm.trans (hP z))
  have h1 : DifferentiableAt ℝ (s.phi1 m) x := by
    have h1 : DifferentiableAt ℝ s.u_elm x := (u_elm_contDiff s hD hlt' (by rw [hlo, hhi]; exact hin) 1).differentiableAt (by norm_num)
    have h2 : ∀ a, DifferentiableAt ℝ (fun y => s.u_elm y a) x := differentiableAt_pi.mp h1
    unfold StrayField.phi1
    fun_prop
  have hbd := (boxPotential_hasFDerivAt (fun k upper => (hφd k upper).continuous) hxs).differentiableAt
  rw [e1, hP2, neg_add_eq_sub, ← LinearIsometryEquiv.norm_map (InnerProductSpace.toDual ℝ (Pt 3)), map_sub]
  have g1 : InnerProductSpace.toDual ℝ (Pt 3) (gradient (fun y => s.phi1 m y + boxPotential φ lo hi y) x) =
      fderiv ℝ (s.phi1 m) x + fderiv ℝ (boxPotential φ lo hi) x := by
    rw [gradient, LinearIsometryEquiv.apply_symm_apply, fderiv_fun_add h1 hbd]
  have g2 : InnerProductSpace.toDual ℝ (Pt 3) (gradient (fun y => s.phi1 m y + P y) x) = fderiv ℝ (s.phi1 m) x + P' := by
    rw [gradient, LinearIsometryEquiv.apply_symm_apply, fderiv_fun_add h1 hP'.differentiableAt, hP'.fderiv]
  rw [g1, g2, add_sub_add_left_eq_sub]
  exact hb

/-- Non-vacuity: the cube of `exists_strayField`, a vortex, and its centre. -/
example : ∃ s : StrayField 1 1 1, Cuboid.init [-1, 1] [-1, 1] [-1, 1] = .ok s.domain ∧ s.subintervals = .int 1 ∧
    CellRule s.method ℝ ∧ CellRule s.method (Pt 3 →L[ℝ] ℝ) ∧ gridLo ![[-1, 1], [-1, 1], [-1, 1]] = (fun _ => -1) ∧
    gridHi ![[-1, 1], [-1, 1], [-1, 1]] = (fun _ => 1) ∧ ContDiff ℝ 3 (fun y : Pt 3 => (!₂[- y 1, y 0, 1] : Pt 3)) ∧
    ∀ i, (-1 : ℝ) < (0 : Pt 3) i ∧ (0 : Pt 3) i < 1 := by
  have g : IsGrid [-1, 1] := ⟨by simp, by simp⟩
  refine ⟨⟨fun _ => 0, _, fun _ _ => 1, fun _ => 0, midpoint, .int 1, 1, fun _ => 1, 1⟩, init_ok g g g, rfl, cellRule_midpoint,
    cellRule_midpoint, ?_, ?_, ?_, fun i => by simp⟩
  · funext i; fin_cases i <;> simp [gridLo]
  · funext i; fin_cases i <;> simp [gridHi]
  · rw [contDiff_euclidean]
    intro i
    fin_cases i <;> simp <;> fun_prop

end Verif
