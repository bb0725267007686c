import Mathlib.Tactic
import Verif.Props.MumagPot2
import Verif.Props.SurfConv

/-!
# C130: convergence of the single layer potential of the cuboid in `mumag3.py`
-/

namespace Verif

open MeasureTheory Set

section
variable {E : Type} [NormedAddCommGroup E] [NormedSpace ℝ E]

/-! ## The rule on the subintervals of all cells -/

/-- The rule which divides every cell of the grid into `n` parts. -/
noncomputable def refined (n : ℕ) (rule : QuadRule) : QuadRule
  | a :: b :: l => ((rule (linspace a b (n + 1))).1 ++ (refined n rule (b :: l)).1,
      (rule (linspace a b (n + 1))).2 ++ (refined n rule (b :: l)).2)
  | _ => ([], [])

theorem refined_pair (n : ℕ) (rule : QuadRule) (a b : ℝ) : refined n rule [a, b] = rule (linspace a b (n + 1)) := by
  simp [refined]

theorem linspace_lt {a b : ℝ} (hab : a < b) {n : ℕ} (hn : 2 ≤ n) : (linspace a b n).Pairwise (· < ·) := by
  have hne : n ≠ 1 := by omega
  have hpos : (0 : ℝ) < (n : ℝ) - 1 := by
    have : (2 : ℝ) ≤ n := by exact_mod_cast hn
    linarith
  rw [← List.isChain_iff_pairwise, linspace, List.isChain_iff_getElem]
  intro i hi
  simp only [List.getElem_map, List.getElem_range, if_neg hne]
  have hstep : 0 < (b - a) / ((n : ℝ) - 1) := div_pos (by linarith) hpos
  push_cast
  nlinarith

theorem cellRule_refined {rule : QuadRule} (hq : CellRule rule E) {n : ℕ} (hn : 1 ≤ n) : CellRule (refined n rule) E := by
  have hlen : ∀ a b, (rule (linspace a b (n + 1))).1.length = (rule (linspace a b (n + 1))).2.length := fun a b =>
    hq.length _ (linspace_ne_nil a b (by omega)) (by rw [linspace_length]; omega)
  refine ⟨?_, ?_, ?_⟩
  · intro l _ _
    induction l with
    | nil => simp [refined]
    | cons a l ih =>
      cases l with
      | nil => simp [refined]
      | cons b l =>
        simp only [refined, List.length_append, hlen]
        rw [Nat.add_left_cancel_iff]
        cases l with
        | nil => simp [refined]
        | cons c l => exact ih (by simp) (by simp)
  · intro f l _ _
    simp only [refined_pair]
    induction l with
    | nil => simp [refined, quad, cellSum]
    | cons a l ih =>
      cases l with
      | nil => simp [refined, quad, cellSum]
      | cons b l =>
        rw [refined, quad_append _ _ _ _ (hlen a b), cellSum]
        congr 1
        cases l with
        | nil => simp [refined, quad, cellSum]
        | cons c l => exact ih (by simp) (by simp)
  · intro l hl h2 hp
    induction l with
    | nil => exact absurd rfl hl
    | cons a l ih =>
      cases l with
      | nil => simp at h2
      | cons b l =>
        have hab : a < b := by
          rw [List.pairwise_cons] at hp
          exact hp.1 b (by simp)
        have w := hq.wf _ (linspace_ne_nil a b (show 2 ≤ n + 1 by omega)) (by rw [linspace_length]; omega)
          (linspace_lt hab (by omega))
        rw [linspace_head a b (by omega), linspace_getLast a b (by omega)] at w
        cases l with
        | nil =>
          rw [refined_pair]
          simpa using w
        | cons c l =>
          have w' := ih (by simp) (by simp) (List.pairwise_cons.mp hp).2
          simp only [List.head_cons, List.getLast_cons_cons] at w' ⊢
          have hb : b ≤ (c :: l).getLast (by simp) :=
            ((List.pairwise_cons.mp (List.pairwise_cons.mp hp).2).1 _ (List.getLast_mem _)).le
          rw [refined]
          refine ⟨?_, ?_, ?_, ?_⟩
          · simp only [List.length_append, w.length_eq, w'.length_eq]
          · rw [List.sum_append, w.sum_eq, w'.sum_eq]; ring
          · intro y hy
            rcases List.mem_append.mp hy with h | h
            · exact w.pos y h
            · exact w'.pos y h
          · intro y hy
            rcases List.mem_append.mp hy with h | h
            · exact ⟨(w.mem y h).1, (w.mem y h).2.trans hb⟩
            · exact ⟨hab.le.trans (w'.mem y h).1, (w'.mem y h).2⟩

/-- The cells of a fine grid. -/
theorem fineGrid_cell {l : List ℝ} {a b δ : ℝ} (h : FineGrid l a b δ) {i : ℕ} (hi : i < l.length - 1) :
    a ≤ l.getD i 0 ∧ l.getD i 0 < l.getD (i + 1) 0 ∧ l.getD (i + 1) 0 ≤ b := by
  obtain ⟨hl, -, h1, h2, hc⟩ := h
  have hp : l.Pairwise (· < ·) := (hc.imp fun _ _ h => h.1).pairwise
  have hm : l.SortedLT := hp.sortedLT
  have i0 : i < l.length := by omega
  have i1 : i + 1 < l.length := by omega
  rw [List.getD_eq_getElem _ _ i0, List.getD_eq_getElem _ _ i1, ← h1, ← h2, List.head_eq_getElem, List.getLast_eq_getElem]
  exact ⟨hm.sortedLE.getElem_le_getElem_of_le (Nat.zero_le i), hm.getElem_lt_getElem_of_lt (Nat.lt_succ_self i),
    hm.sortedLE.getElem_le_getElem_of_le (by omega)⟩

/-- A fine grid is a grid of `Cuboid`. -/
theorem fineGrid_isGrid {l : List ℝ} {a b δ : ℝ} (h : FineGrid l a b δ) : IsGrid l := by
  obtain ⟨_, h1, _, _, hc⟩ := h
  exact ⟨h1, ((hc.imp fun _ _ h => h.1).pairwise).imp le_of_lt⟩

theorem fineGrid_headD {l : List ℝ} {a b δ : ℝ} (h : FineGrid l a b δ) : l.headD 0 = a ∧ l.getLastD 0 = b := by
  obtain ⟨hl, _, h1, h2, _⟩ := h
  constructor
  · rw [← h1, List.headD_eq_head?_getD, List.head?_eq_some_head hl]; rfl
  · rw [← h2, List.getLastD_eq_getLast?, List.getLast?_eq_some_getLast hl]; rfl

end

/-! ## The sides -/

/-- Spec: the plane in which coordinate `k` is `c`, parametrised by the other two. -/
noncomputable def plane (k : Fin 3) (c : ℝ) (z : Pt 2) : Pt 3 := planePoint k c (z 0) (z 1)

theorem planePoint_eq (k : Fin 3) (c s t : ℝ) : planePoint k c s t = EuclideanSpace.single k c +
    s • EuclideanSpace.single (k.succAbove 0) 1 + t • EuclideanSpace.single (k.succAbove 1) 1 := by
  ext i
  fin_cases k <;> fin_cases i <;> simp [planePoint, Fin.insertNth, Fin.succAboveCases, Fin.succAbove]

theorem plane_contDiff (k : Fin 3) (c : ℝ) {m : WithTop ℕ∞} : ContDiff ℝ m (plane k c) := by
  have : plane k c = fun z : Pt 2 => EuclideanSpace.single k c +
      z 0 • EuclideanSpace.single (k.succAbove 0) 1 + z 1 • EuclideanSpace.single (k.succAbove 1) 1 :=
    funext fun z => planePoint_eq k c _ _
  rw [this]
  fun_prop

theorem areaElement_plane (k : Fin 3) (c s t : ℝ) : areaElement (plane k c) s t = 1 := by
  have h1 : deriv (fun s => plane k c !₂[s, t]) s = EuclideanSpace.single (k.succAbove 0) 1 := by
    have e : (fun s => plane k c !₂[s, t]) = fun s => (EuclideanSpace.single k c + t • EuclideanSpace.single (k.succAbove 1) 1) +
        s • EuclideanSpace.single (k.succAbove 0) (1 : ℝ) := by
      funext s
      rw [plane, planePoint_eq]
      simp only [Matrix.cons_val_zero, Matrix.cons_val_one]
      abel
    rw [e]
    have := ((hasDerivAt_id s).smul_const (EuclideanSpace.single (k.succAbove 0) (1 : ℝ))).const_add
      (EuclideanSpace.single k c + t • EuclideanSpace.single (k.succAbove 1) 1)
    simpa using this.deriv
  have h2 : deriv (fun t => plane k c !₂[s, t]) t = EuclideanSpace.single (k.succAbove 1) 1 := by
    have e : (fun t => plane k c !₂[s, t]) = fun t => (EuclideanSpace.single k c + s • EuclideanSpace.single (k.succAbove 0) 1) +
        t • EuclideanSpace.single (k.succAbove 1) (1 : ℝ) := by
      funext t
      rw [plane, planePoint_eq]
      simp only [Matrix.cons_val_zero, Matrix.cons_val_one]
    rw [e]
    have := ((hasDerivAt_id t).smul_const (EuclideanSpace.single (k.succAbove 1) (1 : ℝ))).const_add
      (EuclideanSpace.single k c + s • EuclideanSpace.single (k.succAbove 0) 1)
    simpa using this.deriv
  rw [areaElement, h1, h2, gramArea]
  simp [EuclideanSpace.inner_single_left]

/-- The sum over the cells of one side of the cuboid is that of the surface integrals of C85. -/
theorem gridSum_cellQuad (method : QuadRule) (n : ℕ) (φ : Pt 3 → ℝ) (f : Pt 3 → Pt 3 → ℝ) (k : Fin 3) (w : ℝ) {a b c d δ : ℝ}
    (x : Pt 3) {u v : List ℝ} (hu : FineGrid u a b δ) (hv : FineGrid v c d δ)
    (hf : ∀ s ∈ Ioo a b, ∀ t ∈ Ioo c d, f (planePoint k w s t) = φ) :
    gridSum u v (cellQuad method n x f k w) = gridSum u v fun u0 u1 v0 v1 =>
      surfaceQuad (refined n method [u0, u1]) (refined n method [v0, v1]) (plane k w) fun y =>
        ‖x - y‖⁻¹ • taylorPoly φ 2 (plane k w !₂[(u0 + u1) / 2, (v0 + v1) / 2]) y := by
  rw [gridSum, gridSum]
  refine Finset.sum_congr rfl fun i hi => Finset.sum_congr rfl fun j hj => ?_
  obtain ⟨a1, a2, a3⟩ := fineGrid_cell hu (Finset.mem_range.mp hi)
  obtain ⟨b1, b2, b3⟩ := fineGrid_cell hv (Finset.mem_range.mp hj)
  rw [cellQuad, surfaceQuad, hf _ ⟨by linarith, by linarith⟩ _ ⟨by linarith, by linarith⟩]
  simp only [refined_pair, areaElement_plane, smul_eq_mul, plane, Matrix.cons_val_zero, Matrix.cons_val_one]
  congr 1
  funext s
  congr 1
  funext t
  rw [div_eq_inv_mul, one_mul]

/-- The sum over the cells of one side converges to the potential of the side. -/
theorem side_converges {method : QuadRule} (hq : CellRule method ℝ) {n : ℕ} (hn : 1 ≤ n) {φ : Pt 3 → ℝ} (hφ : ContDiff ℝ 3 φ)
    (k : Fin 3) (w : ℝ) {a b c d : ℝ} (hab : a ≤ b) (hcd : c ≤ d) (x : Pt 3)
    (hx : ∀ s ∈ Icc a b, ∀ t ∈ Icc c d, planePoint k w s t ≠ x) :
    ∀ ε > 0, ∃ δ > 0, ∀ (u v : List ℝ) (f : Pt 3 → Pt 3 → ℝ), FineGrid u a b δ → FineGrid v c d δ →
      (∀ s ∈ Ioo a b, ∀ t ∈ Ioo c d, f (planePoint k w s t) = φ) →
      |layerPotential φ (plane k w) a b c d x - 1 / (4 * Real.pi) * gridSum u v (cellQuad method n x f k w)| ≤ ε := by
  intro ε hε
  have hr := cellRule_refined hq hn
  obtain ⟨δ, hδ, H⟩ := potentialConverges_of hr (order := 2) (f := φ) (by exact_mod_cast hφ) (plane_contDiff k w) hab hcd x
    (fun s hs t ht => hx s hs t ht) ε hε
  refine ⟨δ, hδ, fun u v f hu hv hf => ?_⟩
  obtain ⟨P, hP, hb⟩ := H u v hu hv
  rw [C85_taylor φ (plane k w) ((plane_contDiff k w (m := 1)).differentiable (by norm_num)) x 2 u v (refined n method)
    (fun s t => hr.length _ (by simp) (by simp)) hu.2.1 hv.2.1
    (fun i _ j _ => (hφ.of_le (by norm_num)).contDiffAt)] at hP
  have hP' := Except.ok.inj hP
  suffices e : 1 / (4 * Real.pi) * gridSum u v (cellQuad method n x f k w) = P by
    rw [e]
    exact hb
  rw [← hP', smul_eq_mul]
  rw [gridSum_cellQuad method n φ f k w x hu hv hf]

/-! ## C130 -/

/-- Spec: one coordinate of the two sides which are orthogonal to axis `k`. -/
def sideAt (lo hi : Fin 3 → ℝ) (upper : Bool) (k : Fin 3) : ℝ := if upper then hi k else lo k

/-- Spec: the single layer potential of charges on the six sides of the box from `lo` to `hi`. -/
noncomputable def boxPotential (φ : Fin 3 → Bool → Pt 3 → ℝ) (lo hi : Fin 3 → ℝ) (x : Pt 3) : ℝ :=
  ∑ k, ∑ upper, layerPotential (φ k upper) (plane k (sideAt lo hi upper k)) (lo (k.succAbove 0)) (hi (k.succAbove 0))
    (lo (k.succAbove 1)) (hi (k.succAbove 1)) x

/-- Spec: the potential computed for cuboids with the grids `G` converges when the cells shrink, for all charges which are
given by `φ` on the open sides. -/
def BoxConverges (method : QuadRule) (n : ℕ) (φ : Fin 3 → Bool → Pt 3 → ℝ) (lo hi : Fin 3 → ℝ) (x : Pt 3) : Prop :=
  ∀ ε > 0, ∃ δ > 0, ∀ (G : Fin 3 → List ℝ), (∀ i, FineGrid (G i) (lo i) (hi i) δ) → ∃ D, Cuboid.init (G 0) (G 1) (G 2) = .ok D ∧
    ∀ f : Pt 3 → Pt 3 → ℝ,
      (∀ k upper, ∀ s ∈ Ioo (lo (k.succAbove 0)) (hi (k.succAbove 0)), ∀ t ∈ Ioo (lo (k.succAbove 1)) (hi (k.succAbove 1)),
        f (planePoint k (sideAt lo hi upper k) s t) = φ k upper) →
      ∃ P, singleLayerPotentialBox D f (.int n) method x = .ok P ∧ |boxPotential φ lo hi x - P| ≤ ε

theorem boxConverges_of {method : QuadRule} (hq : CellRule method ℝ) {n : ℕ} (hn : 1 ≤ n) {φ : Fin 3 → Bool → Pt 3 → ℝ}
    (hφ : ∀ k upper, ContDiff ℝ 3 (φ k upper)) {lo hi : Fin 3 → ℝ} (hlt : ∀ i, lo i < hi i) (x : Pt 3)
    (hx : ∀ k upper, ∀ s ∈ Icc (lo (k.succAbove 0)) (hi (k.succAbove 0)), ∀ t ∈ Icc (lo (k.succAbove 1)) (hi (k.succAbove 1)),
      planePoint k (sideAt lo hi upper k) s t ≠ x) : BoxConverges method n φ lo hi x := by
  intro ε hε
  have H := fun (k : Fin 3) (upper : Bool) => side_converges hq hn (hφ k upper) k (sideAt lo hi upper k)
    (hlt (k.succAbove 0)).le (hlt (k.succAbove 1)).le x (hx k upper) (ε / 6) (by positivity)
  choose δ hδ H using H
  have hne : (Finset.univ : Finset (Fin 3 × Bool)).Nonempty := Finset.univ_nonempty
  refine ⟨Finset.univ.inf' hne fun p => δ p.1 p.2, (Finset.lt_inf'_iff hne).mpr fun p _ => hδ p.1 p.2, fun G hG => ?_⟩
  have hmin : ∀ k upper, (Finset.univ.inf' hne fun p => δ p.1 p.2) ≤ δ k upper := fun k upper =>
    Finset.inf'_le (fun p : Fin 3 × Bool => δ p.1 p.2) (Finset.mem_univ (k, upper))
  have hGe : ![G 0, G 1, G 2] = G := by
    funext i
    fin_cases i <;> rfl
  have hD := init_ok (fineGrid_isGrid (hG 0)) (fineGrid_isGrid (hG 1)) (fineGrid_isGrid (hG 2))
  refine ⟨_, hD, fun f hf => ?_⟩
  have hlo : gridLo G = lo := funext fun i => (fineGrid_headD (hG i)).1
  have hhi : gridHi G = hi := funext fun i => (fineGrid_headD (hG i)).2
  have key : ∀ (k : Fin 3) (upper : Bool) (row : List (Pt 3)),
      row ∈ midpoints_ (G (k.succAbove 0)) (G (k.succAbove 1)) k (sideAt lo hi upper k) → ∀ m ∈ row, ContDiffAt ℝ 2 (f m) m := by
    intro k upper row hrow m hm
    rw [midpoints_eq, List.mem_map] at hrow
    obtain ⟨p, hp, rfl⟩ := hrow
    obtain ⟨q, hq, rfl⟩ := List.mem_map.mp hm
    obtain ⟨i, hi, rfl⟩ := (mem_gridCells_iff _ _).mp hp
    obtain ⟨j, hj, rfl⟩ := (mem_gridCells_iff _ _).mp hq
    obtain ⟨a1, a2, a3⟩ := fineGrid_cell (hG (k.succAbove 0)) (i := i) (by omega)
    obtain ⟨b1, b2, b3⟩ := fineGrid_cell (hG (k.succAbove 1)) (i := j) (by omega)
    rw [hf k upper _ ⟨by linarith, by linarith⟩ _ ⟨by linarith, by linarith⟩]
    exact ((hφ k upper).of_le (by norm_num)).contDiffAt
  have hlen : ∀ a b, (method (linspace a b (n + 1))).1.length = (method (linspace a b (n + 1))).2.length := fun a b =>
    hq.length _ (linspace_ne_nil a b (by omega)) (by rw [linspace_length]; omega)
  refine ⟨_, C96_potential _ _ _ _ hD f x n method hlen ?_, ?_⟩
  · intro F hF
    simp only [sides, grids, hGe, hlo, hhi, List.mem_cons, List.not_mem_nil, or_false] at hF
    rcases hF with rfl | rfl | rfl | rfl | rfl | rfl
    · exact key 2 false
    · exact key 2 true
    · exact key 1 false
    · exact key 1 true
    · exact key 0 false
    · exact key 0 true
  · have hc : ∀ k upper, |layerPotential (φ k upper) (plane k (sideAt lo hi upper k)) (lo (k.succAbove 0)) (hi (k.succAbove 0))
        (lo (k.succAbove 1)) (hi (k.succAbove 1)) x - 1 / (4 * Real.pi) * gridSum (G (k.succAbove 0)) (G (k.succAbove 1))
          (cellQuad method n x f k (sideAt lo hi upper k))| ≤ ε / 6 := fun k upper =>
      H k upper _ _ f (fineGrid_mono (hmin k upper) (hG _)) (fineGrid_mono (hmin k upper) (hG _)) (hf k upper)
    have e : 1 / (4 * Real.pi) * boxSum ![G 0, G 1, G 2] (cellQuad method n x f) =
        ∑ k, ∑ upper, 1 / (4 * Real.pi) * gridSum (G (k.succAbove 0)) (G (k.succAbove 1))
          (cellQuad method n x f k (sideAt lo hi upper k)) := by
      rw [hGe, boxSum, hlo, hhi, Finset.mul_sum]
      refine Finset.sum_congr rfl fun k _ => ?_
      rw [Fintype.sum_bool, mul_add, add_comm]
      rfl
    change |boxPotential φ lo hi x - 1 / (4 * Real.pi) * boxSum ![G 0, G 1, G 2] (cellQuad method n x f)| ≤ ε
    rw [e, boxPotential, ← Finset.sum_sub_distrib]
    simp only [← Finset.sum_sub_distrib]
    refine (Finset.abs_sum_le_sum_abs _ _).trans ((Finset.sum_le_sum fun k _ =>
      (Finset.abs_sum_le_sum_abs _ _).trans (Finset.sum_le_sum fun upper _ => hc k upper)).trans ?_)
    simp
    linarith

/-- **C130**. Off the surface of the cuboid, `single_layer_potential` of `mumag3.py` converges to the single layer
potential `1/(4π) ∫ f(y)/|x - y| dS(y)` over its six sides when the cells shrink, for every fixed number of subintervals
and each of the rules, for charges which are smooth on every side. -/
theorem C130_convergence {n : ℕ} (hn : 1 ≤ n) {φ : Fin 3 → Bool → Pt 3 → ℝ} (hφ : ∀ k upper, ContDiff ℝ 3 (φ k upper))
    {lo hi : Fin 3 → ℝ} (hlt : ∀ i, lo i < hi i) (x : Pt 3)
    (hx : ∀ k upper, ∀ s ∈ Icc (lo (k.succAbove 0)) (hi (k.succAbove 0)), ∀ t ∈ Icc (lo (k.succAbove 1)) (hi (k.succAbove 1)),
      planePoint k (sideAt lo hi upper k) s t ≠ x) :
    BoxConverges midpoint n φ lo hi x ∧ BoxConverges trap n φ lo hi x ∧ BoxConverges simpson n φ lo hi x ∧
    ∀ xs ws : List ℝ, WellFormed (ws, xs) (-1) 1 → BoxConverges (gauss xs ws) n φ lo hi x :=
  ⟨boxConverges_of cellRule_midpoint hn hφ hlt x hx, boxConverges_of cellRule_trap hn hφ hlt x hx,
    boxConverges_of cellRule_simpson hn hφ hlt x hx, fun _ _ hw => boxConverges_of (cellRule_gauss hw) hn hφ hlt x hx⟩

/-- Non-vacuity: a different charge on every side of a box, and its centre. -/
example : BoxConverges trap 3 (fun k upper y => if upper then Real.sin (y k) else Real.exp (y k)) (fun _ => -1) ![1, 2, 3] 0 := by
  refine (C130_convergence (by norm_num) (fun k upper => ?_) (fun i => ?_) 0 ?_).2.1
  · cases upper <;> simp <;> fun_prop
  · fin_cases i <;> norm_num
  · intro k upper s hs t ht h
    have h0 := congrArg (fun y : Pt 3 => y k) h
    cases upper <;> simp [planePoint, sideAt] at h0
    fin_cases k <;> simp at h0

/-- The charge `m · n` of a magnetisation `m` with the normals of `normal_vec` (as in `g` of `create_stray_field_solver`)
and a further charge `q`: the potential converges to that of the charges `∓ m_k + q` on the lower and upper sides. -/
theorem C130_magnetisation {method : QuadRule} (hq : CellRule method ℝ) {n : ℕ} (hn : 1 ≤ n) {m : Pt 3 → Pt 3} {q : Pt 3 → ℝ}
    (hm : ContDiff ℝ 3 m) (hqd : ContDiff ℝ 3 q) {lo hi : Fin 3 → ℝ} (hlt : ∀ i, lo i < hi i) (x : Pt 3)
    (hx : ∀ k upper, ∀ s ∈ Icc (lo (k.succAbove 0)) (hi (k.succAbove 0)), ∀ t ∈ Icc (lo (k.succAbove 1)) (hi (k.succAbove 1)),
      planePoint k (sideAt lo hi upper k) s t ≠ x) {ε : ℝ} (hε : 0 < ε) :
    ∃ δ > 0, ∀ G : Fin 3 → List ℝ, (∀ i, FineGrid (G i) (lo i) (hi i) δ) → ∃ D P, Cuboid.init (G 0) (G 1) (G 2) = .ok D ∧
      singleLayerPotentialBox D (fun z y => inner ℝ (m y) (D.normalVec z) + q y) (.int n) method x = .ok P ∧
      |boxPotential (fun k upper y => (if upper then m y k else - m y k) + q y) lo hi x - P| ≤ ε := by
  have hmk : ∀ k : Fin 3, ContDiff ℝ 3 fun y => m y k := fun k => (contDiff_euclidean.mp hm) k
  obtain ⟨δ, hδ, H⟩ := boxConverges_of hq hn (φ := fun k upper y => (if upper then m y k else - m y k) + q y)
    (fun k upper => by
      cases upper
      · simpa using (hmk k).neg.add hqd
      · simpa using (hmk k).add hqd) hlt x hx ε hε
  refine ⟨δ, hδ, fun G hG => ?_⟩
  obtain ⟨D, hD, HD⟩ := H G hG
  have hGe : ![G 0, G 1, G 2] = G := by
    funext i
    fin_cases i <;> rfl
  have hlo : gridLo G = lo := funext fun i => (fineGrid_headD (hG i)).1
  have hhi : gridHi G = hi := funext fun i => (fineGrid_headD (hG i)).2
  obtain ⟨P, hP, hb⟩ := HD (fun z y => inner ℝ (m y) (D.normalVec z) + q y) (by
    intro k upper s hs t ht
    have hk : (planePoint k (sideAt lo hi upper k) s t) k = sideAt lo hi upper k := by
      simp [planePoint]
    have hc : ∀ j, (planePoint k (sideAt lo hi upper k) s t) (k.succAbove j) = ![s, t] j := by
      intro j
      simp [planePoint]
    rw [C94_normal_vec _ _ _ D hD _ k upper (by rw [hGe, hlo, hhi, hk]; rfl) (by rw [hGe, hlo, hhi]; exact hlt) (by
      rw [hGe, hlo, hhi]
      intro i hi
      obtain ⟨j, rfl⟩ := Fin.exists_succAbove_eq hi
      rw [hc]
      fin_cases j
      · exact hs
      · exact ht)]
    funext y
    cases upper <;> simp [EuclideanSpace.inner_single_right])
  exact ⟨D, P, hD, hP, hb⟩

/-- Non-vacuity: a magnetisation which is a vortex, a cube and a point outside. -/
example : ∃ δ > 0, ∀ G : Fin 3 → List ℝ, (∀ i, FineGrid (G i) (-1) 1 δ) → ∃ D P, Cuboid.init (G 0) (G 1) (G 2) = .ok D ∧
    singleLayerPotentialBox D (fun z y => inner ℝ ((!₂[- y 1, y 0, 1] : Pt 3)) (D.normalVec z) + 0) (.int 2) simpson !₂[2, 0, 0] = .ok P ∧
      |boxPotential (fun k upper y => (if upper then (!₂[- y 1, y 0, 1] : Pt 3) k else - (!₂[- y 1, y 0, 1] : Pt 3) k) + 0)
        (fun _ => -1) (fun _ => 1) !₂[2, 0, 0] - P| ≤ 1 / 100 := by
  refine C130_magnetisation (m := fun y => !₂[- y 1, y 0, 1]) (q := fun _ => 0) cellRule_simpson (by norm_num) ?_ contDiff_const
    (fun _ => by norm_num) _ ?_ (by norm_num)
  · rw [contDiff_euclidean]
    intro i
    fin_cases i <;> simp <;> fun_prop
  · intro k upper s hs t ht h
    have h0 := congrArg (fun y : Pt 3 => y 0) h
    fin_cases k
    · cases upper <;> simp [planePoint, sideAt] at h0; linarith
    · simp [planePoint, sideAt, Fin.insertNth, Fin.succAboveCases] at h0
      linarith [hs.2]
    · simp [planePoint, sideAt, Fin.insertNth, Fin.succAboveCases] at h0
      linarith [hs.2]

/-- There are such grids: uniform ones with sufficiently many points. -/
example (δ : ℝ) (hδ : 0 < δ) : ∃ G : Fin 3 → List ℝ, ∀ i, FineGrid (G i) (-1) 1 δ := by
  obtain ⟨N, hN⟩ := linspace_fine (show (-1 : ℝ) < 1 by norm_num) hδ
  exact ⟨fun _ => linspace (-1) 1 N, fun _ => hN N le_rfl⟩

end Verif
