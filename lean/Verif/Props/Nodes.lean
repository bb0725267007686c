import Verif.Model.NodeX
import Verif.Props.MumagPot2

/-! # Potentials at target points which are quadrature nodes (C175) -/

namespace Verif

open XR

/-! ## Finite sums -/

theorem isFin_add_iff (a b : XR) : IsFin (a + b) ↔ IsFin a ∧ IsFin b := by
  change IsFin (XR.add a b) ↔ _
  cases a <;> cases b <;> simp [XR.add, IsFin]

theorem isFin_list_sum : ∀ l : List XR, IsFin l.sum ↔ ∀ z ∈ l, IsFin z
  | [] => by simp
  | a :: l => by rw [List.sum_cons, isFin_add_iff, isFin_list_sum l, List.forall_mem_cons]

theorem isFin_fin_mul (w : ℝ) (z : XR) : IsFin (fin w * z) ↔ IsFin z := by
  change IsFin (XR.mul (fin w) z) ↔ _
  cases z <;> simp [XR.mul, IsFin, infSign] <;> split_ifs <;> simp

theorem isFin_div_iff (a n : ℝ) : IsFin (fin a / fin n) ↔ n ≠ 0 := by
  by_cases h : n = 0
  · subst h
    rw [fin_div_zero, infSign]
    split_ifs <;> simp [IsFin]
  · simp [fin_div a h, h]

theorem isFin_finset_sum {ι : Type*} (s : Finset ι) (F : ι → XR) : IsFin (∑ i ∈ s, F i) ↔ ∀ i ∈ s, IsFin (F i) := by
  classical
  induction s using Finset.induction_on with
  | empty => simp
  | insert a s ha ih => rw [Finset.sum_insert ha, isFin_add_iff, ih, Finset.forall_mem_insert]

theorem fin_list_sum : ∀ l : List ℝ, (l.map fin).sum = fin l.sum
  | [] => by simp
  | a :: l => by rw [List.map_cons, List.sum_cons, fin_list_sum l, List.sum_cons, fin_add]

/-- Sums of two lists of the same length, one of finite numbers. -/
theorem isFin_zipWith {α β : Type*} (F : α → β → XR) (P : β → Prop) (hF : ∀ a b, IsFin (F a b) ↔ P b) :
    ∀ (W : List α) (X : List β), W.length = X.length → (IsFin (List.zipWith F W X).sum ↔ ∀ z ∈ X, P z)
  | [], [], _ => by simp
  | w :: W, x :: X, h => by
    rw [List.zipWith_cons_cons, List.sum_cons, isFin_add_iff, hF, isFin_zipWith F P hF W X (by simpa using h), List.forall_mem_cons]

theorem tensordotX_isFin {W : List ℝ} {F : List XR} (h : W.length = F.length) : IsFin (tensordotX W F) ↔ ∀ z ∈ F, IsFin z :=
  isFin_zipWith _ IsFin (fun w z => isFin_fin_mul w z) W F h

theorem tensordotX_fin (W F : List ℝ) : tensordotX W (F.map fin) = fin (tensordot W F) := by
  rw [tensordotX, tensordot, ← fin_list_sum, List.map_zipWith, List.zipWith_map_right]
  simp

/-! ## Quadrature with values which may be infinite -/

theorem mem_meshgrid_two {a b : List ℝ} {y : List ℝ} : y ∈ meshgrid [a, b] ↔ ∃ s ∈ a, ∃ t ∈ b, y = [s, t] := by
  simp only [meshgrid, product, List.map_cons, List.map_nil, List.mem_flatMap, List.mem_cons, List.not_mem_nil, or_false]
  constructor
  · rintro ⟨t, ht, s, hs, rfl⟩; exact ⟨s, hs, t, ht, rfl⟩
  · rintro ⟨s, hs, t, ht, rfl⟩; exact ⟨t, ht, s, hs, rfl⟩

theorem length_meshgrid_two (a b : List ℝ) : (meshgrid [a, b]).length = b.length * a.length := by
  simp [meshgrid, product]

theorem integrateNX_isFin {d : ℕ} (f : List ℝ → Fin d → XR) (u v : List ℝ) (method : QuadRule)
    (hu : (method u).1.length = (method u).2.length) (hv : (method v).1.length = (method v).2.length) (k : Fin d) :
    IsFin (integrateNX f [u, v] method k) ↔ ∀ s ∈ (method u).2, ∀ t ∈ (method v).2, IsFin (f [s, t] k) := by
  simp only [integrateNX, List.map_cons, List.map_nil]
  rw [tensordotX_isFin (by simp [length_meshgrid_two, hu, hv])]
  constructor
  · intro h s hs t ht
    exact h _ (List.mem_map.mpr ⟨[s, t], mem_meshgrid_two.mpr ⟨s, hs, t, ht, rfl⟩, rfl⟩)
  · intro h z hz
    obtain ⟨y, hy, rfl⟩ := List.mem_map.mp hz
    obtain ⟨s, hs, t, ht, rfl⟩ := mem_meshgrid_two.mp hy
    exact h s hs t ht

theorem integrateNX_fin {d : ℕ} (f : List ℝ → Fin d → XR) (g : List ℝ → Fin d → ℝ) (u v : List ℝ) (method : QuadRule)
    (h : ∀ s ∈ (method u).2, ∀ t ∈ (method v).2, ∀ k, f [s, t] k = fin (g [s, t] k)) (k : Fin d) :
    integrateNX f [u, v] method k = fin (integrateN g [u, v] method k) := by
  have e : ((meshgrid [(method u).2, (method v).2]).map fun x => f x k) =
      ((meshgrid [(method u).2, (method v).2]).map fun x => g x k).map fin := by
    rw [List.map_map]
    refine List.map_congr_left fun y hy => ?_
    obtain ⟨s, hs, t, ht, rfl⟩ := mem_meshgrid_two.mp hy
    exact h s hs t ht k
  simp only [integrateNX, List.map_cons, List.map_nil, integrateN]
  rw [e, tensordotX_fin, tensordot, tensordot]
  congr 1
  have hp : ∀ l : List (Fin d → ℝ), l.sum k = (l.map fun z => z k).sum := by
    intro l
    induction l with
    | nil => rfl
    | cons a l ih => simp [ih]
  rw [hp, List.map_zipWith, List.zipWith_map_right, List.zipWith_map_right]
  rfl

/-! ## Nodes on the sides of a box -/

/-- The point `x` is a quadrature node: it is on one of the six sides and in one of its cells, and its other two coordinates are
nodes of the rule for the sides of the cell, each of which is divided into `n` intervals. -/
def IsBoxNode (G : Fin 3 → List ℝ) (method : QuadRule) (n : ℕ) (x : Pt 3) : Prop :=
  ∃ (k : Fin 3) (c : ℝ) (i j : ℕ), (c = gridLo G k ∨ c = gridHi G k) ∧ i + 1 < (G (k.succAbove 0)).length ∧
    j + 1 < (G (k.succAbove 1)).length ∧
    ∃ s ∈ (method (linspace ((G (k.succAbove 0)).getD i 0) ((G (k.succAbove 0)).getD (i + 1) 0) (n + 1))).2,
    ∃ t ∈ (method (linspace ((G (k.succAbove 1)).getD j 0) ((G (k.succAbove 1)).getD (j + 1) 0) (n + 1))).2,
      x = planePoint k c s t

theorem integrandX_eq (s t : ℝ) (x c : Pt 3) (F : Face) (k : Fin 6) :
    ∃ a : ℝ, integrandX_ [s, t] x c F k = fin a / fin ‖x - F.point s t‖ ∧ integrand_ [s, t] x c F k = a / ‖x - F.point s t‖ := by
  have e : vnorm (fun i => efin x i - efin (F.point s t) i) = fin ‖x - F.point s t‖ := by
    rw [← vnorm_efin]
    congr 1
  simp only [integrandX_, integrand_, List.getD_cons_zero, List.getD_cons_succ, e]
  refine ⟨_, ?_, rfl⟩
  congr 1
  fin_cases k <;> simp [efin]

/-- The node of a face. -/
def FaceNode (F : Face) (method : QuadRule) (n : ℕ) (x : Pt 3) : Prop :=
  ∃ d1 ∈ gridCells F.axis1_vals, ∃ d2 ∈ gridCells F.axis2_vals, ∃ s ∈ (method (linspace d1.1 d1.2 (n + 1))).2,
    ∃ t ∈ (method (linspace d2.1 d2.2 (n + 1))).2, x = F.point s t

theorem face_nodes (F : Face) (x : Pt 3) (n : ℕ) (method : QuadRule)
    (hm : ∀ a b : ℝ, (method (linspace a b (n + 1))).1.length = (method (linspace a b (n + 1))).2.length)
    (c : List (List (Fin 6 → ℝ)))
    (hc : ∀ t, integrateFace F x (.int n) method = .ok t → c.map List.length = t.map List.length) :
    ∃ T t V v, integrateFaceX F x (.int n) method = .ok T ∧ integrateFace F x (.int n) method = .ok t ∧
      tensordot3X c T = .ok V ∧ tensordot3 c t = .ok v ∧ (FaceNode F method n x → ¬ IsFin V) ∧
      (¬ FaceNode F method n x → V = fin v) := by
  have hc' := hc _ rfl
  have hlen : ((gridCells F.axis1_vals).map fun d1 => (gridCells F.axis2_vals).map fun d2 =>
      integrateNX (fun y => integrandX_ y x (F.point ((d1.1 + d1.2) / 2) ((d2.1 + d2.2) / 2)) F)
        [linspace d1.1 d1.2 (n + 1), linspace d2.1 d2.2 (n + 1)] method).map List.length = c.map List.length := by
    rw [hc']
    simp [Function.comp_def]
  refine ⟨_, _, _, _, rfl, rfl, by rw [tensordot3X, if_pos hlen.symm], by rw [tensordot3, if_pos hc'], ?_, ?_⟩
  · intro ⟨d1, hd1, d2, hd2, s, hs, t, ht, hx⟩ hV
    set T := (gridCells F.axis1_vals).map fun d1 => (gridCells F.axis2_vals).map fun d2 =>
      integrateNX (fun y => integrandX_ y x (F.point ((d1.1 + d1.2) / 2) ((d2.1 + d2.2) / 2)) F)
        [linspace d1.1 d1.2 (n + 1), linspace d2.1 d2.2 (n + 1)] method with hT
    have key : ∀ (c : List (List (Fin 6 → ℝ))) (T : List (List (Fin 6 → XR))), c.map List.length = T.map List.length →
        IsFin (List.zipWith (fun c t => (List.zipWith (fun c t => ∑ k, fin (c k) * t k) c t).sum) c T).sum →
        ∀ row ∈ T, ∀ z ∈ row, ∀ k, IsFin (z k) := by
      intro c
      induction c with
      | nil =>
        intro T hl _
        cases T with
        | nil => simp
        | cons => simp at hl
      | cons r c ih =>
        intro T hl hV
        cases T with
        | nil => simp at hl
        | cons R T =>
          simp only [List.map_cons, List.cons.injEq] at hl
          rw [List.zipWith_cons_cons, List.sum_cons, isFin_add_iff] at hV
          rw [List.forall_mem_cons]
          refine ⟨?_, ih T hl.2 hV.2⟩
          refine (isFin_zipWith _ (fun z => ∀ k, IsFin (z k)) (fun c z => ?_) r R hl.1).mp hV.1
          rw [isFin_finset_sum]
          simp [isFin_fin_mul]
    have h0 := key c T hlen.symm hV _ (List.mem_map.mpr ⟨d1, hd1, rfl⟩) _ (List.mem_map.mpr ⟨d2, hd2, rfl⟩) 0
    rw [integrateNX_isFin _ _ _ _ (hm _ _) (hm _ _)] at h0
    have h1 := h0 s hs t ht
    obtain ⟨a, e, -⟩ := integrandX_eq s t x (F.point ((d1.1 + d1.2) / 2) ((d2.1 + d2.2) / 2)) F 0
    rw [e, isFin_div_iff, hx] at h1
    simp at h1
  · intro hno
    have hcell : ∀ d1 ∈ gridCells F.axis1_vals, ∀ d2 ∈ gridCells F.axis2_vals, ∀ k,
        integrateNX (fun y => integrandX_ y x (F.point ((d1.1 + d1.2) / 2) ((d2.1 + d2.2) / 2)) F)
          [linspace d1.1 d1.2 (n + 1), linspace d2.1 d2.2 (n + 1)] method k =
        fin (integrateN (fun y => integrand_ y x (F.point ((d1.1 + d1.2) / 2) ((d2.1 + d2.2) / 2)) F)
          [linspace d1.1 d1.2 (n + 1), linspace d2.1 d2.2 (n + 1)] method k) := by
      intro d1 hd1 d2 hd2 k
      refine integrateNX_fin _ _ _ _ _ (fun s hs t ht k => ?_) k
      obtain ⟨a, e1, e2⟩ := integrandX_eq s t x (F.point ((d1.1 + d1.2) / 2) ((d2.1 + d2.2) / 2)) F k
      rw [e1, e2, fin_div _ (norm_ne_zero_iff.mpr (sub_ne_zero.mpr fun h => hno ⟨d1, hd1, d2, hd2, s, hs, t, ht, h⟩))]
    have hmap : ((gridCells F.axis1_vals).map fun d1 => (gridCells F.axis2_vals).map fun d2 =>
        integrateNX (fun y => integrandX_ y x (F.point ((d1.1 + d1.2) / 2) ((d2.1 + d2.2) / 2)) F)
          [linspace d1.1 d1.2 (n + 1), linspace d2.1 d2.2 (n + 1)] method) =
        ((gridCells F.axis1_vals).map fun d1 => (gridCells F.axis2_vals).map fun d2 =>
          integrateN (fun y => integrand_ y x (F.point ((d1.1 + d1.2) / 2) ((d2.1 + d2.2) / 2)) F)
          [linspace d1.1 d1.2 (n + 1), linspace d2.1 d2.2 (n + 1)] method).map fun row => row.map vfin := by
      simp only [List.map_map]
      refine List.map_congr_left fun d1 hd1 => ?_
      simp only [Function.comp_def, List.map_map]
      refine List.map_congr_left fun d2 hd2 => funext fun k => hcell d1 hd1 d2 hd2 k
    rw [hmap, ← fin_list_sum, List.map_zipWith, List.zipWith_map_right]
    congr 2
    funext c t
    rw [← fin_list_sum, List.map_zipWith, List.zipWith_map_right]
    congr 2
    funext c t
    rw [← fin_sum]
    simp

theorem boxNode_iff {xs ys zs : List ℝ} (method : QuadRule) (n : ℕ) (x : Pt 3) :
    IsBoxNode ![xs, ys, zs] method n x ↔ ∃ F ∈ sides xs ys zs, FaceNode F method n x := by
  have hF : ∀ F ∈ sides xs ys zs, FaceNode F method n x ↔ ∃ i j, i + 1 < F.axis1_vals.length ∧ j + 1 < F.axis2_vals.length ∧
      ∃ s ∈ (method (linspace (F.axis1_vals.getD i 0) (F.axis1_vals.getD (i + 1) 0) (n + 1))).2,
      ∃ t ∈ (method (linspace (F.axis2_vals.getD j 0) (F.axis2_vals.getD (j + 1) 0) (n + 1))).2,
        x = planePoint F.const_axis F.const_val s t := by
    intro F hF
    simp only [FaceNode, (isSide_of_mem hF).point]
    constructor
    · rintro ⟨d1, h1, d2, h2, h⟩
      obtain ⟨i, hi, rfl⟩ := (mem_gridCells_iff _ _).mp h1
      obtain ⟨j, hj, rfl⟩ := (mem_gridCells_iff _ _).mp h2
      exact ⟨i, j, hi, hj, h⟩
    · rintro ⟨i, j, hi, hj, h⟩
      exact ⟨_, (mem_gridCells_iff _ _).mpr ⟨i, hi, rfl⟩, _, (mem_gridCells_iff _ _).mpr ⟨j, hj, rfl⟩, h⟩
  constructor
  · rintro ⟨k, c, i, j, hc, hi, hj, s, hs, t, ht, rfl⟩
    have : ∃ F ∈ sides xs ys zs, F.const_axis = k ∧ F.const_val = c ∧ F.axis1_vals = (![xs, ys, zs] : Fin 3 → List ℝ) (k.succAbove 0) ∧
        F.axis2_vals = (![xs, ys, zs] : Fin 3 → List ℝ) (k.succAbove 1) := by
      rcases hc with rfl | rfl <;> fin_cases k <;> simp [sides, faces_.face, grids, gridLo, gridHi, Fin.succAbove]
    obtain ⟨F, h1, h2, h3, h4, h5⟩ := this
    refine ⟨F, h1, (hF F h1).mpr ⟨i, j, ?_⟩⟩
    rw [h2, h3, h4, h5]
    exact ⟨hi, hj, s, hs, t, ht, rfl⟩
  · rintro ⟨F, h1, h⟩
    obtain ⟨i, j, hi, hj, s, hs, t, ht, rfl⟩ := (hF F h1).mp h
    refine ⟨F.const_axis, F.const_val, i, j, ?_⟩
    have : (F.const_val = gridLo ![xs, ys, zs] F.const_axis ∨ F.const_val = gridHi ![xs, ys, zs] F.const_axis) ∧
        F.axis1_vals = (![xs, ys, zs] : Fin 3 → List ℝ) (F.const_axis.succAbove 0) ∧
        F.axis2_vals = (![xs, ys, zs] : Fin 3 → List ℝ) (F.const_axis.succAbove 1) := by
      simp only [sides, List.mem_cons, List.not_mem_nil, or_false] at h1
      rcases h1 with rfl | rfl | rfl | rfl | rfl | rfl <;> simp [faces_.face, grids, gridLo, gridHi, Fin.succAbove]
    obtain ⟨e1, e2, e3⟩ := this
    rw [← e2, ← e3]
    exact ⟨e1, hi, hj, s, hs, t, ht, rfl⟩

/-- **C175.** The potential of `single_layer_potential` in mumag3.py at every target point, with the rules of floating point
arithmetic for division by zero: it is a finite number exactly if the target point is not a quadrature node, whatever the charge is,
even if it is zero; then it is the number of the other theorems about it. -/
theorem C175_box (xs ys zs : List ℝ) (D : Cuboid) (hD : Cuboid.init xs ys zs = .ok D) (f : Pt 3 → Pt 3 → ℝ) (x : Pt 3) (n : ℕ)
    (method : QuadRule)
    (hm : ∀ a b : ℝ, (method (linspace a b (n + 1))).1.length = (method (linspace a b (n + 1))).2.length) :
    ∃ V P, singleLayerPotentialBoxX D f (.int n) method x = .ok V ∧ singleLayerPotentialBox D f (.int n) method x = .ok P ∧
      (IsBoxNode ![xs, ys, zs] method n x → ¬ IsFin V) ∧ (¬ IsBoxNode ![xs, ys, zs] method n x → V = fin P) := by
  rw [boxNode_iff]
  obtain ⟨-, -, -, rfl⟩ := init_inv hD
  have key : ∀ F ∈ sides xs ys zs, _ := fun F hF => face_nodes F x n method hm (chargeTaylorCoefs2 F f) (by
    intro t ht
    cases ht
    rw [chargeTaylorCoefs2, (isSide_of_mem hF).2.2, midpoints_eq]
    simp)
  generalize hS : sides xs ys zs = S at key
  have hall : ∃ (T : List (List (List (Fin 6 → XR)))) (t : List (List (List (Fin 6 → ℝ)))) (V : List XR) (v : List ℝ),
      (S.mapM fun face => integrateFaceX face x (.int n) method) = .ok T ∧
      (S.mapM fun face => integrateFace face x (.int n) method) = .ok t ∧
      T.length = S.length ∧ t.length = S.length ∧
      (((S.map fun F => chargeTaylorCoefs2 F f).zip T).mapM fun (c, t) => tensordot3X c t) = .ok V ∧
      (((S.map fun F => chargeTaylorCoefs2 F f).zip t).mapM fun (c, t) => tensordot3 c t) = .ok v ∧
      ((∃ F ∈ S, FaceNode F method n x) → ¬ IsFin V.sum) ∧ (¬ (∃ F ∈ S, FaceNode F method n x) → V.sum = fin v.sum) := by
    clear hS
    induction S with
    | nil => exact ⟨[], [], [], [], rfl, rfl, rfl, rfl, rfl, rfl, by simp, by simp⟩
    | cons F S ih =>
      obtain ⟨T, t, V, v, h1, h2, h3, h4, h5, h6, h7, h8⟩ := ih fun F hF => key F (List.mem_cons_of_mem _ hF)
      obtain ⟨T', t', V', v', k1, k2, k3, k4, k5, k6⟩ := key F List.mem_cons_self
      refine ⟨T' :: T, t' :: t, V' :: V, v' :: v, ?_, ?_, by simp [h3], by simp [h4], ?_, ?_, ?_, ?_⟩
      · rw [List.mapM_cons, k1, h1]; rfl
      · rw [List.mapM_cons, k2, h2]; rfl
      · rw [List.map_cons, List.zip_cons_cons, List.mapM_cons, h5]; simp only [k3]; rfl
      · rw [List.map_cons, List.zip_cons_cons, List.mapM_cons, h6]; simp only [k4]; rfl
      · rintro ⟨G, hG, hn⟩ hV
        rw [List.sum_cons, isFin_add_iff] at hV
        rcases List.mem_cons.mp hG with rfl | hG
        · exact k5 hn hV.1
        · exact h7 ⟨G, hG, hn⟩ hV.2
      · intro hn
        rw [List.sum_cons, List.sum_cons, ← fin_add, k6 fun h => hn ⟨F, List.mem_cons_self, h⟩,
          h8 fun ⟨G, hG, h⟩ => hn ⟨G, List.mem_cons_of_mem _ hG, h⟩]
  obtain ⟨T, t, V, v, h1, h2, h3, h4, h5, h6, h7, h8⟩ := hall
  refine ⟨fin (1 / (4 * Real.pi)) * V.sum, 1 / (4 * Real.pi) * v.sum, ?_, ?_, fun h => ?_, fun h => ?_⟩
  · have e : solveSufraceIntegralX (S.map fun F => chargeTaylorCoefs2 F f) T = .ok V.sum := by
      rw [solveSufraceIntegralX, if_neg (by simp [h3])]
      simp only [bind, Except.bind, pure, Except.pure]
      rw [h5]
    simp only [singleLayerPotentialBoxX, surfaceTensorsX, charges, h1, bind, Except.bind, e]
    rfl
  · have e : solveSufraceIntegral (S.map fun F => chargeTaylorCoefs2 F f) t = .ok v.sum := by
      rw [solveSufraceIntegral, if_neg (by simp [h4])]
      simp only [bind, Except.bind, pure, Except.pure]
      rw [h6]
    simp only [singleLayerPotentialBox, integrateSurfaceBox, surfaceTensors, charges, h2, bind, Except.bind, e]
    rfl
  · rw [isFin_fin_mul]
    exact h7 h
  · rw [h8 h, fin_mul]

/-- Non-vacuity: both cases occur for a box with one cell per side and the midpoint rule. -/
example : ∃ D V P, Cuboid.init [-1, 1] [-1, 1] [-1, 1] = .ok D ∧
    singleLayerPotentialBoxX D (fun _ y => y 0) (.int 1) midpoint !₂[1, 0, 0] = .ok V ∧ ¬ IsFin V ∧
    singleLayerPotentialBoxX D (fun _ y => y 0) (.int 1) midpoint 0 = .ok (fin P) := by
  have g : IsGrid [-1, 1] := ⟨by simp, by simp⟩
  have hl : ∀ a b : ℝ, (midpoint (linspace a b (1 + 1))).1.length = (midpoint (linspace a b (1 + 1))).2.length := by simp [midpoint]
  obtain ⟨V, P, h1, -, h2, -⟩ := C175_box [-1, 1] [-1, 1] [-1, 1] _ (init_ok g g g) (fun _ y => y 0) !₂[1, 0, 0] 1 midpoint hl
  obtain ⟨V', P', h1', -, -, h3⟩ := C175_box [-1, 1] [-1, 1] [-1, 1] _ (init_ok g g g) (fun _ y => y 0) 0 1 midpoint hl
  refine ⟨_, V, P', init_ok g g g, h1, h2 ⟨0, 1, 0, 0, Or.inr (by simp [gridHi]), by simp [Fin.succAbove], by simp [Fin.succAbove], 0, ?_, 0, ?_, ?_⟩, ?_⟩
  · norm_num [Fin.succAbove, midpoint, linspace, List.range_succ]
  · rw [show (0 : Fin 3).succAbove 1 = 2 from rfl]
    norm_num [midpoint, linspace, List.range_succ, show (![[-1, 1], [-1, 1], [-1, 1]] : Fin 3 → List ℝ) 2 = [-1, 1] from rfl]
  · ext i
    fin_cases i <;> simp [planePoint]
  · rw [h1', h3]
    rintro ⟨k, c, i, j, hc, -, -, s, -, t, -, h⟩
    have h0 := congrArg (fun z : Pt 3 => z k) h
    have : ∀ k : Fin 3, gridLo ![[-1, 1], [-1, 1], [-1, 1]] k = -1 ∧ gridHi ![[-1, 1], [-1, 1], [-1, 1]] k = 1 := by
      intro k
      fin_cases k <;> simp [gridLo, gridHi]
    rw [(this k).1, (this k).2] at hc
    simp [planePoint] at h0
    rcases hc with rfl | rfl <;> norm_num at h0

theorem getD_getElem' {w : List ℝ} {i : ℕ} (hi : i < w.length) : w.getD i 0 = w[i] := by
  simp [List.getD, hi]

/-- **C175, corners.** With the trapezoidal rule and with `simpson`, the default, for every number of subintervals the potential is
infinite or not a number at all corners of all cells, with `midpoint` and all Gauss rules with a node in the middle (those of odd
degree) and one subinterval at the centres of all cells, where the charges are expanded. -/
theorem C175_corners (xs ys zs : List ℝ) (D : Cuboid) (hD : Cuboid.init xs ys zs = .ok D) (f : Pt 3 → Pt 3 → ℝ) (k : Fin 3) (c : ℝ)
    (hc : c = gridLo ![xs, ys, zs] k ∨ c = gridHi ![xs, ys, zs] k) {u v : List ℝ}
    (hu : u = (![xs, ys, zs] : Fin 3 → List ℝ) (k.succAbove 0)) (hv : v = (![xs, ys, zs] : Fin 3 → List ℝ) (k.succAbove 1)) :
    (∀ s ∈ u, ∀ t ∈ v, ∀ n, 1 ≤ n → (∃ V, singleLayerPotentialBoxX D f (.int n) trap (planePoint k c s t) = .ok V ∧ ¬ IsFin V) ∧
      ∃ V, singleLayerPotentialBoxX D f (.int n) simpson (planePoint k c s t) = .ok V ∧ ¬ IsFin V) ∧
    ∀ i j, i + 1 < u.length → j + 1 < v.length →
      let m := planePoint k c ((u.getD i 0 + u.getD (i + 1) 0) / 2) ((v.getD j 0 + v.getD (j + 1) 0) / 2)
      (∃ V, singleLayerPotentialBoxX D f (.int 1) midpoint m = .ok V ∧ ¬ IsFin V) ∧
      ∀ nodes weights : List ℝ, weights.length = nodes.length → (0 : ℝ) ∈ nodes →
        ∃ V, singleLayerPotentialBoxX D f (.int 1) (gauss nodes weights) m = .ok V ∧ ¬ IsFin V := by
  have hgrid : ∀ i, IsGrid ((![xs, ys, zs] : Fin 3 → List ℝ) i) := by
    obtain ⟨h1, h2, h3, -⟩ := init_inv hD
    intro i
    fin_cases i
    exacts [h1, h2, h3]
  have hgu : IsGrid u := hu ▸ hgrid _
  have hgv : IsGrid v := hv ▸ hgrid _
  have cell : ∀ w : List ℝ, IsGrid w → ∀ s ∈ w, ∃ i, i + 1 < w.length ∧ (s = w.getD i 0 ∨ s = w.getD (i + 1) 0) := by
    intro w hw s hs
    obtain ⟨i, hi, rfl⟩ := List.getElem_of_mem hs
    have hl := hw.1
    rcases Nat.lt_or_ge (i + 1) w.length with h | h
    · exact ⟨i, h, Or.inl (getD_getElem' hi).symm⟩
    · exact ⟨i - 1, by omega, Or.inr (by rw [show i - 1 + 1 = i by omega]; exact (getD_getElem' hi).symm)⟩
  have ends : ∀ a b : ℝ, ∀ n, 1 ≤ n → a ∈ linspace a b (n + 1) ∧ b ∈ linspace a b (n + 1) := by
    intro a b n hn
    have hn0 : ((n : ℝ)) ≠ 0 := by positivity
    refine ⟨List.mem_map.mpr ⟨0, by simp, by simp⟩, List.mem_map.mpr ⟨n, by simp, ?_⟩⟩
    rw [if_neg (by omega)]
    push_cast
    rw [add_sub_cancel_right, mul_div_cancel₀ _ hn0]
    ring
  have hsim : ∀ w : List ℝ, ∀ s ∈ w, s ∈ (simpson w).2 := by
    intro w s hs
    obtain ⟨i, hi, rfl⟩ := List.getElem_of_mem hs
    refine List.mem_map.mpr ⟨2 * i, by simp; omega, ?_⟩
    rw [if_neg (by omega), show 2 * i / 2 = i by omega, getD_getElem' hi]
  subst hu hv
  have go : ∀ (method : QuadRule) n x, (∀ a b : ℝ, (method (linspace a b (n + 1))).1.length = (method (linspace a b (n + 1))).2.length) →
      IsBoxNode ![xs, ys, zs] method n x → ∃ V, singleLayerPotentialBoxX D f (.int n) method x = .ok V ∧ ¬ IsFin V := by
    intro method n x hm hx
    obtain ⟨V, P, h1, -, h2, -⟩ := C175_box xs ys zs D hD f x n method hm
    exact ⟨V, h1, h2 hx⟩
  refine ⟨fun s hs t ht n hn => ?_, fun i j hi hj => ?_⟩
  · obtain ⟨i, hi, hsi⟩ := cell _ hgu s hs
    obtain ⟨j, hj, htj⟩ := cell _ hgv t ht
    have es : s ∈ linspace (((![xs, ys, zs] : Fin 3 → List ℝ) (k.succAbove 0)).getD i 0)
        (((![xs, ys, zs] : Fin 3 → List ℝ) (k.succAbove 0)).getD (i + 1) 0) (n + 1) := by
      rcases hsi with h | h <;> rw [h]
      exacts [(ends _ _ n hn).1, (ends _ _ n hn).2]
    have et : t ∈ linspace (((![xs, ys, zs] : Fin 3 → List ℝ) (k.succAbove 1)).getD j 0)
        (((![xs, ys, zs] : Fin 3 → List ℝ) (k.succAbove 1)).getD (j + 1) 0) (n + 1) := by
      rcases htj with h | h <;> rw [h]
      exacts [(ends _ _ n hn).1, (ends _ _ n hn).2]
    exact ⟨go trap n _ (fun a b => by simp [trap, linspace]) ⟨k, c, i, j, hc, hi, hj, s, es, t, et, rfl⟩,
      go simpson n _ (fun a b => by simp [simpson]) ⟨k, c, i, j, hc, hi, hj, s, hsim _ _ es, t, hsim _ _ et, rfl⟩⟩
  · have hlin : ∀ a b : ℝ, linspace a b (1 + 1) = [a, b] := by
      intro a b
      norm_num [linspace, List.range_succ]
    refine ⟨go midpoint 1 _ (fun a b => by simp [midpoint]) ⟨k, c, i, j, hc, hi, hj, _, ?_, _, ?_, rfl⟩, fun nodes weights hl h0 =>
      go _ 1 _ (fun a b => by simp [gauss, hlin, hl]) ⟨k, c, i, j, hc, hi, hj, _, ?_, _, ?_, rfl⟩⟩
    · rw [hlin]; simp [midpoint, add_comm]
    · rw [hlin]; simp [midpoint, add_comm]
    · rw [hlin]; simp [gauss]; exact ⟨0, h0, by simp⟩
    · rw [hlin]; simp [gauss]; exact ⟨0, h0, by simp⟩

/-- Non-vacuity: a corner of a box. -/
example : ∃ D V, Cuboid.init [0, 1] [0, 2, 3] [-1, 1] = .ok D ∧
    singleLayerPotentialBoxX D (fun _ _ => 0) (.int 3) simpson (planePoint 1 0 1 (-1)) = .ok V ∧ ¬ IsFin V := by
  have h : Cuboid.init [0, 1] [0, 2, 3] [-1, 1] = _ := init_ok ⟨by simp, by simp⟩ ⟨by simp, by norm_num⟩ ⟨by simp, by simp⟩
  obtain ⟨V, hV⟩ := ((C175_corners [0, 1] [0, 2, 3] [-1, 1] _ h (fun _ _ => 0) 1 0 (Or.inl (by simp [gridLo])) rfl rfl).1 1
    (by simp [Fin.succAbove]) (-1) (by simp [Fin.succAbove]) 3 (by norm_num)).2
  exact ⟨_, V, h, hV⟩

/-! ## Parametrized surfaces -/

/-- The point `x` is a quadrature node of the surface `r`. -/
def IsSurfaceNode (r : Pt 2 → Pt 3) (u v : List ℝ) (method : QuadRule) (x : Pt 3) : Prop :=
  ∃ i j, i + 1 < u.length ∧ j + 1 < v.length ∧ ∃ s ∈ (method [u.getD i 0, u.getD (i + 1) 0]).2,
    ∃ t ∈ (method [v.getD j 0, v.getD (j + 1) 0]).2, x = r !₂[s, t]

theorem isFin_mul_fin (z : XR) (w : ℝ) : IsFin (z * fin w) ↔ IsFin z := by rw [XR.mul_comm', isFin_fin_mul]

/-- **C175, parametrized surfaces.** The source tensor is finite exactly if the target point is not a quadrature node of the surface,
then it is the tensor of the other theorems; at a node the potential of all charges, even of zero, is not a finite number. -/
theorem C175_surface (r : Pt 2 → Pt 3) (u v : List ℝ) (hu : 2 ≤ u.length) (hv : 2 ≤ v.length) (method : QuadRule)
    (hm : ∀ a b : ℝ, (method [a, b]).1.length = (method [a, b]).2.length) (x : Pt 3) (order : ℕ) :
    ∃ Z S, sourceTensorX_ x r u v method order = .ok Z ∧ sourceTensor_ x r u v method order = .ok S ∧
      (¬ IsSurfaceNode r u v method x → Z = S.map fin) ∧
      (IsSurfaceNode r u v method x → (∃ z ∈ Z, ¬ IsFin z) ∧
        ∀ q V, singleLayerPotentialX Z q = .ok V → ¬ IsFin V) := by
  have heq : ∀ s t c k, ∃ a w : ℝ,
      (sourceTensorX.integrand order (r (pt2 [s, t])) c x k * fin ‖crossPt (jacfwd r (pt2 [s, t]) 0) (jacfwd r (pt2 [s, t]) 1)‖ =
        fin a / fin ‖x - r !₂[s, t]‖ * fin w) ∧
      integrateSurface.integrand (fun y => sourceTensor.integrand order y c x) r (pt2 [s, t]) k = a / ‖x - r !₂[s, t]‖ * w := by
    intro s t c k
    have e : vnorm (fun i => efin x i - efin (r (pt2 [s, t])) i) = fin ‖x - r !₂[s, t]‖ := by
      rw [← vnorm_efin]
      rfl
    refine ⟨_, _, by rw [sourceTensorX.integrand, e], ?_⟩
    simp only [integrateSurface.integrand, sourceTensor.integrand, Pi.smul_apply, smul_eq_mul]
    exact mul_comm _ _
  refine ⟨_, _, by
    rw [sourceTensorX_, if_neg (by omega), if_neg (by omega)]; rfl, by
    rw [sourceTensor_, integrateSurfaceElements, if_neg (by omega), if_neg (by omega)]; rfl, ?_, ?_⟩
  · intro hno
    have hof : ∀ z : Fin (tensorSize order) → ℝ, (List.ofFn z).map fin = List.ofFn (vfin z) := fun z => List.map_ofFn
    rw [List.map_flatMap]
    simp only [hof]
    rw [← List.flatMap_map (f := vfin) (g := fun z => List.ofFn z), List.map_flatten]
    congr 2
    rw [List.map_map]
    refine List.map_congr_left fun d1 hd1 => ?_
    rw [Function.comp_apply, List.map_map]
    refine List.map_congr_left fun d2 hd2 => funext fun k => ?_
    refine integrateNX_fin _ _ _ _ _ (fun s hs t ht k => ?_) k
    obtain ⟨a, w, e1, e2⟩ := heq s t (surfaceCenter r d1 d2) k
    refine e1.trans ?_
    rw [e2, fin_div, fin_mul]
    rw [norm_ne_zero_iff, sub_ne_zero]
    intro h
    obtain ⟨i, hi, rfl⟩ := (mem_gridCells_iff _ _).mp hd1
    obtain ⟨j, hj, rfl⟩ := (mem_gridCells_iff _ _).mp hd2
    exact hno ⟨i, j, hi, hj, s, hs, t, ht, h⟩
  · rintro ⟨i, j, hi, hj, s, hs, t, ht, hx⟩
    have hex : ∃ z ∈ ((gridCells u).map fun _u => (gridCells v).map fun _v =>
        integrateSurfaceX (fun y => sourceTensorX.integrand order y (surfaceCenter r _u _v) x) r [_u.1, _u.2] [_v.1, _v.2]
          method).flatten.flatMap fun z => List.ofFn z, ¬ IsFin z := by
      have hpos : 0 < tensorSize order := by simp [tensorSize, List.range_succ]
      refine ⟨_, List.mem_flatMap.mpr ⟨_, List.mem_flatten.mpr ⟨_, List.mem_map.mpr ⟨_, (mem_gridCells_iff _ _).mpr ⟨i, hi, rfl⟩, rfl⟩,
        List.mem_map.mpr ⟨_, (mem_gridCells_iff _ _).mpr ⟨j, hj, rfl⟩, rfl⟩⟩, List.mem_ofFn.mpr ⟨⟨0, hpos⟩, rfl⟩⟩, fun h => ?_⟩
      rw [integrateSurfaceX, integrateNX_isFin _ _ _ _ (hm _ _) (hm _ _)] at h
      have h1 := h s hs t ht
      obtain ⟨a, w, e, -⟩ := heq s t (surfaceCenter r (u.getD i 0, u.getD (i + 1) 0) (v.getD j 0, v.getD (j + 1) 0)) ⟨0, hpos⟩
      rw [e, isFin_mul_fin, isFin_div_iff, hx] at h1
      simp at h1
    refine ⟨hex, fun q V hV hfin => ?_⟩
    obtain ⟨z, hz, hzf⟩ := hex
    rw [singleLayerPotentialX] at hV
    split_ifs at hV with hl
    cases hV
    rw [isFin_fin_mul, tensordotX_isFin hl] at hfin
    exact hzf (hfin z hz)

/-- Non-vacuity: a flat square and one of its nodes. -/
example : ∃ Z, sourceTensorX_ 0 (fun p => !₂[p 0, p 1, 0]) [-1, 1] [-1, 1] midpoint 2 = .ok Z ∧
    ∀ V, singleLayerPotentialX Z (List.replicate 13 0) = .ok V → ¬ IsFin V := by
  obtain ⟨Z, S, h1, -, -, h2⟩ := C175_surface (fun p => !₂[p 0, p 1, 0]) [-1, 1] [-1, 1] (by simp) (by simp) midpoint
    (fun a b => by simp [midpoint]) 0 2
  refine ⟨Z, h1, (h2 ⟨0, 0, by simp, by simp, 0, by norm_num [midpoint], 0, by norm_num [midpoint], ?_⟩).2 _⟩
  ext i
  fin_cases i <;> simp

end Verif
