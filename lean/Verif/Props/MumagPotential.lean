import Verif.Props.MumagBox

/-! # Potentials of the cuboid of `mumag3.py` (C95 - C97) -/

namespace Verif

open XR

/-! ## Sides and cells -/

theorem zipWith_mid (a : List ℝ) :
    List.zipWith (fun p q => (p + q) / 2) a.tail a.dropLast = (gridCells a).map fun d => (d.1 + d.2) / 2 := by
  rw [gridCells, List.zip, List.map_zipWith, List.zipWith_comm]
  congr 1
  funext x y
  exact congrArg (· / 2) (add_comm _ _)

theorem midpoints_eq (a b : List ℝ) (k : Fin 3) (c : ℝ) :
    midpoints_ a b k c = (gridCells a).map fun d => (gridCells b).map fun e =>
      planePoint k c ((d.1 + d.2) / 2) ((e.1 + e.2) / 2) := by
  rw [midpoints_, zipWith_mid, zipWith_mid]
  simp only [List.map_map]
  rfl

/-- A side of the box: orthogonal to the axis `const_axis`, the other two axes in ascending order. -/
def Face.IsSide (F : Face) : Prop := F.axis1 = F.const_axis.succAbove 0 ∧ F.axis2 = F.const_axis.succAbove 1 ∧
  F.midpoints = midpoints_ F.axis1_vals F.axis2_vals F.const_axis F.const_val

theorem isSide_of_mem {xs ys zs : List ℝ} {F : Face} (hF : F ∈ sides xs ys zs) : F.IsSide := by
  simp only [sides, List.mem_cons, List.not_mem_nil, or_false] at hF
  rcases hF with rfl | rfl | rfl | rfl | rfl | rfl <;> exact ⟨rfl, rfl, rfl⟩

theorem Face.IsSide.point {F : Face} (h : F.IsSide) (s t : ℝ) : F.point s t = planePoint F.const_axis F.const_val s t := by
  obtain ⟨h1, h2, -⟩ := h
  rw [Face.point, planePoint, h1, h2]
  congr 1
  generalize F.const_axis = k
  funext i
  fin_cases k <;> fin_cases i <;> simp [Function.update, Fin.insertNth, Fin.succAboveCases, Fin.succAbove]

/-- Consecutive entries of a list. -/
theorem mem_gridCells_iff (w : List ℝ) (a : ℝ × ℝ) :
    a ∈ gridCells w ↔ ∃ i, i + 1 < w.length ∧ a = (w.getD i 0, w.getD (i + 1) 0) := by
  constructor
  · intro h
    obtain ⟨i, hi, rfl⟩ := mem_gridCells w a h
    exact ⟨i, by omega, rfl⟩
  · rintro ⟨i, hi, rfl⟩
    rw [List.mem_iff_getElem]
    have h4 : i < w.length := by omega
    exact ⟨i, by simp [gridCells]; omega, by simp [gridCells, List.getD_eq_getElem?_getD, hi, h4]⟩

/-- The cells of a grid cover the interval between its ends. -/
theorem cells_cover {l : List ℝ} (h : IsGrid l) (x : ℝ) :
    (∃ i, i + 1 < l.length ∧ l.getD i 0 ≤ x ∧ x ≤ l.getD (i + 1) 0) ↔ l.headD 0 ≤ x ∧ x ≤ l.getLastD 0 := by
  obtain ⟨h1, h2⟩ := h
  induction l with
  | nil => simp at h1
  | cons a l ih =>
    cases l with
    | nil => simp at h1
    | cons b l =>
      cases l with
      | nil =>
        simp only [List.headD_cons, List.length_cons, List.length_nil]
        constructor
        · rintro ⟨i, hi, h⟩
          obtain rfl : i = 0 := by omega
          simpa using h
        · intro h
          exact ⟨0, by omega, by simpa using h⟩
      | cons c l =>
        have ih := ih (by simp) (List.pairwise_cons.mp h2).2
        have hab : a ≤ b := (List.pairwise_cons.mp h2).1 b (by simp)
        have hlast : (a :: b :: c :: l).getLastD 0 = (b :: c :: l).getLastD 0 := by simp
        rw [hlast]
        simp only [List.headD_cons] at ih ⊢
        have hbl : b ≤ (b :: c :: l).getLastD 0 := by
          have h3 := (List.pairwise_cons.mp (List.pairwise_cons.mp h2).2).1
          have : (b :: c :: l).getLastD 0 = (c :: l).getLast (by simp) := by
            rw [List.getLastD_eq_getLast?, List.getLast?_eq_some_getLast (by simp)]
            simp
          rw [this]
          exact h3 _ (List.getLast_mem _)
        constructor
        · rintro ⟨i, hi, hx⟩
          cases i with
          | zero =>
            simp at hx
            exact ⟨hx.1, hx.2.trans hbl⟩
          | succ i =>
            have := ih.mp ⟨i, by simp at hi ⊢; omega, by simpa using hx⟩
            exact ⟨hab.trans this.1, this.2⟩
        · rintro ⟨hx1, hx2⟩
          rcases le_total x b with h | h
          · exact ⟨0, by simp, by simpa using ⟨hx1, h⟩⟩
          · obtain ⟨i, hi, hx⟩ := ih.mpr ⟨h, hx2⟩
            exact ⟨i + 1, by simp at hi ⊢; omega, by simpa using hx⟩

/-- A point is on the boundary of the cuboid exactly if it is in a cell of one of the sides. -/
theorem C95_cover (xs ys zs : List ℝ) (D : Cuboid) (hD : Cuboid.init xs ys zs = .ok D) (y : Fin 3 → ℝ) :
    y ∈ frontier (Set.Icc (gridLo ![xs, ys, zs]) (gridHi ![xs, ys, zs])) ↔
      ∃ F ∈ D.faces, y F.const_axis = F.const_val ∧
        (∃ i, i + 1 < F.axis1_vals.length ∧ F.axis1_vals.getD i 0 ≤ y F.axis1 ∧ y F.axis1 ≤ F.axis1_vals.getD (i + 1) 0) ∧
        (∃ j, j + 1 < F.axis2_vals.length ∧ F.axis2_vals.getD j 0 ≤ y F.axis2 ∧ y F.axis2 ≤ F.axis2_vals.getD (j + 1) 0) := by
  obtain ⟨hx, hy, hz, rfl⟩ := init_inv hD
  set lo := gridLo ![xs, ys, zs] with hlo
  set hi := gridHi ![xs, ys, zs] with hhi
  have hint : interior (Set.Icc lo hi) = {y | ∀ i, lo i < y i ∧ y i < hi i} := by
    rw [← Set.pi_univ_Icc, interior_pi_set Set.finite_univ]
    ext y
    simp [interior_Icc]
  have cx := cells_cover hx
  have cy := cells_cover hy
  have cz := cells_cover hz
  simp only [sides, List.mem_cons, List.not_mem_nil, or_false, exists_eq_or_imp, exists_eq_left, faces_.face, cx, cy, cz]
  have l0 : lo 0 = xs.headD 0 := rfl
  have l1 : lo 1 = ys.headD 0 := rfl
  have l2 : lo 2 = zs.headD 0 := rfl
  have h0 : hi 0 = xs.getLastD 0 := rfl
  have h1 : hi 1 = ys.getLastD 0 := rfl
  have h2 : hi 2 = zs.getLastD 0 := rfl
  have le : ∀ {l : List ℝ}, IsGrid l → l.headD 0 ≤ l.getLastD 0 := by
    intro l hl
    have := (cells_cover hl (l.getD 0 0)).mp ⟨0, by have := hl.1; omega, le_refl _, ?_⟩
    · exact this.1.trans this.2
    · obtain ⟨hl1, hl2⟩ := hl
      match l, hl1, hl2 with
      | a :: b :: l, _, hl2 => simpa using (List.pairwise_cons.mp hl2).1 b (by simp)
  have ex := le hx
  have ey := le hy
  have ez := le hz
  rw [isClosed_Icc.frontier_eq, Set.mem_sdiff, hint, Set.mem_Icc, Pi.le_def, Pi.le_def]
  simp only [Set.mem_ofPred_eq, Fin.forall_fin_succ, Fin.isValue, Fin.succ_zero_eq_one, Fin.succ_one_eq_two, IsEmpty.forall_iff,
    and_true]
  change ((lo 0 ≤ y 0 ∧ lo 1 ≤ y 1 ∧ lo 2 ≤ y 2) ∧ (y 0 ≤ hi 0 ∧ y 1 ≤ hi 1 ∧ y 2 ≤ hi 2)) ∧
    ¬ ((lo 0 < y 0 ∧ y 0 < hi 0) ∧ (lo 1 < y 1 ∧ y 1 < hi 1) ∧ (lo 2 < y 2 ∧ y 2 < hi 2)) ↔
    (y 2 = lo 2 ∧ _) ∨ (y 2 = hi 2 ∧ _) ∨ (y 1 = lo 1 ∧ _) ∨ (y 1 = hi 1 ∧ _) ∨ (y 0 = lo 0 ∧ _) ∨ (y 0 = hi 0 ∧ _)
  rw [← l0, ← l1, ← l2, ← h0, ← h1, ← h2] at *
  constructor
  · rintro ⟨⟨⟨a0, a1, a2⟩, b0, b1, b2⟩, hn⟩
    rcases a2.eq_or_lt with e | e
    · exact .inl ⟨e.symm, ⟨a0, b0⟩, a1, b1⟩
    rcases b2.eq_or_lt with e' | e'
    · exact .inr (.inl ⟨e', ⟨a0, b0⟩, a1, b1⟩)
    rcases a1.eq_or_lt with e1 | e1
    · exact .inr (.inr (.inl ⟨e1.symm, ⟨a0, b0⟩, a2, b2⟩))
    rcases b1.eq_or_lt with e2 | e2
    · exact .inr (.inr (.inr (.inl ⟨e2, ⟨a0, b0⟩, a2, b2⟩)))
    rcases a0.eq_or_lt with e3 | e3
    · exact .inr (.inr (.inr (.inr (.inl ⟨e3.symm, ⟨a1, b1⟩, a2, b2⟩))))
    rcases b0.eq_or_lt with e4 | e4
    · exact .inr (.inr (.inr (.inr (.inr ⟨e4, ⟨a1, b1⟩, a2, b2⟩))))
    exact absurd ⟨⟨e3, e4⟩, ⟨e1, e2⟩, e, e'⟩ hn
  · rintro (⟨e, ⟨a, b⟩, c, d⟩ | ⟨e, ⟨a, b⟩, c, d⟩ | ⟨e, ⟨a, b⟩, c, d⟩ | ⟨e, ⟨a, b⟩, c, d⟩ | ⟨e, ⟨a, b⟩, c, d⟩ | ⟨e, ⟨a, b⟩, c, d⟩) <;>
    exact ⟨⟨⟨by linarith, by linarith, by linarith⟩, by linarith, by linarith, by linarith⟩, by
      rintro ⟨⟨_, _⟩, ⟨_, _⟩, _, _⟩; linarith⟩

/-- Non-vacuity: a corner is on the boundary. -/
example : (fun _ : Fin 3 => (0 : ℝ)) ∈ frontier (Set.Icc (gridLo ![[0, 1], [0, 2, 3], [0, 1]])
    (gridHi ![[0, 1], [0, 2, 3], [0, 1]])) := by
  have g1 : IsGrid [0, 1] := ⟨by simp, by simp⟩
  have g2 : IsGrid [0, 2, 3] := ⟨by simp, by simp; norm_num⟩
  rw [C95_cover _ _ _ _ (init_ok g1 g2 g1)]
  refine ⟨_, by simp [sides]; left; rfl, rfl, ⟨0, by simp [faces_.face], ?_⟩, 0, by simp [faces_.face], ?_⟩ <;>
    simp [faces_.face]

theorem getD_mono {l : List ℝ} (h : l.Pairwise (· ≤ ·)) {i j : ℕ} (hij : i ≤ j) (hj : j < l.length) :
    l.getD i 0 ≤ l.getD j 0 := by
  have hi : i < l.length := by omega
  simp only [List.getD_eq_getElem?_getD, List.getElem?_eq_getElem hi, List.getElem?_eq_getElem hj, Option.getD_some]
  rcases hij.eq_or_lt with rfl | hlt
  · exact le_refl _
  · exact List.pairwise_iff_getElem.mp h i j hi hj hlt

theorem cell_unique {l : List ℝ} (h : l.Pairwise (· ≤ ·)) {i j : ℕ} (hi : i + 1 < l.length) (hj : j + 1 < l.length) {x : ℝ}
    (h1 : l.getD i 0 < x) (h2 : x < l.getD (i + 1) 0) (h3 : l.getD j 0 ≤ x) (h4 : x ≤ l.getD (j + 1) 0) : i = j := by
  rcases lt_trichotomy i j with hlt | rfl | hlt
  · have := getD_mono h (by omega : i + 1 ≤ j) (by omega)
    linarith
  · rfl
  · have := getD_mono h (by omega : j + 1 ≤ i) (by omega)
    linarith

/-- Different cells have no inner points in common. -/
theorem C95_disjoint (xs ys zs : List ℝ) (D : Cuboid) (hD : Cuboid.init xs ys zs = .ok D)
    (hlt : ∀ i, gridLo ![xs, ys, zs] i < gridHi ![xs, ys, zs] i) (y : Fin 3 → ℝ) (a b i j i' j' : ℕ) (F F' : Face)
    (ha : D.faces[a]? = some F) (hb : D.faces[b]? = some F')
    (h1 : y F.const_axis = F.const_val)
    (h2 : i + 1 < F.axis1_vals.length ∧ F.axis1_vals.getD i 0 < y F.axis1 ∧ y F.axis1 < F.axis1_vals.getD (i + 1) 0)
    (h3 : j + 1 < F.axis2_vals.length ∧ F.axis2_vals.getD j 0 < y F.axis2 ∧ y F.axis2 < F.axis2_vals.getD (j + 1) 0)
    (h1' : y F'.const_axis = F'.const_val)
    (h2' : i' + 1 < F'.axis1_vals.length ∧ F'.axis1_vals.getD i' 0 ≤ y F'.axis1 ∧ y F'.axis1 ≤ F'.axis1_vals.getD (i' + 1) 0)
    (h3' : j' + 1 < F'.axis2_vals.length ∧ F'.axis2_vals.getD j' 0 ≤ y F'.axis2 ∧ y F'.axis2 ≤ F'.axis2_vals.getD (j' + 1) 0) :
    a = b ∧ i = i' ∧ j = j' := by
  obtain ⟨hx, hy, hz, rfl⟩ := init_inv hD
  have key : ∀ l : List ℝ, IsGrid l → ∀ i x, i + 1 < l.length → l.getD i 0 < x → x < l.getD (i + 1) 0 →
      l.headD 0 < x ∧ x < l.getLastD 0 := by
    intro l hl i x hi h1 h2
    have e1 : l.getD 0 0 = l.headD 0 := by cases l <;> simp
    have e2 : l.getD (l.length - 1) 0 = l.getLastD 0 := by
      rw [List.getD_eq_getElem?_getD, ← List.getLast?_eq_getElem?, List.getLastD_eq_getLast?]
    have m1 := getD_mono hl.2 (Nat.zero_le i) (by omega)
    have m2 := getD_mono hl.2 (by omega : i + 1 ≤ l.length - 1) (by omega)
    rw [e1] at m1
    rw [e2] at m2
    exact ⟨by linarith, by linarith⟩
  have l0 : xs.headD 0 < xs.getLastD 0 := hlt 0
  have l1 : ys.headD 0 < ys.getLastD 0 := hlt 1
  have l2 : zs.headD 0 < zs.getLastD 0 := hlt 2
  simp only [sides] at ha hb
  have ha' : a < 6 := by
    by_contra h
    rw [List.getElem?_eq_none (by simp; omega)] at ha
    cases ha
  have hb' : b < 6 := by
    by_contra h
    rw [List.getElem?_eq_none (by simp; omega)] at hb
    cases hb
  have uniq := @cell_unique
  have g0 : gridLo (grids xs ys zs) 0 = xs.headD 0 := rfl
  have g1 : gridLo (grids xs ys zs) 1 = ys.headD 0 := rfl
  have g2 : gridLo (grids xs ys zs) 2 = zs.headD 0 := rfl
  have g3 : gridHi (grids xs ys zs) 0 = xs.getLastD 0 := rfl
  have g4 : gridHi (grids xs ys zs) 1 = ys.getLastD 0 := rfl
  have g5 : gridHi (grids xs ys zs) 2 = zs.getLastD 0 := rfl
  interval_cases a <;> simp only [List.getElem?_cons_zero, List.getElem?_cons_succ, Option.some.injEq] at ha <;> subst ha <;>
    interval_cases b <;> simp only [List.getElem?_cons_zero, List.getElem?_cons_succ, Option.some.injEq] at hb <;> subst hb <;>
    simp only [faces_.face] at h1 h2 h3 h1' h2' h3' <;>
    first
    | exact ⟨rfl, uniq (by first | exact hx.2 | exact hy.2) h2.1 h2'.1 h2.2.1 h2.2.2 h2'.2.1 h2'.2.2,
        uniq (by first | exact hz.2 | exact hy.2) h3.1 h3'.1 h3.2.1 h3.2.2 h3'.2.1 h3'.2.2⟩
    | (exfalso
       have kx := key _ (by assumption) _ _ h2.1 h2.2.1 h2.2.2
       have ky := key _ (by assumption) _ _ h3.1 h3.2.1 h3.2.2
       simp only [g0, g1, g2, g3, g4, g5] at h1 h1'
       linarith [kx.1, kx.2, ky.1, ky.2])

/-- The midpoints are the centres of the cells. -/
theorem C95_midpoints (xs ys zs : List ℝ) (D : Cuboid) (hD : Cuboid.init xs ys zs = .ok D) (F : Face) (hF : F ∈ D.faces)
    (i j : ℕ) (hi : i + 1 < F.axis1_vals.length) (hj : j + 1 < F.axis2_vals.length) :
    F.midpoints.length + 1 = F.axis1_vals.length ∧ (∀ row ∈ F.midpoints, row.length + 1 = F.axis2_vals.length) ∧
    ∃ row c, F.midpoints[i]? = some row ∧ row[j]? = some c ∧ c F.const_axis = F.const_val ∧
      c F.axis1 = (F.axis1_vals.getD i 0 + F.axis1_vals.getD (i + 1) 0) / 2 ∧
      c F.axis2 = (F.axis2_vals.getD j 0 + F.axis2_vals.getD (j + 1) 0) / 2 := by
  obtain ⟨-, -, -, rfl⟩ := init_inv hD
  obtain ⟨h1, h2, h3⟩ := isSide_of_mem hF
  rw [h3, midpoints_eq]
  have len : ∀ l : List ℝ, (gridCells l).length = l.length - 1 := by intro l; simp [gridCells]
  have get : ∀ (l : List ℝ) (i : ℕ), i + 1 < l.length → (gridCells l)[i]? = some (l.getD i 0, l.getD (i + 1) 0) := by
    intro l i hi
    have h4 : i < l.length := by omega
    rw [List.getElem?_eq_getElem (by rw [len]; omega)]
    simp [gridCells, List.getD_eq_getElem?_getD, hi, h4]
  refine ⟨by simp [len]; omega, ?_, ?_⟩
  · intro row hrow
    obtain ⟨d, -, rfl⟩ := List.mem_map.mp hrow
    simp [len]
    omega
  · refine ⟨_, _, by rw [List.getElem?_map, get _ _ hi]; rfl, by rw [List.getElem?_map, get _ _ hj]; rfl, ?_⟩
    rw [h1, h2]
    simp [planePoint]

/-- Non-vacuity: a point in the interior of the second cell of the side `x = 1`. -/
example : ∃ D F, Cuboid.init [0, 1] [0, 2, 3] [-1, 1] = .ok D ∧ D.faces[5]? = some F ∧
    (![1, 5 / 2, 0] : Fin 3 → ℝ) F.const_axis = F.const_val ∧
    (1 + 1 < F.axis1_vals.length ∧ F.axis1_vals.getD 1 0 < (![1, 5 / 2, 0] : Fin 3 → ℝ) F.axis1 ∧
      (![1, 5 / 2, 0] : Fin 3 → ℝ) F.axis1 < F.axis1_vals.getD (1 + 1) 0) ∧
    (0 + 1 < F.axis2_vals.length ∧ F.axis2_vals.getD 0 0 < (![1, 5 / 2, 0] : Fin 3 → ℝ) F.axis2 ∧
      (![1, 5 / 2, 0] : Fin 3 → ℝ) F.axis2 < F.axis2_vals.getD (0 + 1) 0) := by
  refine ⟨_, _, init_ok ⟨by simp, by simp⟩ ⟨by simp, by simp; norm_num⟩ ⟨by simp, by simp⟩, rfl, rfl, ?_, ?_⟩
  · simp [faces_.face]
    norm_num
  · simp [faces_.face]

end Verif
