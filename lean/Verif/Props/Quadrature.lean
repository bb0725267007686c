import Verif.Lemmas.Quadrature
import Mathlib.Algebra.Polynomial.Degree.Operations
import Mathlib.Algebra.Polynomial.Degree.Lemmas

/-! # Properties of the one dimensional quadrature rules -/

namespace Verif

open Polynomial

/-! ## C45 -/

theorem exactOn_of_cell {r : List ℝ × List ℝ} {D : ℕ} {l : List ℝ} (hl : l ≠ []) (q : (ℝ → ℝ) → ℝ → ℝ → ℝ)
    (hq : ∀ f : ℝ → ℝ, quad r f = cellSum (q f) l)
    (hc : ∀ p : ℝ[X], p.natDegree ≤ D → ∀ a b, q (fun x => p.eval x) a b = ∫ x in a..b, p.eval x) :
    ExactOn r D (l.head hl) (l.getLast hl) := by
  intro p hp
  rw [hq, cellSum_congr (hc p hp), cellSum_integral _ p.continuous]

theorem C45_midpoint_exact (l : List ℝ) (hl : l ≠ []) :
    ExactOn (midpoint l) 1 (l.head hl) (l.getLast hl) := by
  refine exactOn_of_cell hl (fun f a b => (b - a) • f ((b + a) / 2)) (quad_midpoint l) fun p hp a b => ?_
  simp only [eval_cubic p (by omega), (coeff_zero_of_linear p hp).1, (coeff_zero_of_linear p hp).2, smul_eq_mul,
    integral_cubic]
  ring

theorem C45_trap_exact (l : List ℝ) (hl : l ≠ []) :
    ExactOn (trap l) 1 (l.head hl) (l.getLast hl) := by
  refine exactOn_of_cell hl (fun f a b => ((b - a) / 2) • (f a + f b)) (quad_trap l hl) fun p hp a b => ?_
  simp only [eval_cubic p (by omega), (coeff_zero_of_linear p hp).1, (coeff_zero_of_linear p hp).2, smul_eq_mul,
    integral_cubic]
  ring

example : quad (midpoint [0, 1, 3]) (fun x => (X : ℝ[X]).eval x) = quad (trap [0, 1, 3]) fun x => (X : ℝ[X]).eval x :=
  (C45_midpoint_exact [0, 1, 3] (by simp) X (by simp)).trans (C45_trap_exact [0, 1, 3] (by simp) X (by simp)).symm

theorem C45_simpson_exact (l : List ℝ) (hl : l ≠ []) (h2 : 2 ≤ l.length) :
    ExactOn (simpson l) 3 (l.head hl) (l.getLast hl) := by
  refine exactOn_of_cell hl (fun f a b => ((b - a) / 6) • (f a + (4 : ℝ) • f ((a + b) / 2) + f b))
    (quad_simpson l h2) fun p hp a b => ?_
  simp only [eval_cubic p hp, smul_eq_mul, integral_cubic]
  ring

/-- On the grid `0, 1, 3, 7` Simpson integrates `x ^ 3` exactly. -/
example : quad (simpson [0, 1, 3, 7]) (fun x => (X ^ 3 : ℝ[X]).eval x) = ∫ x in (0:ℝ)..7, (X ^ 3 : ℝ[X]).eval x :=
  C45_simpson_exact [0, 1, 3, 7] (by simp) (by simp) (X ^ 3) (by simp)

/-- The degrees are the best possible: midpoint and trapezoid fail for `x ^ 2` and Simpson for `x ^ 4`, already
on one cell. -/
theorem C45_degrees_sharp : ¬ ExactOn (midpoint [0, 1]) 2 0 1 ∧ ¬ ExactOn (trap [0, 1]) 2 0 1 ∧
    ¬ ExactOn (simpson [0, 1]) 4 0 1 := by
  refine ⟨fun h => ?_, fun h => ?_, fun h => ?_⟩
  · have := h (X ^ 2) (by simp)
    rw [quad_midpoint] at this
    norm_num [cellSum, integral_pow] at this
  · have := h (X ^ 2) (by simp)
    rw [quad_trap _ (by simp)] at this
    norm_num [cellSum, integral_pow] at this
  · have := h (X ^ 4) (by simp)
    rw [quad_simpson _ (by simp)] at this
    norm_num [cellSum, integral_pow] at this

/-! ## C46 -/

theorem cellSum_sub (l : List ℝ) (hl : l ≠ []) : cellSum (fun a b => b - a) l = l.getLast hl - l.head hl := by
  induction l with
  | nil => exact absurd rfl hl
  | cons a l ih =>
    cases l with
    | nil => simp [cellSum]
    | cons b r => rw [cellSum, ih (List.cons_ne_nil b r)]; simp

theorem sum_eq_quad (r : List ℝ × List ℝ) (h : r.1.length = r.2.length) : r.1.sum = quad r fun _ => (1 : ℝ) := by
  obtain ⟨w, x⟩ := r
  simp only [quad, smul_eq_mul, mul_one]
  congr 1
  induction w generalizing x with
  | nil => simp
  | cons a w ih =>
    cases x with
    | nil => simp at h
    | cons b x => simp only [List.zipWith_cons_cons, ← ih x (by simpa using h)]

theorem getD_getElem (l : List ℝ) {j : ℕ} (h : j < l.length) : l.getD j 0 = l[j] := by
  rw [List.getD_eq_getElem?_getD, List.getElem?_eq_getElem h]; rfl

theorem grid_bounds (l : List ℝ) (hl : l ≠ []) (hs : l.Pairwise (· < ·)) :
    ∀ x ∈ l, l.head hl ≤ x ∧ x ≤ l.getLast hl := by
  induction l with
  | nil => exact absurd rfl hl
  | cons a l ih =>
    cases l with
    | nil => simp
    | cons b r =>
      have ih := ih (List.cons_ne_nil b r) hs.of_cons
      have hab : a < b := (List.pairwise_cons.mp hs).1 b (by simp)
      intro x hx
      simp only [List.head_cons, List.getLast_cons_cons] at ih ⊢
      rcases List.mem_cons.mp hx with rfl | hx
      · exact ⟨le_refl _, le_trans hab.le (ih b (by simp)).2⟩
      · exact ⟨le_trans hab.le (ih x hx).1, (ih x hx).2⟩

theorem midpoint_length (l : List ℝ) : (midpoint l).1.length = (midpoint l).2.length := by simp [midpoint]

theorem trap_length (l : List ℝ) (hl : l ≠ []) : (trap l).1.length = (trap l).2.length := by
  have := List.length_pos_of_ne_nil hl
  simp [trap]; omega

theorem simpson_length (l : List ℝ) : (simpson l).1.length = (simpson l).2.length := by simp [simpson]

theorem gauss_cons (xs ws : List ℝ) (a b : ℝ) (r : List ℝ) :
    gauss xs ws (a :: b :: r) = ((ws.map fun w => (b - a) / 2 * w) ++ (gauss xs ws (b :: r)).1,
      (xs.map fun x => (a + b) / 2 + x * (b - a) / 2) ++ (gauss xs ws (b :: r)).2) := by
  simp [gauss]

theorem gauss_length (xs ws : List ℝ) (h : ws.length = xs.length) (l : List ℝ) :
    (gauss xs ws l).1.length = (gauss xs ws l).2.length := by
  induction l with
  | nil => simp [gauss]
  | cons a l ih =>
    cases l with
    | nil => simp [gauss]
    | cons b r => rw [gauss_cons]; simp [h, ih]

theorem sum_of_affine {m : QuadRule} {l : List ℝ} (hl : l ≠ []) (h : (m l).1.length = (m l).2.length)
    (he : ∃ D, ExactOn (m l) D (l.head hl) (l.getLast hl)) : (m l).1.sum = l.getLast hl - l.head hl := by
  obtain ⟨D, he⟩ := he
  rw [sum_eq_quad _ h]
  have := he 1 (by simp)
  simpa using this

theorem wellFormed_mk {r : List ℝ × List ℝ} {a b : ℝ} (h1 : r.1.length = r.2.length) (h2 : r.1.sum = b - a)
    (h : (∀ w ∈ r.1, 0 < w) ∧ ∀ x ∈ r.2, a ≤ x ∧ x ≤ b) : WellFormed r a b := ⟨h1, h2, h.1, h.2⟩

theorem C46_midpoint (l : List ℝ) (hl : l ≠ []) :
    (midpoint l).1.length = l.length - 1 ∧ (midpoint l).1.length = (midpoint l).2.length ∧
    (midpoint l).1.sum = l.getLast hl - l.head hl ∧
    (l.Pairwise (· < ·) → WellFormed (midpoint l) (l.head hl) (l.getLast hl)) := by
  have h2 := sum_of_affine hl (midpoint_length l) ⟨1, C45_midpoint_exact l hl⟩
  refine ⟨by simp [midpoint], midpoint_length l, h2, fun hs => wellFormed_mk (midpoint_length l) h2 ?_⟩
  clear h2
  induction l with
  | nil => exact absurd rfl hl
  | cons a l ih =>
    cases l with
    | nil => simp [midpoint]
    | cons b r =>
      obtain ⟨ih1, ih2⟩ := ih (List.cons_ne_nil b r) hs.of_cons
      have hab : a < b := (List.pairwise_cons.mp hs).1 b (by simp)
      have hb := grid_bounds _ (List.cons_ne_nil b r) hs.of_cons
      have e : midpoint (a :: b :: r) = ((b - a) :: (midpoint (b :: r)).1, ((b + a) / 2) :: (midpoint (b :: r)).2) := by
        simp [midpoint]
      rw [e]
      simp only [List.head_cons, List.getLast_cons_cons] at ih2 hb ⊢
      have hbl := (hb b (by simp)).2
      constructor
      · intro w hw
        rcases List.mem_cons.mp hw with rfl | hw
        · linarith
        · exact ih1 w hw
      · intro x hx
        rcases List.mem_cons.mp hx with rfl | hx
        · constructor <;> linarith
        · exact ⟨le_trans hab.le (ih2 x hx).1, (ih2 x hx).2⟩

example : WellFormed (midpoint [0, 1, 3]) 0 3 := (C46_midpoint [0, 1, 3] (by simp)).2.2.2 (by norm_num)

theorem trap_pos_aux (l : List ℝ) (hl : l ≠ []) (hs : l.Pairwise (· < ·)) (c : ℝ) (hc : 0 ≤ c)
    (h : 0 < c ∨ 2 ≤ l.length) :
    ∀ w ∈ List.zipWith (fun a b => (a + b) / 2)
      (List.zipWith (fun b a => b - a) l.tail l.dropLast ++ [0])
      (c :: List.zipWith (fun b a => b - a) l.tail l.dropLast), 0 < w := by
  induction l generalizing c with
  | nil => exact absurd rfl hl
  | cons a l ih =>
    cases l with
    | nil =>
      have : 0 < c := by simpa using h
      simpa using this
    | cons b r =>
      have hab : a < b := (List.pairwise_cons.mp hs).1 b (by simp)
      have := ih (List.cons_ne_nil b r) hs.of_cons (b - a) (by linarith) (Or.inl (by linarith))
      simp only [List.tail_cons, List.dropLast_cons_cons, List.zipWith_cons_cons, List.cons_append] at this ⊢
      intro w hw
      rcases List.mem_cons.mp hw with rfl | hw
      · linarith
      · exact this w hw

theorem C46_trap (l : List ℝ) (hl : l ≠ []) :
    (trap l).1.length = l.length ∧ (trap l).1.length = (trap l).2.length ∧
    (trap l).1.sum = l.getLast hl - l.head hl ∧
    (l.Pairwise (· < ·) → 2 ≤ l.length → WellFormed (trap l) (l.head hl) (l.getLast hl)) := by
  have h2 := sum_of_affine hl (trap_length l hl) ⟨1, C45_trap_exact l hl⟩
  refine ⟨by rw [trap_length l hl]; rfl, trap_length l hl, h2, fun hs hn => ⟨trap_length l hl, h2, ?_, ?_⟩⟩
  · exact trap_pos_aux l hl hs 0 (le_refl _) (Or.inr hn)
  · exact grid_bounds l hl hs

theorem C46_simpson (l : List ℝ) (hl : l ≠ []) (hn : 2 ≤ l.length) :
    (simpson l).1.length = 2 * l.length - 1 ∧ (simpson l).1.length = (simpson l).2.length ∧
    (simpson l).1.sum = l.getLast hl - l.head hl ∧
    (l.Pairwise (· < ·) → WellFormed (simpson l) (l.head hl) (l.getLast hl)) := by
  have h2 := sum_of_affine hl (simpson_length l) ⟨3, C45_simpson_exact l hl hn⟩
  refine ⟨by simp [simpson]; omega, simpson_length l, h2, fun hs => wellFormed_mk (simpson_length l) h2 ?_⟩
  obtain ⟨c, hc⟩ : ∃ c, l.length = c + 2 := ⟨l.length - 2, by omega⟩
  obtain ⟨u, v, hu, hv, u0, v0, un, vn, hodd, heven⟩ := simpson_entries l c hc
  have hlt : ∀ j < c + 1, l.getD j 0 < l.getD (j + 1) 0 := by
    intro j hj
    rw [getD_getElem l (by omega), getD_getElem l (by omega)]
    exact List.pairwise_iff_getElem.mp hs j (j + 1) (by omega) (by omega) (by omega)
  have hmem : ∀ j < c + 2, l.head hl ≤ l.getD j 0 ∧ l.getD j 0 ≤ l.getLast hl := by
    intro j hj
    rw [getD_getElem l (by omega)]
    exact grid_bounds l hl hs _ (List.getElem_mem _)
  have hcase : ∀ i < 2 * c + 3, i = 0 ∨ i = 2 * c + 2 ∨ (∃ j < c + 1, i = 2 * j + 1) ∨ ∃ j < c, i = 2 * j + 2 := by
    intro i hi
    rcases Nat.even_or_odd' i with ⟨k, rfl | rfl⟩
    · rcases k with _ | k
      · left; rfl
      · by_cases hk : k = c
        · right; left; omega
        · right; right; right; exact ⟨k, by omega, by ring⟩
    · right; right; left; exact ⟨k, by omega, rfl⟩
  rw [hu, hv]
  constructor
  · intro w hw
    obtain ⟨i, hi, rfl⟩ := List.mem_map.mp hw
    rcases hcase i (List.mem_range.mp hi) with rfl | rfl | ⟨j, hj, rfl⟩ | ⟨j, hj, rfl⟩
    · rw [u0]; have := hlt 0 (by omega); linarith
    · rw [un]; have := hlt c (by omega); linarith
    · rw [(hodd j hj).1]; have := hlt j hj; linarith
    · rw [(heven j hj).1]; have := hlt j (by omega); have := hlt (j + 1) (by omega); linarith
  · intro x hx
    obtain ⟨i, hi, rfl⟩ := List.mem_map.mp hx
    rcases hcase i (List.mem_range.mp hi) with rfl | rfl | ⟨j, hj, rfl⟩ | ⟨j, hj, rfl⟩
    · rw [v0]; exact hmem 0 (by omega)
    · rw [vn]; exact hmem _ (by omega)
    · rw [(hodd j hj).2]
      have h1 := hmem j (by omega); have h2 := hmem (j + 1) (by omega)
      constructor <;> linarith [h1.1, h1.2, h2.1, h2.2]
    · rw [(heven j hj).2]; exact hmem _ (by omega)

/-- For the Gauss rule with a well formed reference rule on `[-1, 1]`. -/
theorem C46_gauss (xs ws : List ℝ) (href : WellFormed (ws, xs) (-1) 1) (l : List ℝ) (hl : l ≠ []) :
    (gauss xs ws l).1.length = (l.length - 1) * ws.length ∧
    (gauss xs ws l).1.length = (gauss xs ws l).2.length ∧
    (gauss xs ws l).1.sum = l.getLast hl - l.head hl ∧
    (l.Pairwise (· < ·) → WellFormed (gauss xs ws l) (l.head hl) (l.getLast hl)) := by
  have hlen := gauss_length xs ws href.length_eq l
  have hsum : (gauss xs ws l).1.sum = l.getLast hl - l.head hl := by
    clear hlen
    induction l with
    | nil => exact absurd rfl hl
    | cons a l ih =>
      cases l with
      | nil => simp [gauss]
      | cons b r =>
        rw [gauss_cons]
        have := href.sum_eq
        simp only at this
        have e : (List.map (fun w => (b - a) / 2 * w) ws).sum = (b - a) / 2 * ws.sum := by
          rw [List.sum_map_mul_left, List.map_id']
        simp only [List.sum_append, ih (List.cons_ne_nil b r), e, this]
        simp only [List.head_cons, List.getLast_cons_cons]; ring
  refine ⟨?_, hlen, hsum, fun hs => wellFormed_mk (hlen) hsum ?_⟩
  · clear hlen hsum
    induction l with
    | nil => exact absurd rfl hl
    | cons a l ih =>
      cases l with
      | nil => simp [gauss]
      | cons b r =>
        rw [gauss_cons]
        simp only [List.length_append, ih (List.cons_ne_nil b r), List.length_map, List.length_cons]
        simp only [Nat.add_sub_cancel]; ring
  · clear hlen hsum
    induction l with
    | nil => exact absurd rfl hl
    | cons a l ih =>
      cases l with
      | nil => simp [gauss]
      | cons b r =>
        obtain ⟨ih1, ih2⟩ := ih (List.cons_ne_nil b r) hs.of_cons
        have hab : a < b := (List.pairwise_cons.mp hs).1 b (by simp)
        have hb := grid_bounds _ (List.cons_ne_nil b r) hs.of_cons
        rw [gauss_cons]
        simp only [List.head_cons, List.getLast_cons_cons] at ih2 hb ⊢
        have hbl := (hb b (by simp)).2
        constructor
        · intro w hw
          rcases List.mem_append.mp hw with hw | hw
          · obtain ⟨w', hw', rfl⟩ := List.mem_map.mp hw
            exact mul_pos (by linarith) (href.pos w' hw')
          · exact ih1 w hw
        · intro x hx
          rcases List.mem_append.mp hx with hx | hx
          · obtain ⟨x', hx', rfl⟩ := List.mem_map.mp hx
            obtain ⟨h1, h2⟩ := href.mem x' hx'
            constructor <;> nlinarith
          · exact ⟨le_trans hab.le (ih2 x hx).1, (ih2 x hx).2⟩

example : WellFormed (gauss [-(1/2), 1/2] [1, 1] [0, 1, 3]) 0 3 :=
  (C46_gauss [-(1/2), 1/2] [1, 1] ⟨by simp, by norm_num, by norm_num, by norm_num⟩ [0, 1, 3] (by simp)).2.2.2 (by norm_num)

/-- Bounds on the integrand give bounds on the result. -/
theorem C46_bounds (r : List ℝ × List ℝ) (a b : ℝ) (hr : WellFormed r a b) (f : ℝ → ℝ) (m M : ℝ)
    (hf : ∀ x, a ≤ x → x ≤ b → m ≤ f x ∧ f x ≤ M) :
    m * (b - a) ≤ quad r f ∧ quad r f ≤ M * (b - a) := by
  obtain ⟨w, x⟩ := r
  obtain ⟨h1, h2, h3, h4⟩ := hr
  rw [← h2]
  simp only [quad] at *
  clear h2
  induction w generalizing x with
  | nil => simp
  | cons w ws ih =>
    cases x with
    | nil => simp at h1
    | cons x xs =>
      obtain ⟨i1, i2⟩ := ih xs (by simpa using h1) (fun w hw => h3 w (by simp [hw]))
        (fun x hx => h4 x (by simp [hx]))
      have hx := h4 x (by simp)
      obtain ⟨f1, f2⟩ := hf x hx.1 hx.2
      have hw := h3 w (by simp)
      simp only [List.zipWith_cons_cons, List.sum_cons, smul_eq_mul] at i1 i2 ⊢
      constructor <;> nlinarith

example : WellFormed (simpson [0, 1, 3]) 0 3 :=
  (C46_simpson [0, 1, 3] (by simp) (by simp)).2.2.2 (by norm_num)

example : WellFormed ([1, 1], [-(1/2), 1/2]) (-1) 1 :=
  ⟨by simp, by norm_num, by norm_num, by norm_num⟩

/-! ## C47 -/

theorem quad_mul_comp (xs ws : List ℝ) (c : ℝ) (t : ℝ → ℝ) (f : ℝ → ℝ) :
    quad (ws.map fun w => c * w, xs.map t) f = c * quad (ws, xs) (fun x => f (t x)) := by
  simp only [quad, List.zipWith_map, smul_eq_mul]
  induction ws generalizing xs with
  | nil => simp
  | cons w ws ih =>
    cases xs with
    | nil => simp
    | cons x xs => simp only [List.zipWith_cons_cons, List.sum_cons, ih]; ring

theorem C47_gauss_exact (xs ws : List ℝ) (hlen : ws.length = xs.length) (D : ℕ)
    (href : ExactOn (ws, xs) D (-1) 1) (l : List ℝ) (hl : l ≠ []) :
    ExactOn (gauss xs ws l) D (l.head hl) (l.getLast hl) := by
  refine exactOn_of_cell hl _ (quad_gauss xs ws hlen l) fun p hp a b => ?_
  rw [quad_mul_comp]
  have e : ∀ x, p.eval ((a + b) / 2 + x * (b - a) / 2) =
      (p.comp (C ((a + b) / 2) + C ((b - a) / 2) * X)).eval x := by
    intro x
    simp only [eval_comp, eval_add, eval_mul, eval_C, eval_X]
    congr 1; ring
  have hdeg : (p.comp (C ((a + b) / 2) + C ((b - a) / 2) * X)).natDegree ≤ D := by
    refine le_trans natDegree_comp_le ?_
    have : (C ((a + b) / 2) + C ((b - a) / 2) * X).natDegree ≤ 1 := by
      rw [add_comm]; exact natDegree_linear_le
    calc _ ≤ D * 1 := Nat.mul_le_mul hp this
      _ = D := by ring
  simp only [e]
  rw [href _ hdeg]
  simp only [eval_comp, eval_add, eval_mul, eval_C, eval_X]
  rw [intervalIntegral.mul_integral_comp_add_mul (f := fun x => p.eval x)]
  congr 1 <;> ring

/-- The reference rule with one node (`degree = 1`) is the midpoint rule, exact for degree one. -/
example (l : List ℝ) (hl : l ≠ []) : ExactOn (gauss [0] [2] l) 1 (l.head hl) (l.getLast hl) :=
  C47_gauss_exact [0] [2] rfl 1 (fun p hp => by
    simp only [eval_cubic p (by omega), (coeff_zero_of_linear p hp).1, (coeff_zero_of_linear p hp).2, integral_cubic,
      quad]
    simp; ring) l hl

/-- The four rules as exact rules. -/
theorem C45_exactRule_midpoint : ExactRule midpoint 1 := fun l h _ => ⟨midpoint_length l, C45_midpoint_exact l h⟩

theorem C45_exactRule_trap : ExactRule trap 1 := fun l h _ => ⟨trap_length l h, C45_trap_exact l h⟩

theorem C45_exactRule_simpson : ExactRule simpson 3 :=
  fun l h h2 => ⟨simpson_length l, C45_simpson_exact l h h2⟩

theorem C47_exactRule_gauss (xs ws : List ℝ) (hlen : ws.length = xs.length) (D : ℕ)
    (href : ExactOn (ws, xs) D (-1) 1) : ExactRule (gauss xs ws) D :=
  fun l h _ => ⟨gauss_length xs ws hlen l, C47_gauss_exact xs ws hlen D href l h⟩

example : ExactRule (gauss [0] [2]) 1 :=
  C47_exactRule_gauss [0] [2] rfl 1 fun p hp => by
    simp only [eval_cubic p (by omega), (coeff_zero_of_linear p hp).1, (coeff_zero_of_linear p hp).2, integral_cubic,
      quad]
    simp; ring

end Verif
