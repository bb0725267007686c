import Verif.Model.Integrate
import Verif.Spec.Quadrature
import Mathlib.Analysis.SpecialFunctions.Integrals.Basic
import Mathlib.Algebra.Polynomial.Eval.Degree
import Mathlib.Topology.Algebra.Polynomial

/-! # Composite rules as sums over cells -/

namespace Verif

open Polynomial

section
variable {E : Type*} [AddCommGroup E] [Module ℝ E]

/-- Sum over the cells of a grid. -/
def cellSum (g : ℝ → ℝ → E) : List ℝ → E
  | a :: b :: r => g a b + cellSum g (b :: r)
  | _ => 0

omit [Module ℝ E] in
theorem cellSum_congr {g h : ℝ → ℝ → E} (e : ∀ a b, g a b = h a b) (l : List ℝ) : cellSum g l = cellSum h l := by
  have : g = h := funext fun a => funext fun b => e a b
  rw [this]

omit [Module ℝ E] in
theorem cellSum_eq_sum (g : ℝ → ℝ → E) (l : List ℝ) :
    cellSum g l = ∑ j ∈ Finset.range (l.length - 1), g (l.getD j 0) (l.getD (j + 1) 0) := by
  induction l with
  | nil => simp [cellSum]
  | cons a l ih =>
    cases l with
    | nil => simp [cellSum]
    | cons b r =>
      rw [cellSum, ih]
      simp only [List.length_cons, Nat.add_sub_cancel]
      rw [Finset.sum_range_succ', add_comm]
      simp only [List.getD_cons_succ, List.getD_cons_zero]

theorem quad_midpoint (l : List ℝ) (f : ℝ → E) :
    quad (midpoint l) f = cellSum (fun a b => (b - a) • f ((b + a) / 2)) l := by
  induction l with
  | nil => simp [quad, midpoint, cellSum]
  | cons a l ih =>
    cases l with
    | nil => simp [quad, midpoint, cellSum]
    | cons b r =>
      rw [cellSum, ← ih]
      simp [quad, midpoint]

theorem quad_trap_aux (l : List ℝ) (hl : l ≠ []) (c : ℝ) (f : ℝ → E) :
    (List.zipWith (fun w x => w • f x) (List.zipWith (fun a b => (a + b) / 2)
      (List.zipWith (fun b a => b - a) l.tail l.dropLast ++ [0])
      (c :: List.zipWith (fun b a => b - a) l.tail l.dropLast)) l).sum =
      (c / 2) • f (l.head hl) + cellSum (fun a b => ((b - a) / 2) • (f a + f b)) l := by
  induction l generalizing c with
  | nil => exact absurd rfl hl
  | cons a l ih =>
    cases l with
    | nil => simp [cellSum]
    | cons b r =>
      have := ih (List.cons_ne_nil b r) (b - a)
      simp only [List.tail_cons, List.dropLast_cons_cons, List.zipWith_cons_cons, List.cons_append,
        List.sum_cons, List.head_cons, cellSum] at this ⊢
      rw [this, add_div, add_smul, smul_add]
      abel

theorem quad_trap (l : List ℝ) (hl : l ≠ []) (f : ℝ → E) :
    quad (trap l) f = cellSum (fun a b => ((b - a) / 2) • (f a + f b)) l := by
  have := quad_trap_aux l hl 0 f
  rw [zero_div, zero_smul, zero_add] at this
  exact this

omit [Module ℝ E] in
theorem sum_range_interleave (T α β γ : ℕ → E) (c : ℕ) (h0 : T 0 = α 0) (hn : T (2 * c + 2) = γ c)
    (hodd : ∀ j < c + 1, T (2 * j + 1) = β j) (heven : ∀ j < c, T (2 * j + 2) = γ j + α (j + 1)) :
    ∑ i ∈ Finset.range (2 * c + 3), T i = ∑ j ∈ Finset.range (c + 1), (α j + β j + γ j) := by
  have hpair : ∀ k, ∑ i ∈ Finset.range (2 * k), T i = ∑ j ∈ Finset.range k, (T (2 * j) + T (2 * j + 1)) := by
    intro k
    induction k with
    | zero => simp
    | succ k ih => rw [Finset.sum_range_succ, ← ih, Nat.mul_succ, Finset.sum_range_succ,
        Finset.sum_range_succ, add_assoc]
  rw [show 2 * c + 3 = (2 * (c + 1)) + 1 by ring, Finset.sum_range_succ, hpair,
    show 2 * (c + 1) = 2 * c + 2 by ring, hn, Finset.sum_add_distrib, Finset.sum_range_succ',
    Finset.sum_congr rfl (fun j hj => by
      rw [show 2 * (j + 1) = 2 * j + 2 by ring, heven j (Finset.mem_range.mp hj)]),
    Finset.sum_congr rfl (fun j hj => hodd j (Finset.mem_range.mp hj)), Finset.sum_add_distrib,
    Finset.sum_add_distrib, Finset.sum_add_distrib, mul_zero, h0, Finset.sum_range_succ' α c,
    Finset.sum_range_succ γ c]
  abel

theorem getD_dropLast (l : List ℝ) {j : ℕ} (h : j < l.length - 1) : l.dropLast[j]? = some (l.getD j 0) := by
  rw [List.getElem?_dropLast, if_pos h, List.getD_eq_getElem?_getD, List.getElem?_eq_getElem (by omega)]
  rfl

theorem getD_tail (l : List ℝ) {j : ℕ} (h : j < l.length - 1) : l.tail[j]? = some (l.getD (j + 1) 0) := by
  rw [List.getElem?_tail, List.getD_eq_getElem?_getD, List.getElem?_eq_getElem (by omega)]
  rfl

theorem getD_zip {α : Type*} (l : List ℝ) (g : ℝ → ℝ → α) (d : α) {j : ℕ} (h : j < l.length - 1) :
    (List.zipWith g l.dropLast l.tail).getD j d = g (l.getD j 0) (l.getD (j + 1) 0) := by
  rw [List.getD_eq_getElem?_getD, List.getElem?_zipWith, getD_dropLast l h, getD_tail l h]
  rfl

/-- Weights and nodes of Simpson's rule, as used in the sum. -/
theorem simpson_entries (l : List ℝ) (c : ℕ) (hl : l.length = c + 2) :
    ∃ u v : ℕ → ℝ, (simpson l).1 = (List.range (2 * c + 3)).map u ∧
      (simpson l).2 = (List.range (2 * c + 3)).map v ∧
      u 0 = (l.getD 1 0 - l.getD 0 0) / 6 ∧ v 0 = l.getD 0 0 ∧
      u (2 * c + 2) = (l.getD (c + 1) 0 - l.getD c 0) / 6 ∧ v (2 * c + 2) = l.getD (c + 1) 0 ∧
      (∀ j < c + 1, u (2 * j + 1) = (l.getD (j + 1) 0 - l.getD j 0) / 6 * 4 ∧
        v (2 * j + 1) = (l.getD j 0 + l.getD (j + 1) 0) / 2) ∧
      (∀ j < c, u (2 * j + 2) = (l.getD (j + 1) 0 - l.getD j 0) / 6 +
          (l.getD (j + 2) 0 - l.getD (j + 1) 0) / 6 ∧ v (2 * j + 2) = l.getD (j + 1) 0) := by
  have hn : l.length + l.length - 1 = 2 * c + 3 := by omega
  have hwl : (List.zipWith simpson.weights l.dropLast l.tail).length = c + 1 := by
    simp [hl]
  simp only [simpson, hn]
  refine ⟨_, _, rfl, rfl, ?_, ?_, ?_, ?_, ?_, ?_⟩
  · simp only [if_true]
    rw [getD_zip l _ _ (by omega)]; simp [simpson.weights]
  · simp
  · rw [if_neg (by omega), if_pos (by omega), hwl, Nat.add_sub_cancel, getD_zip l _ _ (by omega)]
    simp [simpson.weights]
  · rw [if_neg (by omega)]
    congr 1; omega
  · intro j hj
    constructor
    · rw [if_neg (by omega), if_neg (by omega), if_pos (by omega),
        show (2 * j + 1 - 1) / 2 = j by omega, getD_zip l _ _ (by omega)]
      simp [simpson.weights]
    · rw [if_pos (by omega), show (2 * j + 1 - 1) / 2 = j by omega, getD_zip l _ _ (by omega)]
  · intro j hj
    constructor
    · rw [if_neg (by omega), if_neg (by omega), if_neg (by omega),
        show (2 * j + 2) / 2 - 1 = j by omega, show (2 * j + 2) / 2 = j + 1 by omega,
        getD_zip l _ _ (by omega), getD_zip l _ _ (by omega)]
      simp [simpson.weights]
    · rw [if_neg (by omega), show (2 * j + 2) / 2 = j + 1 by omega]

theorem quad_map_range (u v : ℕ → ℝ) (n : ℕ) (f : ℝ → E) :
    quad ((List.range n).map u, (List.range n).map v) f = ∑ i ∈ Finset.range n, u i • f (v i) := by
  rw [quad]
  simp only [List.zipWith_map, List.zipWith_self, Finset.sum_range]
  rw [← List.sum_ofFn]
  congr 1
  apply List.ext_getElem
  · simp
  · intro i h1 h2
    simp

theorem quad_simpson (l : List ℝ) (hl : 2 ≤ l.length) (f : ℝ → E) :
    quad (simpson l) f =
      cellSum (fun a b => ((b - a) / 6) • (f a + (4 : ℝ) • f ((a + b) / 2) + f b)) l := by
  obtain ⟨c, hc⟩ : ∃ c, l.length = c + 2 := ⟨l.length - 2, by omega⟩
  obtain ⟨u, v, hu, hv, u0, v0, un, vn, hodd, heven⟩ := simpson_entries l c hc
  have e : simpson l = ((List.range (2 * c + 3)).map u, (List.range (2 * c + 3)).map v) := Prod.ext hu hv
  rw [e, quad_map_range, cellSum_eq_sum, hc, Nat.add_sub_cancel_right (n := c + 1) (m := 1) |> fun h => h]
  rw [sum_range_interleave (fun i => u i • f (v i))
    (fun j => ((l.getD (j + 1) 0 - l.getD j 0) / 6) • f (l.getD j 0))
    (fun j => ((l.getD (j + 1) 0 - l.getD j 0) / 6 * 4) • f ((l.getD j 0 + l.getD (j + 1) 0) / 2))
    (fun j => ((l.getD (j + 1) 0 - l.getD j 0) / 6) • f (l.getD (j + 1) 0)) c]
  · refine Finset.sum_congr rfl fun j _ => ?_
    rw [smul_add, smul_add, smul_smul]
  · simp only [u0, v0, zero_add]
  · simp only [un, vn]
  · intro j hj
    simp only [(hodd j hj).1, (hodd j hj).2]
  · intro j hj
    simp only [(heven j hj).1, (heven j hj).2, add_smul]

theorem quad_append (w1 x1 w2 x2 : List ℝ) (h : w1.length = x1.length) (f : ℝ → E) :
    quad (w1 ++ w2, x1 ++ x2) f = quad (w1, x1) f + quad (w2, x2) f := by
  simp only [quad]
  rw [List.zipWith_append h, List.sum_append]

theorem quad_gauss (xs ws : List ℝ) (hlen : ws.length = xs.length) (l : List ℝ) (f : ℝ → E) :
    quad (gauss xs ws l) f = cellSum (fun a b => quad
      (ws.map fun w => (b - a) / 2 * w, xs.map fun x => (a + b) / 2 + x * (b - a) / 2) f) l := by
  induction l with
  | nil => simp [quad, gauss, cellSum]
  | cons a l ih =>
    cases l with
    | nil => simp [quad, gauss, cellSum]
    | cons b r =>
      rw [cellSum, ← ih]
      have e : gauss xs ws (a :: b :: r) = ((ws.map fun w => (b - a) / 2 * w) ++ (gauss xs ws (b :: r)).1,
          (xs.map fun x => (a + b) / 2 + x * (b - a) / 2) ++ (gauss xs ws (b :: r)).2) := by
        simp [gauss]
      rw [e, quad_append _ _ _ _ (by simp [hlen])]

end

/-- Integrals over the cells add up to the integral from the first to the last node. -/
theorem cellSum_integral (φ : ℝ → ℝ) (hφ : Continuous φ) (l : List ℝ) (hl : l ≠ []) :
    cellSum (fun a b => ∫ x in a..b, φ x) l = ∫ x in l.head hl..l.getLast hl, φ x := by
  induction l with
  | nil => exact absurd rfl hl
  | cons a l ih =>
    cases l with
    | nil => simp [cellSum]
    | cons b r =>
      rw [cellSum, ih (List.cons_ne_nil b r)]
      simp only [List.head_cons, List.getLast_cons_cons]
      exact intervalIntegral.integral_add_adjacent_intervals (hφ.intervalIntegrable _ _)
        (hφ.intervalIntegrable _ _)

theorem integral_cubic (c0 c1 c2 c3 a b : ℝ) :
    ∫ x in a..b, (c0 + c1 * x + c2 * x ^ 2 + c3 * x ^ 3) =
      c0 * (b - a) + c1 * ((b ^ 2 - a ^ 2) / 2) + c2 * ((b ^ 3 - a ^ 3) / 3) + c3 * ((b ^ 4 - a ^ 4) / 4) := by
  have i0 : IntervalIntegrable (fun _ : ℝ => c0) MeasureTheory.volume a b := continuous_const.intervalIntegrable _ _
  have i1 : IntervalIntegrable (fun x : ℝ => c1 * x) MeasureTheory.volume a b :=
    (continuous_const.mul continuous_id).intervalIntegrable _ _
  have i2 : IntervalIntegrable (fun x : ℝ => c2 * x ^ 2) MeasureTheory.volume a b :=
    (continuous_const.mul (continuous_pow 2)).intervalIntegrable _ _
  have i3 : IntervalIntegrable (fun x : ℝ => c3 * x ^ 3) MeasureTheory.volume a b :=
    (continuous_const.mul (continuous_pow 3)).intervalIntegrable _ _
  rw [intervalIntegral.integral_add ((i0.add i1).add i2) i3, intervalIntegral.integral_add (i0.add i1) i2,
    intervalIntegral.integral_add i0 i1]
  have e1 : ∫ x in a..b, c1 * x = c1 * ((b ^ 2 - a ^ 2) / 2) := by
    rw [intervalIntegral.integral_const_mul, integral_id]
  rw [e1]
  simp only [intervalIntegral.integral_const_mul, intervalIntegral.integral_const, integral_pow, smul_eq_mul]
  push_cast
  ring

theorem eval_cubic (p : ℝ[X]) (h : p.natDegree ≤ 3) (x : ℝ) :
    p.eval x = p.coeff 0 + p.coeff 1 * x + p.coeff 2 * x ^ 2 + p.coeff 3 * x ^ 3 := by
  rw [eval_eq_sum_range' (n := 4) (by omega)]
  simp [Finset.sum_range_succ]

theorem coeff_zero_of_linear (p : ℝ[X]) (h : p.natDegree ≤ 1) : p.coeff 2 = 0 ∧ p.coeff 3 = 0 :=
  ⟨coeff_eq_zero_of_natDegree_lt (by omega), coeff_eq_zero_of_natDegree_lt (by omega)⟩

end Verif
