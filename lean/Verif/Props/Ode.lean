import Verif.Model.Ode
import Mathlib.Analysis.SpecialFunctions.Integrals.Basic
import Mathlib.Algebra.Polynomial.Eval.Degree
import Mathlib.Topology.Algebra.Polynomial
import Mathlib.Algebra.Module.LinearMap.End
import Mathlib.Data.Nat.Factorial.Basic
import Verif.Lemmas.Quadrature

/-! # Properties of `odeint` -/

namespace Verif

open Polynomial

set_option linter.unusedSectionVars false

section
variable {E : Type*} [AddCommGroup E] [Module ℝ E]

/-! ## C51 -/

theorem scan_length {S X Y : Type*} (f : S → X → S × Y) (s : S) (l : List X) : (scan f s l).length = l.length := by
  induction l generalizing s with
  | nil => rfl
  | cons x xs ih => simp [scan, ih]

/-- One entry per time stamp, the first is the initial state. -/
theorem C51_length_head (df : E → ℝ → E) (y : E) (ts : List ℝ) (method : OdeMethod E) :
    (odeint df y ts method).length = ts.length ∧
    ∀ (h : 0 < (odeint df y ts method).length), (odeint df y ts method)[0] = y := by
  cases ts with
  | nil => simp [odeint]
  | cons t ts => simp [odeint, scan_length]

theorem odeint_cons (df : E → ℝ → E) (y : E) (t0 t1 : ℝ) (ts : List ℝ) (method : OdeMethod E) :
    odeint df y (t0 :: t1 :: ts) method = y :: odeint df (method df y t1 (t1 - t0)) (t1 :: ts) method := rfl

/-- The recurrence behind `odeint`: each state arises from the previous one by one step of the method, whose step is
the difference of the time stamps (and whose time is the *new* time stamp). -/
theorem C51_recurrence (df : E → ℝ → E) (y : E) (ts : List ℝ) (method : OdeMethod E) (i : ℕ)
    (h : i + 1 < (odeint df y ts method).length) (h' : i + 1 < ts.length) :
    (odeint df y ts method)[i + 1] = method df (odeint df y ts method)[i] ts[i + 1] (ts[i + 1] - ts[i]) := by
  induction ts generalizing y i with
  | nil => simp at h'
  | cons t0 ts ih =>
    cases ts with
    | nil => simp at h'
    | cons t1 ts =>
      simp only [odeint_cons]
      cases i with
      | zero => simp [odeint]
      | succ i =>
        simp only [List.getElem_cons_succ]
        exact ih _ i (by simpa [odeint_cons] using h) (by simpa using h')

example : (odeint (fun (y : ℝ) t => y + t) 1 [0, 1, 3] rk4)[2] =
    rk4 (fun y t => y + t) (odeint (fun (y : ℝ) t => y + t) 1 [0, 1, 3] rk4)[1] 3 (3 - 1) :=
  C51_recurrence _ _ _ _ 1 (by simp [odeint, scan]) (by simp)

/-- Repeated time stamps repeat the state, for every method which does nothing in a step of length zero. -/
theorem C51_repeat (df : E → ℝ → E) (y : E) (ts : List ℝ) (method : OdeMethod E)
    (h0 : ∀ y t, method df y t 0 = y) (i : ℕ)
    (h : i + 1 < (odeint df y ts method).length) (h' : i + 1 < ts.length) (e : ts[i + 1] = ts[i]) :
    (odeint df y ts method)[i + 1] = (odeint df y ts method)[i] := by
  rw [C51_recurrence df y ts method i h h', e, sub_self, h0]

theorem C51_rk4_zero (df : E → ℝ → E) (y : E) (t : ℝ) : rk4 df y t 0 = y := by simp [rk4]

theorem C51_euler_zero (df : E → ℝ → E) (y : E) (t : ℝ) : explicitEuler df y t 0 = y := by simp [explicitEuler]

/-- The time stamp `1` occurs twice. -/
example : (odeint (fun (y : ℝ) t => y + t) 1 [0, 1, 1, 3] rk4)[2] = (odeint (fun (y : ℝ) t => y + t) 1 [0, 1, 1, 3] rk4)[1] :=
  C51_repeat _ _ _ _ (C51_rk4_zero _) 1 (by simp [odeint, scan]) (by simp) rfl

/-- Restarting from the last state with the remaining time stamps continues the trajectory. -/
theorem C51_compose (df : E → ℝ → E) (y : E) (ts us : List ℝ) (method : OdeMethod E) (hts : ts ≠ [])
    (hr : odeint df y ts method ≠ []) :
    odeint df y (ts ++ us) method = odeint df y ts method ++
      (odeint df ((odeint df y ts method).getLast hr) (ts.getLast hts :: us) method).tail := by
  induction ts generalizing y with
  | nil => exact absurd rfl hts
  | cons t0 ts ih =>
    cases ts with
    | nil => simp [odeint, scan]
    | cons t1 ts =>
      have hr' : odeint df (method df y t1 (t1 - t0)) (t1 :: ts) method ≠ [] := by simp [odeint]
      have := ih (method df y t1 (t1 - t0)) (List.cons_ne_nil _ _) hr'
      simp only [List.cons_append, odeint_cons] at this ⊢
      rw [this]
      simp only [List.getLast_cons_cons]
      rw [List.getLast_cons hr']

example : odeint (fun (y : ℝ) t => y + t) 1 [0, 1, 2, 5] rk4 = odeint (fun (y : ℝ) t => y + t) 1 [0, 1] rk4 ++
    (odeint (fun (y : ℝ) t => y + t) ((odeint (fun (y : ℝ) t => y + t) 1 [0, 1] rk4).getLast (by simp [odeint, scan])) [1, 2, 5]
      rk4).tail :=
  C51_compose _ _ [0, 1] [2, 5] _ (by simp) _

example : odeint (fun (y : ℝ) _ => y) 1 [0, 1, 1, 3] explicitEuler = [1, 2, 2, 6] := by
  simp [odeint, scan, odeint.step, explicitEuler]; norm_num

/-! ## C52 -/

/-- For a linear autonomous system one `rk4` step applies the Taylor polynomial of degree four of `exp (dt A)`. -/
theorem C52_rk4_linear (A : E →ₗ[ℝ] E) (y : E) (t dt : ℝ) :
    rk4 (fun y _ => A y) y t dt = ∑ k ∈ Finset.range 5, (dt ^ k / (k.factorial : ℝ)) • (A ^ k) y := by
  have h2 : (A ^ 2) y = A (A y) := rfl
  have h3 : (A ^ 3) y = A (A (A y)) := rfl
  have h4 : (A ^ 4) y = A (A (A (A y))) := rfl
  simp only [rk4, Finset.sum_range_succ, Finset.sum_range_zero, h2, h3, h4, pow_zero, pow_one, map_add, map_smul,
    Module.End.one_apply, Nat.factorial]
  push_cast
  module

theorem C52_euler_linear (A : E →ₗ[ℝ] E) (y : E) (t dt : ℝ) :
    explicitEuler (fun y _ => A y) y t dt = ∑ k ∈ Finset.range 2, (dt ^ k / (k.factorial : ℝ)) • (A ^ k) y := by
  simp [explicitEuler, Finset.sum_range_succ]

theorem C52_constant_step (c : E) (y : E) (t dt : ℝ) :
    rk4 (fun _ _ => c) y t dt = y + dt • c ∧ explicitEuler (fun _ _ => c) y t dt = y + dt • c := by
  constructor
  · simp only [rk4]; module
  · rfl

/-- Constant dynamics are integrated exactly along the whole trajectory. -/
theorem C52_constant (c : E) (y : E) (ts : List ℝ) (method : OdeMethod E)
    (hm : method = rk4 ∨ method = explicitEuler) (i : ℕ)
    (h : i < (odeint (fun _ _ => c) y ts method).length) (h' : i < ts.length) (h0 : 0 < ts.length) :
    (odeint (fun _ _ => c) y ts method)[i] = y + (ts[i] - ts[0]) • c := by
  induction i with
  | zero => rw [(C51_length_head _ y ts method).2]; simp
  | succ i ih =>
    rw [C51_recurrence _ y ts method i h h', ih (by omega) (by omega)]
    have : ∀ y t dt, method (fun _ _ => c) y t dt = y + dt • c := by
      intro y t dt
      rcases hm with rfl | rfl
      · exact (C52_constant_step c y t dt).1
      · exact (C52_constant_step c y t dt).2
    rw [this]; module

example : (odeint (fun _ _ => (2 : ℝ)) 1 [0, 1, 5] rk4)[2] = 1 + ((5 : ℝ) - 0) • (2 : ℝ) :=
  C52_constant (2 : ℝ) 1 [0, 1, 5] rk4 (.inl rfl) 2 (by simp [odeint, scan]) (by simp) (by simp)

/-! ## C53 -/

/-- A single `rk4` step called with the *start* of the time step integrates `y' = p(t)` exactly for cubic `p`. -/
theorem rk4_cubic (p : ℝ[X]) (hp : p.natDegree ≤ 3) (y t dt : ℝ) :
    rk4 (fun _ t => p.eval t) y t dt = y + ∫ s in t..t + dt, p.eval s := by
  simp only [rk4, eval_cubic p hp, integral_cubic, smul_eq_mul]
  ring

/-- For `y' = 2 t`, `y(0) = 0` the value at time one should be `1`, `odeint` gives `3`: the method is called with the
end instead of the start of the time step. -/
theorem C53_counterexample :
    odeint (fun (_ : ℝ) t => 2 * t) 0 [0, 1] rk4 = [0, 3] ∧
    (∫ s in (0:ℝ)..1, 2 * s) = 1 := by
  constructor
  · simp [odeint, scan, odeint.step, rk4]; norm_num
  · rw [intervalIntegral.integral_const_mul, integral_id]; norm_num

/-- What holds instead: each step adds the integral over the interval *after* the time step, exactly for cubic `p`.
Missing with respect to C53: the integral should be over the time step itself. -/
theorem C53_step_partial (p : ℝ[X]) (hp : p.natDegree ≤ 3) (y : ℝ) (ts : List ℝ) (i : ℕ)
    (h : i + 1 < (odeint (fun _ t => p.eval t) y ts rk4).length) (h' : i + 1 < ts.length) :
    (odeint (fun _ t => p.eval t) y ts rk4)[i + 1] = (odeint (fun _ t => p.eval t) y ts rk4)[i] +
      ∫ s in ts[i + 1]..ts[i + 1] + (ts[i + 1] - ts[i]), p.eval s := by
  rw [C51_recurrence _ y ts rk4 i h h', rk4_cubic p hp]

example (y : ℝ) : (odeint (fun _ t => (X ^ 3 : ℝ[X]).eval t) y [0, 1, 3] rk4)[2]'(by simp [odeint, scan]) =
    (odeint (fun _ t => (X ^ 3 : ℝ[X]).eval t) y [0, 1, 3] rk4)[1]'(by simp [odeint, scan]) + ∫ s in (3 : ℝ)..3 + (3 - 1), (X ^ 3 : ℝ[X]).eval s :=
  C53_step_partial (X ^ 3) (by simp) y [0, 1, 3] 1 (by simp [odeint, scan]) (by simp)

/-- On a uniform grid with step `δ` the result is the exact solution of the problem shifted by `δ` in time,
`y' = p(t + δ)`; in particular it is exact if `p` is constant. -/
theorem C53_uniform_partial (p : ℝ[X]) (hp : p.natDegree ≤ 3) (y t0 δ : ℝ) (n i : ℕ) (hi : i < n)
    (h : i < (odeint (fun _ t => p.eval t) y ((List.range n).map fun k : ℕ => t0 + (k : ℝ) * δ) rk4).length) :
    (odeint (fun _ t => p.eval t) y ((List.range n).map fun k : ℕ => t0 + (k : ℝ) * δ) rk4)[i] =
      y + ∫ s in t0..t0 + i * δ, p.eval (s + δ) := by
  induction i with
  | zero => rw [(C51_length_head _ y _ rk4).2]; simp
  | succ i ih =>
    rw [C53_step_partial p hp y _ i h (by simpa using hi), ih (by omega) (by omega)]
    simp only [List.getElem_map, List.getElem_range]
    rw [intervalIntegral.integral_comp_add_right (fun s => p.eval s),
      intervalIntegral.integral_comp_add_right (fun s => p.eval s), add_assoc]
    congr 1
    have e1 : t0 + (i : ℝ) * δ + δ = t0 + ((i + 1 : ℕ) : ℝ) * δ := by push_cast; ring
    have e2 : t0 + ((i + 1 : ℕ) : ℝ) * δ + (t0 + ((i + 1 : ℕ) : ℝ) * δ - (t0 + (i : ℝ) * δ)) =
      t0 + ((i + 1 : ℕ) : ℝ) * δ + δ := by push_cast; ring
    rw [e1, e2]
    exact intervalIntegral.integral_add_adjacent_intervals (p.continuous.intervalIntegrable _ _)
      (p.continuous.intervalIntegrable _ _)

/-- Autonomous dynamics: the time passed to the method does not matter. -/
theorem C53_autonomous_partial (g : E → E) (y : E) (ts : List ℝ) (i : ℕ)
    (h : i + 1 < (odeint (fun y _ => g y) y ts rk4).length) (h' : i + 1 < ts.length) (t : ℝ) :
    (odeint (fun y _ => g y) y ts rk4)[i + 1] =
      rk4 (fun y _ => g y) (odeint (fun y _ => g y) y ts rk4)[i] t (ts[i + 1] - ts[i]) := by
  rw [C51_recurrence _ y ts rk4 i h h']
  rfl

example (y : ℝ) (h : 3 < (odeint (fun _ t => (X ^ 3 : ℝ[X]).eval t) y
      ((List.range 4).map fun k : ℕ => (0:ℝ) + (k : ℝ) * (1/2)) rk4).length) :
    (odeint (fun _ t => (X ^ 3 : ℝ[X]).eval t) y ((List.range 4).map fun k : ℕ => (0:ℝ) + (k : ℝ) * (1/2)) rk4)[3] =
      y + ∫ s in (0:ℝ)..0 + (3 : ℕ) * (1/2), (X ^ 3 : ℝ[X]).eval (s + 1/2) :=
  C53_uniform_partial (X ^ 3) (by simp) y 0 (1/2) 4 3 (by norm_num) h

end

end Verif
