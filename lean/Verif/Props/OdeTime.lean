import Mathlib.Data.List.GetD
import Verif.Props.OdeRk4
import Mathlib.Analysis.SpecialFunctions.Trigonometric.Deriv

/-!
# C133: order four for dynamics which depend on time
-/

namespace Verif

open Set

section
variable {E : Type} [NormedAddCommGroup E] [NormedSpace ℝ E]

/-- Spec: the dynamics with the time as a further entry of the state. -/
def withTime (f : E → ℝ → E) : E × ℝ → ℝ → E × ℝ := fun p _ => (f p.1 p.2, 1)

/-- Spec: the method which evaluates the dynamics from the start of the step on: `odeint` hands over the end of the step. -/
def fromStart (method : OdeMethod E) : OdeMethod E := fun df y t dt => method df y (t - dt) dt

theorem rk4_withTime (f : E → ℝ → E) (y : E) (s t dt : ℝ) :
    rk4 (withTime f) (y, s) t dt = (rk4 f y s dt, s + dt) := by
  ext
  · simp [rk4, withTime, div_eq_inv_mul, smul_eq_mul]
  · simp [rk4, withTime, smul_eq_mul]
    ring

theorem scan_withTime (f : E → ℝ → E) (l : List ℝ) (y : E) (s : ℝ) :
    scan (odeint.step (withTime f) rk4) ((y, s), s) l =
      List.zip (scan (odeint.step f (fromStart rk4)) (y, s) l) l := by
  induction l generalizing y s with
  | nil => rfl
  | cons t l ih =>
    have e : rk4 (withTime f) (y, s) t (t - s) = (rk4 f y s (t - s), t) := by
      rw [rk4_withTime]; congr 1; ring
    have e2 : fromStart rk4 f y t (t - s) = rk4 f y s (t - s) := by
      simp only [fromStart]; congr 1; ring
    simp only [scan, odeint.step, e, e2, List.zip_cons_cons]
    rw [ih]

/-- With the time in the state, `odeint` follows the time stamps exactly, and the other entries are those of the method which
starts its evaluations at the start of the step. -/
theorem C133_states (f : E → ℝ → E) (y : E) (t0 : ℝ) (ts : List ℝ) :
    odeint (withTime f) (y, t0) (t0 :: ts) rk4 = List.zip (odeint f y (t0 :: ts) (fromStart rk4)) (t0 :: ts) := by
  simp only [odeint, List.zip_cons_cons, scan_withTime]

/-- Time dependent dynamics. -/
example : odeint (withTime fun (y : ℝ) t => t * y) (1, 0) [0, 1, 3] rk4 =
    List.zip (odeint (fun (y : ℝ) t => t * y) 1 [0, 1, 3] (fromStart rk4)) [0, 1, 3] := C133_states _ _ _ _

/-- With the time in the state, `odeint` with `rk4` has order four along every solution of every smooth system. -/
theorem C133_time_in_state [FiniteDimensional ℝ E] {f : E → ℝ → E} (hf : ContDiff ℝ 4 fun p : E × ℝ => f p.1 p.2) {Y : ℝ → E}
    {t0 T : ℝ} (hY : ∀ t ∈ Icc t0 T, HasDerivAt Y (f (Y t) t) t) :
    OdeOrder rk4 (withTime f) (fun t => (Y t, t)) t0 T 4 :=
  C114_rk4_fourth_order (f := fun p : E × ℝ => (f p.1 p.2, (1 : ℝ))) (hf.prodMk contDiff_const) fun t ht =>
    (hY t ht).prodMk (hasDerivAt_id t)

/-- Given `rk4` with its evaluations moved to the start of the step, `odeint` has order four along every solution of every
smooth system. -/
theorem C133_from_start [FiniteDimensional ℝ E] {f : E → ℝ → E} (hf : ContDiff ℝ 4 fun p : E × ℝ => f p.1 p.2) {Y : ℝ → E}
    {t0 T : ℝ} (hY : ∀ t ∈ Icc t0 T, HasDerivAt Y (f (Y t) t) t) : OdeOrder (fromStart rk4) f Y t0 T 4 := by
  obtain ⟨C, h₀, hpos, h⟩ := C133_time_in_state hf hY
  refine ⟨C, h₀, hpos, fun k hk hk' ts hts i hi => ?_⟩
  have := h k hk hk' ts hts i hi
  refine le_trans ?_ this
  obtain ⟨rest, rfl⟩ : ∃ rest, ts = t0 :: rest := by
    cases ts with
    | nil => simp [TimeGrid] at hts
    | cons a rest => exact ⟨rest, by simpa [TimeGrid] using hts.1⟩
  have hlen : i < (odeint f (Y t0) (t0 :: rest) (fromStart rk4)).length := by
    rw [(C51_length_head _ _ _ _).1]; exact hi
  have e : (odeint (withTime f) (Y t0, t0) (t0 :: rest) rk4).getD i 0 =
      ((odeint f (Y t0) (t0 :: rest) (fromStart rk4)).getD i 0, (t0 :: rest).getD i 0) := by
    rw [C133_states, List.getD_eq_getElem _ _ (by rw [List.length_zip]; exact lt_min hlen hi), List.getElem_zip,
      List.getD_eq_getElem _ _ hlen, List.getD_eq_getElem _ _ hi]
  rw [e, Prod.mk_sub_mk]
  exact le_max_left _ _

/-- `y' = y² cos t` with the solution `1 / (2 - sin t)`. -/
example : OdeOrder (fromStart rk4) (fun (y : ℝ) t => y ^ 2 * Real.cos t) (fun t => (2 - Real.sin t)⁻¹) 0 5 4 ∧
    OdeOrder rk4 (withTime fun (y : ℝ) t => y ^ 2 * Real.cos t) (fun t => ((2 - Real.sin t)⁻¹, t)) 0 5 4 := by
  have hY : ∀ t ∈ Icc (0 : ℝ) 5, HasDerivAt (fun t => (2 - Real.sin t)⁻¹)
      (((fun t => (2 - Real.sin t)⁻¹) t) ^ 2 * Real.cos t) t := by
    intro t _
    have hne : 2 - Real.sin t ≠ 0 := by linarith [Real.sin_le_one t]
    have := ((Real.hasDerivAt_sin t).const_sub 2).inv hne
    refine this.congr_deriv ?_
    field_simp
  exact ⟨C133_from_start (by fun_prop) hY, C133_time_in_state (by fun_prop) hY⟩

end

end Verif
