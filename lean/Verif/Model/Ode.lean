import Mathlib.Algebra.Module.Basic
import Mathlib.Data.Real.Basic

/-! # Model of `/repo/magpi/ode.py`

States are elements of a real vector space `E`, standing for a tree of arrays (`tree_add` and `tree_scalar_mul` of
prelude.py act leaf by leaf). Extra arguments `*args` are part of the dynamics `df`. -/

namespace Verif

section
variable {E : Type*} [AddCommGroup E] [Module ℝ E]

/-- A one-step method: dynamics, state, time, step. -/
abbrev OdeMethod (E : Type*) := (E → ℝ → E) → E → ℝ → ℝ → E

/-- ode.py:11-17 `rk4`. -/
noncomputable def rk4 : OdeMethod E := fun df y t dt =>
  let y1 := dt • df y t
  let y2 := dt • df (y + (1 / 2 : ℝ) • y1) (t + dt / 2)
  let y3 := dt • df (y + (1 / 2 : ℝ) • y2) (t + dt / 2)
  let y4 := dt • df (y + y3) (t + dt)
  y + (1 / 6 : ℝ) • (y1 + (2 : ℝ) • y2 + (2 : ℝ) • y3 + y4)

/-- ode.py:20-23 `explicit_euler`. -/
def explicitEuler : OdeMethod E := fun df y t dt =>
  let dy := df y t
  y + dt • dy

/-- ode.py:53-58 `_step`: new state `(y, t)` and the output `y`. -/
def odeint.step (df : E → ℝ → E) (method : OdeMethod E) (state : E × ℝ) (t : ℝ) : (E × ℝ) × E :=
  let y := state.1
  let t_prev := state.2
  let dt := t - t_prev
  let y := method df y t dt
  ((y, t), y)

/-- `lax.scan`: the outputs. -/
def scan {S X Y : Type*} (f : S → X → S × Y) : S → List X → List Y
  | _, [] => []
  | s, x :: xs => (f s x).2 :: scan f (f s x).1 xs

/-- ode.py:26-61 `odeint` and `_odeint`. For an empty array `ts` the code has no `ts[0]`; this case is not
modelled (the value is the empty list). -/
def odeint (df : E → ℝ → E) (y : E) (ts : List ℝ) (method : OdeMethod E) : List E :=
  match ts with
  | [] => []
  | t0 :: rest => y :: scan (odeint.step df method) (y, t0) rest

end

end Verif
