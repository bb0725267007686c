import Verif.Num.Fl
import Verif.Model.Ode

/-! # `/repo/magpi/ode.py` with rounding (`Verif.Num.Fl`)

The state is one array of `n` numbers; the operations are followed one by one (without fused operations). The dynamics `df` is any
function which computes arrays. -/

namespace Verif

open XR

/-- `tree_add` of two arrays in the format `F`. -/
noncomputable def Fmt.vadd (F : Fmt) {n : ℕ} (x y : Vec n) : Vec n := fun i => F.add (x i) (y i)

/-- `tree_scalar_mul` in the format `F`. -/
noncomputable def Fmt.smul (F : Fmt) {n : ℕ} (c : XR) (x : Vec n) : Vec n := fun i => F.mul c (x i)

/-- ode.py:11-17 `rk4` in the format `F`; the literal `1 / 6` is rounded to the format. -/
noncomputable def rk4Fl (F : Fmt) {n : ℕ} (df : Vec n → XR → Vec n) (y : Vec n) (t dt : XR) : Vec n :=
  let y1 := F.smul dt (df y t)
  let y2 := F.smul dt (df (F.vadd y (F.smul (fin (1 / 2)) y1)) (F.add t (F.div dt (fin 2))))
  let y3 := F.smul dt (df (F.vadd y (F.smul (fin (1 / 2)) y2)) (F.add t (F.div dt (fin 2))))
  let y4 := F.smul dt (df (F.vadd y y3) (F.add t dt))
  fun i => F.add (y i) (F.mul (F.const (1 / 6))
    (F.add (F.add (F.add (y1 i) (F.mul (fin 2) (y2 i))) (F.mul (fin 2) (y3 i))) (y4 i)))

/-- ode.py:20-23 `explicit_euler` in the format `F`. -/
noncomputable def explicitEulerFl (F : Fmt) {n : ℕ} (df : Vec n → XR → Vec n) (y : Vec n) (t dt : XR) : Vec n :=
  let dy := df y t
  F.vadd y (F.smul dt dy)

/-- ode.py:53-58 `_step` in the format `F`. -/
noncomputable def odeintFl.step (F : Fmt) {n : ℕ} (df : Vec n → XR → Vec n)
    (method : (Vec n → XR → Vec n) → Vec n → XR → XR → Vec n) (state : Vec n × XR) (t : XR) : (Vec n × XR) × Vec n :=
  let y := state.1
  let t_prev := state.2
  let dt := F.sub t t_prev
  let y := method df y t dt
  ((y, t), y)

/-- ode.py:26-61 `odeint` and `_odeint` in the format `F`. -/
noncomputable def odeintFl (F : Fmt) {n : ℕ} (df : Vec n → XR → Vec n) (y : Vec n) (ts : List XR)
    (method : (Vec n → XR → Vec n) → Vec n → XR → XR → Vec n) : List (Vec n) :=
  match ts with
  | [] => []
  | t0 :: rest => y :: scan (odeintFl.step F df method) (y, t0) rest

end Verif
