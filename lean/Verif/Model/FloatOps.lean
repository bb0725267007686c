import Verif.Num.Fl
import Verif.Model.RFun
import Verif.Model.Domain

/-!
# Functions of the code with rounding

The functions of this file follow the code operation by operation, every operation is rounded (`Verif.Num.Fl`).  The compiler is
assumed to keep the operations as they are written (no fused multiply-add, no reassociation) and to round square roots correctly.
A Python number in the expression is converted to the type of the arrays; the conversion rounds once.
-/

namespace Verif

open XR

/-- r_fun.py:102-105 `RAlpha.conjunction` on arrays of the format `F`: `a**2` is `a * a`, `2 * self.alpha * a * b` is
`((2 * alpha) * a) * b`. -/
noncomputable def RAlpha.conjFl (F : Fmt) (alpha : ℝ) (a b : XR) : XR :=
  F.mul (F.rnd (1 / (1 + fin alpha))) (F.sub (F.add a b)
    (F.sqrt (F.sub (F.add (F.mul a a) (F.mul b b)) (F.mul (F.mul (F.rnd (2 * fin alpha)) a) b))))

/-- r_fun.py:107-110 `RAlpha.disjunction` on arrays of the format `F`. -/
noncomputable def RAlpha.disjFl (F : Fmt) (alpha : ℝ) (a b : XR) : XR :=
  F.mul (F.rnd (1 / (1 + fin alpha))) (F.add (F.add a b)
    (F.sqrt (F.sub (F.add (F.mul a a) (F.mul b b)) (F.mul (F.mul (F.rnd (2 * fin alpha)) a) b))))

/-- r_fun.py:89-110 class `RAlpha` on arrays of the format `F`; `negate` is exact. -/
noncomputable def RAlpha.sysFl (F : Fmt) (alpha : ℝ) : RFun := ⟨RAlpha.conjFl F alpha, RAlpha.disjFl F alpha⟩

/-- r_fun.py:220-225 `lb` in the format `F`. -/
noncomputable def cuboidFl.lb {n : ℕ} (F : Fmt) (e : Vec n) (centering : Bool) : Vec n := fun i =>
  if centering then F.rnd (-e i / 2) else 0

/-- r_fun.py:220-225 `ub` in the format `F`. -/
noncomputable def cuboidFl.ub {n : ℕ} (F : Fmt) (e : Vec n) (centering : Bool) : Vec n := fun i =>
  if centering then F.rnd (e i / 2) else e i

/-- r_fun.py:201-236 `cuboid` in the format `F`, with a system of R-functions of that format. -/
noncomputable def cuboidFl {n : ℕ} (F : Fmt) (e : Vec n) (centering : Bool) (S : RFun) : ADF n :=
  compose S.conj [fun x =>
    (List.finRange n).flatMap fun i =>
      [F.sub (cuboidFl.ub F e centering i) (x i), F.sub (x i) (cuboidFl.lb F e centering i)]]

open Classical in
/-- `x % 1.0` of JAX: the remainder `x - trunc(x)` is exact; if it is negative one is added, which is rounded. -/
noncomputable def Fmt.mod1 (F : Fmt) : XR → XR
  | fin x =>
    let r := if 0 ≤ x then Int.fract x else -Int.fract (-x)
    if r < 0 then F.add (fin r) 1 else fin r
  | _ => nan

open Classical in
/-- domain.py:206-208 `transform_hypercube`, one coordinate, in the format `F`. -/
noncomputable def transformHypercubeFl (F : Fmt) (x lb ub : XR) : XR :=
  F.add (F.mul (if 1 < x then F.mod1 x else x) (F.sub ub lb)) lb

end Verif
