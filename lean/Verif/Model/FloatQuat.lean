import Verif.Model.FloatSphere
import Verif.Model.Quaternions

/-!
# Quaternions in floating point arithmetic (`/repo/magpi/quaternions.py`)

The operations are followed one by one. The sums in `@`, `jnp.sum` and `norm` may be computed in any order (`FlDot`), so that the results
are given by relations.
-/

namespace Verif

open XR

/-- quaternions.py:72 `cross` in the format `F`. -/
noncomputable def Quat.crossFl (F : Fmt) (x y : Vec 3) : Vec 3 :=
  ![F.sub (F.mul (x 1) (y 2)) (F.mul (x 2) (y 1)), F.sub (F.mul (x 2) (y 0)) (F.mul (x 0) (y 2)),
    F.sub (F.mul (x 0) (y 1)) (F.mul (x 1) (y 0))]

/-- The pairs of the dot product `x @ y` (quaternions.py:68). -/
def pairsFl {n : ℕ} (x y : Vec n) : Multiset (XR × XR) := (Finset.univ : Finset (Fin n)).val.map fun i => (x i, y i)

/-- quaternions.py:66-73 `__mul__`, quaternion branch, in the format `F`: `r` is a possible result. -/
def Quat.MulFl (F : Fmt) (p q r : Quat) : Prop :=
  (∃ s, FlDot F (pairsFl p.im q.im) s ∧ r.re = F.sub (F.mul p.re q.re) s) ∧
    r.im = fun i => F.add (F.add (F.mul p.re (q.im i)) (F.mul q.re (p.im i))) (Quat.crossFl F p.im q.im i)

/-- quaternions.py:82-83 `__abs__` in the format `F`: `w` is a possible result. -/
def Quat.AbsFl (F : Fmt) (q : Quat) (w : XR) : Prop :=
  ∃ s, FlDot F (squaresFl q.im) s ∧ w = F.sqrt (F.add (F.mul q.re q.re) s)

/-- quaternions.py:99-100 `reciprocal` in the format `F`: `r` is a possible result. -/
def Quat.RecFl (F : Fmt) (q r : Quat) : Prop :=
  ∃ w, Quat.AbsFl F q w ∧
    r = ⟨F.mul q.re (F.div (fin 1) (F.mul w w)), fun i => F.mul (-q.im i) (F.div (fin 1) (F.mul w w))⟩

/-- quaternions.py:172-188 `quaternion_rotation` in the format `F`: `v` is a possible result. -/
def RotationFl (F : Fmt) (x : Vec 3) (q : Quat) (v : Vec 3) : Prop :=
  ∃ qinv a b, Quat.RecFl F q qinv ∧ Quat.MulFl F qinv ⟨fin 0, x⟩ a ∧ Quat.MulFl F a q b ∧ v = b.im

/-- quaternions.py:191-209 `quaternion_reflection` in the format `F`: `v` is a possible result. -/
def ReflectionFl (F : Fmt) (x normal v : Vec 3) : Prop :=
  ∃ w a b, NormFl F normal w ∧ Quat.MulFl F ⟨fin 0, fun i => F.div (normal i) w⟩ ⟨fin 0, x⟩ a ∧
    Quat.MulFl F a ⟨fin 0, fun i => F.div (normal i) w⟩ b ∧ v = b.im

/-- quaternions.py:237-252 `from_axis_angle` in the format `F`, with the functions `cosL` and `sinL` of the library. -/
noncomputable def fromAxisAngleFl (F : Fmt) (cosL sinL : XR → XR) (angle : XR) (axis : Vec 3) : Quat :=
  let angle := F.div angle (fin 2)
  ⟨cosL angle, fun i => F.mul (axis i) (sinL angle)⟩

end Verif
