import Verif.Num.XR

/-! # Model of `/repo/magpi/quaternions.py` -/

namespace Verif

open XR

/-- `/repo/magpi/quaternions.py:12-25` class `Quaternion`: real part `_a` of shape `()` and imaginary
part `_q` of shape `(3,)`.  The shape/dtype assertions of lines 23-25 are enforced by the type. -/
@[ext] structure Quat where
  re : XR
  im : Vec 3

namespace Quat

/-- `jnp.cross` of two 3-vectors (used at quaternions.py:72). -/
noncomputable def cross (x y : Vec 3) : Vec 3 :=
  ![x 1 * y 2 - x 2 * y 1, x 2 * y 0 - x 0 * y 2, x 0 * y 1 - x 1 * y 0]

/-- quaternions.py:27-29 `zero_quaternion`. -/
noncomputable def zero : Quat := ⟨0, fun _ => 0⟩

/-- quaternions.py:39-40 `__neg__`. -/
noncomputable def neg (p : Quat) : Quat := ⟨-p.re, fun i => -p.im i⟩

/-- quaternions.py:42-49 `__add__`, branch `isinstance(other, Quaternion)`. -/
noncomputable def add (p q : Quat) : Quat := ⟨p.re + q.re, fun i => p.im i + q.im i⟩

/-- quaternions.py:46-49 `__add__`, scalar branch: the scalar is added to *all* components. -/
noncomputable def addScalar (p : Quat) (s : XR) : Quat := ⟨p.re + s, fun i => p.im i + s⟩

/-- quaternions.py:51-52 `__radd__`: `other + self` is `self + other`. -/
noncomputable def raddScalar (s : XR) (p : Quat) : Quat := p.addScalar s

/-- quaternions.py:54-61 `__sub__`, quaternion branch. -/
noncomputable def sub (p q : Quat) : Quat := ⟨p.re - q.re, fun i => p.im i - q.im i⟩

/-- quaternions.py:58-61 `__sub__`, scalar branch. -/
noncomputable def subScalar (p : Quat) (s : XR) : Quat := ⟨p.re - s, fun i => p.im i - s⟩

/-- quaternions.py:63-64 `__rsub__`: `other - self` returns `self - other`. -/
noncomputable def rsubScalar (s : XR) (p : Quat) : Quat := p.subScalar s

/-- quaternions.py:66-74 `__mul__`, quaternion branch. -/
noncomputable def mul (p q : Quat) : Quat :=
  ⟨p.re * q.re - vdot p.im q.im,
   fun i => p.re * q.im i + q.re * p.im i + cross p.im q.im i⟩

/-- quaternions.py:74-77 `__mul__`, scalar branch. -/
noncomputable def mulScalar (p : Quat) (s : XR) : Quat := ⟨p.re * s, fun i => p.im i * s⟩

/-- quaternions.py:79-80 `__rmul__`: `other * self` is `self * other`. -/
noncomputable def rmulScalar (s : XR) (p : Quat) : Quat := p.mulScalar s

/-- quaternions.py:82-83 `__abs__`. -/
noncomputable def abs (p : Quat) : XR := XR.sqrt (p.re ^ 2 + ∑ i, p.im i * p.im i)

/-- quaternions.py:102-103 `conj`. -/
noncomputable def conj (p : Quat) : Quat := ⟨p.re, fun i => -p.im i⟩

/-- quaternions.py:99-100 `reciprocal`. -/
noncomputable def reciprocal (p : Quat) : Quat := p.conj.mulScalar (1 / p.abs ^ 2)

/-- quaternions.py:114-115 `quaternion_right_div`. -/
noncomputable def rightDiv (p q : Quat) : Quat := p.mul q.reciprocal

/-- quaternions.py:118-119 `quaternion_left_div`. -/
noncomputable def leftDiv (p q : Quat) : Quat := q.reciprocal.mul p

/-- quaternions.py:93-97 `__truediv__`, quaternion branch. -/
noncomputable def truediv (p q : Quat) : Quat := rightDiv p q

/-- quaternions.py:93-97 `__truediv__`, scalar branch. -/
noncomputable def truedivScalar (p : Quat) (s : XR) : Quat := p.mulScalar (1 / s)

open Classical in
/-- quaternions.py:162-169 `sgn`; `eps` is `jnp.finfo(v.dtype).eps`. -/
noncomputable def sgn (eps : ℝ) (v : Vec 3) : Vec 3 :=
  let r := vnorm v
  if r ≤ fin eps then fun _ => 0 else fun i => v i / r

/-- quaternions.py:158-159 `arg`. -/
noncomputable def arg (q : Quat) : XR := XR.arccos (q.re * (1 / q.abs))

/-- quaternions.py:122-138 `quanternion_exp`. -/
noncomputable def exp (eps : ℝ) (q : Quat) : Quat :=
  let z := XR.exp q.re
  let r := vnorm q.im
  ⟨z * XR.cos r, fun i => z * sgn eps q.im i * XR.sin r⟩

/-- quaternions.py:141-155 `quanternion_log`. -/
noncomputable def log (eps : ℝ) (q : Quat) : Quat :=
  ⟨XR.log q.abs, fun i => sgn eps q.im i * arg q⟩

/-- quaternions.py:85-87 `__pow__` with a scalar exponent. -/
noncomputable def pow (eps : ℝ) (q : Quat) (s : XR) : Quat := exp eps ((log eps q).mulScalar s)

/-- quaternions.py:89-91 `__rpow__` with a scalar base. -/
noncomputable def rpow (eps : ℝ) (base : XR) (q : Quat) : Quat :=
  exp eps (q.mulScalar (XR.log base))

end Quat

open Quat

/-- quaternions.py:172-188 `quaternion_rotation`: the vector part of `q⁻¹ p q`. -/
noncomputable def quaternionRotation (x : Vec 3) (q : Quat) : Vec 3 :=
  ((q.reciprocal.mul ⟨0, x⟩).mul q).im

/-- quaternions.py:191-209 `quaternion_reflection`. -/
noncomputable def quaternionReflection (x : Vec 3) (normal : Vec 3) : Vec 3 :=
  let n : Vec 3 := fun i => normal i / vnorm normal
  let p : Quat := ⟨0, x⟩
  let q : Quat := ⟨0, n⟩
  ((q.mul p).mul q).im

/-- quaternions.py:212-234 `from_euler_angles`. -/
noncomputable def fromEulerAngles (angles : Vec 3) : Quat :=
  let s : Vec 3 := fun i => XR.sin (angles i / 2)
  let c : Vec 3 := fun i => XR.cos (angles i / 2)
  ⟨c 0 * c 1 * c 2 + s 0 * s 1 * s 2,
   ![s 0 * c 1 * c 2 - c 0 * s 1 * s 2,
     c 0 * s 1 * c 2 + s 0 * c 1 * s 2,
     c 0 * c 1 * s 2 - s 0 * s 1 * c 2]⟩

/-- quaternions.py:237-252 `from_axis_angle`. -/
noncomputable def fromAxisAngle (angle : XR) (axis : Vec 3) : Quat :=
  let h := angle / 2
  ⟨XR.cos h, fun i => axis i * XR.sin h⟩

end Verif
