import Verif.Model.FwdAD
import Verif.Model.Quaternions

/-! # Model of forward differentiation (`jax.jvp`, `jacfwd`) of `/repo/magpi/quaternions.py`

As in `Verif.Model.FwdAD` the code is followed on pairs of a value and a tangent, with JAX's rules for the primitives.
`lax.cond` takes the branch which the values select and differentiates only that one. The products of `@` are summed entry
by entry; arguments which are not differentiated have the tangent zero. -/

namespace Verif

open XR

namespace Dual

/-- Rule of `div`: `g / y` and `-g * x * y ** -2`. -/
noncomputable def div (a b : Dual) : Dual := ⟨a.val / b.val, a.tan / b.val + -b.tan * a.val * (1 / b.val ^ 2)⟩
/-- Rule of `div` with the numerator `1`. -/
noncomputable def recip (a : Dual) : Dual := ⟨1 / a.val, -a.tan * (1 / a.val ^ 2)⟩
/-- Rule of `sin`. -/
noncomputable def sin (a : Dual) : Dual := ⟨XR.sin a.val, a.tan * XR.cos a.val⟩
/-- Rule of `cos`. -/
noncomputable def cos (a : Dual) : Dual := ⟨XR.cos a.val, -(a.tan * XR.sin a.val)⟩
/-- Rule of `exp`. -/
noncomputable def exp (a : Dual) : Dual := ⟨XR.exp a.val, a.tan * XR.exp a.val⟩
/-- Rule of `log`. -/
noncomputable def log (a : Dual) : Dual := ⟨XR.log a.val, a.tan / a.val⟩
/-- Rule of `acos`: `g * -rsqrt(1 - x ** 2)`. -/
noncomputable def arccos (a : Dual) : Dual := ⟨XR.arccos a.val, a.tan * -(1 / XR.sqrt (1 - a.val ^ 2))⟩
/-- A number which is not differentiated, where the code combines it with others. -/
noncomputable def const (c : XR) : Dual := ⟨c, 0⟩

end Dual

/-- `x @ y` under `jvp`. -/
noncomputable def dotD {n : ℕ} (x y : Fin n → Dual) : Dual := ⟨∑ i, (x i * y i).val, ∑ i, (x i * y i).tan⟩

/-- quaternions.py:12-25 class `Quaternion` under `jvp`. -/
structure QuatD where
  re : Dual
  im : Fin 3 → Dual

namespace QuatD

/-- The quaternion of the values. -/
def val (p : QuatD) : Quat := ⟨p.re.val, fun i => (p.im i).val⟩

/-- A quaternion which is not differentiated. -/
noncomputable def const (p : Quat) : QuatD := ⟨Dual.const p.re, fun i => Dual.const (p.im i)⟩

/-- quaternions.py:39-40 `__neg__` under `jvp`. -/
noncomputable def neg (p : QuatD) : QuatD := ⟨-p.re, fun i => -p.im i⟩
/-- quaternions.py:42-49 `__add__` of quaternions under `jvp`. -/
noncomputable def add (p q : QuatD) : QuatD := ⟨p.re + q.re, fun i => p.im i + q.im i⟩
/-- quaternions.py:54-61 `__sub__` of quaternions under `jvp`. -/
noncomputable def sub (p q : QuatD) : QuatD := ⟨p.re - q.re, fun i => p.im i - q.im i⟩
/-- `jnp.cross` under `jvp`. -/
noncomputable def cross (x y : Fin 3 → Dual) : Fin 3 → Dual :=
  ![x 1 * y 2 - x 2 * y 1, x 2 * y 0 - x 0 * y 2, x 0 * y 1 - x 1 * y 0]
/-- quaternions.py:66-73 `__mul__` of quaternions under `jvp`. -/
noncomputable def mul (p q : QuatD) : QuatD :=
  ⟨p.re * q.re - dotD p.im q.im, fun i => p.re * q.im i + q.re * p.im i + cross p.im q.im i⟩
/-- quaternions.py:74-77 `__mul__` with a number under `jvp`. -/
noncomputable def mulScalar (p : QuatD) (s : Dual) : QuatD := ⟨p.re * s, fun i => p.im i * s⟩
/-- quaternions.py:82-83 `__abs__` under `jvp`. -/
noncomputable def abs (p : QuatD) : Dual := Dual.sqrt (p.re.sq + dotD p.im p.im)
/-- quaternions.py:102-103 `conj` under `jvp`. -/
noncomputable def conj (p : QuatD) : QuatD := ⟨p.re, fun i => -p.im i⟩
/-- quaternions.py:99-100 `reciprocal` under `jvp`. -/
noncomputable def reciprocal (p : QuatD) : QuatD := p.conj.mulScalar (p.abs.sq).recip
/-- quaternions.py:93-97, 114-115 `__truediv__` and `quaternion_right_div` of quaternions under `jvp`. -/
noncomputable def rightDiv (p q : QuatD) : QuatD := p.mul q.reciprocal
/-- quaternions.py:118-119 `quaternion_left_div` under `jvp`. -/
noncomputable def leftDiv (p q : QuatD) : QuatD := q.reciprocal.mul p

open Classical in
/-- quaternions.py:162-169 `sgn` under `jvp`. -/
noncomputable def sgn (eps : ℝ) (v : Fin 3 → Dual) : Fin 3 → Dual :=
  let r := vnormD v
  if r.val ≤ fin eps then fun _ => Dual.const 0 else fun i => (v i).div r

/-- quaternions.py:158-159 `arg` under `jvp`. -/
noncomputable def arg (q : QuatD) : Dual := Dual.arccos (q.re * q.abs.recip)

/-- quaternions.py:122-138 `quanternion_exp` under `jvp`. -/
noncomputable def exp (eps : ℝ) (q : QuatD) : QuatD :=
  let z := Dual.exp q.re
  let r := vnormD q.im
  ⟨z * Dual.cos r, fun i => z * sgn eps q.im i * Dual.sin r⟩

/-- quaternions.py:141-155 `quanternion_log` under `jvp`. -/
noncomputable def log (eps : ℝ) (q : QuatD) : QuatD := ⟨Dual.log q.abs, fun i => sgn eps q.im i * arg q⟩

/-- quaternions.py:85-87 `__pow__` under `jvp`, for an exponent which is not differentiated. -/
noncomputable def pow (eps : ℝ) (q : QuatD) (s : XR) : QuatD :=
  let l := log eps q
  exp eps ⟨l.re.mulc s, fun i => (l.im i).mulc s⟩

/-- quaternions.py:89-91 `__rpow__` under `jvp`, for a base which is not differentiated. -/
noncomputable def rpow (eps : ℝ) (base : XR) (q : QuatD) : QuatD :=
  exp eps ⟨q.re.mulc (XR.log base), fun i => (q.im i).mulc (XR.log base)⟩

/-- quaternions.py:172-188 `quaternion_rotation` under `jvp`. -/
noncomputable def rotation (x : Fin 3 → Dual) (q : QuatD) : Fin 3 → Dual :=
  ((q.reciprocal.mul ⟨Dual.const 0, x⟩).mul q).im

/-- quaternions.py:191-209 `quaternion_reflection` under `jvp`. -/
noncomputable def reflection (x normal : Fin 3 → Dual) : Fin 3 → Dual :=
  let n : Fin 3 → Dual := fun i => (normal i).div (vnormD normal)
  let p : QuatD := ⟨Dual.const 0, x⟩
  let q : QuatD := ⟨Dual.const 0, n⟩
  ((q.mul p).mul q).im

/-- quaternions.py:212-234 `from_euler_angles` under `jvp`. -/
noncomputable def fromEulerAngles (angles : Fin 3 → Dual) : QuatD :=
  let s : Fin 3 → Dual := fun i => Dual.sin ((angles i).divc 2)
  let c : Fin 3 → Dual := fun i => Dual.cos ((angles i).divc 2)
  ⟨c 0 * c 1 * c 2 + s 0 * s 1 * s 2,
   ![s 0 * c 1 * c 2 - c 0 * s 1 * s 2,
     c 0 * s 1 * c 2 + s 0 * c 1 * s 2,
     c 0 * c 1 * s 2 - s 0 * s 1 * c 2]⟩

/-- quaternions.py:237-252 `from_axis_angle` under `jvp`. -/
noncomputable def fromAxisAngle (angle : Dual) (axis : Fin 3 → Dual) : QuatD :=
  let h := angle.divc 2
  ⟨Dual.cos h, fun i => axis i * Dual.sin h⟩

end QuatD

/-- r_fun.py:384-411 `rotate2d` under `jvp`; `M` does not depend on the point. -/
noncomputable def rotate2dD (f : DADF 2) (angle : NumArg) (o : Vec 2) : DADF 2 :=
  let adf := translateD f fun i => -o i
  let rotOp : DADF 2 := fun x => adf fun i => Dual.cmul (rotate2d.M angle i 0) (x 0) + Dual.cmul (rotate2d.M angle i 1) (x 1)
  translateD rotOp o

/-- r_fun.py:414-463 `rotate3d` under `jvp`. -/
noncomputable def rotate3dD (f : DADF 3) (angle : AngleArg) (axis : Option (Vec 3)) (o : Vec 3) : Except Err (DADF 3) := do
  let adf := translateD f fun i => -o i
  let q ← rotate3d.quat angle axis
  let rotOp : DADF 3 := fun x => adf (QuatD.rotation x (QuatD.const q))
  return translateD rotOp o

/-- `x @ n` for a vector `n` which is not differentiated, under `jvp`. -/
noncomputable def dotcD {n : ℕ} (x : Fin n → Dual) (y : Vec n) : Dual :=
  ⟨∑ i, ((x i).mulc (y i)).val, ∑ i, ((x i).mulc (y i)).tan⟩

/-- r_fun.py:466-489 `reflect` under `jvp`. -/
noncomputable def reflectD {n : ℕ} (f : DADF n) (nv o : Vec n) : DADF n :=
  let adf := translateD f fun i => -o i
  let refOp : DADF n := fun x => adf fun i => x i - ((Dual.cmul 2 (dotcD x nv)).divc (vnorm nv ^ 2)).mulc (nv i)
  translateD refOp o

/-- r_fun.py:492-514 `project` under `jvp`. -/
noncomputable def projectD {n : ℕ} (f : DADF n) (nv o : Vec n) : DADF n :=
  let adf := translateD f fun i => -o i
  let projOp : DADF n := fun x => adf fun i => x i - ((dotcD x nv).divc (vnorm nv ^ 2)).mulc (nv i)
  translateD projOp o

end Verif
