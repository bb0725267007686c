import Verif.Model.Objects

/-! # The functions of `/repo/magpi/quaternions.py` with the types and shapes of their arguments

The arithmetic of `Verif.Model.Quaternions` on arrays of any shape and type; what is added are the types which JAX gives to
the results and the checks of the constructor. Arrays with no entries are not considered. -/

namespace Verif

open XR Quat

/-- The floating point types. -/
def floatTypes : List String := ["float16", "bfloat16", "float32", "float64"]

/-- The type of `sin`, `cos`, `norm` and of quotients: floating point types are kept, other types become the default type
`dflt`, which is `float32`, or `float64` if JAX is set to 64 bits. -/
def inexactType (dflt d : String) : String := if d ∈ floatTypes then d else dflt

/-- The type of a product of an array of any type `d` with an array of the floating point type `e`. -/
def promoteFloat (d e : String) : String :=
  if d ∉ floatTypes ∨ d = e then e
  else if d = "float64" ∨ e = "float64" then "float64"
  else "float32"

/-- `jnp.finfo(dtype).eps`, a `ValueError` for other types. -/
noncomputable def finfoEps (d : String) : Except Err ℝ :=
  if d = "float16" then .ok (2 ^ (-10 : ℤ))
  else if d = "bfloat16" then .ok (2 ^ (-7 : ℤ))
  else if d = "float32" then .ok (2 ^ (-23 : ℤ))
  else if d = "float64" then .ok (2 ^ (-52 : ℤ))
  else .error .valueError

/-- quaternions.py:172-188 `quaternion_rotation`; `x` is converted by `asarray`. -/
noncomputable def quaternionRotationObj (x : Arr) (q : QuatObj) : Except Err (Vec 3) := do
  let qinv := q.toQuat.reciprocal
  let p ← QuatObj.init ⟨x.dtype, [], [0]⟩ x
  return ((qinv.mul p.toQuat).mul q.toQuat).im

/-- `normal_vec / norm(normal_vec)`: the norm of all entries. -/
noncomputable def Arr.normalize (dflt : String) (n : Arr) : Arr :=
  let r := XR.sqrt ((n.data.map fun a => a * a).sum)
  ⟨inexactType dflt n.dtype, n.shape, n.data.map fun a => a / r⟩

/-- quaternions.py:191-209 `quaternion_reflection`; the arguments are converted by `asarray`. -/
noncomputable def quaternionReflectionObj (dflt : String) (x normal_vec : Arr) : Except Err (Vec 3) := do
  let n := normal_vec.normalize dflt
  let z : Arr := ⟨x.dtype, [], [0]⟩
  let p ← QuatObj.init z x
  let q ← QuatObj.init z n
  return ((q.toQuat.mul p.toQuat).mul q.toQuat).im

/-- The `i`-th entry along the axis of an array of shape `(n,)`; JAX clamps indices which are too large. -/
def Arr.entry (a : Arr) (i : ℕ) : XR := a.data.getD (min i (a.data.length - 1)) nan

/-- quaternions.py:212-234 `from_euler_angles`; `angles` is converted by `asarray`. Without an axis `s[0]` is an
`IndexError`, with further axes the entries of the triple are arrays. -/
noncomputable def fromEulerAnglesObj (dflt : String) (angles : Arr) : Except Err QuatObj :=
  let d := inexactType dflt angles.dtype
  let half : Arr := ⟨d, angles.shape, angles.data.map fun a => a / 2⟩
  let s : Arr := ⟨d, half.shape, half.data.map XR.sin⟩
  let c : Arr := ⟨d, half.shape, half.data.map XR.cos⟩
  let a : Arr := ⟨d, [], [c.data.foldr (· * ·) 1 + s.data.foldr (· * ·) 1]⟩
  match angles.shape with
  | [] => .error .indexError
  | [_] => QuatObj.init a ⟨d, [3],
      [s.entry 0 * c.entry 1 * c.entry 2 - c.entry 0 * s.entry 1 * s.entry 2,
       c.entry 0 * s.entry 1 * c.entry 2 + s.entry 0 * c.entry 1 * s.entry 2,
       c.entry 0 * c.entry 1 * s.entry 2 - s.entry 0 * s.entry 1 * c.entry 2]⟩
  | _ :: rest => QuatObj.init a ⟨d, 3 :: rest, []⟩

/-- An angle: a Python number or an array of shape `()`. -/
inductive QuatAngle where
  | py (t : XR)
  | arr (dtype : String) (t : XR)

/-- The number. -/
def QuatAngle.val : QuatAngle → XR
  | .py t => t
  | .arr _ t => t

/-- The type of `cos(angle / 2)`. -/
def QuatAngle.cosType (dflt : String) : QuatAngle → String
  | .py _ => dflt
  | .arr d _ => inexactType dflt d

/-- The type of `axis_arr * sin(angle / 2)`: the sine of a Python number does not change a floating point type. -/
def QuatAngle.mulType (dflt : String) (axis : String) : QuatAngle → String
  | .py _ => inexactType dflt axis
  | .arr d _ => promoteFloat axis (inexactType dflt d)

/-- quaternions.py:237-252 `from_axis_angle`; `axis` is converted by `asarray`. -/
noncomputable def fromAxisAngleObj (dflt : String) (angle : QuatAngle) (axis : Arr) : Except Err QuatObj :=
  let h := angle.val / 2
  QuatObj.init ⟨angle.cosType dflt, [], [XR.cos h]⟩
    ⟨angle.mulType dflt axis.dtype, axis.shape, axis.data.map fun a => a * XR.sin h⟩

/-- quaternions.py:122-138 `quanternion_exp` with the type in `sgn` (162-169). -/
noncomputable def QuatObj.exp (q : QuatObj) : Except Err Quat := do
  let eps ← finfoEps q.q.dtype
  return Quat.exp eps q.toQuat

/-- quaternions.py:141-155 `quanternion_log` with the type in `sgn` (162-169). -/
noncomputable def QuatObj.log (q : QuatObj) : Except Err Quat := do
  let eps ← finfoEps q.q.dtype
  return Quat.log eps q.toQuat

/-- quaternions.py:85-87 `__pow__` with a Python number as exponent: the logarithm has the type of `q`. -/
noncomputable def QuatObj.pow (q : QuatObj) (s : XR) : Except Err Quat := do
  let eps ← finfoEps q.q.dtype
  return Quat.pow eps q.toQuat s

end Verif
