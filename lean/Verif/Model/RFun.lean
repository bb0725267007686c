import Verif.Model.Quaternions

/-! # Model of `/repo/magpi/r_fun.py` -/

namespace Verif

open XR

/-- `/repo/magpi/r_fun.py:24` `ADF`: a function from points to numbers.  The model fixes the dimension
of the points in the type, so shape errors between points and parameters cannot occur. -/
abbrev ADF (n : ℕ) := Vec n → XR

/-- r_fun.py:27-37 class `RFun`: a system of R-functions is a pair of binary operations
(`conjunction`, `disjunction`).  An instance of the base class itself, whose two methods raise
`NotADirectoryError`, is not a value of this type. -/
structure RFun where
  conj : XR → XR → XR
  disj : XR → XR → XR

namespace RFun

variable (S : RFun) {n : ℕ}

/-- r_fun.py:39-43 `_conjunction`. -/
def conjADF (f g : ADF n) : ADF n := fun x => S.conj (f x) (g x)

/-- r_fun.py:45-49 `_disjunction`. -/
def disjADF (f g : ADF n) : ADF n := fun x => S.disj (f x) (g x)

/-- r_fun.py:51-52 `negate`. -/
noncomputable def negate (_S : RFun) (f : ADF n) : ADF n := fun x => -f x

/-- r_fun.py:54-55 `union`. -/
def union (f g : ADF n) : ADF n := S.disjADF f g

/-- r_fun.py:57-58 `intersection`. -/
def intersection (f g : ADF n) : ADF n := S.conjADF f g

/-- r_fun.py:60-66 `equivalence`. -/
noncomputable def equivalence (f g : ADF n) : ADF n := fun x =>
  let a := f x
  let b := g x
  let c1 := S.disj a (-b)
  let c2 := S.disj (-a) b
  S.conj c1 c2

/-- r_fun.py:68-72 `implication`. -/
noncomputable def implication (f g : ADF n) : ADF n := fun x => S.disj (-f x) (g x)

/-- r_fun.py:74-78 `difference`. -/
noncomputable def difference (f g : ADF n) : ADF n := fun x => S.conj (f x) (-g x)

/-- r_fun.py:80-86 `xor`. -/
noncomputable def xor (f g : ADF n) : ADF n := fun x =>
  let a := f x
  let b := g x
  let c1 := S.conj a (-b)
  let c2 := S.conj (-a) b
  S.disj c1 c2

end RFun

/-- r_fun.py:102-105 `RAlpha.conjunction`. -/
noncomputable def RAlpha.conj (alpha : ℝ) (a b : XR) : XR :=
  1 / (1 + fin alpha) * (a + b - sqrt (a ^ 2 + b ^ 2 - 2 * fin alpha * a * b))

/-- r_fun.py:107-110 `RAlpha.disjunction`. -/
noncomputable def RAlpha.disj (alpha : ℝ) (a b : XR) : XR :=
  1 / (1 + fin alpha) * (a + b + sqrt (a ^ 2 + b ^ 2 - 2 * fin alpha * a * b))

/-- The methods of an `RAlpha` object with attribute `alpha` (r_fun.py:102-110). -/
noncomputable def RAlpha.sys (alpha : ℝ) : RFun := ⟨RAlpha.conj alpha, RAlpha.disj alpha⟩

open Classical in
/-- r_fun.py:98-100 `RAlpha.__init__`. -/
noncomputable def RAlpha (alpha : ℝ) : Except Err RFun :=
  if -1 < alpha ∧ alpha ≤ 1 then .ok (RAlpha.sys alpha) else .error .assertion

/-- r_fun.py:129-136 `RAlphaM.conjunction`. -/
noncomputable def RAlphaM.conj (m alpha : ℝ) (a b : XR) : XR :=
  let r := a ^ 2 + b ^ 2
  1 / (1 + fin alpha) * (a + b - sqrt (r - 2 * fin alpha * a * b)) * rpow r (m / 2)

/-- r_fun.py:138-145 `RAlphaM.disjunction`. -/
noncomputable def RAlphaM.disj (m alpha : ℝ) (a b : XR) : XR :=
  let r := a ^ 2 + b ^ 2
  1 / (1 + fin alpha) * (a + b + sqrt (r - 2 * fin alpha * a * b)) * rpow r (m / 2)

/-- The methods of an `RAlphaM` object (r_fun.py:129-145). -/
noncomputable def RAlphaM.sys (m alpha : ℝ) : RFun := ⟨RAlphaM.conj m alpha, RAlphaM.disj m alpha⟩

open Classical in
/-- r_fun.py:124-127 `RAlphaM.__init__`. -/
noncomputable def RAlphaM (m alpha : ℝ) : Except Err RFun :=
  if -1 < alpha ∧ alpha ≤ 1 then .ok (RAlphaM.sys m alpha) else .error .assertion

/-- r_fun.py:162-163 `RP.conjunction` for `p ≠ 0`. -/
noncomputable def RP.conj (p : ℤ) (a b : XR) : XR :=
  a + b - rpow (zpow a p + zpow b p) (1 / (p : ℝ))

/-- r_fun.py:165-166 `RP.disjunction` for `p ≠ 0`. -/
noncomputable def RP.disj (p : ℤ) (a b : XR) : XR :=
  a + b + rpow (zpow a p + zpow b p) (1 / (p : ℝ))

/-- The methods of an `RP` object with attribute `p ≠ 0` (r_fun.py:162-166). -/
noncomputable def RP.sys (p : ℤ) : RFun := ⟨RP.conj p, RP.disj p⟩

/-- r_fun.py:162-163 the call `RP(p).conjunction(a, b)`: the Python expression `1 / self.p` raises
`ZeroDivisionError` for `p = 0`. -/
noncomputable def RP.callConj (p : ℤ) (a b : XR) : Except Err XR :=
  if p = 0 then .error .zeroDivision else .ok (RP.conj p a b)

/-- r_fun.py:158-160 `RP.__init__`: only the parity of `p` is checked. The result is the attribute `p`. -/
def RP (p : ℤ) : Except Err ℤ :=
  if p % 2 = 0 then .ok p else .error .assertion

/-- r_fun.py:186-188 `RhoBlending.conjunction`. -/
noncomputable def RhoBlending.conj (rho : ℝ) (a b : XR) : XR :=
  let s := a ^ 2 + b ^ 2 - fin rho ^ 2
  a + b - sqrt (a ^ 2 + b ^ 2 + 1 / (8 * fin rho) * s * (s - abs s))

/-- r_fun.py:190-192 `RhoBlending.disjunction`. -/
noncomputable def RhoBlending.disj (rho : ℝ) (a b : XR) : XR :=
  let s := a ^ 2 + b ^ 2 - fin rho ^ 2
  a + b + sqrt (a ^ 2 + b ^ 2 + 1 / (8 * fin rho) * s * (s - abs s))

/-- r_fun.py:183-192 a `RhoBlending` object. -/
noncomputable def RhoBlending (rho : ℝ) : RFun := ⟨RhoBlending.conj rho, RhoBlending.disj rho⟩

/-- r_fun.py:195 `r1 = RAlpha(1.0)`. -/
noncomputable def r1 : Except Err RFun := RAlpha 1
/-- r_fun.py:196 `r0 = RAlpha(0.0)`. -/
noncomputable def r0 : Except Err RFun := RAlpha 0
/-- r_fun.py:197 `rp2 = RP(2)`. -/
def rp2 : Except Err ℤ := RP 2
/-- r_fun.py:198 `rp4 = RP(4)`. -/
def rp4 : Except Err ℤ := RP 4

/-- `functools.reduce(func, d)` (used at r_fun.py:318) without initial value. For an empty sequence
Python raises `TypeError`; the model returns `nan` (only reachable in dimension 0). -/
def reduce (f : XR → XR → XR) : List XR → XR
  | [] => nan
  | d :: ds => ds.foldl f d

/-- r_fun.py:314-322 `compose(func)(*adf)`: the flattened values of all functions are concatenated and
reduced from the left. -/
def compose {n : ℕ} (f : XR → XR → XR) (adfs : List (Vec n → List XR)) : ADF n := fun x =>
  reduce f (adfs.flatMap fun adf => adf x)

/-- The argument `edge_lengths` of `cuboid` (r_fun.py:201, 218): a vector with one entry per dimension,
or a scalar which is broadcast against the point. -/
inductive EdgeArg (n : ℕ) where
  | scalar (l : XR)
  | vector (e : Vec n)

/-- Broadcasting of `edge_lengths` against a point (r_fun.py:232-233). -/
def EdgeArg.get {n : ℕ} : EdgeArg n → Vec n
  | .scalar l => fun _ => l
  | .vector e => e

/-- r_fun.py:220-225 `lb`. -/
noncomputable def cuboid.lb {n : ℕ} (e : EdgeArg n) (centering : Bool) : Vec n := fun i =>
  if centering then -e.get i / 2 else 0

/-- r_fun.py:220-225 `ub`. -/
noncomputable def cuboid.ub {n : ℕ} (e : EdgeArg n) (centering : Bool) : Vec n := fun i =>
  if centering then e.get i / 2 else e.get i

/-- r_fun.py:201-236 `cuboid`. -/
noncomputable def cuboid {n : ℕ} (e : EdgeArg n) (centering : Bool) (S : RFun) : ADF n :=
  compose S.conj [fun x =>
    (List.finRange n).flatMap fun i =>
      [cuboid.ub e centering i - x i, x i - cuboid.lb e centering i]]

/-- r_fun.py:239-256 `cube`. -/
noncomputable def cube {n : ℕ} (l : XR) (centering : Bool) (S : RFun) : ADF n :=
  cuboid (.scalar l) centering S

/-- r_fun.py:259-273 `sphere`. -/
noncomputable def sphere {n : ℕ} (r : XR) : ADF n := fun x => (r ^ 2 - vnorm x ^ 2) / (2 * r)

/-- r_fun.py:276-292 `cylinder`, for points with at least two coordinates. -/
noncomputable def cylinder {n : ℕ} (r : XR) : ADF (n + 2) := fun x =>
  sphere (n := 2) r fun i => x (Fin.castLE (by omega) i)

/-- r_fun.py:325-339 `translate`. -/
noncomputable def translate {n : ℕ} (f : ADF n) (y : Vec n) : ADF n := fun x => f fun i => x i - y i

/-- r_fun.py:361 the function returned by `scale` for a single scaling factor. -/
noncomputable def scaleBy {n : ℕ} (f : ADF n) (s : XR) : ADF n := fun x => f (fun i => x i / s) * s

/-- r_fun.py:342-361 `scale`; the argument is the flattened array of scaling factors. -/
noncomputable def scale {n : ℕ} (f : ADF n) : List XR → Except Err (ADF n)
  | [s] => .ok (scaleBy f s)
  | _ => .error .assertion

/-- r_fun.py:364-381 `scale_without_normalization` (a scalar factor is the constant vector). -/
noncomputable def scaleWithoutNormalization {n : ℕ} (f : ADF n) (s : Vec n) : ADF n := fun x =>
  f fun i => x i / s i

/-- The argument `angle` of `rotate2d` with its dtype (r_fun.py:384, 400). -/
inductive NumArg where
  | float (t : XR)
  | int (k : ℤ)

/-- The value of a numeric argument. -/
def NumArg.val : NumArg → XR
  | .float t => t
  | .int k => fin k

/-- `array(_, dtype=_angle.dtype)` (r_fun.py:403): conversion to the dtype of the argument. -/
noncomputable def NumArg.cast : NumArg → XR → XR
  | .float _, x => x
  | .int _, x => trunc x

/-- r_fun.py:402-404 the matrix `M`. -/
noncomputable def rotate2d.M (angle : NumArg) : Fin 2 → Fin 2 → XR :=
  ![![angle.cast (cos angle.val), angle.cast (sin angle.val)],
    ![angle.cast (-sin angle.val), angle.cast (cos angle.val)]]

/-- r_fun.py:384-411 `rotate2d`. -/
noncomputable def rotate2d (f : ADF 2) (angle : NumArg) (o : Vec 2) : ADF 2 :=
  let adf := translate f fun i => -o i
  let rotOp : ADF 2 := fun x => adf fun i => vdot (rotate2d.M angle i) x
  translate rotOp o

/-- The argument `angle` of `rotate3d` (r_fun.py:416, 444): a scalar, three Euler angles, or an array of
any other shape. -/
inductive AngleArg where
  | scalar (t : XR)
  | euler (t : Vec 3)
  | other

/-- r_fun.py:444-455 the choice of `rot_quaternion` in `rotate3d`. -/
noncomputable def rotate3d.quat (angle : AngleArg) (axis : Option (Vec 3)) : Except Err Quat :=
  match angle with
  | .scalar t => match axis with
    | none => .error .valueError
    | some u => .ok (fromAxisAngle (-t) u)
  | .euler t => match axis with
    | some _ => .error .valueError
    | none => .ok (fromEulerAngles fun i => -t i)
  | .other => .error .valueError

/-- r_fun.py:414-463 `rotate3d`. -/
noncomputable def rotate3d (f : ADF 3) (angle : AngleArg) (axis : Option (Vec 3)) (o : Vec 3) :
    Except Err (ADF 3) := do
  let adf := translate f fun i => -o i
  let q ← rotate3d.quat angle axis
  let rotOp : ADF 3 := fun x => adf (quaternionRotation x q)
  return translate rotOp o

/-- r_fun.py:466-489 `reflect` (a scalar `o` is the constant vector). -/
noncomputable def reflect {n : ℕ} (f : ADF n) (nv o : Vec n) : ADF n :=
  let adf := translate f fun i => -o i
  let refOp : ADF n := fun x => adf fun i => x i - 2 * vdot x nv / vnorm nv ^ 2 * nv i
  translate refOp o

/-- r_fun.py:492-514 `project` (a scalar `o` is the constant vector). -/
noncomputable def project {n : ℕ} (f : ADF n) (nv o : Vec n) : ADF n :=
  let adf := translate f fun i => -o i
  let projOp : ADF n := fun x => adf fun i => x i - vdot x nv / vnorm nv ^ 2 * nv i
  translate projOp o

/-- r_fun.py:517-540 `revolution`: the error is raised when the returned function is called. -/
noncomputable def revolution (f : ADF 2) (axis : ℤ) : Vec 3 → Except Err XR := fun x =>
  if axis = 0 then
    .ok (f ![x 0, sqrt (x 1 ^ 2 + x 2 ^ 2)])
  else if axis = 1 then
    .ok (f ![sqrt (x 0 ^ 2 + x 2 ^ 2), x 1])
  else .error .valueError

/-- r_fun.py:543-563 `normalize_1st_order`; `df` is the function `jacfwd(adf)` of line 556. -/
noncomputable def normalize1stOrder {n : ℕ} (f : ADF n) (df : Vec n → Vec n) : ADF n := fun x =>
  let y := f x
  let dy := df x
  y / sqrt (y ^ 2 + vnorm dy ^ 2)

/-- `jacfwd` of `scale_without_normalization(sphere(1.0), axes)` (r_fun.py:308-310, 273, 381) as JAX
computes it: forward mode through `x / axes`, `norm` (`sqrt` of a sum of squares, whose tangent is
multiplied by `0.5 / sqrt(..)`), the square, the subtraction from `1 ** 2` and the division by `2 * 1`. -/
noncomputable def ellipsoid.jac {n : ℕ} (axes : Vec n) (x : Vec n) : Vec n := fun k =>
  let z : Vec n := fun i => x i / axes i
  let dz : Vec n := fun i => (if i = k then 1 else 0) / axes i
  let nrm := vnorm z
  let dnrm := (∑ i, (dz i * z i + z i * dz i)) * (1 / 2 / nrm)
  let dsq := dnrm * (2 * nrm)
  let dy := -dsq / (2 * 1)
  dy

/-- r_fun.py:295-311 `ellipsoid`. -/
noncomputable def ellipsoid {n : ℕ} (axes : Vec n) : ADF n :=
  normalize1stOrder (scaleWithoutNormalization (sphere 1) axes) (ellipsoid.jac axes)

end Verif
