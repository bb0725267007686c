import Verif.Model.RFun

/-! # The functions of `/repo/magpi/r_fun.py` on arrays of any shape

`Verif.Model.RFun` maps one point, an array of shape `(n,)`. Here are the shape checks of the rotations and of `revolution`, and
the functions which accept arrays of any shape. -/

namespace Verif

open XR

/-- An array: its shape and its entry at each index. -/
structure Nd where
  shape : List ℕ
  get : List ℕ → XR

/-- The indices of an array of the given shape, in row-major order. -/
def indices : List ℕ → List (List ℕ)
  | [] => [[]]
  | d :: s => (List.range d).flatMap fun i => (indices s).map (i :: ·)

/-- `x.ravel()`. -/
def Nd.ravel (a : Nd) : List XR := (indices a.shape).map a.get

/-- The shape of the result of an elementwise operation, from the last axis on: axes of length one and missing axes are
stretched, otherwise lengths which differ are a `TypeError`. -/
def broadcastRev : List ℕ → List ℕ → Except Err (List ℕ)
  | [], t => .ok t
  | s, [] => .ok s
  | a :: s, b :: t =>
    if a = b ∨ b = 1 then (broadcastRev s t).map (a :: ·)
    else if a = 1 then (broadcastRev s t).map (b :: ·)
    else .error .typeError

/-- The shape of the result of an elementwise operation. -/
def broadcast (s t : List ℕ) : Except Err (List ℕ) := (broadcastRev s.reverse t.reverse).map List.reverse

/-- The index of the entry of an array of shape `s` which is used for the entry `idx` of the result. -/
def stretch (s idx : List ℕ) : List ℕ :=
  List.zipWith (fun d i => if d = 1 then 0 else i) s (idx.drop (idx.length - s.length))

/-- An elementwise operation with broadcasting. -/
def Nd.zipWith (f : XR → XR → XR) (a b : Nd) : Except Err Nd := do
  let s ← broadcast a.shape b.shape
  return ⟨s, fun idx => f (a.get (stretch a.shape idx)) (b.get (stretch b.shape idx))⟩

/-- An elementwise operation with one argument. -/
def Nd.map (f : XR → XR) (a : Nd) : Nd := ⟨a.shape, fun idx => f (a.get idx)⟩

/-- An array of shape `(n,)`. -/
def Nd.ofVec {n : ℕ} (v : Vec n) : Nd :=
  ⟨[n], fun idx => if h : idx.headD 0 < n then v ⟨idx.headD 0, h⟩ else nan⟩

/-- The entries of an array of shape `(n,)`. -/
def Nd.vec (a : Nd) (n : ℕ) : Vec n := fun i => a.get [i]

/-- `x @ v` for an array of shape `(.., n)`. -/
noncomputable def Nd.matvec {n : ℕ} (a : Nd) (v : Vec n) : Nd :=
  ⟨a.shape.dropLast, fun idx => ∑ i : Fin n, a.get (idx ++ [(i : ℕ)]) * v i⟩

/-- An ADF called on an array of any shape. -/
abbrev NdADF := Nd → Except Err XR

/-- r_fun.py:325-339 `translate`. -/
noncomputable def translateNd {n : ℕ} (f : NdADF) (y : Vec n) : NdADF := fun x => do
  let d ← Nd.zipWith (· - ·) x (Nd.ofVec y)
  f d

/-- r_fun.py:384-411 `rotate2d`, with the assertion about the shape. -/
noncomputable def rotate2dNd (f : NdADF) (angle : NumArg) (o : Vec 2) : NdADF :=
  let adf := translateNd f fun i => -o i
  let rotOp : NdADF := fun x =>
    if x.shape = [2] then adf (Nd.ofVec fun i => vdot (rotate2d.M angle i) (x.vec 2)) else .error .assertion
  translateNd rotOp o

/-- r_fun.py:457-463 the function returned by `rotate3d`, with the assertion about the shape. -/
noncomputable def rotate3dNd (f : NdADF) (q : Quat) (o : Vec 3) : NdADF :=
  let adf := translateNd f fun i => -o i
  let rotOp : NdADF := fun x =>
    if x.shape = [3] then adf (Nd.ofVec (quaternionRotation (x.vec 3) q)) else .error .assertion
  translateNd rotOp o

/-- r_fun.py:517-540 `revolution`, with the assertion about the shape. -/
noncomputable def revolutionNd (f : NdADF) (axis : ℤ) : NdADF := fun x =>
  if x.shape = [3] then
    if axis = 0 then f (Nd.ofVec ![x.get [0], sqrt (x.get [1] ^ 2 + x.get [2] ^ 2)])
    else if axis = 1 then f (Nd.ofVec ![sqrt (x.get [0] ^ 2 + x.get [2] ^ 2), x.get [1]])
    else .error .valueError
  else .error .assertion

/-- r_fun.py:466-489 `reflect`. -/
noncomputable def reflectNd {n : ℕ} (f : NdADF) (nv o : Vec n) : NdADF :=
  let adf := translateNd f fun i => -o i
  let refOp : NdADF := fun x => do
    let t := (x.matvec nv).map fun a => 2 * a / vnorm nv ^ 2
    let u ← Nd.zipWith (· * ·) t (Nd.ofVec nv)
    let d ← Nd.zipWith (· - ·) x u
    adf d
  translateNd refOp o

/-- `norm(x)`: the norm of all entries, for any shape. -/
noncomputable def Nd.norm (x : Nd) : XR := sqrt ((x.ravel.map fun a => a * a).sum)

/-- r_fun.py:259-273 `sphere`. -/
noncomputable def sphereNd (r : XR) : NdADF := fun x => .ok ((r ^ 2 - x.norm ^ 2) / (2 * r))

/-- r_fun.py:276-292 `cylinder`: `x[:2]` are the first two entries along the first axis. -/
noncomputable def cylinderNd (r : XR) : NdADF := fun x =>
  match x.shape with
  | [] => .error .indexError
  | d :: s => sphereNd r ⟨min 2 d :: s, x.get⟩

/-- r_fun.py:201-236 and 314-322 `cuboid` with edge lengths of shape `(n,)`: all entries are reduced. An empty sequence is a
`TypeError`. -/
noncomputable def cuboidNd {n : ℕ} (e : Vec n) (centering : Bool) (S : RFun) : NdADF := fun x => do
  let a ← Nd.zipWith (· - ·) (Nd.ofVec (cuboid.ub (.vector e) centering)) x
  let b ← Nd.zipWith (· - ·) x (Nd.ofVec (cuboid.lb (.vector e) centering))
  match (a.ravel.zip b.ravel).flatMap fun (a, b) => [a, b] with
  | [] => .error .typeError
  | d :: ds => .ok (reduce S.conj (d :: ds))

end Verif
