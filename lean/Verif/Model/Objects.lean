import Verif.Model.Domain
import Verif.Model.Quaternions

/-! # Constructors with the shapes and types of their arguments

The rest of the model fixes shapes in types. Here the checks of the constructors of `/repo/magpi/domain.py` and
`/repo/magpi/quaternions.py`, and of the functions they call, are modelled on arrays of any shape. -/

namespace Verif

open XR

/-- An array: its type, its shape and its entries in row-major order. -/
@[ext] structure Arr where
  dtype : String
  shape : List ℕ
  data : List XR

/-- The number of entries is the product of the shape. -/
def Arr.WellFormed (a : Arr) : Prop := a.data.length = a.shape.prod

/-- The entry of an array of shape `()`. -/
def Arr.item (a : Arr) : XR := a.data.headD nan

/-- The entries of an array of shape `(n,)`. -/
def Arr.vec (a : Arr) (n : ℕ) : Vec n := fun i => a.data.getD i nan

/-- `x.shape[-1]`, which is an `IndexError` for shape `()`. -/
def Arr.lastDim (a : Arr) : Except Err ℕ :=
  match a.shape.getLast? with
  | some n => .ok n
  | none => .error .indexError

/-- The statement `assert c`. -/
def pyAssert (c : Bool) : Except Err Unit := if c then .ok () else .error .assertion

/-- domain.py:141-149, 163-171 an object of class `Sphere` or `Disk`. -/
structure SphericalObj where
  radius : Arr
  origin : Arr

/-- domain.py:147-149, 169-171 `Sphere.__post_init__` and `Disk.__post_init__`, which are equal. -/
def SphericalObj.init (radius origin : Arr) : Except Err SphericalObj := do
  pyAssert (radius.shape.length == 0)
  pyAssert (origin.shape.length == 1)
  return ⟨radius, origin⟩

/-- domain.py:185-195 an object of class `Annulus`. -/
structure AnnulusObj where
  r1 : Arr
  r2 : Arr
  origin : Arr

/-- domain.py:192-195 `Annulus.__post_init__`. -/
def AnnulusObj.init (r1 r2 origin : Arr) : Except Err AnnulusObj := do
  pyAssert (r1.shape.length == 0)
  pyAssert (r2.shape.length == 0)
  pyAssert (origin.shape.length == 1)
  return ⟨r1, r2, origin⟩

/-- domain.py:151-152 `Sphere.support`. -/
noncomputable def SphericalObj.sphereSupport (s : SphericalObj) : XR := Verif.sphereSupport s.radius.item

/-- domain.py:173-174 `Disk.support`. -/
noncomputable def SphericalObj.diskSupport (s : SphericalObj) : XR := Verif.diskSupport s.radius.item

/-- domain.py:197-198 `Annulus.support`. -/
noncomputable def AnnulusObj.support (s : AnnulusObj) : XR := annulusSupport s.r1.item s.r2.item

/-- domain.py:154-156 `Sphere.transform` with the assertions of `transform_sphere` (273-275), for one sample. -/
noncomputable def SphericalObj.sphereTransform (s : SphericalObj) (x : Arr) : Except Err (Vec 3) := do
  pyAssert ((← x.lastDim) == 3)
  pyAssert (s.radius.shape.length == 0)
  pyAssert ((← s.origin.lastDim) == 3)
  return transformSphere (x.vec 3) s.radius.item (s.origin.vec 3)

/-- domain.py:158-160 `Sphere.transform_bnd` with the assertions of `transform_sphere_bnd` (287-289), for one sample. -/
noncomputable def SphericalObj.sphereTransformBnd (s : SphericalObj) (x : Arr) : Except Err (Vec 3) := do
  pyAssert ((← x.lastDim) == 2)
  pyAssert (s.radius.shape.length == 0)
  pyAssert ((← s.origin.lastDim) == 3)
  return transformSphereBnd (x.vec 2) s.radius.item (s.origin.vec 3)

/-- domain.py:200-203 `Annulus.transform` with the assertions of `transform_annulus` (261-263), for one sample. -/
noncomputable def AnnulusObj.transform (s : AnnulusObj) (x : Arr) : Except Err (Vec 2) := do
  pyAssert ((← x.lastDim) == 2)
  pyAssert (s.r1.shape.length == 0 && s.r2.shape.length == 0)
  pyAssert ((← s.origin.lastDim) == 2)
  return transformAnnulus (x.vec 2) s.r1.item s.r2.item (s.origin.vec 2)

/-- domain.py:176-178 `Disk.transform`, which calls `transform_circle` (256-257) and so `transform_annulus` with inner
radius zero. -/
noncomputable def SphericalObj.diskTransform (s : SphericalObj) (x : Arr) : Except Err (Vec 2) :=
  AnnulusObj.transform ⟨⟨"float32", [], [0]⟩, s.radius, s.origin⟩ x

/-- domain.py:180-182 `Disk.transform_bnd` with the assertions of `transform_circle_bnd` (298-299), for one number. -/
noncomputable def SphericalObj.diskTransformBnd (s : SphericalObj) (x : XR) : Except Err (Vec 2) := do
  pyAssert (s.radius.shape.length == 0)
  pyAssert (s.origin.shape.length == 1 && (s.origin.shape.headD 0) == 2)
  return transformCircleBnd x s.radius.item (s.origin.vec 2)

/-! ## Quaternions as containers -/

/-- quaternions.py:12-17 an object of class `Quaternion`. -/
@[ext] structure QuatObj where
  a : Arr
  q : Arr

/-- quaternions.py:20-25 `Quaternion.__init__`, for arguments already converted by `asarray`. -/
def QuatObj.init (a q : Arr) : Except Err QuatObj := do
  pyAssert (a.shape == [])
  pyAssert (q.shape == [3])
  pyAssert (a.dtype == q.dtype)
  return ⟨a, q⟩

/-- The number which the object stands for in the rest of the model. -/
def QuatObj.toQuat (p : QuatObj) : Quat := ⟨p.a.item, p.q.vec 3⟩

/-- `a == b` of numbers: not true if one of them is not a number. -/
def XR.PyEq (a b : XR) : Prop := a ≠ nan ∧ a = b

/-- quaternions.py:31-37 `Quaternion.__eq__` for two quaternions. (For another object the method returns `NotImplemented`,
and Python's `==` then falls back to identity.) -/
def Quat.PyEq (p q : Quat) : Prop := XR.PyEq p.re q.re ∧ ∀ i, XR.PyEq (p.im i) (q.im i)

/-- quaternions.py:105-107 `tree_flatten`. -/
def QuatObj.treeFlatten (p : QuatObj) : Arr × Arr := (p.a, p.q)

/-- quaternions.py:109-111 `tree_unflatten`. -/
def QuatObj.treeUnflatten (children : Arr × Arr) : Except Err QuatObj := QuatObj.init children.1 children.2

/-- `jnp.stack` of arrays of the same shape and type along a new first axis. -/
def Arr.stack (dtype : String) (shape : List ℕ) (l : List Arr) : Arr :=
  ⟨dtype, l.length :: shape, (l.map Arr.data).flatten⟩

/-- `jax.vmap` of a function which returns a quaternion: the children of the results are stacked, and the object is rebuilt
by `tree_unflatten` (quaternions.py:109-111). (Before that JAX rebuilds an object from placeholders, which also fails in
the constructor; only the second step is modelled.) All results have the shapes and type of the constructor. -/
def QuatObj.vmap {X : Type} (dtype : String) (f : X → QuatObj) (xs : List X) : Except Err QuatObj :=
  let children := xs.map fun x => (f x).treeFlatten
  QuatObj.treeUnflatten
    (Arr.stack dtype [] (children.map Prod.fst), Arr.stack dtype [3] (children.map Prod.snd))

end Verif
