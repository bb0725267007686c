import Verif.Model.FloatOps
import Verif.Model.FloatSphere
import Verif.Model.Domain

/-!
# Disks, annuli, circles and spheres in floating point arithmetic (`/repo/magpi/domain.py`)

The operations are followed one by one, without fused operations. `cosL`, `sinL` and `powL` (the power `0.5`) are the functions of the library. The constants
`2 * pi` and `4 * pi` are computed by Python in double precision and then converted; they are parameters. The parameters of the domains
are arrays of the format.
-/

namespace Verif

open XR

/-- domain.py:297-304 `transform_circle_bnd` in the format `F`. -/
noncomputable def transformCircleBndFl (F : Fmt) (cosL sinL : XR → XR) (fourPi s r : XR) (o : Vec 2) : Vec 2 :=
  let s := F.mod1 s
  let phi := F.mul fourPi s
  fun i => F.add (F.mul (![cosL phi, sinL phi] i) r) (o i)

/-- domain.py:266 the radius of a sample in `transform_annulus`, in the format `F`. -/
noncomputable def annulusRadiusFl (F : Fmt) (x r1 r2 : XR) : XR :=
  F.sqrt (F.add (F.mul x (F.sub (F.mul r2 r2) (F.mul r1 r1))) (F.mul r1 r1))

/-- domain.py:260-269 `transform_annulus` in the format `F`. -/
noncomputable def transformAnnulusFl (F : Fmt) (cosL sinL : XR → XR) (twoPi : XR) (x : Vec 2) (r1 r2 : XR) (o : Vec 2) : Vec 2 :=
  let x : Vec 2 := fun i => F.mod1 (x i)
  let theta := F.mul twoPi (x 0)
  let r := annulusRadiusFl F (x 1) r1 r2
  fun i => F.add (F.mul r (![cosL theta, sinL theta] i)) (o i)

/-- domain.py:256-257 `transform_circle` in the format `F` (`Disk.transform`, 176-178). -/
noncomputable def transformCircleFl (F : Fmt) (cosL sinL : XR → XR) (twoPi : XR) (x : Vec 2) (r : XR) (o : Vec 2) : Vec 2 :=
  transformAnnulusFl F cosL sinL twoPi x (fin 0) r o

/-- domain.py:286-294 `transform_sphere_bnd` in the format `F`. -/
noncomputable def transformSphereBndFl (F : Fmt) (cosL sinL powL : XR → XR) (twoPi : XR) (x : Vec 2) (r : XR) (o : Vec 3) : Vec 3 :=
  let x : Vec 2 := fun i => F.mod1 (x i)
  let x3 := F.sub (F.mul (fin 2) (x 0)) (fin 1)
  let phi := F.mul twoPi (x 1)
  let q := powL (F.sub (fin 1) (F.mul x3 x3))
  fun i => F.add (F.mul (![F.mul (cosL phi) q, F.mul (sinL phi) q, x3] i) r) (o i)

/-- domain.py:126-128 `_Spherical.includes` in the format `F`: `b` is a possible answer. -/
def SphericalIncludesFl {d : ℕ} (F : Fmt) (r : XR) (o x : Vec d) (b : Prop) : Prop :=
  ∃ w, NormFl F (fun i => F.sub (x i) (o i)) w ∧ (b ↔ w < r)

/-- domain.py:135 `jnp.isclose` of numbers of the format `F` which are not infinite. -/
def iscloseTolFl (F : Fmt) (rtol atol a b : XR) : Prop := abs (F.sub a b) ≤ F.add atol (F.mul rtol (abs b))

/-- domain.py:130-138 `_Spherical.normal_vec` of one sample in the format `F`: `res` is a possible result. -/
def SphericalNormalFl {d : ℕ} (F : Fmt) (r : XR) (o : Vec d) (rtol atol : XR) (x : Vec d) (res : Option (Vec d)) : Prop :=
  ∃ w, NormFl F (fun i => F.sub (x i) (o i)) w ∧
    ((iscloseTolFl F rtol atol w r ∧ res = some fun i => F.div (F.sub (x i) (o i)) w) ∨ (¬ iscloseTolFl F rtol atol w r ∧ res = none))

end Verif
