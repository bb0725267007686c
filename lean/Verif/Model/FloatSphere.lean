import Verif.Model.FloatQuad
import Verif.Model.RFun

/-!
# Spheres in floating point arithmetic (`/repo/magpi/r_fun.py`)

The sum of the squares in `norm` may be computed in any order, so that the results are given by a relation.  The radius is an array of
the format; for a Python number the code computes `r**2` and `2 * r` in double precision.
-/

namespace Verif

open XR

/-- The squares of the coordinates (`norm`, r_fun.py:273), as pairs for the dot product. -/
def squaresFl {n : ℕ} (x : Vec n) : Multiset (XR × XR) := (Finset.univ : Finset (Fin n)).val.map fun i => (x i, x i)

/-- r_fun.py:273 `norm(x)` of `jax.numpy.linalg`: the square root of the sum of the squares; `v` is a possible result. -/
def NormFl {n : ℕ} (F : Fmt) (x : Vec n) (v : XR) : Prop := ∃ s, FlDot F (squaresFl x) s ∧ v = F.sqrt s

/-- r_fun.py:259-273 `sphere` in the format `F`: `v` is a possible value at `x`. -/
def SphereFl {n : ℕ} (F : Fmt) (r : XR) (x : Vec n) (v : XR) : Prop :=
  ∃ w, NormFl F x w ∧ v = F.div (F.sub (F.mul r r) (F.mul w w)) (F.mul (fin 2) r)

/-- r_fun.py:276-292 `cylinder` in the format `F`, for points with at least two coordinates. -/
def CylinderFl {n : ℕ} (F : Fmt) (r : XR) (x : Vec (n + 2)) (v : XR) : Prop :=
  SphereFl (n := 2) F r (fun i => x (Fin.castLE (by omega) i)) v

/-- r_fun.py:325-339 `translate` in the format `F`. -/
def TranslateFl {n : ℕ} (F : Fmt) (f : Vec n → XR → Prop) (y x : Vec n) (v : XR) : Prop := f (fun i => F.sub (x i) (y i)) v

end Verif
