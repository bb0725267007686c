import Verif.Num.Fl
import Verif.Model.Integrate

/-! # `/repo/magpi/integrate.py` with rounding (`Verif.Num.Fl`)

The rules are followed operation by operation; the small integers in them are numbers of every format. The order in which
`jnp.tensordot` adds the products is not specified and products may be fused with additions, so `FlDot` relates the two arrays to every
possible result. -/

namespace Verif

open XR

/-- integrate.py:20-23 `midpoint` in the format `F`. -/
noncomputable def midpointFl (F : Fmt) (domain : List XR) : List XR × List XR :=
  let w := List.zipWith (fun b a => F.sub b a) domain.tail domain.dropLast
  let nodes := List.zipWith (fun b a => F.div (F.add b a) (fin 2)) domain.tail domain.dropLast
  (w, nodes)

/-- integrate.py:26-32 `trap` in the format `F`. -/
noncomputable def trapFl (F : Fmt) (domain : List XR) : List XR × List XR :=
  let d := List.zipWith (fun b a => F.sub b a) domain.tail domain.dropLast
  let a := d ++ [fin 0]
  let b := fin 0 :: d
  let w := List.zipWith (fun a b => F.div (F.add a b) (fin 2)) a b
  (w, domain)

/-- integrate.py:38-39 `weights` of one cell in the format `F`. -/
noncomputable def simpsonFl.weights (F : Fmt) (a b : XR) : XR × XR × XR :=
  let h := F.div (F.sub b a) (fin 6)
  (F.mul h (fin 1), F.mul h (fin 4), F.mul h (fin 1))

/-- integrate.py:35-50 `simpson` in the format `F`. -/
noncomputable def simpsonFl (F : Fmt) (domain : List XR) : List XR × List XR :=
  let n := domain.length + domain.length - 1
  let _w := List.zipWith (simpsonFl.weights F) domain.dropLast domain.tail
  let w := (List.range n).map fun i =>
    if i = 0 then (_w.getD 0 0).1
    else if i = n - 1 then (_w.getD (_w.length - 1) 0).2.2
    else if i % 2 = 1 then (_w.getD ((i - 1) / 2) 0).2.1
    else F.add (_w.getD (i / 2 - 1) 0).2.2 (_w.getD (i / 2) 0).1
  let m := List.zipWith (fun a b => F.div (F.add a b) (fin 2)) domain.dropLast domain.tail
  let nodes := (List.range n).map fun i =>
    if i % 2 = 1 then m.getD ((i - 1) / 2) 0 else domain.getD (i / 2) 0
  (w, nodes)

/-- The possible results of the dot product of two arrays, given as their pairs of entries: in any order, in any grouping, with or
without fused additions. -/
inductive FlDot (F : Fmt) : Multiset (XR × XR) → XR → Prop
  | zero : FlDot F 0 (fin 0)
  | mul (w y : XR) : FlDot F {(w, y)} (F.mul w y)
  | add {l m : Multiset (XR × XR)} {a b : XR} : FlDot F l a → FlDot F m b → FlDot F (l + m) (F.add a b)
  | fma {l : Multiset (XR × XR)} {a : XR} (w y : XR) : FlDot F l a → FlDot F (l + {(w, y)}) (F.rnd (a + w * y))

/-- integrate.py:66-140 `integrate` for one grid, with the computed integrand `f`: `r` is a possible result. -/
def IntegrateFl (F : Fmt) (f : XR → XR) (domain : List XR) (method : List XR → List XR × List XR) (r : XR) : Prop :=
  FlDot F (List.zip (method domain).1 ((method domain).2.map f)) r

end Verif
