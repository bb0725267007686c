import Verif.Model.Objects

/-! # Samplers of `/repo/magpi/domain.py` on arrays of any shape

`Verif.Model.Domain` maps one sample. Here are the functions whose result depends on the number of axes of their argument, on
arrays of any shape. The type of the result is not modelled (it is that of the argument). -/

namespace Verif

open XR

/-- The `i`-th row of length `k` of an array: all axes but the last are merged. -/
def Arr.row (a : Arr) (k i : ℕ) : Vec k := fun j => a.data.getD (i * k + j) nan

/-- A function applied to `N` rows of length `k`; the shape of the result is `batch + (n,)`. -/
def Arr.mapRows {n : ℕ} (a : Arr) (batch : List ℕ) (N k : ℕ) (f : Vec k → Vec n) : Arr :=
  ⟨a.dtype, batch ++ [n], (List.range N).flatMap fun i => List.ofFn (f (a.row k i))⟩

/-- `x[:, None]` of an array of shape `(N,)`. -/
def Arr.addAxis (a : Arr) : Arr := { a with shape := a.shape ++ [1] }

/-- `x.ravel()`. -/
def Arr.ravel (a : Arr) : Arr := { a with shape := [a.data.length] }

/-- `x[0]`: the first row; the shape loses its first axis. -/
def Arr.first (a : Arr) : Arr := { a with shape := a.shape.tail, data := a.data.take a.shape.tail.prod }

/-- domain.py:225-252 the assertion about the last axis, `insert` along the last axis and `transform_hypercube`. -/
noncomputable def hyperBnd.rows {m : ℕ} (x : Arr) (lb ub : Vec (m + 2)) : Except Err Arr :=
  if x.shape.getLast? = some (m + 1) then
    .ok (x.mapRows x.shape.dropLast x.shape.dropLast.prod (m + 1) fun r =>
      transformHypercube (hyperBnd.insert lb ub fun i => mod1 (r i)) lb ub)
  else .error .assertion

open Classical in
/-- domain.py:211-253 `transform_hypercube_bnd` with its cases for the shape of `x`. In one dimension the bounds of shape `(1,)`
are broadcast to `x`. -/
noncomputable def transformHypercubeBndArr {n : ℕ} (x : Arr) (lb ub : Vec n) : Except Err Arr :=
  match n with
  | 0 => .error .assertion
  | 1 =>
    let shape := if x.shape = [] then [1] else x.shape
    .ok ⟨x.dtype, shape, x.data.map fun s => transformHypercube (fun _ => if fin (1 / 2) < mod1 s then 1 else 0) lb ub 0⟩
  | m + 2 => do
    let x' := if x.shape = [] then x.ravel else x
    let x' := if x'.shape.length = 1 ∧ m + 2 = 2 then x'.addAxis else x'
    let y ← hyperBnd.rows x' lb ub
    return if x.shape = [] then y.first else y

/-- domain.py:297-304 `transform_circle_bnd`; the assertions about `r` and `o` hold. `squeeze` removes all axes of length one. -/
noncomputable def transformCircleBndArr (s : Arr) (r : XR) (o : Vec 2) : Arr :=
  let s' : Arr := { s with shape := s.shape.filter (· ≠ 1) }
  let phi : List XR := s'.data.map fun s => 4 * fin Real.pi * mod1 s
  ⟨s.dtype, s'.shape ++ [2], phi.flatMap fun p => List.ofFn fun i : Fin 2 => ![XR.cos p, XR.sin p] i * r + o i⟩

open Classical in
/-- domain.py:318-334 `transform_polyline`; at least two points. -/
noncomputable def transformPolylineArr {d m : ℕ} (s : Arr) (line : Fin (m + 2) → Vec d) : Except Err Arr :=
  if s.shape.length = 0 ∨ s.shape.length = 1 then
    let s' : List XR := s.data.map fun s => mod1 s * polyline.length line
    let idx : List (Fin (m + 1)) := s'.map fun s => argmaxBool fun k => s ≤ polyline.cum line k
    let p : List (Vec d) := List.zipWith (fun s k =>
      let p1 := line k.castSucc
      let p2 := line k.succ
      let dd := polyline.cum line k - s
      fun i => p2 i + (p1 i - p2 i) * dd / vnorm fun i => p1 i - p2 i) s' idx
    let y : Arr := ⟨s.dtype, [p.length, d], p.flatMap fun v => List.ofFn v⟩
    .ok (if s.shape = [] then y.first else y)
  else .error .assertion

/-- domain.py:104-106 `Parallelogram.transform_bnd`. -/
noncomputable def Parallelogram.transformBndArr {d : ℕ} (P : Parallelogram d) (s : Arr) : Except Err Arr :=
  transformPolylineArr (m := 3) s ![vfin P.a, vfin (P.a + P.b), vfin (P.a + P.b + P.c), vfin P.c, vfin P.a]

open Classical in
/-- domain.py:95-102 `Parallelogram.transform`. -/
noncomputable def Parallelogram.transformArr {d : ℕ} (P : Parallelogram d) (samples : Arr) : Except Err Arr := do
  pyAssert ((← samples.lastDim) == 2)
  let samples : Arr := { samples with data := samples.data.map fun u => if 1 < u then mod1 u else u }
  if samples.shape.length = 1 then
    return ⟨samples.dtype, [d], List.ofFn fun i => (∑ j, fin (P.B i j) * samples.row 2 0 j) + fin (P.a i)⟩
  else
    return samples.mapRows samples.shape.dropLast samples.shape.dropLast.prod 2 fun r =>
      fun i => (∑ j, r j * fin (P.B i j)) + fin (P.a i)

end Verif
