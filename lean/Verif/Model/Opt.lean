import Verif.Num.XR

/-! # Model of `/repo/magpi/opt.py`

A tree of arrays is the list of its leaves (the tree structure is not touched by the code). Random keys are paths in
the tree of `random.split`: entry `i` of `split(key, n)` is the key with `i` appended to the path. -/

namespace Verif

/-- `p.shape[axis]` with python's indexing. -/
def shapeAt (shape : List ℕ) (axis : ℤ) : Except Err ℕ :=
  let i := if axis < 0 then axis + shape.length else axis
  if 0 ≤ i ∧ i < shape.length then .ok (shape.getD i.toNat 0) else .error .indexError

/-- opt.py:23-27 `check_axis_size`; a tree without leaves has no `axis_size[0]`. -/
def checkAxisSize (tree : List (List ℕ)) (axis : ℤ) : Except Err Bool := do
  let axis_size ← tree.mapM fun p => shapeAt p axis
  match axis_size with
  | [] => .error .indexError
  | s :: _ => .ok (axis_size.all fun _s => _s == s)

/-- opt.py:30-35 `axis_size`. -/
def axisSize (tree : List (List ℕ)) (axis : ℤ) : Except Err ℕ := do
  let ok ← checkAxisSize tree axis
  if ok then
    let axis_size ← tree.mapM fun p => shapeAt p axis
    match axis_size with
    | [] => .error .indexError
    | s :: _ => .ok s
  else .error .assertion

/-- Shape of a leaf given by its rows: only the leading axis is used below. -/
def rowsShape {α : Type*} (rows : List α) : List ℕ := [rows.length]

/-- `x[perms]` with an integer array `perms` of two dimensions (indices out of range are clamped). -/
def gather {α : Type*} [Inhabited α] (x : List α) (perms : List (List ℕ)) : List (List α) :=
  perms.map fun p => p.map fun i => x.getD (min i (x.length - 1)) default

/-- `perms.reshape((batches, batch_size))`. -/
def reshape2 (perms : List ℕ) (batches batch_size : ℕ) : List (List ℕ) :=
  (List.range batches).map fun i => (List.range batch_size).map fun j => perms.getD (i * batch_size + j) 0

/-- A random key: path from the initial key in the tree of splits. -/
abbrev Key := List ℕ

/-- Entry `i` of `random.split(key, ..)`. -/
def Key.child (k : Key) (i : ℕ) : Key := k ++ [i]

section
variable {α : Type} [Inhabited α]

/-- opt.py:38-46 `batches_without_replacement`; `permutation key N` stands for
`jax.random.permutation(key, N)`. -/
def batchesWithoutReplacement (permutation : Key → ℕ → List ℕ) (key : Key) (X : List (List α)) (batch_size : ℕ) :
    Except Err (List (List (List α))) := do
  let N ← axisSize (X.map rowsShape) 0
  if batch_size = 0 then .error .zeroDivision
  else
    let batches := N / batch_size
    let perms := permutation key N
    let perms := perms.take (batches * batch_size)
    let perms := reshape2 perms batches batch_size
    .ok (X.map fun x => gather x perms)

/-- opt.py:49-63 `batches_with_replacement`; `choice key N size replace` stands for
`random.choice(key, N, (size,), replace)`, which may fail. -/
def batchesWithReplacement (choice : Key → ℕ → ℕ → Bool → Except Err (List ℕ)) (key : Key) (X : List (List α))
    (batches batch_size : ℕ) (replace_within_batch : Bool) : Except Err (List (List (List α))) := do
  let N ← axisSize (X.map rowsShape) 0
  let keys := (List.range batches).map fun i => key.child i
  let perms ← keys.mapM fun k => choice k N batch_size replace_within_batch
  .ok (X.map fun x => gather x perms)

end

section
variable {β : Type} [Inhabited β]

/-- opt.py:73-79, the loop over the batches of one epoch: yielded pairs of subkey (if `add_rng`) and batch. -/
def makeIterator.batches (batches : List (List β)) (add_rng : Bool) (batch_key : Key) :
    List ℕ → List (Option Key × List β)
  | [] => []
  | i :: is =>
    let batch := batches.map fun b => b.getD i default
    if add_rng then
      (some (batch_key.child 1), batch) :: makeIterator.batches batches add_rng (batch_key.child 0) is
    else (none, batch) :: makeIterator.batches batches add_rng batch_key is

/-- opt.py:66-79 `make_iterator`: everything that is yielded until the iterator is exhausted or raises, and the
error if it raises. The result of `batch_fn` is a tree of arrays, given by their rows (the batches). -/
def makeIterator (batch_fn : Key → List (List β)) (add_rng : Bool) :
    ℕ → Key → List (Option Key × List β) × Option Err
  | 0, _ => ([], none)
  | epochs + 1, key =>
    let sample_key := key.child 1
    let batch_key := key.child 2
    let key := key.child 0
    let batches := batch_fn sample_key
    match axisSize (batches.map rowsShape) 0 with
    | .error e => ([], some e)
    | .ok num_batches =>
      let out := makeIterator.batches batches add_rng batch_key (List.range num_batches)
      let rest := makeIterator batch_fn add_rng epochs key
      (out ++ rest.1, rest.2)

end

end Verif
