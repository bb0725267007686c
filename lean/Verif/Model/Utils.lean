import Verif.Model.BC

/-! # Model of the tree helpers of `/repo/magpi/utils.py` and `/repo/magpi/tr.py` -/

namespace Verif

/-- A tree of containers (tuples, lists, dictionaries in the order of their keys, ...) with leaves. -/
inductive PyTree (α : Type) where
  | leaf (a : α)
  | node (children : List (PyTree α))

mutual
/-- `jax.tree_util.tree_leaves`. -/
def PyTree.leaves {α : Type} : PyTree α → List α
  | .leaf a => [a]
  | .node children => PyTree.leavesList children

/-- The leaves of the children of a container. -/
def PyTree.leavesList {α : Type} : List (PyTree α) → List α
  | [] => []
  | c :: cs => PyTree.leaves c ++ PyTree.leavesList cs
end

/-- A leaf: a JAX array with its `dtype` and `shape`, or another object with a shape (a numpy array) or without
(a number). -/
inductive Leaf where
  | array (dtype : String) (shape : List ℕ)
  | numpy (dtype : String) (shape : List ℕ)
  | other

/-- `t.shape` -/
def Leaf.shape : Leaf → Except Err (List ℕ)
  | .array _ s => .ok s
  | .numpy _ s => .ok s
  | .other => .error .attributeError

/-- `p.dtype ... if isinstance(p, Array)` (utils.py:41). -/
def Leaf.dtypeIfArray : Leaf → Option String
  | .array d _ => some d
  | _ => none

/-- The elements of `set(l)`. -/
def pySet {α : Type} [DecidableEq α] (l : List α) : List α := l.dedup

/-- utils.py:39-46 `tree_single_dtype`. -/
def treeSingleDtype (tree : PyTree Leaf) : Except Err (Option String) :=
  let dtypes := pySet (tree.leaves.filterMap Leaf.dtypeIfArray)
  match dtypes with
  | [] => .ok none
  | [d] => .ok (some d)
  | _ => .error .valueError

/-- utils.py:49-55 `tree_dim`. -/
def treeDim (tree : PyTree Leaf) (axis : ℤ) : Except Err ℕ := do
  let dim ← tree.leaves.mapM fun t => do
    let s ← t.shape
    pyIndex s axis
  match pySet dim with
  | [d] => .ok d
  | _ => .error .assertion

/-- tr.py:238-240 `tree_size`; `tree_reduce` without initial value fails for a tree without leaves. -/
def treeSize (pytree : PyTree Leaf) : Except Err ℕ := do
  let sizes ← pytree.leaves.mapM fun t => do
    let s ← t.shape
    return s.prod
  match sizes with
  | [] => .error .typeError
  | a :: l => .ok (l.foldl (· + ·) a)

end Verif
