import Verif.Num.XR
import Mathlib.Algebra.Module.BigOperators
import Mathlib.Analysis.SpecialFunctions.Trigonometric.Basic

/-! # Model of `/repo/magpi/integrate.py`

Arrays of nodes and weights are lists of real numbers (only additions, multiplications and divisions by
literals occur). The values of the integrand are elements of a real vector space `E`, standing for one leaf
of the tree returned by the integrand (the code treats the leaves separately, integrate.py:140, 193
and 250). Extra arguments `*args`, `**kwargs` are part of the integrand. -/

namespace Verif

/-- integrate.py:17 `QuadRule`: from a grid to weights and nodes. -/
abbrev QuadRule := List ℝ → List ℝ × List ℝ

/-- integrate.py:20-23 `midpoint`. -/
noncomputable def midpoint : QuadRule := fun domain =>
  let w := List.zipWith (fun b a => b - a) domain.tail domain.dropLast
  let nodes := List.zipWith (fun b a => (b + a) / 2) domain.tail domain.dropLast
  (w, nodes)

/-- integrate.py:26-32 `trap`: `a` are the differences followed by a zero, `b` a zero followed by the
differences (for a grid with at least one node). -/
noncomputable def trap : QuadRule := fun domain =>
  let d := List.zipWith (fun b a => b - a) domain.tail domain.dropLast
  let a := d ++ [0]
  let b := 0 :: d
  let w := List.zipWith (fun a b => (a + b) / 2) a b
  (w, domain)

/-- integrate.py:38-39 `weights` of one cell. -/
noncomputable def simpson.weights (a b : ℝ) : ℝ × ℝ × ℝ :=
  ((b - a) / 6 * 1, (b - a) / 6 * 4, (b - a) / 6 * 1)

/-- integrate.py:35-50 `simpson` (for a grid with at least two nodes, with one node the code fails): entry `i`
of the weight array as set by the four scatter statements, and of the interleaved nodes. -/
noncomputable def simpson : QuadRule := fun domain =>
  let n := domain.length + domain.length - 1
  let _w := List.zipWith simpson.weights domain.dropLast domain.tail
  let w := (List.range n).map fun i =>
    if i = 0 then (_w.getD 0 0).1
    else if i = n - 1 then (_w.getD (_w.length - 1) 0).2.2
    else if i % 2 = 1 then (_w.getD ((i - 1) / 2) 0).2.1
    else (_w.getD (i / 2 - 1) 0).2.2 + (_w.getD (i / 2) 0).1
  let m := List.zipWith (fun a b => (a + b) / 2) domain.dropLast domain.tail
  let nodes := (List.range n).map fun i =>
    if i % 2 = 1 then m.getD ((i - 1) / 2) 0 else domain.getD (i / 2) 0
  (w, nodes)

/-- integrate.py:53-63 `gauss`; the reference rule `leggauss(degree)` of numpy is a parameter. -/
noncomputable def gauss (nodes weights : List ℝ) : QuadRule := fun domain =>
  let cells := domain.dropLast.zip domain.tail
  let w := cells.map fun (a, b) => weights.map fun w => (b - a) / 2 * w
  let n := cells.map fun (a, b) => nodes.map fun x => (a + b) / 2 + x * (b - a) / 2
  (w.flatten, n.flatten)

section
variable {E : Type*} [AddCommGroup E] [Module ℝ E]

/-- `jnp.tensordot(W, F, len(domain))` (integrate.py:140) for `W` and `F` flattened alike. -/
noncomputable def tensordot (W : List ℝ) (F : List E) : E := (List.zipWith (fun w z => w • z) W F).sum

/-- integrate.py:66-140 `integrate` for one grid: `apply_along_axis` hands the whole array of nodes to the
integrand, which has to return one value per node. -/
noncomputable def integrate1 (f : List ℝ → List E) (domain : List ℝ) (method : QuadRule) : Except Err E :=
  let W := (method domain).1
  let X := (method domain).2
  let F := f X
  if W.length = F.length then .ok (tensordot W F) else .error .typeError

/-- All combinations of entries, the first index slowest. -/
def product {α : Type*} : List (List α) → List (List α)
  | [] => [[]]
  | a :: r => a.flatMap fun x => (product r).map (x :: ·)

/-- `stack(jnp.meshgrid(*X), axis=-1)` (integrate.py:128-129), flattened: the default indexing `'xy'` gives an
array with shape `(n2, n1, n3, ..)`, so the second index is the slowest. -/
def meshgrid {α : Type*} : List (List α) → List (List α)
  | a :: b :: r => b.flatMap fun y => a.flatMap fun x => (product r).map fun p => x :: y :: p
  | l => product l

/-- integrate.py:66-140 `integrate` for two or more grids: the integrand gets one point (a list with one
coordinate per grid). -/
noncomputable def integrateN (f : List ℝ → E) (domain : List (List ℝ)) (method : QuadRule) : E :=
  let W := meshgrid (domain.map fun d => (method d).1)
  let X := meshgrid (domain.map fun d => (method d).2)
  let W := W.map List.prod
  let F := X.map f
  tensordot W F

/-- `jnp.linspace(a, b, n)`. -/
noncomputable def linspace (a b : ℝ) (n : ℕ) : List ℝ :=
  (List.range n).map fun i : ℕ => if n = 1 then a else a + (i : ℝ) * ((b - a) / ((n : ℝ) - 1))

/-- integrate.py:188-193 the transformed integrand in `integrate_disk`. -/
noncomputable def integrateDisk.g (f : ℝ → ℝ → E) (o : ℝ × ℝ) (u : List ℝ) : E :=
  let r := u.getD 0 0
  let phi := u.getD 1 0
  let x := r * Real.cos phi
  let y := r * Real.sin phi
  r • f (x + o.1) (y + o.2)

/-- integrate.py:143-199 `integrate_disk`. -/
noncomputable def integrateDisk (f : ℝ → ℝ → E) (r : ℝ) (o : ℝ × ℝ) (n : ℕ × ℕ) (r_inner phi1 phi2 : ℝ)
    (method : QuadRule) : E :=
  integrateN (integrateDisk.g f o) [linspace r_inner r n.1, linspace phi1 phi2 n.2] method

/-- integrate.py:244-250 the transformed integrand in `integrate_sphere`. -/
noncomputable def integrateSphere.g (f : ℝ → ℝ → ℝ → E) (o : ℝ × ℝ × ℝ) (t : List ℝ) : E :=
  let r := t.getD 0 0
  let phi := t.getD 1 0
  let theta := t.getD 2 0
  let x := r * Real.sin phi * Real.cos theta
  let y := r * Real.sin phi * Real.sin theta
  let z := r * Real.cos phi
  (r ^ 2 * Real.sin phi) • f (x + o.1) (y + o.2.1) (z + o.2.2)

/-- integrate.py:202-257 `integrate_sphere`. -/
noncomputable def integrateSphere (f : ℝ → ℝ → ℝ → E) (r : ℝ) (o : ℝ × ℝ × ℝ) (n : ℕ × ℕ × ℕ)
    (r_inner phi1 phi2 theta1 theta2 : ℝ) (method : QuadRule) : E :=
  integrateN (integrateSphere.g f o)
    [linspace r_inner r n.1, linspace phi1 phi2 n.2.1, linspace theta1 theta2 n.2.2] method

end

end Verif
