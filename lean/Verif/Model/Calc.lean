import Verif.Model.BC
import Mathlib.Analysis.Calculus.FDeriv.Pi

/-! # Model of `/repo/magpi/calc.py` and of the function wrappers of `/repo/magpi/utils.py`

Over the real numbers. The forward and reverse mode derivatives `jvp`, `jacfwd`, `grad` and `linearize` of JAX are the
Fréchet derivative in a direction and the partial derivatives. Vectors are `Pt n`, the values are in a
normed space `E` (a tree of arrays) where the code does not look at them. Further arguments `*args` and `**kwargs` are
passed on to `f` by all operators, they are part of `f` here. A `nn.Module` in place of `f` is the function
`lambda x, p, ...: f.apply(p, x, ...)` (calc.py:25-34). -/

namespace Verif

section
variable {E : Type} [NormedAddCommGroup E] [NormedSpace ℝ E]

/-- The `i`-th unit vector. -/
noncomputable abbrev unitVec {n : ℕ} (i : Fin n) : Pt n := EuclideanSpace.single i 1

/-- `jax.jvp` for a function of one argument. -/
noncomputable def jvp {D : Type} [NormedAddCommGroup D] [NormedSpace ℝ D] (f : D → E) (x v : D) : E × E :=
  (f x, fderiv ℝ f x v)

/-- `jax.jacfwd`: entry `j` along the last axis is the partial derivative with respect to entry `j` of the argument. -/
noncomputable def jacfwd {n : ℕ} (f : Pt n → E) (x : Pt n) : Fin n → E := fun j => (jvp f x (unitVec j)).2

/-- `jax.jacfwd` for a function of a number. -/
noncomputable def jacfwd1 (f : ℝ → E) (x : ℝ) : E := (jvp f x 1).2

/-- calc.py:158-178 `value_and_jacfwd`. -/
noncomputable def valueAndJacfwd {n : ℕ} (f : Pt n → E) (x : Pt n) : E × (Fin n → E) := (f x, jacfwd f x)

/-! ## Second order operators -/

/-- calc.py:205-208 `hvp`. -/
noncomputable def hvp {n : ℕ} (f : Pt n → E) (primals tangents : Pt n) : Fin n → E := (jvp (jacfwd f) primals tangents).2

/-- calc.py:338-346 `hessian_diag` for a vector. -/
noncomputable def hessianDiag {n : ℕ} (f : Pt n → E) (primals : Pt n) : Fin n → E := fun i =>
  let v : Pt n := unitVec i
  ∑ j, v j • hvp f primals v j

/-- calc.py:330-337 `hessian_diag` for a number: an array with one entry. -/
noncomputable def hessianDiag1 (f : ℝ → E) (primals : ℝ) : Fin 1 → E := fun _ => (jvp (jacfwd1 f) primals 1).2

/-- calc.py:349-364 `laplace` of a function of a vector. -/
noncomputable def laplace {n : ℕ} (f : Pt n → E) (x : Pt n) : E := ∑ i, hessianDiag f x i

/-- calc.py:349-364 `laplace` of a function of a number. -/
noncomputable def laplace1 (f : ℝ → E) (x : ℝ) : E := ∑ i, hessianDiag1 f x i

/-! ## Divergence and curl -/

/-- `J[i, j]` for a vector field. -/
noncomputable def jacMatrix {n m : ℕ} (f : Pt n → Pt m) (x : Pt n) : Matrix (Fin m) (Fin n) ℝ := fun i j => jacfwd f x j i

/-- `jnp.sum(diag(J))` for a matrix. -/
def sumDiag {n m : ℕ} (J : Matrix (Fin m) (Fin n) ℝ) : ℝ :=
  ∑ k : Fin (min m n), J ⟨k, lt_of_lt_of_le k.isLt (min_le_left _ _)⟩ ⟨k, lt_of_lt_of_le k.isLt (min_le_right _ _)⟩

/-- calc.py:383-405 `value_and_divergence` of a vector field. -/
noncomputable def valueAndDivergence {n m : ℕ} (f : Pt n → Pt m) (x : Pt n) : Pt m × ℝ :=
  (f x, sumDiag (jacMatrix f x))

/-- calc.py:367-380 `divergence` of a vector field. -/
noncomputable def divergence {n m : ℕ} (f : Pt n → Pt m) (x : Pt n) : ℝ := (valueAndDivergence f x).2

/-- calc.py:398-399 `divergence` of a function with values of shape `(b, m)`. -/
noncomputable def divergenceBatch {b n m : ℕ} (f : Pt n → Fin b → Pt m) (x : Pt n) : Fin b → ℝ := fun r =>
  sumDiag fun i j => jacfwd f x j r i

/-- calc.py:400-401 `divergence` of a function with values of shape `()`: the Jacobian has shape `(n,)`, `diag` makes it
a diagonal matrix. -/
noncomputable def divergenceScalar {n : ℕ} (f : Pt n → ℝ) (x : Pt n) : ℝ :=
  ∑ i, ∑ j, Matrix.diagonal (jacfwd f x) i j

/-- calc.py:449-464 `curl2d`. -/
noncomputable def curl2d (f : Pt 2 → Pt 2) (x : Pt 2) : ℝ :=
  let J := jacMatrix f x
  J 1 0 - J 0 1

/-- calc.py:428-446 `curl3d`. -/
noncomputable def curl3d (f : Pt 3 → Pt 3) (x : Pt 3) : Pt 3 :=
  let J := jacMatrix f x
  !₂[J 2 1 - J 1 2, J 0 2 - J 2 0, J 1 0 - J 0 1]

/-- calc.py:408-425 `curl`; the result is a number or a vector. The functions for two and three dimensions check the
number of entries of the value. -/
noncomputable def curl : {n m : ℕ} → (Pt n → Pt m) → Pt n → Except Err (ℝ ⊕ Pt 3)
  | 2, 2, f, x => .ok (.inl (curl2d f x))
  | 2, _, _, _ => .error .assertion
  | 3, 3, f, x => .ok (.inr (curl3d f x))
  | 3, _, _, _ => .error .assertion
  | _, _, _, _ => .error .valueError

/-! ## Functions with gradients and auxiliary outputs -/

/-- The calling conventions of the function `fun` selected by `value_and_grad` and `has_aux`. -/
inductive UserFun (n : ℕ) (A : Type) where
  /-- `value_and_grad=False, has_aux=False`: returns the value. -/
  | plain (f : Pt n → ℝ)
  /-- `value_and_grad=False, has_aux=True`: returns `(value, aux)`. -/
  | aux (f : Pt n → ℝ × A)
  /-- `value_and_grad=True, has_aux=False`: returns `(value, grad)`. -/
  | grad (f : Pt n → ℝ × Pt n)
  /-- `value_and_grad=True, has_aux=True`: returns `((value, aux), grad)`. -/
  | gradAux (f : Pt n → (ℝ × A) × Pt n)

/-- `jax.value_and_grad(f)`. -/
noncomputable def jaxValueAndGrad {n : ℕ} (f : Pt n → ℝ) (x : Pt n) : ℝ × Pt n := (f x, jacVec f x)

/-- `jax.value_and_grad(f, has_aux=True)`. -/
noncomputable def jaxValueAndGradAux {n : ℕ} {B : Type} (f : Pt n → ℝ × B) (x : Pt n) : (ℝ × B) × Pt n :=
  (f x, jacVec (fun y => (f y).1) x)

/-- utils.py:9-36 `make_funs_with_aux`: the functions `fun_`, `grad_fun` and `value_and_grad_fun`. A missing
auxiliary output is `None`. -/
noncomputable def makeFunsWithAux {n : ℕ} {A : Type} (u : UserFun n A) :
    (Pt n → ℝ × Option A) × (Pt n → Pt n × Option A) × (Pt n → (ℝ × Option A) × Pt n) :=
  let fun_ : Pt n → ℝ × Option A := match u with
    | .gradAux f => fun x => let r := (f x).1; (r.1, some r.2)
    | .grad f => fun x => ((f x).1, none)
    | .aux f => fun x => let r := f x; (r.1, some r.2)
    | .plain f => fun x => (f x, none)
  let value_and_grad_fun : Pt n → (ℝ × Option A) × Pt n := match u with
    | .gradAux f => fun x => let r := f x; ((r.1.1, some r.1.2), r.2)
    | .grad f => fun x =>
      let (v, g) := f x
      ((v, none), g)
    | .aux _ => jaxValueAndGradAux fun_
    | .plain _ => jaxValueAndGradAux fun_
  let grad_fun : Pt n → Pt n × Option A := fun x =>
    let ((_, a), g) := value_and_grad_fun x
    (g, a)
  (fun_, grad_fun, value_and_grad_fun)

/-- The inner function `grad_f` of calc.py:232-237, 294-299 and 318-323: the gradient in all four conventions. -/
noncomputable def gradF {n : ℕ} {A : Type} (u : UserFun n A) (p : Pt n) : Pt n :=
  match u with
  | .gradAux f => (f p).2
  | .grad f => (f p).2
  | .aux f => (jaxValueAndGradAux f p).2
  | .plain f => (jaxValueAndGrad f p).2

/-- calc.py:211-243 `hvp_forward_over_reverse` for one primal. -/
noncomputable def hvpForwardOverReverse {n : ℕ} {A : Type} (u : UserFun n A) (x v : Pt n) (alpha : Option ℝ) : Pt n :=
  let _hvp := (jvp (gradF u) x v).2
  match alpha with
  | none => _hvp
  | some alpha => _hvp + alpha • v

/-- calc.py:309-327 `hvp_reverse_over_reverse`. -/
noncomputable def hvpReverseOverReverse {n : ℕ} {A : Type} (u : UserFun n A) (x v : Pt n) : Pt n :=
  jacVec (fun x => ∑ i, gradF u x i * v i) x

/-- The value and the auxiliary output in the four conventions (calc.py:296-306). -/
def UserFun.value {n : ℕ} {A : Type} (u : UserFun n A) (p : Pt n) : ℝ × Option A :=
  match u with
  | .gradAux f => ((f p).1.1, some (f p).1.2)
  | .grad f => ((f p).1, none)
  | .aux f => ((f p).1, some (f p).2)
  | .plain f => (f p, none)

/-- calc.py:271-306 `value_grad_hvp`: value, gradient, Hessian vector product (by `jax.linearize`) and, if there is one,
the auxiliary output. -/
noncomputable def valueGradHvp {n : ℕ} {A : Type} (u : UserFun n A) (primals : Pt n) :
    ℝ × Pt n × (Pt n → Pt n) × Option A :=
  ((u.value primals).1, gradF u primals, fun v => fderiv ℝ (gradF u) primals v, (u.value primals).2)

end

/-! ## Iterated derivatives -/

/-- The positional arguments of a function: argument `i` is an array with `s i` entries. -/
abbrev Args {k : ℕ} (s : Fin k → ℕ) := (i : Fin k) → Fin (s i) → ℝ

/-- An entry of `wrt`: a position or a name. -/
inductive Partials where
  | int (i : ℤ)
  | str (name : String)

/-- calc.py:57-66, the direction `ei` for the position `wrt`. With `argnum`, `ei[argnum].at[wrt].set(1.0)` sets one entry of
one argument; negative indices count from the end and an index out of bounds changes nothing. -/
def derivativeDirection {k : ℕ} (s : Fin k → ℕ) (wrt : ℤ) (argnum : Option ℤ) : Except Err (Args s) :=
  match argnum with
  | none => .ok fun i _ => if (i : ℤ) = wrt then 1 else 0
  | some a => do
    let j ← pyIndex (List.finRange k) a
    let w : ℤ := if wrt < 0 then wrt + s j else wrt
    return fun i c => if i = j ∧ (c : ℤ) = w then 1 else 0

section
variable {E : Type} [NormedAddCommGroup E] [NormedSpace ℝ E] {k : ℕ} {s : Fin k → ℕ}

/-- calc.py:40-71 `value_and_derivative` for a function whose parameters have the names `names`. The errors of
`ei[argnum]`, raised when the derivative is called, are raised here when it is made. -/
noncomputable def valueAndDerivative (names : List String) (f : Args s → E) (wrt : Partials) (argnum : Option ℤ) :
    Except Err (Args s → E × E) := do
  match argnum, wrt with
  | some _, .str _ => throw .assertion
  | _, _ => pure ()
  let wrt : ℤ ← match wrt with
    | .int i => pure i
    | .str name => if name ∈ names then pure (names.idxOf name : ℤ) else throw .assertion
  let ei ← derivativeDirection s wrt argnum
  return fun args => jvp f args ei

/-- calc.py:141-146, the inner function `_df`. -/
noncomputable def derivative.df (names : List String) (f : Args s → E) (ei : Partials) (argnum : Option ℤ) :
    Except Err (Args s → E) := do
  let df ← valueAndDerivative names f ei argnum
  return fun args => (df args).2

/-- `wrt` of `derivative`, if it is not a function. -/
inductive Wrt where
  | int (i : ℤ)
  | str (name : String)
  | seq (l : List Partials)

/-- calc.py:132-133. A string is a sequence: iterating over it gives its characters. -/
def Wrt.toList : Wrt → List Partials
  | int i => [.int i]
  | str name => name.toList.map fun c => .str c.toString
  | seq l => l

/-- calc.py:132-155 `derivative(wrt, argnums)(f)`; `argnums` is an optional number or a sequence. -/
noncomputable def derivative (names : List String) (wrt : Wrt) (argnums : Option ℤ ⊕ List (Option ℤ)) (f : Args s → E) :
    Except Err (Args s → E) :=
  let wrt := wrt.toList
  let argnums := match argnums with
    | .inl a => wrt.map fun _ => a
    | .inr l => l
  if argnums.length = wrt.length then
    (wrt.zip argnums).foldlM (fun df (ei, argnum) => derivative.df names df ei argnum) f
  else .error .assertion

/-- calc.py:115-130 `derivative(f, argnums)`. -/
noncomputable def derivativeDirect (names : List String) (f : Args s → E) (argnums : Option ℤ) :
    Except Err (Args s → E) :=
  let argnum := argnums.getD 0
  derivative.df names f (.int argnum) none

end

end Verif
