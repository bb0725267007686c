import Verif.Model.Calc
import Verif.Model.Objects
import Mathlib.Analysis.InnerProductSpace.Adjoint

/-! # Model of further parts of `/repo/magpi/calc.py`

Reverse mode Jacobians, auxiliary outputs, the operators for modules, the checks of `curl` and explicit directions. -/

namespace Verif

section
variable {n m : ℕ} {A : Type}

/-- `jax.vjp`: the adjoint of the derivative. -/
noncomputable def vjp (f : Pt n → Pt m) (x : Pt n) (w : Pt m) : Pt n := ContinuousLinearMap.adjoint (fderiv ℝ f x) w

/-- `jax.jacrev`: one row for each entry of the value. -/
noncomputable def jacrev (f : Pt n → Pt m) (x : Pt n) : Matrix (Fin m) (Fin n) ℝ := fun i j => vjp f x (unitVec i) j

/-- calc.py:181-202 `value_and_jacrev` with `has_aux=False`. -/
noncomputable def valueAndJacrev (f : Pt n → Pt m) (x : Pt n) : Pt m × Matrix (Fin m) (Fin n) ℝ :=
  let f_ : Pt n → Pt m × Pt m := fun x => let y := f x; (y, y)
  let J := jacrev (fun x => (f_ x).1) x
  let y := (f_ x).2
  (y, J)

/-- calc.py:181-202 `value_and_jacrev` with `has_aux=True`. -/
noncomputable def valueAndJacrevAux (f : Pt n → Pt m × A) (x : Pt n) : (Pt m × A) × Matrix (Fin m) (Fin n) ℝ :=
  let f_ : Pt n → Pt m × (Pt m × A) := fun x => let (y, aux) := f x; (y, (y, aux))
  let J := jacrev (fun x => (f_ x).1) x
  let y := (f_ x).2
  (y, J)

/-- calc.py:158-178 `value_and_jacfwd` with `has_aux=True`. -/
noncomputable def valueAndJacfwdAux (f : Pt n → Pt m × A) (x : Pt n) : (Pt m × A) × Matrix (Fin m) (Fin n) ℝ :=
  let f_ : Pt n → Pt m × (Pt m × A) := fun x => let (y, aux) := f x; (y, (y, aux))
  let J := jacMatrix (fun x => (f_ x).1) x
  let y := (f_ x).2
  (y, J)

end

/-! ## Modules -/

section
variable {n m : ℕ} {P E R : Type} [NormedAddCommGroup E] [NormedSpace ℝ E]

/-- calc.py:25-34 `apply_to_module`: the operator gets a function of the input and the parameters in place of a module
with the method `apply`. -/
def applyToModule (operator : (Pt n → P → E) → R) (apply : P → Pt n → E) : R := operator fun x p => apply p x

/-- calc.py:349-364 `laplace` of a function with a further argument. -/
noncomputable def laplaceArgs (f : Pt n → P → E) (x : Pt n) (p : P) : E := laplace (fun x => f x p) x

/-- calc.py:383-405 `value_and_divergence` of a function with a further argument. -/
noncomputable def valueAndDivergenceArgs (f : Pt n → P → Pt m) (x : Pt n) (p : P) : Pt m × ℝ :=
  valueAndDivergence (fun x => f x p) x

/-- calc.py:408-425 `curl` of a function with a further argument. -/
noncomputable def curlArgs (f : Pt n → P → Pt m) (x : Pt n) (p : P) : Except Err (ℝ ⊕ Pt 3) := curl (fun x => f x p) x

/-- A positional argument: an array with `n` entries or a tree of parameters. -/
inductive PyObj (n : ℕ) (P : Type) where
  | array (x : Pt n)
  | tree (p : P)

/-- `jnp.zeros_like` and `jnp.ones_like`, which accept arrays only. -/
def PyObj.fullLike (x : PyObj n P) (value : ℝ) : Except Err (Pt n) :=
  match x with
  | array _ => .ok (WithLp.toLp 2 fun _ => value)
  | tree _ => .error .typeError

/-- calc.py:57-61 the direction for the position `wrt`. -/
def moduleDirection (wrt : ℤ) (args : List (PyObj n P)) : Except Err (List (Pt n)) :=
  args.zipIdx.mapM fun (x, i) => x.fullLike (if (i : ℤ) = wrt then 1 else 0)

/-- calc.py:57-69 `value_and_derivative(module, wrt)(x, p)`: input and parameters are positional arguments. -/
noncomputable def moduleDerivative (apply : P → Pt n → E) (wrt : ℤ) (x : Pt n) (p : P) : Except Err (E × E) := do
  let ei ← moduleDirection wrt [PyObj.array x, PyObj.tree p]
  return jvp (apply p) x (ei.headD 0)

/-- calc.py:57-69 `value_and_derivative(module, wrt)(x, p=p)`: the parameters are passed by keyword. -/
noncomputable def moduleDerivativeKw (apply : P → Pt n → E) (wrt : ℤ) (x : Pt n) (p : P) : Except Err (E × E) := do
  let ei ← moduleDirection wrt [(PyObj.array x : PyObj n P)]
  return jvp (apply p) x (ei.headD 0)

/-- calc.py:65-69 `value_and_derivative(f, ei)` where `wrt` is neither a number nor a name: a direction with one entry for
each argument. -/
noncomputable def valueAndDerivativeDirection {k : ℕ} {s : Fin k → ℕ} (f : Args s → E) (ei args : Args s) : E × E :=
  jvp f args ei

end

/-! ## The checks of `curl` -/

/-- calc.py:467-468 and 471-472 `is_2d` and `is_3d` for values of the given shapes; `x.shape[-1]` is an `IndexError` for
shape `()`. -/
def isNd (k : ℕ) (shapes : List (List ℕ)) : Except Err Bool := do
  let dims ← shapes.mapM fun s => match s.getLast? with
    | some d => Except.ok d
    | none => .error .indexError
  return dims.all (· == k)

/-- calc.py:449-464 `curl2d` of a function with values of shape `(b, 2)`. -/
noncomputable def curl2dBatch {b : ℕ} (f : Pt 2 → Fin b → Pt 2) (x : Pt 2) : Fin b → ℝ := fun r =>
  let J : Matrix (Fin 2) (Fin 2) ℝ := fun i j => jacfwd f x j r i
  J 1 0 - J 0 1

/-- calc.py:428-446 `curl3d` of a function with values of shape `(b, 3)`. -/
noncomputable def curl3dBatch {b : ℕ} (f : Pt 3 → Fin b → Pt 3) (x : Pt 3) : Fin b → Pt 3 := fun r =>
  let J : Matrix (Fin 3) (Fin 3) ℝ := fun i j => jacfwd f x j r i
  !₂[J 2 1 - J 1 2, J 0 2 - J 2 0, J 1 0 - J 0 1]

/-! ## Unit vectors -/

/-- mumag3.py:102-103 and 288-289 `unit_vec`. -/
noncomputable def unitVector {n : ℕ} (x : Vec n) : Vec n := fun i => x i / vnorm x

/-- mumag3.py:102-103 and 288-289 `unit_vec` for an array of shape `(b, n)`. -/
noncomputable def unitVectorBatch {b n : ℕ} (x : Fin b → Vec n) : Fin b → Vec n := fun r i => x r i / vnorm (x r)

end Verif
