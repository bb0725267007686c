import Verif.Model.NestedAD
import Mathlib.Data.Fin.Tuple.Basic

/-! # Model of reverse differentiation (`jax.grad`) in `/repo/magpi/calc.py`

A function is a straight line program: a sequence of primitive operations, each of which appends its result to the numbers
computed so far. `jax.grad` runs the program and keeps all numbers; then it passes through the operations in reverse order and
adds to the cotangents of the arguments of an operation what the transpose of JAX's rule of the operation gives for the cotangent of
the result. A number without cotangent (`none`) has a symbolic zero, which is never computed with. Programs are written for the
numbers `α` of any level of `Verif.Nested`, so that reverse differentiation may be differentiated again by `jax.jvp`. -/

namespace Verif

open XR

/-- An operation on `m` numbers. -/
inductive Prim (m : ℕ) where
  | const (c : ℝ)
  | add (i j : Fin m)
  | sub (i j : Fin m)
  | mul (i j : Fin m)
  | div (i j : Fin m)
  | neg (i : Fin m)
  | sqrt (i : Fin m)
  | exp (i : Fin m)
  | sin (i : Fin m)
  | cos (i : Fin m)
  | tanh (i : Fin m)
  | log (i : Fin m)
  | ipow (i : Fin m) (n : ℤ)
  | rpow (i : Fin m) (y : ℝ)

/-- A program with `m` numbers at hand: it returns one of them, or computes one more and carries on. -/
inductive Prog : ℕ → Type where
  | ret {m : ℕ} (i : Fin m) : Prog m
  | bind {m : ℕ} (p : Prim m) (rest : Prog (m + 1)) : Prog m

section

variable {α : Type} [ADNum α] {m : ℕ}

/-- The result of an operation. -/
noncomputable def Prim.eval (x : Fin m → α) : Prim m → α
  | const c => ADNum.const (fin c)
  | add i j => x i +ₐ x j
  | sub i j => x i -ₐ x j
  | mul i j => x i *ₐ x j
  | div i j => x i /ₐ x j
  | neg i => ADNum.neg (x i)
  | sqrt i => ADNum.sqrt (x i)
  | exp i => ADNum.exp (x i)
  | sin i => ADNum.sin (x i)
  | cos i => ADNum.cos (x i)
  | tanh i => ADNum.tanh (x i)
  | log i => ADNum.log (x i)
  | ipow i n => ADNum.ipow (x i) n
  | rpow i y => ADNum.rpow (x i) y

/-- The result of a program. -/
noncomputable def Prog.eval : {m : ℕ} → Prog m → (Fin m → α) → α
  | _, ret i, x => x i
  | _, bind p rest, x => rest.eval (Fin.snoc (α := fun _ => α) x (p.eval x))

open Classical in
/-- What the operation adds to the cotangents of its arguments, as functions of the cotangent `c` of the result. -/
noncomputable def Prim.transpose (x : Fin m → α) : Prim m → List (Fin m × (α → α))
  | const _ => []
  | add i j => [(i, fun c => c), (j, fun c => c)]
  | sub i j => [(i, fun c => c), (j, fun c => ADNum.neg c)]
  | mul i j => [(i, fun c => c *ₐ x j), (j, fun c => x i *ₐ c)]
  | div i j => [(i, fun c => c /ₐ x j), (j, fun c => ADNum.neg (c *ₐ ADNum.ipow (x j) (-2) *ₐ x i))]
  | neg i => [(i, fun c => ADNum.neg c)]
  | sqrt i => [(i, fun c => c *ₐ (ADNum.const (1 / 2) /ₐ ADNum.sqrt (x i)))]
  | exp i => [(i, fun c => c *ₐ ADNum.exp (x i))]
  | sin i => [(i, fun c => c *ₐ ADNum.cos (x i))]
  | cos i => [(i, fun c => ADNum.neg c *ₐ ADNum.sin (x i))]
  | tanh i => [(i, fun c =>
      let d := c *ₐ (ADNum.const 1 -ₐ ADNum.tanh (x i));
      d +ₐ d *ₐ ADNum.tanh (x i))]
  | log i => [(i, fun c => c /ₐ x i)]
  | ipow i n => if n = 0 then [] else [(i, fun c => c *ₐ (ADNum.const (fin n) *ₐ ADNum.ipow (x i) (n - 1)))]
  | rpow i y => [(i, fun c => c *ₐ (if y = 0 then ADNum.const 0 else ADNum.const (fin y) *ₐ ADNum.rpow (x i) (y - 1)))]

/-- Adds the parts `l` for the cotangent `c` to the cotangents `g`. -/
def accumulate (c : Option α) (g : Fin m → Option α) (l : List (Fin m × (α → α))) : Fin m → Option α :=
  l.foldl (fun g e => Function.update g e.1 (JVP.addT (g e.1) (c.map e.2))) g

open Classical in
/-- The cotangents of the numbers at hand for the cotangent one of the result. -/
noncomputable def Prog.rev : {m : ℕ} → Prog m → (Fin m → α) → Fin m → Option α
  | _, ret i, _ => Function.update (fun _ => none) i (some (ADNum.const 1))
  | _, bind p rest, x =>
    let g := rest.rev (Fin.snoc (α := fun _ => α) x (p.eval x))
    accumulate (g (Fin.last _)) (fun i => g i.castSucc) (p.transpose x)

/-- `jax.grad` of a program: a symbolic zero becomes the number zero. -/
noncomputable def Prog.grad (P : Prog m) (x : Fin m → α) : Fin m → α := fun i => (P.rev x i).getD (ADNum.const 0)

end

/-- A number inside an outer `jax.grad` by `n` inputs: its value and what a cotangent of it adds to the cotangents of the inputs.
Simplified: JAX adds the cotangents of all uses of a number before it passes their sum on; here each is passed on alone. -/
structure RevNum (n : ℕ) (α : Type) where
  val : α
  back : α → Fin n → Option α

/-- The result of an operation inside an outer `jax.grad`. -/
noncomputable def revOp {α : Type} [ADNum α] {n m : ℕ} (p : Prim m) (x : Fin m → RevNum n α) : RevNum n α where
  val := p.eval fun i => (x i).val
  back c j := (p.transpose fun i => (x i).val).foldl (fun t e => JVP.addT t ((x e.1).back (e.2 c) j)) none

/-- The operations inside an outer `jax.grad`. -/
noncomputable instance {α : Type} [ADNum α] {n : ℕ} : ADNum (RevNum n α) where
  const c := ⟨ADNum.const c, fun _ _ => none⟩
  add a b := revOp (.add 0 1) ![a, b]
  sub a b := revOp (.sub 0 1) ![a, b]
  mul a b := revOp (.mul 0 1) ![a, b]
  div a b := revOp (.div 0 1) ![a, b]
  neg a := revOp (.neg 0) ![a]
  sqrt a := revOp (.sqrt 0) ![a]
  exp a := revOp (.exp 0) ![a]
  sin a := revOp (.sin 0) ![a]
  cos a := revOp (.cos 0) ![a]
  tanh a := revOp (.tanh 0) ![a]
  log a := revOp (.log 0) ![a]
  ipow a k := revOp (.ipow 0 k) ![a]
  rpow a y := revOp (.rpow 0 y) ![a]

open Classical in
/-- The inputs of an outer `jax.grad`. -/
noncomputable def RevNum.seed {α : Type} {n : ℕ} (x : Fin n → α) : Fin n → RevNum n α := fun i =>
  ⟨x i, fun c => Function.update (fun _ => none) i (some c)⟩

/-- calc.py:181-202 `value_and_jacrev` and `jax.value_and_grad` of a function of a vector with one value. -/
noncomputable def Prog.valueAndGrad {n : ℕ} (P : Prog n) (x : Vec n) : XR × Vec n := (P.eval x, P.grad x)

/-- calc.py:211-243 `hvp_forward_over_reverse` without damping, and the product with the Hessian which `value_grad_hvp`
(calc.py:271-306) returns: `jax.jvp` of `jax.grad`. -/
noncomputable def Prog.hvpForwardOverReverse {n : ℕ} (P : Prog n) (x v : Vec n) : Vec n := fun j =>
  let z : Fin n → JVP XR := fun i => ⟨x i, some (v i)⟩
  (P.grad z j).tangent

/-- calc.py:309-327 `hvp_reverse_over_reverse`: `jax.grad` of the inner product of `jax.grad` with `v`. -/
noncomputable def Prog.hvpReverseOverReverse {n : ℕ} (P : Prog n) (x v : Vec n) : Vec n := fun j =>
  let s : RevNum n XR := sumG ((List.finRange n).map fun i => P.grad (RevNum.seed x) i *ₐ ADNum.const (v i));
  (s.back 1 j).getD 0

/-- calc.py:205-208 `hvp`: `jax.jvp` of `jax.jacfwd`. -/
noncomputable def Prog.hvp {n : ℕ} (P : Prog n) (x v : Vec n) : Vec n := hvpG P.eval x v

end Verif
