import Verif.Model.RFun
import Verif.Model.Network
import Verif.Spec.Solid

/-! # Model of nested forward differentiation (`jax.jvp` of `jax.jvp` ...) of `/repo/magpi/r_fun.py`

`laplace`, `hvp` and `derivative` (calc.py) apply `jvp` or `jacfwd` to functions which are already differentiated. JAX then
passes through every primitive operation a pair of a number and its tangent, where both may again be such pairs; the rule of
a primitive (for instance `g * (0.5 / sqrt(x))` for `sqrt`) is computed with the operations of the level below. A number which
does not depend on the input has a symbolic zero as tangent (`none` here), which is never computed with. The code is written
for numbers of any level. The numbers at the bottom are those of `Verif.XR`: no rounding, but `nan` and infinities. -/

namespace Verif

open XR

/-- The primitive operations used by the code of r_fun.py and by the networks of the examples. -/
class ADNum (α : Type) where
  /-- A number which does not depend on the input. -/
  const : XR → α
  /-- `lax.add` -/
  add : α → α → α
  /-- `lax.sub` -/
  sub : α → α → α
  /-- `lax.mul` -/
  mul : α → α → α
  /-- `lax.div` -/
  div : α → α → α
  neg : α → α
  sqrt : α → α
  exp : α → α
  sin : α → α
  cos : α → α
  tanh : α → α
  log : α → α
  /-- `lax.integer_pow` -/
  ipow : α → ℤ → α
  /-- `lax.pow` with a constant float exponent -/
  rpow : α → ℝ → α

@[inherit_doc ADNum.add] scoped infixl:65 " +ₐ " => ADNum.add
@[inherit_doc ADNum.sub] scoped infixl:65 " -ₐ " => ADNum.sub
@[inherit_doc ADNum.mul] scoped infixl:70 " *ₐ " => ADNum.mul
@[inherit_doc ADNum.div] scoped infixl:70 " /ₐ " => ADNum.div

/-- Numbers without differentiation. -/
noncomputable instance : ADNum XR where
  const c := c
  add a b := a + b
  sub a b := a - b
  mul a b := a * b
  div a b := a / b
  neg a := -a
  sqrt := XR.sqrt
  exp := XR.exp
  sin := XR.sin
  cos := XR.cos
  tanh := XR.tanh
  log := XR.log
  ipow := XR.zpow
  rpow := XR.rpow

/-- A number with its tangent, which is a symbolic zero (`none`) if the number does not depend on the input. -/
structure JVP (α : Type) where
  val : α
  tan : Option α

namespace JVP

variable {α : Type} [ADNum α]

/-- Sum of tangents. -/
def addT : Option α → Option α → Option α
  | none, b => b
  | a, none => a
  | some a, some b => some (a +ₐ b)

/-- Difference of tangents. -/
def subT : Option α → Option α → Option α
  | a, none => a
  | none, some b => some (ADNum.neg b)
  | some a, some b => some (a -ₐ b)

open Classical in
/-- JAX's rules for the primitive operations. -/
noncomputable instance : ADNum (JVP α) where
  const c := ⟨ADNum.const c, none⟩
  add a b := ⟨a.val +ₐ b.val, addT a.tan b.tan⟩
  sub a b := ⟨a.val -ₐ b.val, subT a.tan b.tan⟩
  mul a b := ⟨a.val *ₐ b.val, addT (a.tan.map fun g => g *ₐ b.val) (b.tan.map fun g => a.val *ₐ g)⟩
  div a b := ⟨a.val /ₐ b.val,
    addT (a.tan.map fun g => g /ₐ b.val) (b.tan.map fun g => ADNum.neg g *ₐ a.val *ₐ ADNum.ipow b.val (-2))⟩
  neg a := ⟨ADNum.neg a.val, a.tan.map ADNum.neg⟩
  sqrt a := ⟨ADNum.sqrt a.val, a.tan.map fun g => g *ₐ (ADNum.const (1 / 2) /ₐ ADNum.sqrt a.val)⟩
  exp a := ⟨ADNum.exp a.val, a.tan.map fun g => g *ₐ ADNum.exp a.val⟩
  sin a := ⟨ADNum.sin a.val, a.tan.map fun g => g *ₐ ADNum.cos a.val⟩
  cos a := ⟨ADNum.cos a.val, a.tan.map fun g => ADNum.neg (g *ₐ ADNum.sin a.val)⟩
  tanh a := ⟨ADNum.tanh a.val,
    a.tan.map fun g => (g +ₐ g *ₐ ADNum.tanh a.val) *ₐ (ADNum.const 1 -ₐ ADNum.tanh a.val)⟩
  log a := ⟨ADNum.log a.val, a.tan.map fun g => g /ₐ a.val⟩
  ipow a n := ⟨ADNum.ipow a.val n,
    a.tan.map fun g => if n = 0 then ADNum.const 0 else g *ₐ (ADNum.const (fin n) *ₐ ADNum.ipow a.val (n - 1))⟩
  rpow a y := ⟨ADNum.rpow a.val y,
    a.tan.map fun g => g *ₐ (if y = 0 then ADNum.const 0 else ADNum.const (fin y) *ₐ ADNum.rpow a.val (y - 1))⟩

/-- The tangent which `jvp` returns: a symbolic zero becomes the number zero. -/
noncomputable def tangent (a : JVP α) : α := a.tan.getD (ADNum.const 0)

end JVP

/-- The numbers inside `k` nested applications of `jvp`. -/
def Nested : ℕ → Type
  | 0 => XR
  | k + 1 => JVP (Nested k)

/-- The operations inside `k` nested applications of `jvp`. -/
@[instance_reducible]
noncomputable def Nested.inst : (k : ℕ) → ADNum (Nested k)
  | 0 => inferInstanceAs (ADNum XR)
  | k + 1 => letI := Nested.inst k; inferInstanceAs (ADNum (JVP (Nested k)))

noncomputable instance (k : ℕ) : ADNum (Nested k) := Nested.inst k

section

variable {α : Type} [ADNum α]

/-- r_fun.py:27-37 class `RFun` for numbers `α`. -/
structure RFunG (α : Type) where
  conj : α → α → α
  disj : α → α → α

/-- r_fun.py:102-110 `RAlpha`. -/
noncomputable def RAlpha.sysG (alpha : ℝ) (α : Type) [ADNum α] : RFunG α where
  conj a b := ADNum.const (1 / (1 + fin alpha)) *ₐ (a +ₐ b -ₐ
    ADNum.sqrt (ADNum.ipow a 2 +ₐ ADNum.ipow b 2 -ₐ ADNum.const (2 * fin alpha) *ₐ a *ₐ b))
  disj a b := ADNum.const (1 / (1 + fin alpha)) *ₐ (a +ₐ b +ₐ
    ADNum.sqrt (ADNum.ipow a 2 +ₐ ADNum.ipow b 2 -ₐ ADNum.const (2 * fin alpha) *ₐ a *ₐ b))

/-- r_fun.py:129-145 `RAlphaM`. -/
noncomputable def RAlphaM.sysG (m alpha : ℝ) (α : Type) [ADNum α] : RFunG α where
  conj a b :=
    let r := ADNum.ipow a 2 +ₐ ADNum.ipow b 2
    ADNum.const (1 / (1 + fin alpha)) *ₐ (a +ₐ b -ₐ ADNum.sqrt (r -ₐ ADNum.const (2 * fin alpha) *ₐ a *ₐ b)) *ₐ
      ADNum.rpow r (m / 2)
  disj a b :=
    let r := ADNum.ipow a 2 +ₐ ADNum.ipow b 2
    ADNum.const (1 / (1 + fin alpha)) *ₐ (a +ₐ b +ₐ ADNum.sqrt (r -ₐ ADNum.const (2 * fin alpha) *ₐ a *ₐ b)) *ₐ
      ADNum.rpow r (m / 2)

/-- r_fun.py:162-166 `RP`, for positive `p`. -/
noncomputable def RP.sysG (p : ℕ) (α : Type) [ADNum α] : RFunG α where
  conj a b := a +ₐ b -ₐ ADNum.rpow (ADNum.ipow a p +ₐ ADNum.ipow b p) (1 / (p : ℝ))
  disj a b := a +ₐ b +ₐ ADNum.rpow (ADNum.ipow a p +ₐ ADNum.ipow b p) (1 / (p : ℝ))

/-- r_fun.py:24 `ADF` for numbers `α`. -/
abbrev GADF (α : Type) (n : ℕ) := (Fin n → α) → α

/-- r_fun.py:51-86 the methods of one R-system nested like the set expression `e`. -/
def SetExpr.buildG {ι : Type*} {n : ℕ} (S : RFunG α) (leaf : ι → GADF α n) : SetExpr ι → GADF α n
  | .leaf i => leaf i
  | .compl e => fun x => ADNum.neg (e.buildG S leaf x)
  | .union e₁ e₂ => fun x => S.disj (e₁.buildG S leaf x) (e₂.buildG S leaf x)
  | .inter e₁ e₂ => fun x => S.conj (e₁.buildG S leaf x) (e₂.buildG S leaf x)
  | .diff e₁ e₂ => fun x => S.conj (e₁.buildG S leaf x) (ADNum.neg (e₂.buildG S leaf x))
  | .impl e₁ e₂ => fun x => S.disj (ADNum.neg (e₁.buildG S leaf x)) (e₂.buildG S leaf x)
  | .equiv e₁ e₂ => fun x =>
    S.conj (S.disj (e₁.buildG S leaf x) (ADNum.neg (e₂.buildG S leaf x)))
      (S.disj (ADNum.neg (e₁.buildG S leaf x)) (e₂.buildG S leaf x))
  | .symmDiff e₁ e₂ => fun x =>
    S.disj (S.conj (e₁.buildG S leaf x) (ADNum.neg (e₂.buildG S leaf x)))
      (S.conj (ADNum.neg (e₁.buildG S leaf x)) (e₂.buildG S leaf x))

/-- `functools.reduce` at r_fun.py:318. -/
noncomputable def reduceG (f : α → α → α) : List α → α
  | [] => ADNum.const nan
  | d :: ds => ds.foldl f d

/-- r_fun.py:201-236 `cuboid`. -/
noncomputable def cuboidG {n : ℕ} (e : EdgeArg n) (centering : Bool) (S : RFunG α) : GADF α n := fun x =>
  reduceG S.conj ((List.finRange n).flatMap fun i =>
    [ADNum.const (cuboid.ub e centering i) -ₐ x i, x i -ₐ ADNum.const (cuboid.lb e centering i)])

/-- `jnp.sum`. -/
noncomputable def sumG (l : List α) : α := l.foldl ADNum.add (ADNum.const 0)

/-- `jnp.linalg.norm`: `sqrt` of the sum of `x * x`. -/
noncomputable def vnormG {n : ℕ} (x : Fin n → α) : α := ADNum.sqrt (sumG ((List.finRange n).map fun i => x i *ₐ x i))

/-- r_fun.py:259-273 `sphere`. -/
noncomputable def sphereG {n : ℕ} (r : XR) : GADF α n := fun x =>
  (ADNum.const (r ^ 2) -ₐ ADNum.ipow (vnormG x) 2) /ₐ ADNum.const (2 * r)

/-- r_fun.py:276-292 `cylinder`. -/
noncomputable def cylinderG {n : ℕ} (r : XR) : GADF α (n + 2) := fun x =>
  sphereG (n := 2) r fun i => x (Fin.castLE (by omega) i)

/-- r_fun.py:325-339 `translate`. -/
noncomputable def translateG {n : ℕ} (f : GADF α n) (y : Vec n) : GADF α n := fun x => f fun i => x i -ₐ ADNum.const (y i)

/-- r_fun.py:361 `scale` with one factor. -/
noncomputable def scaleByG {n : ℕ} (f : GADF α n) (s : XR) : GADF α n := fun x =>
  f (fun i => x i /ₐ ADNum.const s) *ₐ ADNum.const s

/-- r_fun.py:517-540 `revolution`. -/
noncomputable def revolutionG (f : GADF α 2) (axis : ℤ) : (Fin 3 → α) → Except Err α := fun x =>
  if axis = 0 then .ok (f ![x 0, ADNum.sqrt (ADNum.ipow (x 1) 2 +ₐ ADNum.ipow (x 2) 2)])
  else if axis = 1 then .ok (f ![ADNum.sqrt (ADNum.ipow (x 0) 2 +ₐ ADNum.ipow (x 2) 2), x 1])
  else .error .valueError

end

/-- calc.py:205-208 `hvp` (`jvp` of `jacfwd`) of a function of a vector: entry `j` of the result for the direction `v`. -/
noncomputable def hvpG {n : ℕ} (f : GADF (Nested 2) n) (x v : Vec n) : Vec n := fun j =>
  let z : Fin n → JVP (JVP XR) := fun i => ⟨⟨x i, some (v i)⟩, some (ADNum.const (if i = j then 1 else 0))⟩
  let y : JVP (JVP XR) := f z
  y.tangent.tangent

/-- calc.py:330-346 `hessian_diag` and 349-364 `laplace` of a function of a vector. -/
noncomputable def laplaceG {n : ℕ} (f : GADF (Nested 2) n) (x : Vec n) : XR :=
  let hessian_diag : Fin n → XR := fun i =>
    let v : Vec n := fun j => if j = i then 1 else 0
    ∑ j, hvpG f x v j * v j
  ∑ i, hessian_diag i

end Verif
