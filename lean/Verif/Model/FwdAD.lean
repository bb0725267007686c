import Verif.Model.RFun
import Verif.Spec.Solid

/-! # Model of forward differentiation (`jax.jvp`, `jacfwd`) of `/repo/magpi/r_fun.py`

`normalize_1st_order` (r_fun.py:556) differentiates an ADF with `jacfwd`, and so do the operators of `calc.py` when they
meet an ADF. JAX pushes pairs of a value and a tangent through the primitive operations of the code. This file follows
the code of `r_fun.py` on such pairs, with JAX's rules for the primitives: numbers which do not depend on the input have
a symbolic zero as tangent, `sqrt` multiplies the tangent by `0.5 / sqrt(v)`, `x ** n` by `n * v ** (n - 1)`, `x ** y` with
a constant float `y` by `y * v ** (y - 1)` (and by `0` for `y = 0`), and `abs` by `sign(v)`. The numbers are those of
`Verif.XR`: no rounding, but `nan` and infinities as in IEEE arithmetic, so that `0 * inf` in a rule is `nan`. -/

namespace Verif

open XR

/-- `jnp.sign`. -/
noncomputable def XR.jsign : XR → XR
  | fin a => if 0 < a then 1 else if a < 0 then -1 else 0
  | pinf => 1
  | ninf => -1
  | nan => nan

/-- A value with its tangent: what JAX passes through a primitive operation under `jvp`. -/
structure Dual where
  val : XR
  tan : XR

namespace Dual

/-- Rule of `add`. -/
noncomputable instance : Add Dual := ⟨fun a b => ⟨a.val + b.val, a.tan + b.tan⟩⟩
/-- Rule of `sub`. -/
noncomputable instance : Sub Dual := ⟨fun a b => ⟨a.val - b.val, a.tan - b.tan⟩⟩
/-- Rule of `neg`. -/
noncomputable instance : Neg Dual := ⟨fun a => ⟨-a.val, -a.tan⟩⟩
/-- Rule of `mul`. -/
noncomputable instance : Mul Dual := ⟨fun a b => ⟨a.val * b.val, a.tan * b.val + a.val * b.tan⟩⟩
/-- Rule of `mul` with a constant on the left. -/
noncomputable def cmul (c : XR) (a : Dual) : Dual := ⟨c * a.val, c * a.tan⟩
/-- Rule of `mul` with a constant on the right. -/
noncomputable def mulc (a : Dual) (c : XR) : Dual := ⟨a.val * c, a.tan * c⟩
/-- Rule of `sub` from a constant. -/
noncomputable def subFrom (c : XR) (a : Dual) : Dual := ⟨c - a.val, -a.tan⟩
/-- Rule of `sub` of a constant. -/
noncomputable def subc (a : Dual) (c : XR) : Dual := ⟨a.val - c, a.tan⟩
/-- Rule of `div` by a constant. -/
noncomputable def divc (a : Dual) (c : XR) : Dual := ⟨a.val / c, a.tan / c⟩
/-- Rule of `integer_pow` with exponent 2. -/
noncomputable def sq (a : Dual) : Dual := ⟨a.val ^ 2, a.tan * (2 * a.val)⟩
/-- Rule of `integer_pow`. -/
noncomputable def npow (a : Dual) (n : ℕ) : Dual := ⟨a.val ^ n, a.tan * (fin n * a.val ^ (n - 1))⟩
/-- Rule of `sqrt`. -/
noncomputable def sqrt (a : Dual) : Dual := ⟨XR.sqrt a.val, a.tan * (1 / 2 / XR.sqrt a.val)⟩
/-- Rule of `abs`. -/
noncomputable def abs (a : Dual) : Dual := ⟨XR.abs a.val, a.tan * XR.jsign a.val⟩
open Classical in
/-- Rule of `pow` with a constant float exponent. -/
noncomputable def rpow (a : Dual) (y : ℝ) : Dual :=
  ⟨XR.rpow a.val y, a.tan * (if y = 0 then 0 else fin y * XR.rpow a.val (y - 1))⟩

end Dual

/-- r_fun.py:27-37 class `RFun` under `jvp`. -/
structure RFunD where
  conj : Dual → Dual → Dual
  disj : Dual → Dual → Dual

/-- r_fun.py:102-110 `RAlpha` under `jvp`. -/
noncomputable def RAlpha.sysD (alpha : ℝ) : RFunD where
  conj a b := Dual.cmul (1 / (1 + fin alpha)) (a + b - Dual.sqrt (a.sq + b.sq - Dual.cmul (2 * fin alpha) a * b))
  disj a b := Dual.cmul (1 / (1 + fin alpha)) (a + b + Dual.sqrt (a.sq + b.sq - Dual.cmul (2 * fin alpha) a * b))

/-- r_fun.py:129-145 `RAlphaM` under `jvp`. -/
noncomputable def RAlphaM.sysD (m alpha : ℝ) : RFunD where
  conj a b :=
    let r := a.sq + b.sq
    Dual.cmul (1 / (1 + fin alpha)) (a + b - Dual.sqrt (r - Dual.cmul (2 * fin alpha) a * b)) * r.rpow (m / 2)
  disj a b :=
    let r := a.sq + b.sq
    Dual.cmul (1 / (1 + fin alpha)) (a + b + Dual.sqrt (r - Dual.cmul (2 * fin alpha) a * b)) * r.rpow (m / 2)

/-- r_fun.py:162-166 `RP` under `jvp`, for positive `p`. -/
noncomputable def RP.sysD (p : ℕ) : RFunD where
  conj a b := a + b - (a.npow p + b.npow p).rpow (1 / (p : ℝ))
  disj a b := a + b + (a.npow p + b.npow p).rpow (1 / (p : ℝ))

/-- r_fun.py:186-192 `RhoBlending` under `jvp`. -/
noncomputable def RhoBlending.sysD (rho : ℝ) : RFunD where
  conj a b :=
    let s := (a.sq + b.sq).subc (fin rho ^ 2)
    a + b - Dual.sqrt (a.sq + b.sq + Dual.cmul (1 / (8 * fin rho)) s * (s - s.abs))
  disj a b :=
    let s := (a.sq + b.sq).subc (fin rho ^ 2)
    a + b + Dual.sqrt (a.sq + b.sq + Dual.cmul (1 / (8 * fin rho)) s * (s - s.abs))

/-- r_fun.py:24 `ADF` under `jvp`. -/
abbrev DADF (n : ℕ) := (Fin n → Dual) → Dual

namespace RFunD

variable (S : RFunD) {n : ℕ}

/-- r_fun.py:51-52 `negate` under `jvp`. -/
noncomputable def negate (_S : RFunD) (f : DADF n) : DADF n := fun x => -f x
/-- r_fun.py:45-49, 54-55 `union` under `jvp`. -/
def union (f g : DADF n) : DADF n := fun x => S.disj (f x) (g x)
/-- r_fun.py:39-43, 57-58 `intersection` under `jvp`. -/
def intersection (f g : DADF n) : DADF n := fun x => S.conj (f x) (g x)
/-- r_fun.py:60-66 `equivalence` under `jvp`. -/
noncomputable def equivalence (f g : DADF n) : DADF n := fun x =>
  S.conj (S.disj (f x) (-g x)) (S.disj (-f x) (g x))
/-- r_fun.py:68-72 `implication` under `jvp`. -/
noncomputable def implication (f g : DADF n) : DADF n := fun x => S.disj (-f x) (g x)
/-- r_fun.py:74-78 `difference` under `jvp`. -/
noncomputable def difference (f g : DADF n) : DADF n := fun x => S.conj (f x) (-g x)
/-- r_fun.py:80-86 `xor` under `jvp`. -/
noncomputable def xor (f g : DADF n) : DADF n := fun x =>
  S.disj (S.conj (f x) (-g x)) (S.conj (-f x) (g x))

end RFunD

/-- The methods of one R-system nested like the set expression `e` (r_fun.py:51-86) under `jvp`. -/
noncomputable def SetExpr.buildD {ι : Type*} {n : ℕ} (S : RFunD) (leaf : ι → DADF n) : SetExpr ι → DADF n
  | .leaf i => leaf i
  | .compl e => S.negate (e.buildD S leaf)
  | .union e₁ e₂ => S.union (e₁.buildD S leaf) (e₂.buildD S leaf)
  | .inter e₁ e₂ => S.intersection (e₁.buildD S leaf) (e₂.buildD S leaf)
  | .diff e₁ e₂ => S.difference (e₁.buildD S leaf) (e₂.buildD S leaf)
  | .impl e₁ e₂ => S.implication (e₁.buildD S leaf) (e₂.buildD S leaf)
  | .equiv e₁ e₂ => S.equivalence (e₁.buildD S leaf) (e₂.buildD S leaf)
  | .symmDiff e₁ e₂ => S.xor (e₁.buildD S leaf) (e₂.buildD S leaf)

/-- `functools.reduce` at r_fun.py:318 under `jvp`. -/
def reduceD (f : Dual → Dual → Dual) : List Dual → Dual
  | [] => ⟨nan, nan⟩
  | d :: ds => ds.foldl f d

/-- r_fun.py:201-236 `cuboid` under `jvp`. -/
noncomputable def cuboidD {n : ℕ} (e : EdgeArg n) (centering : Bool) (S : RFunD) : DADF n := fun x =>
  reduceD S.conj ((List.finRange n).flatMap fun i =>
    [(x i).subFrom (cuboid.ub e centering i), (x i).subc (cuboid.lb e centering i)])

/-- `jnp.linalg.norm` (`sqrt` of the sum of `x * x`) under `jvp`. -/
noncomputable def vnormD {n : ℕ} (x : Fin n → Dual) : Dual :=
  Dual.sqrt ⟨∑ i, (x i * x i).val, ∑ i, (x i * x i).tan⟩

/-- r_fun.py:259-273 `sphere` under `jvp`. -/
noncomputable def sphereD {n : ℕ} (r : XR) : DADF n := fun x =>
  (Dual.subFrom (r ^ 2) (vnormD x).sq).divc (2 * r)

/-- r_fun.py:276-292 `cylinder` under `jvp`. -/
noncomputable def cylinderD {n : ℕ} (r : XR) : DADF (n + 2) := fun x =>
  sphereD (n := 2) r fun i => x (Fin.castLE (by omega) i)

/-- r_fun.py:325-339 `translate` under `jvp`. -/
noncomputable def translateD {n : ℕ} (f : DADF n) (y : Vec n) : DADF n := fun x => f fun i => (x i).subc (y i)

/-- r_fun.py:361 `scale` with one factor under `jvp`. -/
noncomputable def scaleByD {n : ℕ} (f : DADF n) (s : XR) : DADF n := fun x =>
  (f fun i => (x i).divc s).mulc s

/-- r_fun.py:517-540 `revolution` under `jvp`. -/
noncomputable def revolutionD (f : DADF 2) (axis : ℤ) : (Fin 3 → Dual) → Except Err Dual := fun x =>
  if axis = 0 then .ok (f ![x 0, Dual.sqrt ((x 1).sq + (x 2).sq)])
  else if axis = 1 then .ok (f ![Dual.sqrt ((x 0).sq + (x 2).sq), x 1])
  else .error .valueError

/-- r_fun.py:556 `jacfwd(adf)`: entry `k` is the tangent for the direction of coordinate `k`. -/
def jacfwdD {n : ℕ} (f : DADF n) (x : Vec n) : Vec n := fun k =>
  (f fun i => ⟨x i, if i = k then 1 else 0⟩).tan

end Verif
