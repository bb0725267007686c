import Mathlib.Analysis.SpecialFunctions.Pow.Real
import Mathlib.Analysis.SpecialFunctions.Trigonometric.Inverse
import Mathlib.Algebra.BigOperators.Fin
import Mathlib.Algebra.Order.Floor.Ring

/-!
# The number type of the model

`XR` are the real numbers without rounding, extended by the three kinds of non-finite IEEE values that
JAX arrays can hold.  It stands for the `jax.Array` scalars used everywhere in `/repo/magpi`
(`/repo/magpi/prelude.py:85-122` re-exports the arithmetic).  Simplifications: no rounding, no
overflow, no signed zero (`x / 0` for `x ≠ 0` is the infinity with the sign of `x`).
-/

open Classical

namespace Verif

/-- A number as computed by JAX, without rounding: a real, or one of the non-finite IEEE values. -/
inductive XR where
  | nan
  | ninf
  | pinf
  | fin (r : ℝ)

namespace XR

/-- Numeric literals. -/
instance (n : ℕ) : OfNat XR n := ⟨fin (n : ℝ)⟩

instance : Inhabited XR := ⟨nan⟩

/-- IEEE addition: `inf + -inf = nan`, `nan` absorbs. -/
noncomputable def add : XR → XR → XR
  | nan, _ => nan
  | _, nan => nan
  | pinf, ninf => nan
  | ninf, pinf => nan
  | pinf, _ => pinf
  | _, pinf => pinf
  | ninf, _ => ninf
  | _, ninf => ninf
  | fin a, fin b => fin (a + b)

/-- IEEE negation. -/
noncomputable def neg : XR → XR
  | nan => nan
  | pinf => ninf
  | ninf => pinf
  | fin a => fin (-a)

/-- An infinity with the sign of `a` (`nan` for `a = 0`): the product `a * inf`. -/
noncomputable def infSign (a : ℝ) : XR := if 0 < a then pinf else if a < 0 then ninf else nan

/-- IEEE multiplication: `0 * inf = nan`. -/
noncomputable def mul : XR → XR → XR
  | nan, _ => nan
  | _, nan => nan
  | fin a, fin b => fin (a * b)
  | fin a, pinf => infSign a
  | pinf, fin a => infSign a
  | fin a, ninf => infSign (-a)
  | ninf, fin a => infSign (-a)
  | pinf, pinf => pinf
  | ninf, ninf => pinf
  | pinf, ninf => ninf
  | ninf, pinf => ninf

/-- IEEE division, a zero divisor counting as `+0`. -/
noncomputable def div : XR → XR → XR
  | nan, _ => nan
  | _, nan => nan
  | fin a, fin b => if b = 0 then infSign a else fin (a / b)
  | fin _, pinf => fin 0
  | fin _, ninf => fin 0
  | pinf, fin b => if b < 0 then ninf else pinf
  | ninf, fin b => if b < 0 then pinf else ninf
  | _, _ => nan

noncomputable instance : Add XR := ⟨add⟩
noncomputable instance : Neg XR := ⟨neg⟩
noncomputable instance : Sub XR := ⟨fun a b => a + -b⟩
noncomputable instance : Mul XR := ⟨mul⟩
noncomputable instance : Div XR := ⟨div⟩

/-- IEEE `<`: false whenever an operand is `nan`. -/
def lt : XR → XR → Prop
  | nan, _ => False
  | _, nan => False
  | fin a, fin b => a < b
  | ninf, ninf => False
  | ninf, _ => True
  | fin _, pinf => True
  | _, _ => False

/-- IEEE `<=`: false whenever an operand is `nan`. -/
def le : XR → XR → Prop
  | nan, _ => False
  | _, nan => False
  | fin a, fin b => a ≤ b
  | ninf, _ => True
  | _, pinf => True
  | _, _ => False

instance : LT XR := ⟨lt⟩
instance : LE XR := ⟨le⟩

/-- `jnp.sqrt`: `nan` for negative arguments. -/
noncomputable def sqrt : XR → XR
  | nan => nan
  | ninf => nan
  | pinf => pinf
  | fin a => if a < 0 then nan else fin (Real.sqrt a)

/-- `jnp.abs`. -/
noncomputable def abs : XR → XR
  | nan => nan
  | ninf => pinf
  | pinf => pinf
  | fin a => fin |a|

/-- `x ** n` for a literal natural exponent: repeated multiplication. -/
noncomputable def npow (x : XR) : ℕ → XR
  | 0 => 1
  | n + 1 => npow x n * x

noncomputable instance : HPow XR ℕ XR := ⟨npow⟩

/-- `jnp.power x y` for a real exponent `y` and base `x ≥ 0` (IEEE `pow`): `0 ** 0 = 1`,
`0 ** y = inf` for `y < 0`; a negative base is only supported by IEEE `pow` for integer exponents, which
this function is never used for, so it is `nan` (likewise `-inf`). -/
noncomputable def rpow (x : XR) (y : ℝ) : XR :=
  match x with
  | fin a => if a < 0 then nan else if a = 0 ∧ y < 0 then pinf else fin (a ^ y)
  | pinf => if 0 < y then pinf else if y = 0 then 1 else 0
  | _ => nan

/-- `x ** p` for an integer exponent: repeated multiplication, and its reciprocal for negative `p`. -/
noncomputable def zpow (x : XR) : ℤ → XR
  | Int.ofNat n => x ^ n
  | Int.negSucc n => 1 / x ^ (n + 1)

/-- `jnp.exp`. -/
noncomputable def exp : XR → XR
  | nan => nan
  | ninf => fin 0
  | pinf => pinf
  | fin a => fin (Real.exp a)

/-- `jnp.log`: `log 0 = -inf`, `nan` for negative arguments. -/
noncomputable def log : XR → XR
  | nan => nan
  | ninf => nan
  | pinf => pinf
  | fin a => if a < 0 then nan else if a = 0 then ninf else fin (Real.log a)

/-- `jnp.cos`. -/
noncomputable def cos : XR → XR
  | fin a => fin (Real.cos a)
  | _ => nan

/-- `jnp.sin`. -/
noncomputable def sin : XR → XR
  | fin a => fin (Real.sin a)
  | _ => nan

/-- `jnp.arccos`: `nan` outside `[-1, 1]`. -/
noncomputable def arccos : XR → XR
  | fin a => if a < -1 ∨ 1 < a then nan else fin (Real.arccos a)
  | _ => nan

/-- `x % 1.0` (Python/JAX remainder: result in `[0, 1)`). -/
noncomputable def mod1 : XR → XR
  | fin a => fin (Int.fract a)
  | _ => nan

/-- Conversion of a float to an integer dtype and back: truncation towards zero (non-finite values are
not modelled and stay `nan`). -/
noncomputable def trunc : XR → XR
  | fin a => fin (if 0 ≤ a then (⌊a⌋ : ℝ) else (⌈a⌉ : ℝ))
  | _ => nan

/-- `jnp.minimum` (propagates `nan`). -/
noncomputable def minimum (a b : XR) : XR :=
  match a, b with
  | nan, _ => nan
  | _, nan => nan
  | a, b => if a ≤ b then a else b

/-- `jnp.maximum` (propagates `nan`). -/
noncomputable def maximum (a b : XR) : XR :=
  match a, b with
  | nan, _ => nan
  | _, nan => nan
  | a, b => if a ≤ b then b else a

/-- The value is an ordinary (finite) number. -/
def IsFin : XR → Prop
  | fin _ => True
  | _ => False

/-! ### Computation rules on finite numbers -/

theorem fin_inj {a b : ℝ} : fin a = fin b ↔ a = b := by simp

theorem ofNat_eq (n : ℕ) : (OfNat.ofNat n : XR) = fin (n : ℝ) := rfl

@[simp] theorem zero_eq : (0 : XR) = fin 0 := by rw [ofNat_eq]; simp
@[simp] theorem one_eq : (1 : XR) = fin 1 := by rw [ofNat_eq]; simp
@[simp] theorem lit_eq (n : ℕ) [n.AtLeastTwo] : (OfNat.ofNat n : XR) = fin (OfNat.ofNat n : ℝ) := rfl

@[simp] theorem fin_add (a b : ℝ) : fin a + fin b = fin (a + b) := rfl
@[simp] theorem fin_neg (a : ℝ) : -fin a = fin (-a) := rfl
@[simp] theorem fin_sub (a b : ℝ) : fin a - fin b = fin (a - b) := by
  show fin (a + -b) = _; rw [sub_eq_add_neg]
@[simp] theorem fin_mul (a b : ℝ) : fin a * fin b = fin (a * b) := rfl
theorem fin_div (a : ℝ) {b : ℝ} (h : b ≠ 0) : fin a / fin b = fin (a / b) := by
  show div _ _ = _; simp [div, h]
theorem fin_div_zero (a : ℝ) : fin a / fin 0 = infSign a := by
  show div _ _ = _; simp [div]
@[simp] theorem fin_zero_div_zero : fin 0 / fin 0 = nan := by
  rw [fin_div_zero]; simp [infSign]
theorem fin_sqrt {a : ℝ} (h : 0 ≤ a) : sqrt (fin a) = fin (Real.sqrt a) := by
  simp [sqrt, not_lt.mpr h]
theorem fin_sqrt_neg {a : ℝ} (h : a < 0) : sqrt (fin a) = nan := by simp [sqrt, h]
@[simp] theorem fin_abs (a : ℝ) : abs (fin a) = fin |a| := rfl
@[simp] theorem fin_lt (a b : ℝ) : fin a < fin b ↔ a < b := Iff.rfl
@[simp] theorem fin_le (a b : ℝ) : fin a ≤ fin b ↔ a ≤ b := Iff.rfl
@[simp] theorem fin_npow (a : ℝ) (n : ℕ) : fin a ^ n = fin (a ^ n) := by
  show npow _ _ = _
  induction n with
  | zero => simp [npow]
  | succ n ih => simp [npow, ih, pow_succ]
theorem fin_rpow {a : ℝ} (h : 0 < a) (y : ℝ) : rpow (fin a) y = fin (a ^ y) := by
  simp [rpow, not_lt.mpr h.le, h.ne']
theorem fin_rpow' {a : ℝ} (h : 0 ≤ a) {y : ℝ} (hy : 0 ≤ y) : rpow (fin a) y = fin (a ^ y) := by
  simp [rpow, not_lt.mpr h, not_lt.mpr hy]
@[simp] theorem fin_exp (a : ℝ) : exp (fin a) = fin (Real.exp a) := rfl
theorem fin_log {a : ℝ} (h : 0 < a) : log (fin a) = fin (Real.log a) := by
  simp [log, not_lt.mpr h.le, h.ne']
@[simp] theorem fin_cos (a : ℝ) : cos (fin a) = fin (Real.cos a) := rfl
@[simp] theorem fin_sin (a : ℝ) : sin (fin a) = fin (Real.sin a) := rfl
theorem fin_arccos {a : ℝ} (h₁ : -1 ≤ a) (h₂ : a ≤ 1) : arccos (fin a) = fin (Real.arccos a) := by
  simp [arccos, not_lt.mpr h₁, not_lt.mpr h₂]
@[simp] theorem fin_mod1 (a : ℝ) : mod1 (fin a) = fin (Int.fract a) := rfl
@[simp] theorem fin_min (a b : ℝ) : minimum (fin a) (fin b) = fin (Min.min a b) := by
  simp only [minimum, fin_le, min_def]; split <;> rfl
@[simp] theorem fin_max (a b : ℝ) : maximum (fin a) (fin b) = fin (Max.max a b) := by
  simp only [maximum, fin_le, max_def]; split <;> rfl
@[simp] theorem isFin_fin (a : ℝ) : IsFin (fin a) := trivial
@[simp] theorem not_isFin_nan : ¬ IsFin nan := id
theorem isFin_iff {x : XR} : IsFin x ↔ ∃ a, x = fin a := by
  cases x <;> simp [IsFin]

/-! ### `nan` absorbs -/

@[simp] theorem nan_add (x : XR) : nan + x = nan := by show add _ _ = _; cases x <;> rfl
@[simp] theorem add_nan (x : XR) : x + nan = nan := by show add _ _ = _; cases x <;> rfl
@[simp] theorem neg_nan : -nan = nan := rfl
@[simp] theorem sub_nan (x : XR) : x - nan = nan := by show x + -nan = _; simp
@[simp] theorem nan_sub (x : XR) : nan - x = nan := by show nan + -x = _; simp
@[simp] theorem nan_mul (x : XR) : nan * x = nan := by show mul _ _ = _; cases x <;> rfl
@[simp] theorem mul_nan (x : XR) : x * nan = nan := by show mul _ _ = _; cases x <;> rfl
@[simp] theorem nan_div (x : XR) : nan / x = nan := by show div _ _ = _; cases x <;> rfl
@[simp] theorem div_nan (x : XR) : x / nan = nan := by show div _ _ = _; cases x <;> rfl
@[simp] theorem sqrt_nan : sqrt nan = nan := rfl
@[simp] theorem not_nan_lt (x : XR) : ¬ nan < x := by show ¬ lt _ _; cases x <;> exact id
@[simp] theorem not_lt_nan (x : XR) : ¬ x < nan := by show ¬ lt _ _; cases x <;> exact id
@[simp] theorem not_nan_le (x : XR) : ¬ nan ≤ x := by show ¬ le _ _; cases x <;> exact id
@[simp] theorem not_le_nan (x : XR) : ¬ x ≤ nan := by show ¬ le _ _; cases x <;> exact id

/-! ### Sums -/

theorem add_comm' (a b : XR) : a + b = b + a := by
  show add a b = add b a
  cases a <;> cases b <;> simp [add, add_comm]

theorem add_assoc' (a b c : XR) : a + b + c = a + (b + c) := by
  show add (add a b) c = add a (add b c)
  cases a <;> cases b <;> cases c <;> simp [add, add_assoc]

theorem zero_add' (a : XR) : 0 + a = a := by
  rw [zero_eq]; show add (fin 0) a = a
  cases a <;> simp [add]

noncomputable instance : AddCommMonoid XR where
  add_assoc := add_assoc'
  zero_add := zero_add'
  add_zero a := by rw [add_comm', zero_add']
  add_comm := add_comm'
  nsmul := nsmulRec

theorem fin_sum {ι : Type*} (s : Finset ι) (f : ι → ℝ) :
    ∑ i ∈ s, fin (f i) = fin (∑ i ∈ s, f i) := by
  induction s using Finset.induction_on with
  | empty => exact zero_eq
  | insert i s hi ih => rw [Finset.sum_insert hi, Finset.sum_insert hi, ih, fin_add]

theorem mul_comm' (a b : XR) : a * b = b * a := by
  show mul a b = mul b a
  cases a <;> cases b <;> simp [mul, mul_comm]

end XR

/-- Python exceptions raised by the modelled code. -/
inductive Err where
  | assertion
  | valueError
  | typeError
  | indexError
  | zeroDivision
  | notADirectory
  | attributeError
  deriving DecidableEq, Repr

/-- A vector of numbers, i.e. a `jax.Array` of shape `(n,)`. -/
abbrev Vec (n : ℕ) := Fin n → XR

/-- A real vector seen as a finite array. -/
def vfin {n : ℕ} (x : Fin n → ℝ) : Vec n := fun i => XR.fin (x i)

@[simp] theorem vfin_apply {n : ℕ} (x : Fin n → ℝ) (i : Fin n) : vfin x i = XR.fin (x i) := rfl

/-- `x @ y` for vectors. -/
noncomputable def vdot {n : ℕ} (x y : Vec n) : XR := ∑ i, x i * y i

/-- `jnp.linalg.norm x` for a vector. -/
noncomputable def vnorm {n : ℕ} (x : Vec n) : XR := XR.sqrt (∑ i, x i * x i)

theorem vdot_fin {n : ℕ} (x y : Fin n → ℝ) : vdot (vfin x) (vfin y) = XR.fin (∑ i, x i * y i) := by
  simp [vdot, XR.fin_sum]

theorem vnorm_fin {n : ℕ} (x : Fin n → ℝ) :
    vnorm (vfin x) = XR.fin (Real.sqrt (∑ i, x i * x i)) := by
  simp only [vnorm, vfin_apply, XR.fin_mul, XR.fin_sum]
  exact XR.fin_sqrt (Finset.sum_nonneg fun i _ => mul_self_nonneg _)

end Verif
