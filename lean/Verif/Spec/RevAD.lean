import Verif.Model.RevAD
import Verif.Spec.NestedAD

/-! # Specification vocabulary for reverse differentiation -/

namespace Verif

open XR

/-- The real function of an operation. -/
noncomputable def Prim.fn {m : ℕ} (x : Fin m → ℝ) : Prim m → ℝ
  | const c => c
  | add i j => x i + x j
  | sub i j => x i - x j
  | mul i j => x i * x j
  | div i j => x i / x j
  | neg i => -x i
  | sqrt i => Real.sqrt (x i)
  | exp i => Real.exp (x i)
  | sin i => Real.sin (x i)
  | cos i => Real.cos (x i)
  | tanh i => Real.tanh (x i)
  | log i => Real.log (x i)
  | ipow i n => x i ^ n
  | rpow i y => x i ^ y

/-- The real function of a program. -/
noncomputable def Prog.fn : {m : ℕ} → Prog m → (Fin m → ℝ) → ℝ
  | _, ret i, x => x i
  | _, bind p rest, x => rest.fn (Fin.snoc (α := fun _ => ℝ) x (p.fn x))

/-- The operation is smooth near its arguments. -/
def Prim.Regular {m : ℕ} (x : Fin m → ℝ) : Prim m → Prop
  | div _ j => x j ≠ 0
  | sqrt i => 0 < x i
  | log i => 0 < x i
  | ipow i n => 0 ≤ n ∨ x i ≠ 0
  | rpow i _ => 0 < x i
  | _ => True

/-- Every operation of the program is smooth near its arguments. -/
def Prog.Regular : {m : ℕ} → Prog m → (Fin m → ℝ) → Prop
  | _, ret _, _ => True
  | _, bind p rest, x => p.Regular x ∧ rest.Regular (Fin.snoc (α := fun _ => ℝ) x (p.fn x))

end Verif
