import Verif.Num.XR
import Mathlib.Analysis.Calculus.Gradient.Basic
import Mathlib.Analysis.InnerProductSpace.PiL2

/-! # Specification vocabulary for points, real forms and gradients -/

namespace Verif

open Topology

/-- Points of Euclidean space. -/
abbrev Pt (n : ℕ) := EuclideanSpace ℝ (Fin n)

/-- A point as a (finite) array. -/
def efin {n : ℕ} (x : Pt n) : Vec n := vfin fun i => x i

@[simp] theorem efin_apply {n : ℕ} (x : Pt n) (i : Fin n) : efin x i = XR.fin (x i) := rfl

/-- Near `x` the computed function is finite and given by the real function `f`. -/
def RealFormAt {n : ℕ} (F : Vec n → XR) (f : Pt n → ℝ) (x : Pt n) : Prop :=
  ∀ᶠ y in 𝓝 x, F (efin y) = XR.fin (f y)

/-- The computed function `F` is finite near `x` and differentiable there with gradient `u`. -/
def HasGrad {n : ℕ} (F : Vec n → XR) (u x : Pt n) : Prop :=
  ∃ f : Pt n → ℝ, RealFormAt F f x ∧ HasGradientAt f u x

end Verif
