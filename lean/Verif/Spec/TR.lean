import Verif.Model.TR
import Verif.Spec.Geometry
import Mathlib.Analysis.InnerProductSpace.PiL2

/-! # Specifications for the trust region method -/

namespace Verif

open XR

local notation "⟪" x ", " y "⟫" => inner ℝ x y

variable {n : ℕ} {A : Type*}

/-- The quadratic model of the objective along a step `p`. -/
noncomputable def qmodel (g : Pt n) (H : Pt n → Pt n) (p : Pt n) : ℝ := ⟪g, p⟫ + 1 / 2 * ⟪p, H p⟫

/-- Contract of the derivatives: finite gradients, and finite, linear and symmetric Hessian-vector products. -/
structure SecondOrder (c : TRConf) (f : Objective n A) (G : Pt n → Pt n) (B : Pt n → Pt n →ₗ[ℝ] Pt n) : Prop where
  grad : ∀ x, f.grad (efin x) = efin (G x)
  hvp : ∀ x v, TR.hvp c f (efin x) (efin v) = efin (B x v)
  symm : ∀ x u v, ⟪B x u, v⟫ = ⟪u, B x v⟫

/-- Reasonable configurations; all but the last are real conditions on numbers, the last says that the sub-problem may
take at least one iteration. -/
structure TRConf.Valid (c : TRConf) : Prop where
  tol : 0 < c.tol
  min_radius : 0 ≤ c.min_tr_radius
  damping : ∀ t, c.damping_factor = some t → 0 ≤ t
  steihaug : c.maxiter_steihaug ≠ some 0

/-- The damping factor, zero if there is none. -/
def TRConf.damping (c : TRConf) : ℝ := c.damping_factor.getD 0

end Verif
