import Verif.Model.QuatAD
import Verif.Spec.FwdAD
import Verif.Lemmas.Quaternions

/-! # Specification vocabulary for differentiated quaternions -/

namespace Verif

open XR Quat

open scoped Quaternion

/-- The quaternion `p` with the tangent `t`. -/
noncomputable def dualH (p t : ℍ[ℝ]) : QuatD :=
  ⟨⟨fin p.re, fin t.re⟩, fun i => ⟨fin (imv p i), fin (imv t i)⟩⟩

section

variable {E : Type*} [NormedAddCommGroup E] [NormedSpace ℝ E]

/-- For every direction the program returns the quaternion `f x` and the derivative of `f` at `x` in that direction. -/
def IsADQ (d : E → QuatD) (f : E → ℍ[ℝ]) (x : E) : Prop :=
  ∃ f' : E →L[ℝ] ℍ[ℝ], HasFDerivAt f f' x ∧ ∀ v, d v = dualH (f x) (f' v)

end

/-- All tangents of a quaternion are `nan`. -/
def QuatD.NanTangent (p : QuatD) : Prop := p.re.tan = nan ∧ ∀ i, (p.im i).tan = nan

end Verif
