import Verif.Model.Notebooks
import Verif.Model.NestedAD

/-! # Model of the differentiated programs of `/repo/examples/elm_poisson.ipynb` -/

namespace Verif

open XR

namespace ElmPoisson

variable {α : Type} [ADNum α] {N k r : ℕ} (s : ElmPoisson N k r)

/-- elm_poisson.ipynb:31-32 `solution` for numbers `α`. -/
noncomputable def solutionG : GADF α 2 := fun x =>
  ADNum.sin (ADNum.const (fin (2 * Real.pi)) *ₐ x 0) *ₐ ADNum.sin (ADNum.const (fin (2 * Real.pi)) *ₐ x 1)

/-- elm_poisson.ipynb:60 entry `a` of `u_elm` for numbers `α`. -/
noncomputable def u_elmG (a : Fin k) : GADF α 2 := fun x =>
  cuboidG (.scalar 1) false (RAlpha.sysG 0 α) x *ₐ
    ADNum.exp (ADNum.const (fin (-s.gamma)) *ₐ ADNum.ipow (vnormG fun i => x i -ₐ ADNum.const (fin (s.W_elm a i))) 2)

/-- elm_poisson.ipynb:61 `Q` as computed by nested `jvp`s. -/
noncomputable def QAD (n : Fin N) (a : Fin k) : XR := laplaceG (s.u_elmG a) (efin (s.x_dom n))

/-- elm_poisson.ipynb:65 `b` as computed by nested `jvp`s. -/
noncomputable def bAD (n : Fin N) : XR := laplaceG solutionG (efin (s.x_dom n))

end ElmPoisson

end Verif
