import Verif.Model.Mumag3
import Verif.Model.NestedAD

/-! # Model of the differentiated programs of `/repo/examples/mumag3.py` -/

namespace Verif

open XR

namespace Cuboid

variable {α : Type} [ADNum α] (D : Cuboid)

/-- mumag3.py:73-84 `Cuboid.normalize` for numbers `α`. -/
noncomputable def normalizeG (x : Fin 3 → α) : Fin 3 → α := fun i =>
  ADNum.const 2 *ₐ (x i -ₐ ADNum.const (D.dom.lb i)) /ₐ ADNum.const (D.dom.ub i - D.dom.lb i) -ₐ ADNum.const 1

/-- mumag3.py:86-90 `Cuboid.adf` for numbers `α`. -/
noncomputable def adfG : GADF α 3 :=
  translateG (cuboidG (.vector fun i => D.dom.ub i - D.dom.lb i) false (RAlpha.sysG 0 α)) D.dom.lb

/-- mumag3.py:92-93 `Cuboid._normal_vec`: minus the tangents of `jax.jacfwd`. -/
noncomputable def normalVecAD (x : Vec 3) : Vec 3 := fun j =>
  let z : Fin 3 → JVP XR := fun i => ⟨x i, some (if i = j then 1 else 0)⟩;
  -(D.adfG z : JVP XR).tangent

end Cuboid

namespace StrayField

variable {α : Type} [ADNum α] {N k r : ℕ} (s : StrayField N k r)

/-- mumag3.py:301 entry `a` of `h_elm` for numbers `α`. -/
noncomputable def h_elmG (a : Fin k) : GADF α 3 := fun x =>
  ADNum.tanh (sumG ((List.finRange 3).map fun i => ADNum.const (fin (s.W_elm a i)) *ₐ s.domain.normalizeG x i) +ₐ
    ADNum.const (fin (s.b_elm a)))

/-- mumag3.py:302 entry `a` of `u_elm` for numbers `α`. -/
noncomputable def u_elmG (a : Fin k) : GADF α 3 := fun x => s.h_elmG a x *ₐ s.domain.adfG x

/-- mumag3.py:303 `Q_phi1` as computed by nested `jvp`s. -/
noncomputable def Q_phi1AD (n : Fin N) (a : Fin k) : XR := -laplaceG (s.u_elmG a) (efin (s.X_dom n))

/-- mumag3.py:314 `phi1` with the parameters `p` for numbers `α`. -/
noncomputable def phi1G (p : Fin k → ℝ) : GADF α 3 := fun x =>
  sumG ((List.finRange k).map fun a => s.u_elmG a x *ₐ ADNum.const (fin (p a)))

/-- mumag3.py:324 `-jacfwd(phi1)(x)` as computed by `jvp`s. -/
noncomputable def gradPhi1AD (p : Fin k → ℝ) (x : Vec 3) : Vec 3 := fun j =>
  let z : Fin 3 → JVP XR := fun i => ⟨x i, some (if i = j then 1 else 0)⟩;
  -(s.phi1G p z : JVP XR).tangent

/-- mumag3.py:317-319 `g` with the parameters `p` for numbers `α`; the normal vector `nv` is below `stop_gradient`, so a constant. -/
noncomputable def gG (m : Fin 3 → GADF α 3) (nv : Vec 3) (p : Fin k → ℝ) : GADF α 3 := fun y =>
  sumG ((List.finRange 3).map fun i => m i y *ₐ ADNum.const (nv i)) +ₐ
    sumG ((List.finRange k).map fun a => s.h_elmG a y *ₐ ADNum.const (fin (p a)))

/-- mumag3.py:202-209 `_f` in `charge_taylor_coefs2` for `g`, as computed by nested `jvp`s. -/
noncomputable def coefsAD (m : (α : Type) → [ADNum α] → Fin 3 → GADF α 3) (p : Fin k → ℝ) (face : Face) (x : Vec 3) : Fin 6 → XR :=
  let nv := s.domain.normalVecAD x
  let g : Vec 3 := fun j =>
    let z : Fin 3 → JVP XR := fun i => ⟨x i, some (if i = j then 1 else 0)⟩
    (s.gG (m (JVP XR)) nv p z : JVP XR).tangent
  let H : Fin 3 → Fin 3 → XR := fun a b => hvpG (s.gG (m (JVP (JVP XR))) nv p) x (fun i => if i = b then 1 else 0) a
  let i := face.axis1
  let j := face.axis2
  ![s.gG (m XR) nv p x, g i, g j, 1 / 2 * H i i, H i j, 1 / 2 * H j j]

end StrayField

end Verif
