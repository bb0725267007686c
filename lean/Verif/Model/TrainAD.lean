import Verif.Model.RevAD
import Verif.Model.BcAD
import Verif.Model.MumagAD
import Verif.Model.Notebooks

/-! # Model of differentiating the losses of the notebooks by the parameters of the network

`value_and_grad(loss)` (mumag3.ipynb:208) and `TR(loss, ...)` (hysteresis.ipynb:153-161, 194-205) differentiate the loss by reverse
differentiation. The loss itself differentiates the magnetisation by its position with `jacfwd`. So a number of the program is a pair of
a value and its tangent, both of which are numbers recorded for reverse differentiation, and for products with the Hessian these are pairs
again. The programs are written for numbers `α`. Parameters which an inner `jacfwd` closes over have a symbolic zero as tangent. -/

namespace Verif

open XR

/-- `jax.numpy.linalg.solve`, which `jaxopt.linear_solve.solve_lu` calls: JAX differentiates the solution of a linear system by its
own rule and not through the factorisation. -/
class ADSolve (α : Type) [ADNum α] where
  solve : {m : ℕ} → (Fin m → Fin m → α) → (Fin m → α) → Fin m → α

open Classical in
/-- Simplified: `nan` if the matrix is singular or an entry is not finite. -/
noncomputable instance : ADSolve XR where
  solve {m} A b :=
    let M : Matrix (Fin m) (Fin m) ℝ := Matrix.of fun i j => XR.toReal (A i j)
    let v : Fin m → ℝ := fun i => XR.toReal (b i)
    if (∀ i j, A i j = fin (M i j)) ∧ (∀ i, b i = fin (v i)) ∧ M.det ≠ 0 then fun i => fin (M⁻¹.mulVec v i) else fun _ => nan

open Classical in
/-- The tangent of the solution `x` is that of the system with the right hand side `db - dA @ x`. -/
noncomputable instance {α : Type} [ADNum α] [ADSolve α] : ADSolve (JVP α) where
  solve {m} A b :=
    let A' : Fin m → Fin m → α := fun i j => (A i j).val
    let x := ADSolve.solve A' fun i => (b i).val
    let rhs : Fin m → α := fun i => (b i).tan.getD (ADNum.const 0) -ₐ
      sumG ((List.finRange m).map fun j => (A i j).tan.getD (ADNum.const 0) *ₐ x j)
    fun i => ⟨x i, if (∀ i j, (A i j).tan = none) ∧ (∀ i, (b i).tan = none) then none else some (ADSolve.solve A' rhs i)⟩

/-- The sum of cotangents. -/
def sumT {α : Type} [ADNum α] (l : List (Option α)) : Option α := l.foldl JVP.addT none

/-- The cotangent of the right hand side is the solution `w` of the transposed system, that of the matrix `-outer(w, x)`. -/
noncomputable instance {α : Type} [ADNum α] [ADSolve α] {n : ℕ} : ADSolve (RevNum n α) where
  solve {m} A b :=
    let A' : Fin m → Fin m → α := fun i j => (A i j).val
    let x := ADSolve.solve A' fun i => (b i).val
    fun i => ⟨x i, fun c k =>
      let w := ADSolve.solve (fun i j => A' j i) fun a => if a = i then c else ADNum.const 0
      sumT ((List.finRange m).map fun a => JVP.addT ((b a).back (w a) k)
        (sumT ((List.finRange m).map fun d => (A a d).back (ADNum.neg (w a *ₐ x d)) k)))⟩

/-- A function of `q` parameters and `a` inputs with `b` outputs, for numbers of every kind. -/
abbrev NetG (q a b : ℕ) : Type 1 := (α : Type) → [ADNum α] → [ADSolve α] → (Fin q → α) → (Fin a → α) → Fin b → α

/-- A function of `a` inputs with `b` outputs, for numbers of every kind. -/
abbrev FunG (a b : ℕ) : Type 1 := (α : Type) → [ADNum α] → [ADSolve α] → (Fin a → α) → Fin b → α

section

variable {α : Type} [ADNum α] [ADSolve α] {n q : ℕ}

/-- mumag3.py:337-343 `to_skew_simmetric_matrix`. -/
noncomputable def toSkewSimmetricMatrixG (x : Fin 3 → α) : Fin 3 → Fin 3 → α :=
  let z : α := ADNum.const 0
  let S : Fin 3 → Fin 3 → α := ![![z, z, z], ![x 2, z, z], ![ADNum.neg (x 1), x 0, z]]
  fun i j => S i j -ₐ S j i

/-- mumag3.py:346-352 `cayley_rotation`. -/
noncomputable def cayleyRotationG (p x : Fin 3 → α) : Fin 3 → α :=
  let Q := toSkewSimmetricMatrixG p
  let I : Fin 3 → Fin 3 → α := fun i j => ADNum.const (if i = j then 1 else 0)
  let b : Fin 3 → α := fun i => sumG ((List.finRange 3).map fun j => (I i j +ₐ Q i j) *ₐ x j)
  let A : Fin 3 → Fin 3 → α := fun i j => I i j -ₐ Q i j
  ADSolve.solve A b

/-- `nn.gelu` with its default, the approximation by `tanh`. -/
noncomputable def geluG (x : α) : α :=
  let cdf := ADNum.const (1 / 2) *ₐ (ADNum.const 1 +ₐ
    ADNum.tanh (ADNum.const (fin (Real.sqrt (2 / Real.pi))) *ₐ (x +ₐ ADNum.const (fin 0.044715) *ₐ ADNum.ipow x 3)))
  x *ₐ cdf

/-- `nn.Dense` whose parameters are numbers `α`. -/
noncomputable def denseParG {a b : ℕ} (kernel : Fin a → Fin b → α) (bias : Fin b → α) (x : Fin a → α) : Fin b → α := fun j =>
  sumG ((List.finRange a).map fun i => x i *ₐ kernel i j) +ₐ bias j

end

/-- Where the entries of the kernels and biases of a `PINN` are among its `q` parameters. -/
structure PinnIndex (q a nodes depth : ℕ) where
  kernel1 : Fin a → Fin nodes → Fin q
  bias1 : Fin nodes → Fin q
  kernels : Fin depth → Fin nodes → Fin nodes → Fin q
  biases : Fin depth → Fin nodes → Fin q
  kernelOut : Fin nodes → Fin 3 → Fin q
  biasOut : Fin 3 → Fin q

/-- hysteresis.ipynb:80-89 `PINN` (`nodes` is 20, `depth` 2, `lam` empty) and mumag3.ipynb:116-129 `PINN` (`nodes` is 50, `depth` 5, one
entry in `lam`): after the first dense layer there are `depth` more with activation and one without. -/
noncomputable def pinnG {q nodes depth e : ℕ} (ix : PinnIndex q (3 + e) nodes depth) (lam : Fin e → ℝ) : NetG q 3 3 := fun _ _ _ params x =>
  let y := Fin.append x fun i => ADNum.const (fin (lam i))
  let y := fun j => geluG (denseParG (fun i j => params (ix.kernel1 i j)) (fun j => params (ix.bias1 j)) y j)
  let y := (List.finRange depth).foldl (fun y l => fun j =>
    geluG (denseParG (fun i j => params (ix.kernels l i j)) (fun j => params (ix.biases l j)) y j)) y
  denseParG (fun i j => params (ix.kernelOut i j)) (fun j => params (ix.biasOut j)) y

namespace Micromag

variable {n q : ℕ}

/-- hysteresis.ipynb:41 `m0`. -/
noncomputable def m0G : FunG 3 3 := fun _ _ _ _ => ![ADNum.const 1, ADNum.const 0, ADNum.const 0]

/-- mumag3.py:102-103 and 288-289 `unit_vec`, which mumag3.ipynb:55 and 62 use. -/
noncomputable def unitVectorG {α : Type} [ADNum α] {m : ℕ} (x : Fin m → α) : Fin m → α := fun i => x i /ₐ vnormG x

/-- mumag3.ipynb:57-62 `m_flower`. -/
noncomputable def m_flowerG : FunG 3 3 := fun _ _ _ v => unitVectorG ![v 0 *ₐ v 2, v 1 *ₐ v 2, ADNum.const 1]

/-- mumag3.ipynb:44-55 `m_vortex`. -/
noncomputable def m_vortexG : FunG 3 3 := fun _ _ _ v =>
  let x := v 0
  let z := v 2
  let rc := 0.14
  let r := ADNum.sqrt (ADNum.ipow z 2 +ₐ ADNum.ipow x 2)
  let k := ADNum.ipow r 2 /ₐ ADNum.const (fin (rc ^ 2))
  let my := ADNum.exp (ADNum.const (fin (-2)) *ₐ k)
  let mx := ADNum.neg z /ₐ r *ₐ ADNum.sqrt (ADNum.const 1 -ₐ ADNum.exp (ADNum.const (fin (-4)) *ₐ k))
  let mz := x /ₐ r *ₐ ADNum.sqrt (ADNum.const 1 -ₐ ADNum.exp (ADNum.const (fin (-4)) *ₐ k))
  unitVectorG ![mx, my, mz]

/-- hysteresis.ipynb:96-100 and mumag3.ipynb:136-140 `mag`. -/
noncomputable def magG (domain : Cuboid) (apply : NetG q 3 3) (mag0 : FunG 3 3) : NetG q 3 3 := fun α _ _ params x =>
  let x := domain.normalizeG x
  let p := apply α params x
  let m := mag0 α x
  cayleyRotationG p m

section

variable {α : Type} [ADNum α] [ADSolve α]

/-- `mean` of an array with `n` entries. -/
noncomputable def meanG (a : Fin n → α) : α := sumG ((List.finRange n).map a) /ₐ ADNum.const (fin n)

/-- A sample, which does not depend on the parameters. -/
noncomputable def constG {m : ℕ} (x : Pt m) : Fin m → α := fun i => ADNum.const (fin (x i))

/-- hysteresis.ipynb:102-106 and mumag3.ipynb:142-147 `exchange_energy`; `m` closes over the parameters. -/
noncomputable def exchange_energyG (A : ℝ) (m : NetG q 3 3) (params : Fin q → α) (x : Fin n → Pt 3) : α :=
  let e_ex : Pt 3 → α := fun x =>
    let dm : Fin 3 → Fin 3 → α := fun i => jacG (fun z => m (JVP α) (fun k => ⟨params k, none⟩) z i) (constG x)
    sumG ((List.finRange 3).map fun i => sumG ((List.finRange 3).map fun j => dm i j *ₐ dm i j))
  ADNum.const (fin A) *ₐ meanG fun i => e_ex (x i)

/-- hysteresis.ipynb:108-112 and mumag3.ipynb:149-154 `ani_energy`. -/
noncomputable def ani_energyG (Ka : ℝ) (easy_axis : Pt 3) (m : NetG q 3 3) (params : Fin q → α) (x : Fin n → Pt 3) : α :=
  let e_ani : Pt 3 → α := fun x => ADNum.const 1 -ₐ ADNum.ipow (dotCG (m α params (constG x)) (efin easy_axis)) 2
  ADNum.const (fin Ka) *ₐ meanG fun i => e_ani (x i)

/-- hysteresis.ipynb:114-119 and mumag3.ipynb:156-161 `mag_energy`; `h` are the values of the stray field, which are constant for the
derivatives (`stop_gradient` in hysteresis.ipynb:133 and mumag3.ipynb:169). -/
noncomputable def mag_energyG (c : ℝ) (h : Fin n → Pt 3) (m : NetG q 3 3) (params : Fin q → α) (x : Fin n → Pt 3) : α :=
  ADNum.const (fin (-c)) *ₐ meanG fun i => dotCG (m α params (constG (x i))) (efin (h i))

/-- hysteresis.ipynb:121-125 `ext_energy`. -/
noncomputable def ext_energyG (hext : Pt 3) (m : NetG q 3 3) (params : Fin q → α) (x : Fin n → Pt 3) : α :=
  ADNum.neg (meanG fun i => dotCG (m α params (constG (x i))) (efin hext))

/-- hysteresis.ipynb:129-144 `loss`, its first value. -/
noncomputable def hysteresisLossG (A Ka : ℝ) (easy_axis hext_axis : Pt 3) (h : Fin n → Pt 3) (m : NetG q 3 3) (x_dom : Fin n → Pt 3)
    (hext : ℝ) (params : Fin q → α) : α :=
  let e_ex := exchange_energyG A m params x_dom
  let e_ani := ani_energyG Ka easy_axis m params x_dom
  let e_mag := mag_energyG (1 / 2) h m params x_dom
  let e_ext := ext_energyG (hext • hext_axis) m params x_dom
  e_ex +ₐ e_ani +ₐ e_ext +ₐ ADNum.const 2 *ₐ e_mag

/-- mumag3.ipynb:167-180 `_loss` for one value `lam`, its first value. -/
noncomputable def mumag3LossG (lam : ℝ) (h : Fin n → Pt 3) (m : NetG q 3 3) (x : Fin n → Pt 3) (params : Fin q → α) : α :=
  let e_ex := exchange_energyG (1 / lam ^ 2) m params x
  let e_ani := ani_energyG 0.1 (EuclideanSpace.single 2 1) m params x
  let e_mag := mag_energyG 1 h m params x
  e_ex +ₐ e_ani +ₐ ADNum.const 2 *ₐ e_mag

/-- mumag3.ipynb:164-181 `loss`, its first value: the mean over the values of `lam`; network and field depend on `lam`. -/
noncomputable def mumag3BatchLossG {k : ℕ} (lam : Fin k → ℝ) (h : Fin k → Fin n → Pt 3) (m : Fin k → NetG q 3 3) (x : Fin n → Pt 3)
    (params : Fin q → α) : α := meanG fun l => mumag3LossG (lam l) (h l) (m l) x params

end

end Micromag

/-- A function of `q` parameters with one value, for numbers of every kind. -/
abbrev LossG (q : ℕ) : Type 1 := (α : Type) → [ADNum α] → [ADSolve α] → (Fin q → α) → α

/-- `jax.value_and_grad` -/
noncomputable def LossG.valueAndGrad {q : ℕ} (L : LossG q) (p : Vec q) : XR × Vec q :=
  let y := L (RevNum q XR) (RevNum.seed p)
  (y.val, fun j => (y.back 1 j).getD 0)

/-- calc.py:211-243 `hvp_forward_over_reverse` without damping, and the product with the Hessian which `value_grad_hvp`
(calc.py:271-306) returns: `jax.jvp` of `jax.grad`. -/
noncomputable def LossG.hvpForwardOverReverse {q : ℕ} (L : LossG q) (p v : Vec q) : Vec q := fun j =>
  let z : Fin q → JVP XR := fun i => ⟨p i, some (v i)⟩
  let y := L (RevNum q (JVP XR)) (RevNum.seed z)
  ((y.back (ADNum.const 1) j).getD (ADNum.const 0)).tangent

end Verif
