import Verif.Model.NestedAD

/-! # Model of differentiated calls of functions which differentiate themselves

`normalize_1st_order` (r_fun.py) and `impose_neumann_bc` (model.py) call `jacfwd` and `jvp`. When their results are differentiated
again, as by `laplace`, JAX runs these inner calls with pairs of numbers of the level it is at. The functions for numbers `α` need
their arguments for `α` and for `JVP α`. The remaining transformations of r_fun.py and the constraints of model.py are written for
the same numbers; the models have one positional argument, a vector, and one output. -/

namespace Verif

open XR

section

variable {α : Type} [ADNum α] {n : ℕ}

/-- `jax.jvp(f, [x], [v])[1]` -/
noncomputable def jvpG (f : GADF (JVP α) n) (x v : Fin n → α) : α := (f fun i => ⟨x i, some (v i)⟩).tangent

/-- `jax.jacfwd(f)(x)`, entry `j`: the tangent for the `j`-th unit vector. -/
noncomputable def jacG (f : GADF (JVP α) n) (x : Fin n → α) : Fin n → α := fun j =>
  jvpG f x fun i => ADNum.const (if i = j then 1 else 0)

/-- r_fun.py:543-563 `normalize_1st_order`. -/
noncomputable def normalize1stOrderG (f : GADF α n) (f' : GADF (JVP α) n) : GADF α n := fun x =>
  let y := f x
  let dy := jacG f' x
  y /ₐ ADNum.sqrt (ADNum.ipow y 2 +ₐ ADNum.ipow (vnormG dy) 2)

/-- r_fun.py:364-381 `scale_without_normalization`. -/
noncomputable def scaleWithoutNormalizationG (f : GADF α n) (s : Vec n) : GADF α n := fun x => f fun i => x i /ₐ ADNum.const (s i)

/-- r_fun.py:295-311 `ellipsoid`. -/
noncomputable def ellipsoidG (axes : Vec n) : GADF α n :=
  normalize1stOrderG (scaleWithoutNormalizationG (sphereG 1) axes) (scaleWithoutNormalizationG (sphereG 1) axes)

/-- `x @ y` with a constant vector `y`. -/
noncomputable def dotCG (x : Fin n → α) (y : Vec n) : α := sumG ((List.finRange n).map fun i => x i *ₐ ADNum.const (y i))

/-- r_fun.py:384-411 `rotate2d`; the product is `M @ x`. -/
noncomputable def rotate2dG (f : GADF α 2) (angle : NumArg) (o : Vec 2) : GADF α 2 :=
  let adf := translateG f fun i => -o i
  let rotOp : GADF α 2 := fun x => adf fun i =>
    sumG ((List.finRange 2).map fun j => ADNum.const (rotate2d.M angle i j) *ₐ x j)
  translateG rotOp o

/-- quaternions.py:66-73 `__mul__` of quaternions; the first entry is the real part, the second the imaginary part. -/
noncomputable def qmulG (p q : α × (Fin 3 → α)) : α × (Fin 3 → α) :=
  let cross : Fin 3 → α := ![p.2 1 *ₐ q.2 2 -ₐ p.2 2 *ₐ q.2 1, p.2 2 *ₐ q.2 0 -ₐ p.2 0 *ₐ q.2 2, p.2 0 *ₐ q.2 1 -ₐ p.2 1 *ₐ q.2 0]
  (p.1 *ₐ q.1 -ₐ sumG ((List.finRange 3).map fun i => p.2 i *ₐ q.2 i),
    fun i => p.1 *ₐ q.2 i +ₐ q.1 *ₐ p.2 i +ₐ cross i)

/-- A quaternion which does not depend on the input. -/
noncomputable def qconstG (q : Quat) : α × (Fin 3 → α) := (ADNum.const q.re, fun i => ADNum.const (q.im i))

/-- quaternions.py:172-188 `quaternion_rotation` with a constant quaternion. -/
noncomputable def quaternionRotationG (x : Fin 3 → α) (q : Quat) : Fin 3 → α :=
  (qmulG (qmulG (qconstG q.reciprocal) (ADNum.const 0, x)) (qconstG q)).2

/-- r_fun.py:414-463 `rotate3d`. -/
noncomputable def rotate3dG (f : GADF α 3) (angle : AngleArg) (axis : Option (Vec 3)) (o : Vec 3) : Except Err (GADF α 3) := do
  let adf := translateG f fun i => -o i
  let q ← rotate3d.quat angle axis
  let rotOp : GADF α 3 := fun x => adf (quaternionRotationG x q)
  return translateG rotOp o

/-- r_fun.py:466-489 `reflect`. -/
noncomputable def reflectG (f : GADF α n) (nv o : Vec n) : GADF α n :=
  let adf := translateG f fun i => -o i
  let refOp : GADF α n := fun x => adf fun i =>
    x i -ₐ ADNum.const 2 *ₐ dotCG x nv /ₐ ADNum.const (vnorm nv ^ 2) *ₐ ADNum.const (nv i)
  translateG refOp o

/-- r_fun.py:492-514 `project`. -/
noncomputable def projectG (f : GADF α n) (nv o : Vec n) : GADF α n :=
  let adf := translateG f fun i => -o i
  let projOp : GADF α n := fun x => adf fun i => x i -ₐ dotCG x nv /ₐ ADNum.const (vnorm nv ^ 2) *ₐ ADNum.const (nv i)
  translateG projOp o

/-- model.py:122-178 `impose_dirichlet_bc`. -/
noncomputable def imposeDirichletBcG (adf : GADF α n) (g : Option (GADF α n)) (model : GADF α n) : GADF α n := fun x =>
  let _h : GADF α n := match g with
    | none => fun _ => ADNum.const 0
    | some g => g
  let l := adf x
  let value := model x
  let value_g := _h x
  l *ₐ value +ₐ value_g

/-- model.py:181-243 `impose_neumann_bc`; the inner calls of `value_and_jacfwd` and `jvp` are differentiated themselves. -/
noncomputable def imposeNeumannBcG (adf : GADF α n) (adf' : GADF (JVP α) n) (h : Option (GADF α n)) (model' : GADF (JVP α) n) :
    GADF α n := fun x =>
  let _h : GADF α n := match h with
    | none => fun _ => ADNum.const 0
    | some h => h
  let l := adf x
  let n := jacG adf' x
  let y := model' fun i => ⟨x i, some (n i)⟩
  let value := y.val
  let normal_derivative := y.tangent
  let value_h := _h x
  value -ₐ l *ₐ normal_derivative -ₐ l *ₐ value_h

/-- model.py:69-119 `impose_ic` for a model of the position `x` and the time `t`, both differentiated. -/
noncomputable def imposeIcG (m0 : GADF α n) (t0 decay_rate : ℝ) (model : GADF α (n + 1)) : GADF α (n + 1) := fun x =>
  let t := x (Fin.last n)
  let decay := ADNum.exp (ADNum.const (-(fin decay_rate)) *ₐ (t -ₐ ADNum.const (fin t0)))
  let value := model x
  m0 (fun i => x i.castSucc) *ₐ decay +ₐ (ADNum.const 1 -ₐ decay) *ₐ value

/-- `nn.Dense(features)` applied to a vector. -/
noncomputable def denseG (features : ℕ) (p : DenseParams) (x : List α) : Except Err (List α) :=
  open Classical in
  if p.HasShape x.length features then
    .ok ((List.range features).map fun j =>
      sumG (List.zipWith (fun x row => x *ₐ ADNum.const (row.getD j 0)) x p.kernel) +ₐ ADNum.const (p.bias.getD j 0))
  else .error .valueError

/-- model.py:25-26, the loop over the hidden layers. -/
noncomputable def MLP.hiddenG (activation : α → α) (params : MLPParams) (layers : List ℕ) (x : List α) : Except Err (List α) :=
  layers.zipIdx.foldlM (fun x (layer, i) => do
    let y ← denseG layer (params.layers_ i) x
    return y.map activation) x

/-- model.py:14-33 `MLP.__call__` with the activation `tanh`, for numbers `α` and constant parameters. -/
noncomputable def MLP.applyG (layers : List ℕ) (params : MLPParams) (x : List α) : Except Err (α ⊕ List α) := do
  let x ← MLP.hiddenG ADNum.tanh params layers.dropLast x
  match layers.getLast? with
  | none => .error .indexError
  | some output_neurons =>
    let x ← denseG output_neurons params.output_layer x
    if output_neurons = 1 then .ok (.inl (x.getD 0 (ADNum.const 0))) else .ok (.inr x)

end

end Verif
