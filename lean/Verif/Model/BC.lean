import Verif.Spec.Geometry
import Mathlib.Analysis.Calculus.FDeriv.Basic
import Mathlib.Analysis.Calculus.Deriv.Basic

/-! # Model of `/repo/magpi/model.py` -/

namespace Verif

open XR

/-! ## Python sequences -/

/-- Python's `l[i]`. -/
def pyIndex {α : Type} (l : List α) (i : ℤ) : Except Err α :=
  let j := if i < 0 then i + l.length else i
  if 0 ≤ j then
    match l[j.toNat]? with
    | some a => .ok a
    | none => .error .indexError
  else .error .indexError

/-- The position a slice bound denotes in a sequence of length `n`: negative bounds count from the end, bounds outside
of the sequence are moved to its ends. -/
def pyBound (n : ℕ) (i : ℤ) : ℕ := (if i < 0 then i + n else i).toNat

/-- Python's `l[:i]`. -/
def pySliceTo {α : Type} (l : List α) (i : ℤ) : List α := l.take (pyBound l.length i)

/-- Python's `l[i:]`. -/
def pySliceFrom {α : Type} (l : List α) (i : ℤ) : List α := l.drop (pyBound l.length i)

/-- `int | Sequence[int]`; the code turns an integer into a list with one entry (model.py:101-102, 156-160, 218-222). -/
inductive Argnums where
  | int (i : ℤ)
  | seq (is : List ℤ)

/-- model.py:101-102, 156-160, 218-222. -/
def Argnums.toList : Argnums → List ℤ
  | int i => [i]
  | seq is => is

/-- `(args[i] for i in argnums)` once it is consumed. -/
def pick {α : Type} (args : List α) (argnums : Argnums) : Except Err (List α) := argnums.toList.mapM (pyIndex args)

/-! ## Constraints on models

`A` is the type of the positional arguments, `K` that of the keyword arguments. -/

section
variable {A K : Type} {n : ℕ}

/-- model.py:69-119 `impose_ic`; `num` reads the time argument as a number. -/
noncomputable def imposeIc (num : A → XR) (m0 : List A → Vec n) (t0 decay_rate : ℝ) (argnums_m0 : Argnums)
    (argnum_t : ℤ) (model : List A → K → Vec n) (args : List A) (kwargs : K) : Except Err (Vec n) := do
  let t ← pyIndex args argnum_t
  let decay := XR.exp (-(fin decay_rate) * (num t - fin t0))
  let value := model args kwargs
  let args_m0 ← pick args argnums_m0
  return fun i => m0 args_m0 i * decay + (1 - decay) * value i

/-- model.py:122-178 `impose_dirichlet_bc`. -/
noncomputable def imposeDirichletBc (adf : List A → XR) (g : Option (List A → Vec n)) (argnums_adf argnums_g : Argnums)
    (model : List A → K → Vec n) (args : List A) (kwargs : K) : Except Err (Vec n) := do
  let _h : List A → Vec n := match g with
    | none => fun _ _ => 0
    | some g => g
  let x_adf ← pick args argnums_adf
  let l := adf x_adf
  let value := model args kwargs
  let x_g ← pick args argnums_g
  let value_g := _h x_g
  return fun i => l * value i + value_g i

end

/-- Positional arguments which can be differentiated: numbers and vectors. -/
inductive Arg where
  | num (t : ℝ)
  | vec (n : ℕ) (x : Pt n)

/-- `jacfwd` of a scalar function of a vector: the vector of its partial derivatives. -/
noncomputable def jacVec {n : ℕ} (f : Pt n → ℝ) (x : Pt n) : Pt n :=
  WithLp.toLp 2 fun i => fderiv ℝ f x (EuclideanSpace.single i 1)

open Classical in
/-- model.py:181-243 `impose_neumann_bc`, over the real numbers; `value_and_jacfwd` (calc.py:158-178) and `jvp` are the
partial derivatives and the directional derivative. `jvp` needs a tangent of the shape of the argument. -/
noncomputable def imposeNeumannBc {K : Type} {E : Type} [NormedAddCommGroup E] [NormedSpace ℝ E] (adf : List Arg → ℝ)
    (h : Option (List Arg → E)) (argnums_adf : Argnums) (argnum_model : ℤ) (argnums_h : Argnums)
    (model : List Arg → K → E) (args : List Arg) (kwargs : K) : Except Err E := do
  let _h : List Arg → E := match h with
    | none => fun _ => 0
    | some h => h
  let x ← pyIndex args argnum_model
  let f := fun x => model (pySliceTo args argnum_model ++ x :: pySliceFrom args (argnum_model + 1)) kwargs
  let x_adf ← pick args argnums_adf
  let l := adf x_adf
  let normal_derivative ← match x, x_adf with
    | .vec k x, .vec k' y :: ys =>
      let n := jacVec (fun y => adf (.vec k' y :: ys)) y
      if e : k' = k then .ok (fderiv ℝ (fun x => f (.vec k x)) x (e ▸ n)) else .error .typeError
    | .num x, .num y :: ys =>
      let n := deriv (fun y => adf (.num y :: ys)) y
      .ok (n • deriv (fun x => f (.num x)) x)
    | _, _ => .error .typeError
  let value := f x
  let x_h ← pick args argnums_h
  let value_h := _h x_h
  return value - l • normal_derivative - l • value_h

/-! ## Multi layer perceptron -/

/-- The parameters of `nn.Dense`: `kernel` of shape `(inputs, features)`, as list of rows, and `bias`. -/
structure DenseParams where
  kernel : List (List XR)
  bias : List XR

/-- The shapes `nn.Dense(features)` gives its parameters for `inputs` inputs. -/
def DenseParams.HasShape (p : DenseParams) (inputs features : ℕ) : Prop :=
  p.kernel.length = inputs ∧ (∀ row ∈ p.kernel, row.length = features) ∧ p.bias.length = features

open Classical in
/-- `nn.Dense(features)` applied to a vector; parameters of another shape are rejected. -/
noncomputable def dense (features : ℕ) (p : DenseParams) (x : List XR) : Except Err (List XR) :=
  if p.HasShape x.length features then
    .ok ((List.range features).map fun j =>
      (List.zipWith (fun x row => x * row.getD j 0) x p.kernel).sum + p.bias.getD j 0)
  else .error .valueError

/-- The parameters of `MLP`: the entries `layers_i` and `output_layer`. -/
structure MLPParams where
  layers_ : ℕ → DenseParams
  output_layer : DenseParams

/-- model.py:25-26, the loop over the hidden layers. -/
noncomputable def MLP.hidden (activation : XR → XR) (params : MLPParams) (layers : List ℕ) (x : List XR) :
    Except Err (List XR) :=
  layers.zipIdx.foldlM (fun x (layer, i) => do
    let y ← dense layer (params.layers_ i) x
    return y.map activation) x

/-- model.py:14-33 `MLP.__call__` for one input vector; `activation` is `tanh` unless given. The result is a number or
a vector. -/
noncomputable def MLP.apply (layers : List ℕ) (activation : XR → XR) (params : MLPParams) (x : List XR) :
    Except Err (XR ⊕ List XR) := do
  let x ← MLP.hidden activation params layers.dropLast x
  match layers.getLast? with
  | none => .error .indexError
  | some output_neurons =>
    let x ← dense output_neurons params.output_layer x
    if output_neurons = 1 then .ok (.inl (x.getD 0 0)) else .ok (.inr x)

/-- The parameters `init` makes for inputs with `features` entries. -/
def MLP.init (init : ℕ → ℕ → ℕ → DenseParams) (layers : List ℕ) (features : ℕ) : Except Err MLPParams :=
  match layers.getLast? with
  | none => .error .indexError
  | some output_neurons =>
    let inputs := features :: layers
    .ok ⟨fun i => init i (inputs.getD i 0) (layers.getD i 0),
      init (layers.length - 1) (inputs.getD (layers.length - 1) 0) output_neurons⟩

/-- model.py:36-66 `mlp`; `init i a b` stands for the random parameters of layer `i` with `a` inputs and `b`
features. -/
def mlp (init : ℕ → ℕ → ℕ → DenseParams) (layers : List ℕ) : Except Err (List ℕ × MLPParams) :=
  match layers with
  | [] => .error .indexError
  | features :: layers => do
    let params ← MLP.init init layers features
    return (layers, params)

end Verif
