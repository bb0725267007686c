import Verif.Model.Notebooks
import Verif.Model.Opt

/-! # Model of the training loop of `/repo/examples/mumag3.ipynb`

Line numbers are those of the `.ipynb` file. The optimiser is arbitrary, and so are the loss and its gradient; parameters are vectors. -/

namespace Verif

namespace Micromag

/-- An optimiser of `optax` with states `S`. -/
structure Optimizer (P S : Type) where
  init : P → S
  update : P → S → P → P × S

/-- mumag3.ipynb:225 `data`: a batch of points, a batch of tensors and values of `lam`. -/
structure Batch (α : Type) where
  x : List α
  xt : List α
  lam : List ℝ

variable {P S α : Type} [Add P]

/-- mumag3.ipynb:206-211 `update`; `value_and_grad` is `loss` together with `grad`. -/
def trainUpdate (optimizer : Optimizer P S) (loss : P → Batch α → ℝ × Energies) (grad : P → Batch α → P) (params : P) (opt_state : S)
    (data : Batch α) : P × S × (ℝ × Energies) :=
  let _loss_aux := loss params data
  let grads := grad params data
  let u := optimizer.update grads opt_state params
  let updates := u.1
  let opt_state := u.2
  let params := params + updates
  (params, opt_state, _loss_aux)

/-- mumag3.ipynb:224-228 the loop over the batches; the state is `(params, opt_state, _losses, _energies)`. -/
def trainBatches (optimizer : Optimizer P S) (loss : P → Batch α → ℝ × Energies) (grad : P → Batch α → P) (data : ℕ → Batch α) :
    List ℕ → P × S × List ℝ × List Energies → P × S × List ℝ × List Energies
  | [], w => w
  | batch :: rest, (params, opt_state, _losses, _energies) =>
    let r := trainUpdate optimizer loss grad params opt_state (data batch)
    trainBatches optimizer loss grad data rest (r.1, r.2.1, _losses ++ [r.2.2.1], _energies ++ [r.2.2.2])

/-- `mean` of a list. -/
noncomputable def meanList (l : List ℝ) : ℝ := l.sum / l.length

/-- mumag3.ipynb:231 `tree_map(lambda *a: mean(asarray(a)), *_energies)`; without arguments after the function `tree_map` raises a `TypeError`. -/
noncomputable def meanEnergies (l : List Energies) : Except Err Energies :=
  if l = [] then .error .typeError
  else .ok ⟨meanList (l.map (·.e_tot)), meanList (l.map (·.e_mag)), meanList (l.map (·.e_ex)), meanList (l.map (·.e_ani)),
    meanList (l.map (·.e_ext))⟩

variable [Inhabited α]

/-- mumag3.ipynb:216-231 the loop over the epochs; the state is `(params, opt_state, losses, energies)`. `uniform key batches size` stands for
`random.uniform(key, (batches, size), minval=8, maxval=9)`. -/
noncomputable def trainEpochs (permutation : Key → ℕ → List ℕ) (uniform : Key → ℕ → ℕ → List (List ℝ)) (optimizer : Optimizer P S)
    (loss : P → Batch α → ℝ × Energies) (grad : P → Batch α → P) (x_dom x_tensor_dom : List α) (batch_size_dom batch_size_lam : ℕ) :
    ℕ → Key → P × S × List ℝ × List Energies → Except Err (P × S × List ℝ × List Energies)
  | 0, _, w => .ok w
  | epochs + 1, key, (params, opt_state, losses, energies) => do
    let k1 := key.child 1
    let k2 := key.child 2
    let key := key.child 0
    let xs ← batchesWithoutReplacement permutation k1 [x_dom, x_tensor_dom] batch_size_dom
    let x := xs.getD 0 []
    let xt := xs.getD 1 []
    let batches := x.length
    let lam := uniform k2 batches batch_size_lam
    let data : ℕ → Batch α := fun batch => ⟨x.getD batch [], xt.getD batch [], lam.getD batch []⟩
    let r := trainBatches optimizer loss grad data (List.range batches) (params, opt_state, [], [])
    let e ← meanEnergies r.2.2.2
    trainEpochs permutation uniform optimizer loss grad x_dom x_tensor_dom batch_size_dom batch_size_lam epochs key
      (r.1, r.2.1, losses ++ [meanList r.2.2.1], energies ++ [e])

/-- mumag3.ipynb:205-235 `train`. The dictionary of arrays of energies is the list of the energies of the epochs; without epochs
`tree_map` in line 234 has no tree and raises a `TypeError`. -/
noncomputable def trainMumag3 (permutation : Key → ℕ → List ℕ) (uniform : Key → ℕ → ℕ → List (List ℝ)) (key : Key) (optimizer : Optimizer P S)
    (loss : P → Batch α → ℝ × Energies) (grad : P → Batch α → P) (x_dom x_tensor_dom : List α) (params : P)
    (epochs batch_size_dom batch_size_lam : ℕ) : Except Err (P × List ℝ × List Energies) := do
  let opt_state := optimizer.init params
  let r ← trainEpochs permutation uniform optimizer loss grad x_dom x_tensor_dom batch_size_dom batch_size_lam epochs key
    (params, opt_state, [], [])
  if r.2.2.2 = [] then .error .typeError
  else .ok (r.1, r.2.2.1, r.2.2.2)

end Micromag

end Verif
