import Verif.Model.TrainAD
import Verif.Model.TrainLoop

/-! # Model of a step of the training in `/repo/examples/mumag3.ipynb`

Line numbers are those of the `.ipynb` file. Numbers may be `nan` or infinite. -/

namespace Verif

open XR

namespace Micromag

variable {q : ℕ} {α : Type}

/-- mumag3.ipynb:208 `value_and_grad(loss, has_aux=True)(params, data, mag0)`, without the energies. `pt` gives the point of a sample; `field params data`
stands for the field of lines 167-172, which is constant for the differentiation. -/
noncomputable def mumag3ValueAndGrad {nodes depth : ℕ} (domain : Cuboid) (ix : PinnIndex q (3 + 1) nodes depth) (mag0 : FunG 3 3) (pt : α → Pt 3)
    (field : Vec q → Batch α → ℕ → ℕ → Pt 3) (params : Vec q) (data : Batch α) : XR × Vec q :=
  LossG.valueAndGrad (fun _ _ _ => mumag3BatchLossG (fun l : Fin data.lam.length => data.lam[l]) (fun l i => field params data l i)
    (fun l => magG domain (pinnG ix fun _ => data.lam[l]) mag0) (fun i : Fin data.x.length => pt data.x[i])) params

/-- The state of `optax.adamw`. -/
structure AdamState (q : ℕ) where
  count : ℕ
  mu : Vec q
  nu : Vec q

/-- mumag3.ipynb:256 and 276 `optax.adamw(schedule)` with its other defaults. -/
noncomputable def adamw (schedule : ℕ → ℝ) : Optimizer (Vec q) (AdamState q) where
  init _ := ⟨0, fun _ => 0, fun _ => 0⟩
  update grads state params :=
    let mu : Vec q := fun j => fin (1 - 0.9) * grads j + fin 0.9 * state.mu j
    let nu : Vec q := fun j => fin (1 - 0.999) * grads j ^ 2 + fin 0.999 * state.nu j
    let count := state.count + 1
    let mu_hat : Vec q := fun j => mu j / fin (1 - 0.9 ^ count)
    let nu_hat : Vec q := fun j => nu j / fin (1 - 0.999 ^ count)
    let updates : Vec q := fun j => mu_hat j / (sqrt (nu_hat j) + fin 1e-8)
    let updates : Vec q := fun j => updates j + fin 1e-4 * params j
    (fun j => fin (-schedule state.count) * updates j, ⟨count, mu, nu⟩)

end Micromag

end Verif
