import Verif.Num.Fl
import Verif.Model.TR

/-!
# `/repo/magpi/tr.py` with rounding

The part of `TR.update` which decides: the ratio, the acceptance and the radius, operation by operation in a format
(`Verif.Num.Fl`).  What is computed before the decision (values and gradients of the objective, the step of the sub-problem, the
predicted decrease and norms) may be any function: the results of arbitrary rounding errors are among them.  The numbers of the
configuration are converted to the format where they meet an array, which rounds them.
-/

namespace Verif

open XR

/-- `jnp.isclose(a, b)` for finite numbers. -/
noncomputable def iscloseFl (F : Fmt) (a b : XR) : Prop :=
  abs (F.sub a b) ≤ F.add (F.const 1e-8) (F.mul (F.const 1e-5) (abs b))

open Classical in
/-- tr.py:330-351 `update_tr_radius` in the format `F`. -/
noncomputable def updateTrRadiusFl (F : Fmt) (tr_radius : XR) (max_tr_radius min_tr_radius : ℝ) (rho stepsize : XR)
    (rho_increase rho_decrease increase_factor decrease_factor : ℝ) : XR :=
  let limit_step := iscloseFl F stepsize tr_radius
  let tr_radius :=
    if rho < F.const rho_decrease then F.mul tr_radius (F.const decrease_factor)
    else if F.const rho_increase < rho ∧ limit_step then
      minimum (F.mul tr_radius (F.const increase_factor)) (F.const max_tr_radius)
    else tr_radius
  maximum tr_radius (F.const min_tr_radius)

/-- What `update` computes before it decides: the objective (`_value_and_grad_with_aux`), the result of `steihaug`
(tr.py:117-154), the predicted decrease `denom` (tr.py:163) and the norm. -/
structure Computed (n : ℕ) (A : Type*) where
  value : Vec n → XR
  aux : Vec n → A
  grad : Vec n → Vec n
  subproblem : Vec n → TrState n A → CgSteihaugResult n
  denom : Vec n → Vec n → XR
  norm : Vec n → XR

section
variable {n : ℕ} {A : Type*}

/-- tr.py:78-109 `init_state` on parameters, in the format `F`. -/
noncomputable def TR.startFl (F : Fmt) (c : TRConf) (f : Computed n A) (params : Vec n) : OptStep n A :=
  ⟨params,
    { iter_num := 0, accepted := False, value := f.value params, grad := f.grad params, error := f.norm (f.grad params),
      rho := 0, tr_radius := F.const c.init_tr_radius, aux := f.aux params,
      subproblem_result :=
        { iter_num := 0, converged := False, limit_step := False, step_length := 0, curvature := 0, p := fun _ => 0,
          eps := pinf, norm_r := pinf } }⟩

open Classical in
/-- tr.py:111-221 `update` in the format `F`. -/
noncomputable def TR.updateFl (F : Fmt) (c : TRConf) (f : Computed n A) (params : Vec n) (state : TrState n A) : OptStep n A :=
  let old_value := f.value params
  let old_grad := f.grad params
  let steihaug_result := f.subproblem params state
  let p := steihaug_result.p
  if state.tr_radius ≤ F.const c.min_tr_radius then ⟨params, state⟩
  else
    let new_params : Vec n := fun i => F.add (params i) (p i)
    let value := f.value new_params
    let new_grad := f.grad new_params
    let nom := F.sub old_value value
    let denom := f.denom params p
    let rho := F.div nom denom
    let tr_radius := updateTrRadiusFl F state.tr_radius c.max_tr_radius c.min_tr_radius rho steihaug_result.step_length
      c.rho_increase c.rho_decrease c.increase_factor c.decrease_factor
    if F.const c.rho_accept ≤ rho then
      ⟨new_params,
        { iter_num := state.iter_num + 1, accepted := True, value := value, grad := new_grad, error := f.norm new_grad,
          rho := rho, tr_radius := tr_radius, aux := f.aux new_params, subproblem_result := steihaug_result }⟩
    else
      ⟨params,
        { iter_num := state.iter_num + 1, accepted := False, value := old_value, grad := old_grad,
          error := f.norm old_grad, rho := rho, tr_radius := tr_radius, aux := f.aux params,
          subproblem_result := steihaug_result }⟩

/-- Any number of calls of `update`. -/
noncomputable def TR.updatesFl (F : Fmt) (c : TRConf) (f : Computed n A) (s : OptStep n A) : ℕ → OptStep n A
  | 0 => s
  | k + 1 => TR.updateFl F c f (TR.updatesFl F c f s k).params (TR.updatesFl F c f s k).state

end

end Verif
