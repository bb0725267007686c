import Verif.Model.Domain

/-! # Model of `/repo/magpi/tr.py`

Parameters (trees of arrays) are flattened to vectors `Vec n`, so `tree_vdot`, `tree_l2_norm`, .. of `jaxopt` are the
operations on vectors. All numbers which are computed may be `nan` or infinite; the configuration consists of real
numbers. Extra arguments of the objective are part of it. Not modelled: the user callback, `verbose`, the
implicit differentiation and the compilation options. -/

namespace Verif

open XR

/-- `tree_add_scalar_mul(x, a, y)`. -/
noncomputable def addScalarMul {n : ℕ} (x : Vec n) (a : XR) (y : Vec n) : Vec n := fun i => x i + a * y i

/-- tr.py:16-24 `CgSteihaugResult`. -/
structure CgSteihaugResult (n : ℕ) where
  iter_num : ℕ
  converged : Prop
  limit_step : Prop
  step_length : XR
  curvature : XR
  p : Vec n
  eps : XR
  norm_r : XR

/-- tr.py:303-311 the state of the loop in `steihaug`. -/
structure CgState (n : ℕ) where
  iter_num : ℕ
  z : Vec n
  d : Vec n
  r : Vec n
  norm_z : XR
  norm_r : XR
  curvature : XR

open Classical in
/-- tr.py:259-266 `limit_step`. -/
noncomputable def steihaug.limitStep {n : ℕ} (tr_radius : XR) (z d : Vec n) : Vec n :=
  let a := vdot d d
  let b := vdot z d
  let c := vdot z z - tr_radius ^ 2
  let discriminant := (b / a) ^ 2 - c / a
  let discriminant := if discriminant < 0 then 0 else discriminant
  let tau := -b / a + sqrt discriminant
  let tau := maximum 0 tau
  addScalarMul z tau d

open Classical in
/-- tr.py:268-295 `step`. -/
noncomputable def steihaug.step {n : ℕ} (hvp : Vec n → Vec n) (tr_radius : XR) (state : CgState n) : CgState n :=
  let z := state.z
  let d := state.d
  let r := state.r
  let rTr := vdot r r
  let Hd := hvp d
  let curvature := vdot d Hd
  let alpha := rTr / curvature
  let z_new := addScalarMul z alpha d
  let r_new := addScalarMul r alpha Hd
  let beta := vdot r_new r_new / rTr
  let d_new := addScalarMul (fun i => -r_new i) beta d
  let norm_z_new := vnorm z_new
  let norm_r_new := vnorm r_new
  let z := if curvature ≤ 0 ∨ tr_radius ≤ norm_z_new then steihaug.limitStep tr_radius z d else z_new
  { iter_num := state.iter_num + 1, z := z, d := d_new, r := r_new, norm_z := norm_z_new, norm_r := norm_r_new,
    curvature := curvature }

/-- tr.py:297-300 `condition`: the loop goes on. -/
def steihaug.condition {n : ℕ} (tr_radius eps : XR) (state : CgState n) : Prop :=
  ¬ (state.curvature ≤ 0 ∨ tr_radius ≤ state.norm_z ∨ state.norm_r < eps)

open Classical in
/-- `jaxopt.loop.while_loop(cond, body, init, maxiter)`. -/
noncomputable def whileLoop {S : Type*} (cond : S → Prop) (body : S → S) : ℕ → S → S
  | 0, s => s
  | k + 1, s => if cond s then whileLoop cond body k (body s) else s

/-- tr.py:255-257 and 303-311 `init_state`. -/
noncomputable def steihaug.init {n : ℕ} (grad_f : Vec n) : CgState n :=
  { iter_num := 0, z := fun _ => 0, d := fun i => -grad_f i, r := grad_f, norm_z := 0, norm_r := vnorm grad_f,
    curvature := pinf }

/-- tr.py:312-314 the state after the loop. -/
noncomputable def steihaug.final {n : ℕ} (grad_f : Vec n) (hvp : Vec n → Vec n) (tr_radius eps : XR)
    (maxiter : Option ℕ) : CgState n :=
  let maxiter := match maxiter with
    | none => 10 * n
    | some k => k
  whileLoop (steihaug.condition tr_radius eps) (steihaug.step hvp tr_radius) maxiter (steihaug.init grad_f)

/-- tr.py:243-327 `steihaug`. (`jnp.isclose` is modelled for finite radii.) -/
noncomputable def steihaug {n : ℕ} (grad_f : Vec n) (hvp : Vec n → Vec n) (tr_radius eps : XR) (maxiter : Option ℕ) :
    CgSteihaugResult n :=
  let state := steihaug.final grad_f hvp tr_radius eps maxiter
  let converged := ¬ steihaug.condition tr_radius eps state
  let steplength := vnorm state.z
  { iter_num := state.iter_num, converged := converged, limit_step := isclose 1e-5 1e-8 steplength tr_radius,
    curvature := state.curvature, step_length := steplength, p := state.z, norm_r := state.norm_r, eps := eps }

open Classical in
/-- tr.py:330-351 `update_tr_radius`. -/
noncomputable def updateTrRadius (tr_radius : XR) (max_tr_radius min_tr_radius : ℝ) (rho stepsize : XR)
    (rho_increase rho_decrease increase_factor decrease_factor : ℝ) : XR :=
  let limit_step := isclose 1e-5 1e-8 stepsize tr_radius
  let tr_radius :=
    if rho < fin rho_decrease then tr_radius * fin decrease_factor
    else if fin rho_increase < rho ∧ limit_step then minimum (tr_radius * fin increase_factor) (fin max_tr_radius)
    else tr_radius
  maximum tr_radius (fin min_tr_radius)

/-- tr.py:43-76 the configuration of `TR`. -/
structure TRConf where
  init_tr_radius : ℝ
  max_tr_radius : ℝ
  min_tr_radius : ℝ
  rho_increase : ℝ
  increase_factor : ℝ
  rho_decrease : ℝ
  decrease_factor : ℝ
  rho_accept : ℝ
  forcing_parameter : ℝ
  damping_factor : Option ℝ
  tol : ℝ
  maxiter : ℕ
  maxiter_steihaug : Option ℕ
  approx_hvp : Bool
  fd_h : ℝ

/-- The default configuration (tr.py:52-66). -/
noncomputable def TRConf.default : TRConf :=
  { init_tr_radius := 1, max_tr_radius := 2, min_tr_radius := 1e-4, rho_increase := 3 / 4, increase_factor := 2,
    rho_decrease := 1 / 4, decrease_factor := 1 / 4, rho_accept := 1 / 4, forcing_parameter := 1 / 2,
    damping_factor := none, tol := 1e-2, maxiter := 100, maxiter_steihaug := none, approx_hvp := false, fd_h := 1e-4 }

open Classical in
/-- tr.py:226-235 `__post_init__`: the check of the configuration. -/
noncomputable def TRConf.postInit (c : TRConf) : Except Err TRConf :=
  if c.rho_decrease < c.rho_accept then .error .valueError else .ok c

/-- The objective: `_value_and_grad_with_aux` (utils.py:9-36) and the Hessian-vector product computed by
`calc.value_grad_hvp` (calc.py:271-306). -/
structure Objective (n : ℕ) (A : Type*) where
  value : Vec n → XR
  aux : Vec n → A
  grad : Vec n → Vec n
  hvp : Vec n → Vec n → Vec n

/-- tr.py:27-36 `TrState`. -/
structure TrState (n : ℕ) (A : Type*) where
  iter_num : ℕ
  accepted : Prop
  value : XR
  grad : Vec n
  error : XR
  rho : XR
  tr_radius : XR
  aux : A
  subproblem_result : CgSteihaugResult n

/-- `jaxopt.OptStep`. -/
structure OptStep (n : ℕ) (A : Type*) where
  params : Vec n
  state : TrState n A

section
variable {n : ℕ} {A : Type*}

open Classical in
/-- tr.py:78-109 `init_state`: from parameters or from an `OptStep`. -/
noncomputable def TR.initState (c : TRConf) (f : Objective n A) (init_params : Vec n ⊕ OptStep n A) : TrState n A :=
  let tr_radius := match init_params with
    | .inr s => if s.state.tr_radius ≤ fin c.min_tr_radius then fin c.init_tr_radius else s.state.tr_radius
    | .inl _ => fin c.init_tr_radius
  let iter_num := match init_params with
    | .inr s => s.state.iter_num
    | .inl _ => 0
  let params := match init_params with
    | .inr s => s.params
    | .inl p => p
  let grad_f := f.grad params
  let norm_df := vnorm grad_f
  let subproblem_result : CgSteihaugResult n :=
    { iter_num := 0, converged := False, limit_step := False, step_length := 0, curvature := 0, p := fun _ => 0,
      eps := pinf, norm_r := pinf }
  { iter_num := iter_num, accepted := False, value := f.value params, grad := grad_f, error := norm_df, rho := 0,
    tr_radius := tr_radius, aux := f.aux params, subproblem_result := subproblem_result }

/-- tr.py:117-134 the Hessian-vector product used by `update`, exact or by finite differences. -/
noncomputable def TR.hvp (c : TRConf) (f : Objective n A) (params : Vec n) (p : Vec n) : Vec n :=
  if c.approx_hvp then
    let _params := fun i => params i + fin c.fd_h * p i
    let df := f.grad _params
    fun i => fin (1 / c.fd_h) * (df i - f.grad params i)
  else f.hvp params p

/-- tr.py:135-138 the damped Hessian-vector product used for the sub-problem. -/
noncomputable def TR.dampedHvp (c : TRConf) (f : Objective n A) (params : Vec n) (x : Vec n) : Vec n :=
  match c.damping_factor with
  | none => TR.hvp c f params x
  | some t => addScalarMul (TR.hvp c f params x) (fin t) x

/-- tr.py:141-144 the tolerance for the sub-problem. -/
noncomputable def TR.eps (c : TRConf) (f : Objective n A) (params : Vec n) (state : TrState n A) : XR :=
  let norm_df := vnorm (f.grad params)
  let eps := minimum (fin (1 / 2)) (rpow norm_df c.forcing_parameter) * norm_df
  let eps := minimum state.subproblem_result.eps eps
  maximum (fin c.tol) eps

/-- tr.py:145-154 the sub-problem. -/
noncomputable def TR.subproblem (c : TRConf) (f : Objective n A) (params : Vec n) (state : TrState n A) :
    CgSteihaugResult n :=
  steihaug (f.grad params) (TR.dampedHvp c f params) state.tr_radius (TR.eps c f params state) c.maxiter_steihaug

/-- tr.py:163 the predicted decrease. -/
noncomputable def TR.denom (c : TRConf) (f : Objective n A) (params p : Vec n) : XR :=
  -(vdot (f.grad params) p + fin (1 / 2) * vdot p (TR.hvp c f params p))

open Classical in
/-- tr.py:111-221 `update`. -/
noncomputable def TR.update (c : TRConf) (f : Objective n A) (params : Vec n) (state : TrState n A) : OptStep n A :=
  let old_value := f.value params
  let old_grad := f.grad params
  let steihaug_result := TR.subproblem c f params state
  let p := steihaug_result.p
  if state.tr_radius ≤ fin c.min_tr_radius then ⟨params, state⟩
  else
    let new_params : Vec n := fun i => params i + p i
    let value := f.value new_params
    let new_grad := f.grad new_params
    let nom := old_value - value
    let denom := TR.denom c f params p
    let rho := nom / denom
    let tr_radius := updateTrRadius state.tr_radius c.max_tr_radius c.min_tr_radius rho steihaug_result.step_length
      c.rho_increase c.rho_decrease c.increase_factor c.decrease_factor
    if fin c.rho_accept ≤ rho then
      ⟨new_params,
        { iter_num := state.iter_num + 1, accepted := True, value := value, grad := new_grad, error := vnorm new_grad,
          rho := rho, tr_radius := tr_radius, aux := f.aux new_params, subproblem_result := steihaug_result }⟩
    else
      ⟨params,
        { iter_num := state.iter_num + 1, accepted := False, value := old_value, grad := old_grad,
          error := vnorm old_grad, rho := rho, tr_radius := tr_radius, aux := f.aux params,
          subproblem_result := steihaug_result }⟩

/-- Any number of calls of `update`, each with the result of the one before. -/
noncomputable def TR.updates (c : TRConf) (f : Objective n A) (s : OptStep n A) : ℕ → OptStep n A
  | 0 => s
  | k + 1 => TR.update c f (TR.updates c f s k).params (TR.updates c f s k).state

/-- Calling `init_state` on parameters or on an `OptStep`, together with the parameters. -/
noncomputable def TR.start (c : TRConf) (f : Objective n A) (init_params : Vec n ⊕ OptStep n A) : OptStep n A :=
  ⟨match init_params with
    | .inr s => s.params
    | .inl p => p, TR.initState c f init_params⟩

end

end Verif
