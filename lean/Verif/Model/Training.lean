import Verif.Model.TRRun
import Verif.Model.Notebooks

/-! # Model of the trust region method with a callback and of the training loop of `/repo/examples/hysteresis.ipynb`

Line numbers of notebooks are those of the `.ipynb` files. A callback may change a state `σ` of the program and may raise. -/

namespace Verif

open XR

section
variable {n : ℕ} {A σ : Type}

open Classical in
/-- tr.py:111-221 `update` with a `callback` (tr.py:212-213): it is called with the new step, but not by `no_update` (tr.py:217-219). -/
noncomputable def TR.updateCb (c : TRConf) (f : Objective n A) (callback : OptStep n A → σ → Except Err σ) (params : Vec n)
    (state : TrState n A) (w : σ) : Except Err (OptStep n A × σ) :=
  let _step := TR.update c f params state
  if state.tr_radius ≤ fin c.min_tr_radius then .ok (_step, w)
  else do
    let w ← callback _step w
    return (_step, w)

open Classical in
/-- `TR.loop` with a `callback`. -/
noncomputable def TR.loopCb (c : TRConf) (f : Objective n A) (callback : OptStep n A → σ → Except Err σ) :
    ℕ → OptStep n A → σ → Except Err (OptStep n A × σ)
  | 0, s, w => .ok (s, w)
  | k + 1, s, w =>
    if fin c.tol < s.state.error then do
      let (s, w) ← TR.updateCb c f callback s.params s.state w
      TR.loopCb c f callback k s w
    else .ok (s, w)

/-- tr.py:44 `TR.run` with a `callback`. -/
noncomputable def TR.runCb (c : TRConf) (f : Objective n A) (callback : OptStep n A → σ → Except Err σ)
    (init_params : Vec n ⊕ OptStep n A) (w : σ) : Except Err (OptStep n A × σ) :=
  let start := TR.start c f init_params
  match c.maxiter with
  | 0 => .ok (start, w)
  | m + 1 => do
    let (s, w) ← TR.updateCb c f callback start.params start.state w
    TR.loopCb c f callback m s w

end

namespace Micromag

/-- hysteresis.ipynb:190 `step.state.steihaug_curvature`: a `TrState` (tr.py:27-36) has no such field. -/
def steihaugCurvature {n : ℕ} {A : Type} (_step : OptStep n A) : Except Err XR := .error .attributeError

open Classical in
/-- `min` of a list in Python: the first entry than which no later one is smaller when they are compared one after the other. -/
noncomputable def pyMin : List XR → Except Err XR
  | [] => .error .valueError
  | a :: l => .ok (l.foldl (fun m x => if x < m then x else m) a)

/-- `jnp.cumsum`. -/
def cumsum (l : List ℕ) : List ℕ := (List.range l.length).map fun i => (l.take (i + 1)).sum

/-- The slice `l[a:b]` for indices which are not negative. -/
def pySlice {α : Type*} (l : List α) (a b : ℕ) : List α := (l.take b).drop a

/-- hysteresis.ipynb:222-227 the result of `train`. -/
structure TrainResult (n : ℕ) (A : Type) where
  params : Vec n
  mean_mags : List XR
  curvatures : List XR
  states : List (TrState n A)

/-- hysteresis.ipynb:194-205 the configuration; the other values are those of `TR` (tr.py:52-66). -/
noncomputable def trainConf (maxiter : ℕ) (tol init_tr_radius max_tr_radius : ℝ) : TRConf :=
  { TRConf.default with maxiter := maxiter, tol := tol, init_tr_radius := init_tr_radius, max_tr_radius := max_tr_radius,
                        rho_accept := 1 / 5 }

variable {n : ℕ} {A : Type}

/-- hysteresis.ipynb:211-215 the loop over the fields; the state is `(params, states, mean_mags, curvatures)`. `loss h` is the loss
for the field `h`, `mean_mag` is that of lines 180-185 and `steihaug_curvature` is what `cb` (lines 189-190) reads. -/
noncomputable def trainLoop (c : TRConf) (loss : ℝ → Objective n A) (mean_mag : Vec n → XR)
    (steihaug_curvature : OptStep n A → Except Err XR) :
    List ℝ → Vec n × List (TrState n A) × List XR × List XR → Except Err (Vec n × List (TrState n A) × List XR × List XR)
  | [], w => .ok w
  | _hext :: hext, (params, states, mean_mags, curvatures) => do
    let cb : OptStep n A → List XR → Except Err (List XR) := fun step curvatures => do
      let k ← steihaug_curvature step
      return curvatures ++ [k]
    let (opt_step, curvatures) ← TR.runCb c (loss _hext) cb (.inl params) curvatures
    trainLoop c loss mean_mag steihaug_curvature hext
      (opt_step.params, states ++ [opt_step.state], mean_mags ++ [mean_mag opt_step.params], curvatures)

/-- hysteresis.ipynb:179-227 `train`. -/
noncomputable def train (loss : ℝ → Objective n A) (mean_mag : Vec n → XR) (steihaug_curvature : OptStep n A → Except Err XR)
    (hext : List ℝ) (params : Vec n) (maxiter : ℕ) (tol init_tr_radius max_tr_radius : ℝ) : Except Err (TrainResult n A) := do
  let opt ← (trainConf maxiter tol init_tr_radius max_tr_radius).postInit
  let (params, states, mean_mags, curvatures) ← trainLoop opt loss mean_mag steihaug_curvature hext (params, [], [], [])
  let iters := states.map fun s => s.iter_num
  let iters_cum := [0] ++ cumsum iters
  let c := (List.range iters.length).map fun i => pySlice curvatures (iters_cum.getD i 0) (iters_cum.getD i 0 + iters.getD i 0)
  let mins ← c.mapM fun c => pyMin c
  return { params := params, mean_mags := mean_mags, curvatures := mins, states := states }

/-- hysteresis.ipynb:39 `hext`: `jnp.arange(-3.5, 1., dh)[::-1]` for `dh` of line 38. -/
noncomputable def hext : List ℝ := ((List.range 900).map fun i : ℕ => -3.5 + (i : ℝ) * 5e-3).reverse

end Micromag

end Verif
