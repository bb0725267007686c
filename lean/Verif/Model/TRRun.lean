import Verif.Model.TR

/-! # The main loop of the trust region solver

`TR` inherits `run` from `jaxopt.base.IterativeSolver` (tr.py:44): `init_state`, one update, further updates while
`state.error > tol`, at most `maxiter` altogether. -/

namespace Verif

open XR

section
variable {n : ℕ} {A : Type*}

open Classical in
/-- `jaxopt.loop.while_loop` with the condition `state.error > self.tol` and the body `self.update`, with a bound on
the number of iterations. -/
noncomputable def TR.loop (c : TRConf) (f : Objective n A) : ℕ → OptStep n A → OptStep n A
  | 0, s => s
  | k + 1, s => if fin c.tol < s.state.error then TR.loop c f k (TR.update c f s.params s.state) else s

/-- tr.py:44 `TR.run`, inherited from `jaxopt.base.IterativeSolver`. -/
noncomputable def TR.run (c : TRConf) (f : Objective n A) (init_params : Vec n ⊕ OptStep n A) : OptStep n A :=
  let start := TR.start c f init_params
  match c.maxiter with
  | 0 => start
  | m + 1 => TR.loop c f m (TR.update c f start.params start.state)

/-- tr.py:223-224 `TR.optimality_fun`. -/
def TR.optimalityFun (f : Objective n A) (params : Vec n) : Vec n := f.grad params

end

end Verif
