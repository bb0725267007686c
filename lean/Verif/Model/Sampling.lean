import Verif.Model.Opt

/-! # Model of `/repo/magpi/sampling.py` -/

namespace Verif

open XR

section
variable {S : Type*}

open Classical in
/-- `lax.while_loop(cond, body, init)`; `none` if it does not terminate. -/
noncomputable def laxWhile (cond : S → Prop) (body : S → S) (init : S) : Option S :=
  if h : ∃ k, ¬ cond (body^[k] init) then some (body^[Nat.find h] init) else none

open Classical in
/-- `vmap` of a `lax.while_loop`: the loop runs as long as one of the lanes wants to go on, the others keep their
state. -/
noncomputable def vmapWhile {n : ℕ} (cond : S → Prop) (body : S → S) (init : Fin n → S) : Option (Fin n → S) :=
  laxWhile (fun s => ∃ i, cond (s i)) (fun s i => if cond (s i) then body (s i) else s i) init

/-- sampling.py:33-36 and 40-42: the key for the next round, the number `p` and the proposal drawn with a key. -/
def rejection.draw (sample_fn : Key → S) (uniform : Key → XR) (key : Key) : Key × XR × S :=
  (key.child 0, uniform (key.child 2), sample_fn (key.child 1))

/-- sampling.py:38-43 `body`. -/
def rejection.body (sample_fn : Key → S) (uniform : Key → XR) (state : Key × XR × S) : Key × XR × S :=
  rejection.draw sample_fn uniform state.1

/-- sampling.py:45-47 `not_valid`. -/
def rejection.notValid (pdf : S → XR) (m : XR) (state : Key × XR × S) : Prop :=
  pdf state.2.2 / m < state.2.1

/-- sampling.py:14-53 `rejection_sampling`; `none` if it does not terminate. `uniform` stands for `random.uniform`. -/
noncomputable def rejectionSampling (uniform : Key → XR) (key : Key) (pdf : S → XR) (sample_fn : Key → S) (n : ℕ)
    (m : XR) : Option (Fin n → S) :=
  let init : Fin n → Key × XR × S := fun i => rejection.draw sample_fn uniform (key.child i)
  (vmapWhile (rejection.notValid pdf m) (rejection.body sample_fn uniform) init).map fun s i => (s i).2.2

end

end Verif
