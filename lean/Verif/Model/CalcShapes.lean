import Verif.Model.Calc

/-! # Shapes accepted by `divergence` (`/repo/magpi/calc.py`) -/

namespace Verif

/-- The shape of `jnp.diag(v)`: a vector becomes a diagonal matrix, of a matrix the diagonal is taken, everything else is a
`ValueError`. -/
def diagShape : List ℕ → Except Err (List ℕ)
  | [n] => .ok [n, n]
  | [m, n] => .ok [min m n]
  | _ => .error .valueError

/-- calc.py:394-405 the shape of the divergence of a function with values of shape `f` and an argument of shape `x`; the
Jacobian has shape `f + x`. `vmap(diag, 0)` maps the first axis. -/
def divergenceShape (f x : List ℕ) : Except Err (List ℕ) := do
  let Jf := f ++ x
  if 2 < Jf.length then
    let d ← diagShape Jf.tail
    return (Jf.headD 0 :: d).dropLast
  else
    let _ ← diagShape Jf
    return []

end Verif
