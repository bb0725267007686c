import Verif.Model.Notebooks

/-! # Model of the comparison of energies in `/repo/examples/mumag3.ipynb`

Line numbers are those of the `.ipynb` file. -/

namespace Verif

namespace Micromag

variable {n N k r : ℕ}

/-- mumag3.ipynb:427-440 `total_energy`; `m lam` is the function of line 429. -/
noncomputable def total_energy (s : StrayField N k r) (m : ℝ → Pt 3 → Pt 3) (x : Fin n → Pt 3)
    (xt : Fin n → List (List (List (Fin 6 → Pt 3)))) (lam : ℝ) : Except Err Energies := do
  let hs := s.hsTensors (m lam)
  let e_ex := exchange_energy (1 / lam ^ 2) (m lam) x
  let e_ani := ani_energy 0.1 (EuclideanSpace.single 2 1) (m lam) x
  let e_mag ← mag_energy 1 hs (m lam) x xt
  let e_tot := e_ex + e_ani + e_mag
  return ⟨e_tot, e_mag, e_ex, e_ani, 0⟩

/-- mumag3.ipynb:442-443 `e`. -/
noncomputable def energy (s : StrayField N k r) (m : ℝ → Pt 3 → Pt 3) (x : Fin n → Pt 3) (xt : Fin n → List (List (List (Fin 6 → Pt 3))))
    (lam : ℝ) : Except Err ℝ := do
  let E ← total_energy s m x xt lam
  return E.e_tot

/-- mumag3.ipynb:477-480 `energy_difference`. -/
noncomputable def energy_difference (s : StrayField N k r) (m_vortex m_flower : ℝ → Pt 3 → Pt 3) (x : Fin n → Pt 3)
    (xt : Fin n → List (List (List (Fin 6 → Pt 3)))) (lam : ℝ) : Except Err ℝ := do
  let vortex ← energy s m_vortex x xt lam
  let flower ← energy s m_flower x xt lam
  return vortex - flower

/-- The ways in which `scipy.optimize.bisect` fails: the function raises, the signs at the ends are equal (`ValueError`) or there is no
convergence (`RuntimeError`). -/
inductive RootErr where
  | function (e : Err)
  | sign
  | convergence

/-- A call of the function. -/
def callFun (f : ℝ → Except Err ℝ) (x : ℝ) : Except RootErr ℝ :=
  match f x with
  | .ok y => .ok y
  | .error e => .error (.function e)

open Classical in
/-- The loop of `scipy.optimize.bisect`; `fa` is the value at the left end. -/
noncomputable def bisectLoop (f : ℝ → Except Err ℝ) (fa xtol rtol : ℝ) : ℕ → ℝ → ℝ → Except RootErr ℝ
  | 0, _, _ => .error .convergence
  | i + 1, xa, dm => do
    let dm := dm * (1 / 2)
    let xm := xa + dm
    let fm ← callFun f xm
    let xa := if (fm < 0 ↔ fa < 0) then xm else xa
    if fm = 0 ∨ |dm| < xtol + rtol * |xm| then .ok xm else bisectLoop f fa xtol rtol i xa dm

open Classical in
/-- `scipy.optimize.bisect`. -/
noncomputable def bisect (f : ℝ → Except Err ℝ) (xa xb xtol rtol : ℝ) (maxiter : ℕ) : Except RootErr ℝ := do
  let fa ← callFun f xa
  let fb ← callFun f xb
  if fa = 0 then .ok xa
  else if fb = 0 then .ok xb
  else if (fa < 0 ↔ fb < 0) then .error .sign
  else bisectLoop f fa xtol rtol maxiter xa (xb - xa)

/-- mumag3.ipynb:482 `cross_section`; the tolerances are the defaults of `bisect`, `2e-12` and four units of rounding, and there are at most
`100` iterations. -/
noncomputable def cross_section (s : StrayField N k r) (m_vortex m_flower : ℝ → Pt 3 → Pt 3) (x : Fin n → Pt 3)
    (xt : Fin n → List (List (List (Fin 6 → Pt 3)))) : Except RootErr ℝ :=
  bisect (energy_difference s m_vortex m_flower x xt) 8 9 2e-12 (4 * 2 ^ (-52 : ℤ)) 100

end Micromag

end Verif
