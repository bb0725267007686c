import Verif.Model.Mumag3
import Verif.Model.CalcExtra

/-! # Model of the notebooks of `/repo/examples`

Line numbers are those of the `.ipynb` files. Plots and printed output are not modelled. Sequences of sample points
(`Halton`, `Sobol`) and the weights made from them are arbitrary parameters. -/

namespace Verif

open XR

/-! ## `pacman.ipynb` -/

namespace Pacman

/-- pacman.ipynb:40-41 the functions `lambda x: jnp.dot(x, unit_vec(n))`; `unit_vec` is that of line 38. -/
noncomputable def halfSpace (n : Vec 3) : ADF 3 := fun x => vdot x (unitVector n)

/-- pacman.ipynb:39-42 `mouth`; `S` is `r0`. -/
noncomputable def mouth (S : RFun) : ADF 3 :=
  S.intersection (halfSpace ![1, 0, fin (-1.8)]) (halfSpace ![1, 0, fin 1.8])

/-- pacman.ipynb:43 `left_eye`. -/
noncomputable def leftEye : ADF 3 := translate (sphere (fin 0.25)) ![fin 0.4, fin (-0.5), fin 0.6]

/-- pacman.ipynb:44 `right_eye`. -/
noncomputable def rightEye : ADF 3 := translate (sphere (fin 0.25)) ![fin 0.4, fin 0.5, fin 0.6]

/-- pacman.ipynb:45-49 `pacman`. -/
noncomputable def pacman (S : RFun) : ADF 3 :=
  let pacman := S.difference (sphere 1) (mouth S)
  let pacman := S.union pacman leftEye
  let pacman := S.union pacman rightEye
  let pacman := S.union pacman (translate (sphere (fin 0.15)) ![1, 0, 0])
  let pacman := S.union pacman (translate (sphere (fin 0.15)) ![2, 0, 0])
  pacman

end Pacman

/-! ## `elm_poisson.ipynb` -/

/-- The inputs of elm_poisson.ipynb:28, 55-57 and the singular value decomposition computed in line 62. -/
structure ElmPoisson (N k r : ℕ) where
  x_dom : Fin N → Pt 2
  W_elm : Fin k → Pt 2
  l2_reg : ℝ
  gamma : ℝ
  U : Matrix (Fin N) (Fin r) ℝ
  S : Fin r → ℝ
  VT : Matrix (Fin r) (Fin k) ℝ

namespace ElmPoisson

variable {N k r : ℕ} (s : ElmPoisson N k r)

/-- elm_poisson.ipynb:29 `adf = cube(1)` as a real function; the R-functions are those of `r0` by default (r_fun.py:239-243). -/
noncomputable def adf (x : Pt 2) : ℝ := XR.toReal (cube 1 false (RAlpha.sys 0) (efin x))

/-- elm_poisson.ipynb:31-32 `solution`. -/
noncomputable def solution (x : Pt 2) : ℝ := Real.sin (2 * Real.pi * x 0) * Real.sin (2 * Real.pi * x 1)

/-- elm_poisson.ipynb:60 `u_elm`. -/
noncomputable def u_elm (x : Pt 2) : Fin k → ℝ := fun a => adf x * Real.exp (-s.gamma * ‖x - s.W_elm a‖ ^ 2)

/-- elm_poisson.ipynb:61 `Q`. -/
noncomputable def Q : Matrix (Fin N) (Fin k) ℝ := fun n => laplace s.u_elm (s.x_dom n)

/-- elm_poisson.ipynb:63 `Q_inv`. -/
noncomputable def Q_inv : Matrix (Fin k) (Fin N) ℝ :=
  (Matrix.of fun a b => s.VT.transpose a b * (s.S b / (s.S b ^ 2 + s.l2_reg))) * s.U.transpose

/-- elm_poisson.ipynb:65-66 `beta`. -/
noncomputable def beta : Fin k → ℝ :=
  let b : Fin N → ℝ := fun n => laplace solution (s.x_dom n)
  s.Q_inv.mulVec b

/-- elm_poisson.ipynb:67 `elm_model`. -/
noncomputable def elm_model (x : Pt 2) : ℝ := ∑ a, s.u_elm x a * s.beta a

end ElmPoisson

/-! ## Magnetisation in `hysteresis.ipynb` and `mumag3.ipynb` -/

namespace Micromag

/-- mumag3.ipynb:44-55 `m_vortex`. -/
noncomputable def m_vortex (v : Vec 3) : Vec 3 :=
  let x := v 0
  let z := v 2
  let rc := fin 0.14
  let r := sqrt (z ^ 2 + x ^ 2)
  let k := r ^ 2 / rc ^ 2
  let my := exp (-2 * k)
  let mx := -z / r * sqrt (1 - exp (-4 * k))
  let mz := x / r * sqrt (1 - exp (-4 * k))
  let mag := ![mx, my, mz]
  unitVector mag

/-- mumag3.ipynb:57-62 `m_flower`. -/
noncomputable def m_flower (v : Vec 3) : Vec 3 :=
  let mx := v 0 * v 2
  let my := v 1 * v 2
  let mz := 1
  let mag := ![mx, my, mz]
  unitVector mag

/-- hysteresis.ipynb:41 `m0`. -/
noncomputable def m0 (_x : Pt 3) : Pt 3 := EuclideanSpace.single 0 1

variable {P : Type}

/-- hysteresis.ipynb:96-100 and mumag3.ipynb:136-140 `mag`. `apply params` is the network (`lam` is part of it), an arbitrary function
of three numbers with three numbers as values. -/
noncomputable def mag (domain : Cuboid) (apply : P → Pt 3 → Pt 3) (mag0 : Pt 3 → Pt 3) (x : Pt 3) (params : P) : Pt 3 :=
  let x : Pt 3 := WithLp.toLp 2 fun i => XR.toReal (domain.normalize (efin x) i)
  let p := apply params x
  let m := mag0 x
  cayleyRotation p m

/-! ## Energies -/

/-- `mean` of an array with `n` entries. -/
noncomputable def mean {n : ℕ} (a : Fin n → ℝ) : ℝ := (∑ i, a i) / n

variable {n : ℕ}

/-- hysteresis.ipynb:102-106 and mumag3.ipynb:142-147 `exchange_energy`; in mumag3.ipynb `A` is `1 / lam ** 2`. -/
noncomputable def exchange_energy (A : ℝ) (m : Pt 3 → Pt 3) (x : Fin n → Pt 3) : ℝ :=
  let e_ex : Pt 3 → ℝ := fun x =>
    let dm := jacMatrix m x
    ∑ i, ∑ j, dm i j * dm i j
  A * mean fun i => e_ex (x i)

/-- hysteresis.ipynb:108-112 and mumag3.ipynb:149-154 `ani_energy`; in mumag3.ipynb `Ka` is `0.1`. -/
noncomputable def ani_energy (Ka : ℝ) (easy_axis : Pt 3) (m : Pt 3 → Pt 3) (x : Fin n → Pt 3) : ℝ :=
  let e_ani : Pt 3 → ℝ := fun x => 1 - inner ℝ (m x) easy_axis ^ 2
  Ka * mean fun i => e_ani (x i)

/-- hysteresis.ipynb:114-119 and mumag3.ipynb:156-161 `mag_energy`; the factor `c` is `1 / 2` in hysteresis.ipynb and `1` in
mumag3.ipynb. -/
noncomputable def mag_energy {T : Type} (c : ℝ) (hs : Pt 3 → T → Except Err (Pt 3)) (m : Pt 3 → Pt 3) (x : Fin n → Pt 3)
    (xt : Fin n → T) : Except Err ℝ := do
  let e_mag : Pt 3 → T → Except Err ℝ := fun x xt => do
    let h ← hs x xt
    return inner ℝ (m x) h
  let e ← (List.finRange n).mapM fun i => e_mag (x i) (xt i)
  return -c * (e.sum / n)

/-- hysteresis.ipynb:121-125 `ext_energy`. -/
noncomputable def ext_energy (m : Pt 3 → Pt 3) (x : Fin n → Pt 3) (hext : Pt 3) : ℝ :=
  let e_ext : Pt 3 → ℝ := fun x => inner ℝ (m x) hext;
  -mean fun i => e_ext (x i)

/-- The energies returned with the loss (hysteresis.ipynb:138-144). -/
structure Energies where
  e_tot : ℝ
  e_mag : ℝ
  e_ex : ℝ
  e_ani : ℝ
  e_ext : ℝ

variable {N k r : ℕ}

/-- hysteresis.ipynb:129-144 `loss`. `m params` is the function `lambda x: mag(m0, x, params)`. The parameters below `stop_gradient`
(line 133), which are constant for the derivatives, are the argument `stopped`; the code uses `params` for them. -/
noncomputable def hysteresisLoss (A Ka : ℝ) (easy_axis hext_axis : Pt 3) (s : StrayField N k r) (m : P → Pt 3 → Pt 3) (x_dom : Fin n → Pt 3)
    (x_tensor_dom : Fin n → List (List (List (Fin 6 → Pt 3)))) (stopped params : P) (hext : ℝ) : Except Err (ℝ × Energies) := do
  let e_ex := exchange_energy A (m params) x_dom
  let e_ani := ani_energy Ka easy_axis (m params) x_dom
  let _m := m stopped
  let hs := s.hsTensors _m
  let e_mag ← mag_energy (1 / 2) hs (m params) x_dom x_tensor_dom
  let e_ext := ext_energy (m params) x_dom (hext • hext_axis)
  let l := e_ex + e_ani + e_ext + 2 * e_mag
  return (l, ⟨e_ex + e_ani + e_mag + e_ext, e_mag, e_ex, e_ani, e_ext⟩)

/-- mumag3.ipynb:167-180 `_loss` for one value `lam`; there is no external field. -/
noncomputable def mumag3Loss (lam : ℝ) (s : StrayField N k r) (m : P → Pt 3 → Pt 3) (x : Fin n → Pt 3)
    (xt : Fin n → List (List (List (Fin 6 → Pt 3)))) (stopped params : P) : Except Err (ℝ × Energies) := do
  let _m := m stopped
  let hs := s.hsTensors _m
  let e_ex := exchange_energy (1 / lam ^ 2) (m params) x
  let e_ani := ani_energy 0.1 (EuclideanSpace.single 2 1) (m params) x
  let e_mag ← mag_energy 1 hs (m params) x xt
  let l := e_ex + e_ani + 2 * e_mag
  return (l, ⟨e_ex + e_ani + e_mag, e_mag, e_ex, e_ani, 0⟩)

/-- hysteresis.ipynb:181-185 `mean_mag`. -/
noncomputable def mean_mag (hext_axis : Pt 3) (m : Pt 3 → Pt 3) (x_val : Fin n → Pt 3) : ℝ :=
  mean fun i => inner ℝ (m (x_val i)) hext_axis

end Micromag

end Verif
