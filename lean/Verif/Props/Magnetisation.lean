import Verif.Model.Notebooks
import Verif.Props.CalcExtra
import Verif.Props.MumagStray
import Verif.Props.RotationGroup
import Mathlib.Analysis.InnerProductSpace.Calculus

/-! # C164: the magnetisation in `mumag3.ipynb` and `hysteresis.ipynb` -/

namespace Verif

open XR

/-- **C164, flower state.** Defined at every point, a unit vector along `(x z, y z, 1)`. -/
theorem C164_flower (x : Pt 3) : ∃ m : Pt 3, Micromag.m_flower (efin x) = efin m ∧ ‖m‖ = 1 ∧ 0 < m 2 ∧
    m 0 = x 0 * x 2 * m 2 ∧ m 1 = x 1 * x 2 * m 2 := by
  have e : Micromag.m_flower (efin x) = unitVector (efin !₂[x 0 * x 2, x 1 * x 2, 1]) := by
    rw [Micromag.m_flower]
    congr 1
    funext i
    fin_cases i <;> simp [efin, one_eq]
  have h0 : (!₂[x 0 * x 2, x 1 * x 2, 1] : Pt 3) ≠ 0 := fun h => by
    simpa using congrArg (fun v : Pt 3 => v 2) h
  obtain ⟨u, h1, h2, h3, -⟩ := C125_unit _ h0
  have hu : u ≠ 0 := fun h => by simp [h] at h2
  obtain ⟨c, hc, hcu⟩ := h3.exists_pos_right hu h0
  refine ⟨u, e.trans h1, h2, ?_, ?_, ?_⟩ <;> rw [hcu]
  · simpa using hc
  · simp
    ring
  · simp
    ring

theorem vortex_fin {x : Pt 3} (hx : x 0 ^ 2 + x 2 ^ 2 ≠ 0) : ∃ r > 0, r ^ 2 = x 0 ^ 2 + x 2 ^ 2 ∧
    Micromag.m_vortex (efin x) = unitVector (efin !₂[-x 2 / r * √(1 - Real.exp (-4 * (r ^ 2 / 0.14 ^ 2))),
      Real.exp (-2 * (r ^ 2 / 0.14 ^ 2)), x 0 / r * √(1 - Real.exp (-4 * (r ^ 2 / 0.14 ^ 2)))]) := by
  have hp : 0 < x 2 ^ 2 + x 0 ^ 2 := lt_of_le_of_ne (by positivity) (fun h => hx (by linarith))
  have hr := Real.sqrt_pos.mpr hp
  refine ⟨√(x 2 ^ 2 + x 0 ^ 2), hr, by rw [Real.sq_sqrt hp.le]; ring, ?_⟩
  have e : ∀ i, efin x i = fin (x i) := fun _ => rfl
  have h1 : 0 ≤ 1 - Real.exp (-4 * (√(x 2 ^ 2 + x 0 ^ 2) ^ 2 / 0.14 ^ 2)) :=
    sub_nonneg.mpr (Real.exp_le_one_iff.mpr (by rw [neg_mul]; exact neg_nonpos.mpr (by positivity)))
  rw [Micromag.m_vortex]
  simp only [e, fin_npow, fin_add]
  rw [fin_sqrt hp.le, fin_npow, fin_div _ (by norm_num), show (2 : XR) = fin 2 from rfl, show (4 : XR) = fin 4 from rfl, one_eq]
  simp only [fin_neg, fin_mul, fin_exp, fin_sub]
  rw [fin_sqrt h1, fin_div _ hr.ne', fin_div _ hr.ne', fin_mul, fin_mul]
  congr 1
  funext i
  fin_cases i <;> rfl

/-- **C164, vortex state.** Off the axis a unit vector, orthogonal to the radius, which turns about the axis in one direction; the
component along the axis is `exp (-2 k)`. -/
theorem C164_vortex (x : Pt 3) (hx : x 0 ^ 2 + x 2 ^ 2 ≠ 0) : ∃ m : Pt 3, Micromag.m_vortex (efin x) = efin m ∧ ‖m‖ = 1 ∧
    m 0 * x 0 + m 2 * x 2 = 0 ∧ 0 < m 2 * x 0 - m 0 * x 2 ∧ m 1 = Real.exp (-2 * ((x 0 ^ 2 + x 2 ^ 2) / 0.14 ^ 2)) := by
  obtain ⟨r, hr, h1, h2⟩ := vortex_fin hx
  rw [h1] at h2
  set k := (x 0 ^ 2 + x 2 ^ 2) / 0.14 ^ 2 with hk
  have hk0 : 0 < k := by
    rw [hk, ← h1]
    positivity
  have h3 : 0 < 1 - Real.exp (-4 * k) := sub_pos.mpr (Real.exp_lt_one_iff.mpr (by linarith))
  have h4 : √(1 - Real.exp (-4 * k)) ^ 2 = 1 - Real.exp (-4 * k) := Real.sq_sqrt h3.le
  have h5 := Real.sqrt_pos.mpr h3
  have h6 : Real.exp (-2 * k) ^ 2 = Real.exp (-4 * k) := by
    rw [← Real.exp_nat_mul]
    congr 1
    push_cast
    ring
  generalize √(1 - Real.exp (-4 * k)) = q at *
  have hr2 : r ^ 2 ≠ 0 := by positivity
  have hn : ‖(!₂[-x 2 / r * q, Real.exp (-2 * k), x 0 / r * q] : Pt 3)‖ = 1 := by
    rw [EuclideanSpace.norm_eq, Real.sqrt_eq_one]
    simp only [Fin.sum_univ_three, Real.norm_eq_abs, sq_abs]
    show (-x 2 / r * q) ^ 2 + Real.exp (-2 * k) ^ 2 + (x 0 / r * q) ^ 2 = 1
    rw [h6, mul_pow, mul_pow, h4, div_pow, div_pow]
    have : (-x 2) ^ 2 / r ^ 2 + x 0 ^ 2 / r ^ 2 = 1 := by
      rw [← add_div, h1, div_eq_one_iff_eq (by rw [← h1]; exact hr2)]
      ring
    linear_combination (1 - Real.exp (-4 * k)) * this
  have h0 : (!₂[-x 2 / r * q, Real.exp (-2 * k), x 0 / r * q] : Pt 3) ≠ 0 := fun h => by
    rw [h, norm_zero] at hn
    norm_num at hn
  obtain ⟨u, e1, -, -, e2, -⟩ := C125_unit _ h0
  refine ⟨_, by rw [h2, e1, e2 hn], hn, ?_, ?_, rfl⟩
  · show -x 2 / r * q * x 0 + x 0 / r * q * x 2 = 0
    ring
  · show 0 < x 0 / r * q * x 0 - -x 2 / r * q * x 2
    have : x 0 / r * q * x 0 - -x 2 / r * q * x 2 = r * q := by
      field_simp
      linear_combination -h1
    rw [this]
    positivity

/-- **C164, vortex state.** On the axis all components are not a number: the code divides zero by zero. -/
theorem C164_vortex_axis (x : Pt 3) (h0 : x 0 = 0) (h2 : x 2 = 0) (i : Fin 3) : Micromag.m_vortex (efin x) i = nan := by
  have e : ∀ i, efin x i = fin (x i) := fun _ => rfl
  have hn : (fin 0 : XR) / fin 0 = nan := by
    show XR.div _ _ = _
    simp [XR.div, XR.infSign]
  have hm : ∀ a : XR, nan * a = nan := fun a => rfl
  have h3 : Micromag.m_vortex (efin x) = unitVector ![nan, exp (-2 * (fin 0 / fin 0.14 ^ 2)), nan] := by
    rw [Micromag.m_vortex]
    simp only [e, h0, h2, fin_npow, fin_add]
    rw [show (0 : ℝ) ^ 2 + 0 ^ 2 = 0 by norm_num, fin_sqrt le_rfl, Real.sqrt_zero, fin_neg, neg_zero, hn, hm, fin_npow,
      show (0 : ℝ) ^ 2 = 0 by norm_num]
  rw [h3, unitVector, vnorm]
  have h4 : ∀ a : XR, a + nan = nan := fun a => by cases a <;> rfl
  have h5 : ∀ a : XR, nan + a = nan := fun a => rfl
  have h6 : ∀ a : XR, a / nan = nan := fun a => by cases a <;> rfl
  rw [Fin.sum_univ_three]
  show _ / XR.sqrt (nan * nan + _ + _) = _
  rw [hm, h5, h5]
  exact h6 _

/-! ## The parametrized magnetisation -/

theorem cayley_contDiff {V : Type*} [NormedAddCommGroup V] [NormedSpace ℝ V] {p x : V → Pt 3} {v : V} {j : WithTop ℕ∞}
    (hp : ContDiffAt ℝ j p v) (hx : ContDiffAt ℝ j x v) : ContDiffAt ℝ j (fun v => cayleyRotation (p v) (x v)) v := by
  have c : ∀ (f : V → Pt 3), ContDiffAt ℝ j f v → ∀ i, ContDiffAt ℝ j (fun v => f v i) v := fun f hf i =>
    (EuclideanSpace.proj (𝕜 := ℝ) i : Pt 3 →L[ℝ] ℝ).contDiff.contDiffAt.comp v hf
  simp only [C90_rodrigues]
  have hn := hp.norm_sq ℝ
  have hc : ContDiffAt ℝ j (fun v => (WithLp.toLp 2 (crossProduct (p v).ofLp (x v).ofLp) : Pt 3)) v := by
    refine contDiffAt_piLp 2 |>.mpr fun i => ?_
    have := c p hp
    have := c x hx
    fin_cases i <;> simp [cross_apply] <;> fun_prop
  exact ((contDiffAt_const.add hn).inv (by positivity)).smul ((((contDiffAt_const.sub hn).smul hx).add
    ((contDiffAt_const.mul (hp.inner ℝ hx)).smul hp)).add (contDiffAt_const (c := (2 : ℝ)).smul hc))

section
variable {xs ys zs : List ℝ} {D : Cuboid} {P : Type}

/-- **C164, constraint.** Whatever the network returns, the magnetisation is a unit vector where the initial state is one. -/
theorem C164_unit (apply : P → Pt 3 → Pt 3) (mag0 : Pt 3 → Pt 3) (h0 : ∀ x, ‖mag0 x‖ = 1) (x : Pt 3) (params : P) :
    ‖Micromag.mag D apply mag0 x params‖ = 1 := by
  rw [Micromag.mag]
  exact ((C90_rotation _ _ 0).2.1).trans (h0 _)

/-- **C164, reach.** A field of unit vectors is the magnetisation for some function in place of the network exactly if it is nowhere
opposite to the initial state. -/
theorem C164_reach (hD : Cuboid.init xs ys zs = .ok D) (hlt : ∀ i, gridLo ![xs, ys, zs] i < gridHi ![xs, ys, zs] i)
    (mag0 : Pt 3 → Pt 3) (h0 : ∀ x, ‖mag0 x‖ = 1) (m : Pt 3 → Pt 3) (hm : ∀ x, ‖m x‖ = 1) :
    (∃ f : Pt 3 → Pt 3, ∀ x, Micromag.mag D (fun _ : Unit => f) mag0 x () = m x) ↔ ∀ x, m x ≠ -Micromag.mag D (fun _ : Unit => 0) mag0 x () := by
  set lo := gridLo ![xs, ys, zs]
  set hi := gridHi ![xs, ys, zs]
  set φ : Pt 3 → Pt 3 := fun x => WithLp.toLp 2 fun i => XR.toReal (D.normalize (efin x) i) with hφ
  let ψ : Pt 3 → Pt 3 := fun y => WithLp.toLp 2 fun i => (y i + 1) / 2 * (hi i - lo i) + lo i
  have hψ : ∀ x, ψ (φ x) = x := by
    intro x
    ext i
    have := (sub_pos.mpr (hlt i)).ne'
    have e : φ x i = 2 * (x i - lo i) / (hi i - lo i) - 1 := normalize_toReal hD hlt x i
    show (φ x i + 1) / 2 * (hi i - lo i) + lo i = x i
    rw [e]
    field_simp
    ring
  have hz : ∀ x, Micromag.mag D (fun _ : Unit => 0) mag0 x () = mag0 (φ x) := fun x => by
    rw [Micromag.mag, C90_rodrigues]
    simp [φ]
  constructor
  · rintro ⟨f, hf⟩ x
    rw [hz]
    exact (C134_magnetisation _ _ (h0 _) (hm _)).mp ⟨f (φ x), hf x⟩
  · intro h
    have h1 : ∀ x, ∃ p : Pt 3, cayleyRotation p (mag0 (φ x)) = m x := fun x =>
      (C134_magnetisation _ _ (h0 _) (hm _)).mpr (by rw [← hz]; exact h x)
    choose p hp using h1
    refine ⟨fun y => p (ψ y), fun x => ?_⟩
    rw [← hp x]
    show cayleyRotation (p (ψ (φ x))) (mag0 (φ x)) = _
    rw [hψ]

/-- **C164, smoothness.** The magnetisation is as smooth in the point and the parameters together as the network and the initial
state. -/
theorem C164_smooth [NormedAddCommGroup P] [NormedSpace ℝ P] (hD : Cuboid.init xs ys zs = .ok D)
    (hlt : ∀ i, gridLo ![xs, ys, zs] i < gridHi ![xs, ys, zs] i) (apply : P → Pt 3 → Pt 3) (mag0 : Pt 3 → Pt 3) (j : WithTop ℕ∞)
    (ha : ContDiff ℝ j (Function.uncurry apply)) (h0 : ContDiff ℝ j mag0) :
    ContDiff ℝ j (Function.uncurry fun params x => Micromag.mag D apply mag0 x params) := by
  have hφ : ContDiff ℝ j fun x : Pt 3 => (WithLp.toLp 2 fun i => XR.toReal (D.normalize (efin x) i) : Pt 3) := by
    refine contDiff_piLp 2 |>.mpr fun i => ?_
    simp only [normalize_toReal hD hlt]
    fun_prop
  have h1 : ContDiff ℝ j fun z : P × Pt 3 => (WithLp.toLp 2 fun i => XR.toReal (D.normalize (efin z.2) i) : Pt 3) := hφ.comp contDiff_snd
  rw [contDiff_iff_contDiffAt]
  intro z
  exact cayley_contDiff (v := z) (p := fun z : P × Pt 3 => apply z.1 _) (x := fun z : P × Pt 3 => mag0 _)
    (ha.comp (contDiff_fst.prodMk h1)).contDiffAt (h0.comp h1).contDiffAt

end

/-- The cube of `mumag3.ipynb` with two grid points per axis and the initial state of `hysteresis.ipynb`. -/
example : ∃ D, Cuboid.init [-1 / 2, 1 / 2] [-1 / 2, 1 / 2] [-1 / 2, 1 / 2] = .ok D ∧
    (∃ f : Pt 3 → Pt 3, ∀ x, Micromag.mag D (fun _ : Unit => f) Micromag.m0 x () = EuclideanSpace.single 2 1) ∧
    ¬∃ f : Pt 3 → Pt 3, ∀ x, Micromag.mag D (fun _ : Unit => f) Micromag.m0 x () = -EuclideanSpace.single 0 1 := by
  have hD := init_ok (xs := [-1 / 2, 1 / 2]) (ys := [-1 / 2, 1 / 2]) (zs := [-1 / 2, 1 / 2]) (by norm_num [IsGrid]) (by norm_num [IsGrid])
    (by norm_num [IsGrid])
  have hlt : ∀ i, gridLo ![[-1 / 2, 1 / 2], [-1 / 2, 1 / 2], [-1 / 2, 1 / 2]] i < gridHi ![[-1 / 2, 1 / 2], [-1 / 2, 1 / 2], [-1 / 2, 1 / 2]] i := by
    intro i
    fin_cases i <;> norm_num [gridLo, gridHi]
  have h0 : ∀ x, ‖Micromag.m0 x‖ = 1 := fun x => by simp [Micromag.m0]
  have hz : ∀ D x, Micromag.mag D (fun _ : Unit => 0) Micromag.m0 x () = EuclideanSpace.single 0 1 := fun D x => by
    rw [Micromag.mag, C90_rodrigues]
    simp [Micromag.m0]
  refine ⟨_, hD, ?_, ?_⟩
  · refine (C164_reach hD hlt _ h0 (fun _ => EuclideanSpace.single 2 1) (by simp)).mpr fun x h => ?_
    rw [hz] at h
    simpa using congrArg (fun v : Pt 3 => v 2) h
  · intro h
    have := (C164_reach hD hlt _ h0 (fun _ => -EuclideanSpace.single 0 1) (by simp)).mp h 0
    rw [hz] at this
    exact this rfl

example : (∃ m : Pt 3, Micromag.m_vortex (efin !₂[0.14, 5, 0]) = efin m ∧ ‖m‖ = 1 ∧ m 0 = 0 ∧ 0 < m 2 ∧ m 1 = Real.exp (-2)) ∧
    Micromag.m_vortex (efin !₂[0, 5, 0]) 1 = nan := by
  refine ⟨?_, C164_vortex_axis _ (by simp) (by simp) 1⟩
  obtain ⟨m, h1, h2, h3, h4, h5⟩ := C164_vortex !₂[0.14, 5, 0] (by simp; norm_num)
  refine ⟨m, h1, h2, ?_, ?_, ?_⟩
  · simp at h3
    norm_num at h3
    exact h3
  · simp at h4
    nlinarith
  · rw [h5]
    simp
    norm_num

end Verif
