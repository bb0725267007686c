import Verif.Props.Transforms
import Verif.Props.Shapes
import Verif.Props.Quaternions
import Verif.Props.Ode
import Verif.Props.TR
import Verif.Props.Sampling
import Mathlib.Analysis.Calculus.Deriv.Shift

/-! # Exact conditions for properties which hold in part only: C14, C17, C18, C24, C53, C60, C67, C71 -/

namespace Verif

open XR Polynomial MeasureTheory
open scoped Quaternion Matrix

/-! ## C14 -/

/-- **C14, exact**. The ellipsoid ADF has the sign of `1 - Σ (xᵢ/aᵢ)²` exactly at the points other than the centre. -/
theorem C14_exact {n : ℕ} (a : Fin (n + 1) → ℝ) (ha : ∀ i, a i ≠ 0) (x : Pt (n + 1)) :
    (∃ c : ℝ, ellipsoid (vfin a) (efin x) = fin c ∧
      SignType.sign c = SignType.sign (1 - ∑ i, (x i / a i) ^ 2)) ↔ x ≠ 0 := by
  refine ⟨?_, fun hx => (C14_ellipsoid_partial a ha x hx).1⟩
  rintro ⟨c, hc, -⟩ rfl
  have h0 : (fun _ => 0 : Vec (n + 1)) = efin (0 : Pt (n + 1)) := by funext i; simp
  have := C14_centre_counterexample a ha
  rw [h0, hc] at this
  exact absurd this (by simp)

example : ∃ c : ℝ, ellipsoid (vfin ![2, 3]) (efin !₂[1, 1]) = fin c ∧
    SignType.sign c = SignType.sign (1 - ∑ i : Fin 2, ((!₂[1, 1] : Pt 2) i / ![2, 3] i) ^ 2) :=
  (C14_exact ![2, 3] (fun i => by fin_cases i <;> simp) !₂[1, 1]).mpr fun h => by
    have := congrFun (congrArg WithLp.ofLp h) 0
    simp at this

/-! ## C17 -/

/-- **C17, exact**. `rotate2d` turns the body by the angle exactly if the angle is a floating point number or the
integer zero. -/
theorem C17_exact (angle : NumArg) (t : ℝ) (ht : angle.val = fin t) :
    (∀ (f : ADF 2) (o x : Fin 2 → ℝ), rotate2d f angle (vfin o) (vfin (o + turn2 t (x - o))) = f (vfin x)) ↔
      (∃ s, angle = .float s) ∨ angle = .int 0 := by
  constructor
  · intro h
    cases angle with
    | float s => exact .inl ⟨s, rfl⟩
    | int k =>
      right
      by_contra hk
      have hk' : k ≠ 0 := fun h0 => hk (by rw [h0])
      obtain ⟨f, o, x, hne⟩ := (C17_integer_angle_counterexample k hk').2
      have : t = k := by simpa [NumArg.val] using ht.symm
      subst this
      exact hne (h f o x)
  · rintro (⟨s, rfl⟩ | rfl) f o x
    · have : s = fin t := ht
      subst this
      exact (C17_rotate2d_partial f o x).1 t
    · have h0 : t = 0 := by simpa [NumArg.val] using ht.symm
      subst h0
      have : o + turn2 0 (x - o) = x := by
        funext i; fin_cases i <;> simp [turn2]
      rw [this]
      exact (C17_rotate2d_partial f o x).2

example : ¬ ∀ (f : ADF 2) (o x : Fin 2 → ℝ), rotate2d f (.int 3) (vfin o) (vfin (o + turn2 3 (x - o))) = f (vfin x) := by
  rw [C17_exact (.int 3) 3 (by simp [NumArg.val])]
  rintro (⟨s, hs⟩ | h)
  · cases hs
  · injection h with h
    norm_num at h

/-! ## C18 -/

/-- **C18, exact**. About a unit axis `rotate3d` turns the body by the angle (right hand rule, like `rotate2d`) exactly
if the angle is a multiple of a half turn. -/
theorem C18_exact (u : Fin 3 → ℝ) (hu : u ⬝ᵥ u = 1) (t : ℝ) :
    (∀ (f : ADF 3) (o x : Fin 3 → ℝ), ∃ F, rotate3d f (.scalar (fin t)) (some (vfin u)) (vfin o) = .ok F ∧
      F (vfin (o + rodrigues u t (x - o))) = f (vfin x)) ↔ Real.sin t = 0 := by
  have back : ∀ x, rodrigues u (-t) (rodrigues u t x) = x := fun x => by
    simpa using rodrigues_neg hu (-t) x
  constructor
  · intro h
    -- turning by `t` and by `-t` is the same
    have key : ∀ y : Fin 3 → ℝ, rodrigues u t y = rodrigues u (-t) y := by
      intro y
      have h2 : rodrigues u t (rodrigues u t y) = y := by
        funext i
        obtain ⟨F, h1, h2⟩ := h (fun z => z i) 0 y
        obtain ⟨F', h1', h2'⟩ := rotate3d_axis (fun z => z i) t hu 0
        rw [h1] at h1'
        injection h1' with h1'
        subst h1'
        rw [h2'] at h2
        simpa using h2
      have := congrArg (rodrigues u (-t)) h2
      rwa [back] at this
    by_contra hs
    have cross : ∀ y : Fin 3 → ℝ, u ⨯₃ y = 0 := by
      intro y
      have h1 := key y
      simp only [rodrigues, Real.cos_neg, Real.sin_neg] at h1
      have h3 : (2 * Real.sin t) • (u ⨯₃ y) = 0 := by
        have h4 := sub_eq_zero.mpr h1
        rw [← h4]
        module
      rcases smul_eq_zero.mp h3 with h5 | h5
      · exact absurd (by linarith) hs
      · exact h5
    have e0 := congrFun (cross ![1, 0, 0])
    have e1 := congrFun (cross ![0, 1, 0])
    have a1 := e0 1
    have a2 := e0 2
    have a0 := e1 2
    simp [cross_apply] at a0 a1 a2
    simp [dotProduct, Fin.sum_univ_three, a0, a1, a2] at hu
  · intro hs f o x
    have e : rodrigues u (-t) (x - o) = rodrigues u t (x - o) := by
      simp only [rodrigues, Real.cos_neg, Real.sin_neg, hs, neg_zero]
    obtain ⟨F, h1, h2⟩ := (C18_rotate3d_partial f o x).1 t u hu
    exact ⟨F, h1, by rw [← e]; exact h2⟩

example : ∀ (f : ADF 3) (o x : Fin 3 → ℝ), ∃ F,
    rotate3d f (.scalar (fin Real.pi)) (some (vfin ![0, 3/5, 4/5])) (vfin o) = .ok F ∧
      F (vfin (o + rodrigues ![0, 3/5, 4/5] Real.pi (x - o))) = f (vfin x) :=
  (C18_exact ![0, 3/5, 4/5] (by simp [dotProduct, Fin.sum_univ_three]; norm_num) Real.pi).mpr Real.sin_pi

/-! ## C24 -/

/-- **C24, exact**. `s - q = -(q - s)` holds exactly if all four components of `q` are `s`; and `q + s` is the sum of
quaternions exactly for `s = 0`. -/
theorem C24_exact (s : ℝ) (q : ℍ[ℝ]) :
    (Quat.rsubScalar (fin s) (Quat.ofH q) = ((Quat.ofH q).subScalar (fin s)).neg ↔
      q.re = s ∧ q.imI = s ∧ q.imJ = s ∧ q.imK = s) ∧
    ((Quat.ofH q).addScalar (fin s) = Quat.ofH (q + (s : ℍ[ℝ])) ↔ s = 0) ∧
    ((Quat.ofH q).subScalar (fin s) = Quat.ofH (q - (s : ℍ[ℝ])) ↔ s = 0) := by
  refine ⟨⟨fun h => ?_, fun ⟨h0, h1, h2, h3⟩ => ?_⟩, ⟨fun h => ?_, ?_⟩, ⟨fun h => ?_, ?_⟩⟩
  · have a : fin q.re - fin s = -(fin q.re - fin s) := congrArg Quat.re h
    have b : ∀ i, (Quat.ofH q).im i - fin s = -((Quat.ofH q).im i - fin s) := fun i => congrFun (congrArg Quat.im h) i
    have b0 := b 0
    have b1 := b 1
    have b2 := b 2
    simp only [Quat.ofH, vfin, fin_sub, fin_neg, fin_inj] at a b0 b1 b2
    simp at b0 b1 b2
    refine ⟨?_, ?_, ?_, ?_⟩ <;> linarith
  · ext i
    · show fin q.re - fin s = -(fin q.re - fin s)
      rw [fin_sub, fin_neg, fin_inj, h0]; ring
    · fin_cases i <;> simp [Quat.rsubScalar, Quat.subScalar, Quat.neg, Quat.ofH, h1, h2, h3]
  · by_contra hs
    exact C24_rsub_counterexample.2.2.2 s q hs h
  · rintro rfl
    ext i
    · simp [Quat.addScalar, Quat.ofH]
    · fin_cases i <;> simp [Quat.addScalar, Quat.ofH]
  · have h1 := congrFun (congrArg Quat.im h) 0
    simpa [Quat.subScalar, Quat.ofH] using h1
  · rintro rfl
    ext i
    · simp [Quat.subScalar, Quat.ofH]
    · fin_cases i <;> simp [Quat.subScalar, Quat.ofH]

/-! ## C53 -/

/-- **C53, exact**. Among the cubic polynomials `p`, `odeint` with `rk4` solves `y' = p(t)` exactly on all time grids for the
constant ones only. -/
theorem C53_exact (p : ℝ[X]) (hp : p.natDegree ≤ 3) :
    (∀ (y : ℝ) (ts : List ℝ) (i : ℕ) (h : i < (odeint (fun _ t => p.eval t) y ts rk4).length) (h' : i < ts.length),
      (odeint (fun _ t => p.eval t) y ts rk4)[i] = y + ∫ s in ts[0]..ts[i], p.eval s) ↔
      ∃ c, ∀ t, p.eval t = c := by
  constructor
  · intro h
    have hint : ∀ a b, IntervalIntegrable (fun s => p.eval s) volume a b := fun a b => p.continuous.intervalIntegrable a b
    have step : ∀ t δ : ℝ, ∫ s in t + δ..t + 2 * δ, p.eval s = ∫ s in t..t + δ, p.eval s := by
      intro t δ
      have h1 := h 0 [t, t + δ] 1 (by simp [odeint, scan]) (by simp)
      have h2 := C53_step_partial p hp 0 [t, t + δ] 0 (by simp [odeint, scan]) (by simp)
      have h3 := h 0 [t, t + δ] 0 (by simp [odeint, scan]) (by simp)
      simp only [zero_add] at h2
      rw [h1, h3] at h2
      simp only [List.getElem_cons_zero, List.getElem_cons_succ, intervalIntegral.integral_same, add_zero, zero_add] at h2
      rw [h2]
      congr 1
      ring
    -- the derivative with respect to the length of the time step
    have flat : ∀ t δ : ℝ, p.eval (t + 2 * δ) = p.eval (t + δ) := by
      intro t δ
      set G : ℝ → ℝ := fun x => ∫ s in t..x, p.eval s with hG
      have hd : ∀ x, HasDerivAt G (p.eval x) x := fun x =>
        intervalIntegral.integral_hasDerivAt_right (hint _ _) (p.continuous.stronglyMeasurableAtFilter _ _)
          p.continuous.continuousAt
      have hz : ∀ δ, G (t + 2 * δ) - 2 * G (t + δ) = 0 := by
        intro δ
        have h1 := intervalIntegral.integral_add_adjacent_intervals (hint t (t + δ)) (hint (t + δ) (t + 2 * δ))
        have h2 := step t δ
        simp only [hG]
        linarith
      have hl : HasDerivAt (fun δ : ℝ => t + 2 * δ) 2 δ := by
        simpa using ((hasDerivAt_id δ).const_mul 2).const_add t
      have hl' : HasDerivAt (fun δ : ℝ => t + δ) 1 δ := by simpa using (hasDerivAt_id δ).const_add t
      have hc := (((hd (t + 2 * δ)).comp δ hl).sub (((hd (t + δ)).comp δ hl').const_mul 2))
      have h0 : HasDerivAt (fun _ : ℝ => (0 : ℝ)) (p.eval (t + 2 * δ) * 2 - 2 * (p.eval (t + δ) * 1)) δ := by
        refine hc.congr_of_eventuallyEq (Filter.Eventually.of_forall fun x => ?_)
        simpa using (hz x).symm
      have := h0.unique (hasDerivAt_const δ (0 : ℝ))
      linarith
    refine ⟨p.eval 0, fun t => ?_⟩
    have := flat (-t) t
    rw [show -t + 2 * t = t by ring, show -t + t = 0 by ring] at this
    exact this
  · rintro ⟨c, hc⟩ y ts i h h'
    have e : (fun (_ : ℝ) t => p.eval t) = fun _ _ => c := by funext _ t; exact hc t
    have h2 : i < (odeint (fun _ _ => c) y ts rk4).length := by rw [← e]; exact h
    have h3 := C52_constant c y ts rk4 (.inl rfl) i h2 h' (by omega)
    simp only [hc, intervalIntegral.integral_const]
    simpa [e] using h3

/-- Already `y' = t` is not solved exactly. -/
example : ¬ ∀ (y : ℝ) (ts : List ℝ) (i : ℕ) (h : i < (odeint (fun _ t => (X : ℝ[X]).eval t) y ts rk4).length)
    (h' : i < ts.length), (odeint (fun _ t => (X : ℝ[X]).eval t) y ts rk4)[i] = y + ∫ s in ts[0]..ts[i], (X : ℝ[X]).eval s := by
  rw [C53_exact X (by simp)]
  rintro ⟨c, hc⟩
  have h0 := hc 0
  have h1 := hc 1
  simp at h0 h1
  linarith

/-! ## C60 -/

variable {n : ℕ} {A : Type}

/-- **C60, exact**. After a rejection the radius is multiplied by `decrease_factor` (clipped at `min_tr_radius`) exactly
if the ratio is a number; otherwise it stays. -/
theorem C60_exact (c : TRConf) (hok : c.postInit = .ok c) (hdec : c.decrease_factor < 1) (f : Objective n A)
    (params : Vec n) (s : TrState n A) (Δ : ℝ) (h0 : 0 < Δ) (hΔ : s.tr_radius = fin Δ) (hfr : c.min_tr_radius < Δ)
    (hrej : ¬ (TR.update c f params s).state.accepted) :
    ((TR.update c f params s).state.tr_radius = fin (max (Δ * c.decrease_factor) c.min_tr_radius) ↔
      (TR.update c f params s).state.rho ≠ nan) ∧
    ((TR.update c f params s).state.tr_radius = fin Δ ↔ (TR.update c f params s).state.rho = nan) := by
  have hlt : max (Δ * c.decrease_factor) c.min_tr_radius < Δ := max_lt (by nlinarith) hfr
  have stay : (TR.update c f params s).state.rho = nan → (TR.update c f params s).state.tr_radius = fin Δ := by
    intro hnan
    have hfr' : ¬ s.tr_radius ≤ fin c.min_tr_radius := by rw [hΔ, fin_le]; exact not_le.mpr hfr
    by_cases ha : fin c.rho_accept ≤ TR.ratio c f params s
    · rw [update_accept _ _ _ _ hfr' ha] at hrej
      exact absurd trivial hrej
    · rw [update_reject _ _ _ _ hfr' ha] at hnan ⊢
      obtain ⟨Δ', hΔ', -, -, hn⟩ := newRadius_fin c f params s hΔ
      show TR.newRadius c f params s = _
      rw [hΔ', hn hnan, max_eq_left hfr.le]
  have dec := C60_radius_partial c hok f params s Δ hΔ hfr hrej
  constructor
  · refine ⟨fun h hnan => ?_, dec⟩
    rw [stay hnan, fin_inj] at h
    linarith
  · refine ⟨fun h => ?_, stay⟩
    by_contra hnan
    rw [dec hnan, fin_inj] at h
    linarith

/-- A step with a `nan` ratio: its radius stays. -/
example : ∃ (f : Objective 1 Unit) (s : OptStep 1 Unit), (TR.update .default f s.params s.state).state.rho = nan ∧
    (TR.update .default f s.params s.state).state.tr_radius = s.state.tr_radius := by
  obtain ⟨f, s, h1, h2, h3, -⟩ := C60_counterexample
  refine ⟨f, s, ?_, by rw [h1, h3]⟩
  exact ((C60_exact .default (by norm_num [TRConf.postInit, TRConf.default]) (by norm_num [TRConf.default]) f s.params s.state 1
    one_pos h1 (by norm_num [TRConf.default]) h2).2).mp h3

/-! ## C67 -/

/-- **C67, exact**. If the value at the trial point is not finite from above, the step is rejected, and the radius is
reduced exactly if the value is `+inf`; for `nan` it is kept. -/
theorem C67_exact (c : TRConf) (hc : c.Valid) (f : Objective n A) (G : Pt n → Pt n)
    (B : Pt n → Pt n →ₗ[ℝ] Pt n) (hf : SecondOrder c f G B) (hdec : c.decrease_factor < 1)
    (init : Vec n ⊕ OptStep n A) (x₀ : Pt n) (Δ₀ : ℝ)
    (hx₀ : (TR.start c f init).params = efin x₀) (hΔ₀ : (TR.start c f init).state.tr_radius = fin Δ₀) (k : ℕ) (Δ V : ℝ)
    (hΔ : (TR.updates c f (TR.start c f init) k).state.tr_radius = fin Δ) (hfr : c.min_tr_radius < Δ)
    (htol : fin c.tol ≤ (TR.updates c f (TR.start c f init) k).state.error)
    (hV : (TR.updates c f (TR.start c f init) k).state.value = fin V) (v : XR) (hv : v = pinf ∨ v = nan)
    (htrial : (f.value fun i => (TR.updates c f (TR.start c f init) k).params i +
      (TR.updates c f (TR.start c f init) (k + 1)).state.subproblem_result.p i) = v) :
    (TR.updates c f (TR.start c f init) (k + 1)).params = (TR.updates c f (TR.start c f init) k).params ∧
    ((∃ Δ' < Δ, (TR.updates c f (TR.start c f init) (k + 1)).state.tr_radius = fin Δ') ↔ v = pinf) := by
  rcases hv with rfl | rfl
  · obtain ⟨-, h1, h2⟩ := C67_inf_partial c hc f G B hf hdec init x₀ Δ₀ hx₀ hΔ₀ k Δ V hΔ hfr htol hV htrial
    exact ⟨h1, fun _ => rfl, fun _ => h2⟩
  · obtain ⟨h1, h2, -⟩ := C67_nan_stuck c hc f G B hf init x₀ Δ₀ hx₀ hΔ₀ k Δ hΔ hfr htrial 1
    refine ⟨h1, ?_, fun h => by cases h⟩
    rintro ⟨Δ', hlt, h3⟩
    rw [h2, fin_inj] at h3
    linarith

/-- For the objective which is `nan` at the trial point the radius is not reduced. -/
example : ¬ ∃ Δ' < (1 : ℝ), (TR.updates .default nanObjective (TR.start .default nanObjective (.inl (efin 0))) 1).state.tr_radius =
    fin Δ' := by
  have h := (C67_exact .default default_valid _ _ _ nanObjective_contract (by norm_num [TRConf.default]) (.inl (efin 0)) 0 1 rfl
    rfl 0 1 0 rfl (by norm_num [TRConf.default]) (by
      show fin (1e-2) ≤ vnorm (efin !₂[1])
      rw [vnorm_efin', fin_le, EuclideanSpace.norm_eq]
      refine Real.le_sqrt_of_sq_le ?_
      norm_num) (by
      show nanObjective.value (efin 0) = fin 0
      simp [nanObjective]) nan (.inr rfl) nanObjective_trial).2
  rw [h]
  intro h
  cases h

/-! ## C71 -/

/-- **C71, almost surely**. With an ideal random number generator the samples have positive density with probability
one. -/
theorem C71_almost_surely {Ω : Type*} [MeasurableSpace Ω] {P : Measure Ω} [IsProbabilityMeasure P]
    {S : Type*} [MeasurableSpace S] {μ : Measure S} [IsProbabilityMeasure μ]
    {sample_fn : Ω → Key → S} {uniform : Ω → Key → ℝ} {key : Key} {pdf : S → ℝ} {m : ℝ}
    (n : ℕ) (hid : IdealStreams sample_fn uniform key P μ n) (hpdf : Measurable pdf) (hm : 0 < m)
    (h1 : ∀ x, pdf x ≤ m) (hpos : 0 < ∫⁻ x, ENNReal.ofReal (pdf x) ∂μ) :
    ∀ᵐ ω ∂P, ∃ out, rejectionSampling (fun k => fin (uniform ω k)) key (fun x => fin (pdf x)) (sample_fn ω) n (fin m) =
      some out ∧ ∀ i, 0 < pdf (out i) := by
  have hA : MeasurableSet {x | pdf x ≤ 0} := measurableSet_le hpdf measurable_const
  have hzero : ∫⁻ x in {x | pdf x ≤ 0}, ENNReal.ofReal (pdf x) ∂μ = 0 := by
    rw [setLIntegral_congr_fun hA (g := fun _ => 0) fun x hx => ENNReal.ofReal_of_nonpos hx]
    simp
  rcases Nat.eq_zero_or_pos n with rfl | hn
  · refine Filter.Eventually.of_forall fun ω => ?_
    refine ⟨fun i => i.elim0, ?_, fun i => i.elim0⟩
    rw [C70_first_accepted]
    exact fun i => i.elim0
  have hex := (C72_distribution n hid hpdf hm h1 hpos ⟨0, hn⟩ _ hA).1
  have hbad : ∀ i : Fin n, ∀ᵐ ω ∂P, ¬ ∃ out, rejectionSampling (fun k => fin (uniform ω k)) key (fun x => fin (pdf x))
      (sample_fn ω) n (fin m) = some out ∧ out i ∈ {x | pdf x ≤ 0} := by
    intro i
    have h2 := (C72_distribution n hid hpdf hm h1 hpos i _ hA).2
    rw [hzero, ENNReal.zero_div] at h2
    rw [ae_iff]
    simpa only [not_not] using h2
  filter_upwards [hex, ae_all_iff.mpr hbad] with ω ⟨out, hout⟩ hall
  refine ⟨out, hout, fun i => ?_⟩
  by_contra hi
  exact hall i ⟨out, hout, not_lt.mp hi⟩

/-- **C71, exact**. For finite densities and non-negative uniform numbers, a returned sample has density zero exactly if the uniform number
drawn with it is zero and the density of the first accepted proposal is zero. -/
theorem C71_exact {S : Type*} (uniform : Key → ℝ) (hu : ∀ k, 0 ≤ uniform k) (key : Key) (pdf : S → ℝ)
    (sample_fn : Key → S) (n : ℕ) (m : ℝ) (hm : 0 < m) (out : Fin n → S)
    (h : rejectionSampling (fun k => fin (uniform k)) key (fun x => fin (pdf x)) sample_fn n (fin m) = some out)
    (i : Fin n) :
    pdf (out i) = 0 ↔ ∃ j, uniform ((streamKey key i j).child 2) = 0 ∧ pdf (sample_fn ((streamKey key i j).child 1)) = 0 ∧
      ∀ j' < j, pdf (sample_fn ((streamKey key i j').child 1)) / m < uniform ((streamKey key i j').child 2) := by
  obtain ⟨j, h1, h2, h3⟩ := (C70_first_accepted _ key _ sample_fn n _ out).mp h i
  have acc : ∀ j, Accepted (fun k => fin (uniform k)) (fun x => fin (pdf x)) sample_fn (fin m) (streamKey key i j) ↔
      uniform ((streamKey key i j).child 2) ≤ pdf (sample_fn ((streamKey key i j).child 1)) / m := by
    intro j
    simp only [Accepted, fin_div _ hm.ne']
    simp
  rw [acc] at h2
  simp only [acc, not_le] at h3
  constructor
  · intro h0
    rw [h1] at h0
    refine ⟨j, le_antisymm ?_ (hu _), h0, h3⟩
    rwa [h0, zero_div] at h2
  · rintro ⟨j', e1, e2, e3⟩
    have : j = j' := by
      rcases lt_trichotomy j j' with hlt | heq | hlt
      · exact absurd (e3 j hlt) (not_lt.mpr h2)
      · exact heq
      · have := h3 j' hlt
        rw [e1, e2, zero_div] at this
        exact absurd this (lt_irrefl _)
    subst this
    rw [h1, e2]

/-- The samples of the density `x ↦ max 0 (min x 1)` with proposals uniform in `[0, 1]` are positive almost surely. -/
example : ∃ (P : Measure (Key → ℝ × ℝ)) (sample_fn : (Key → ℝ × ℝ) → Key → ℝ) (uniform : (Key → ℝ × ℝ) → Key → ℝ),
    ∀ᵐ ω ∂P, ∃ out, rejectionSampling (fun k => fin (uniform ω k)) [] (fun x => fin (max 0 (min x 1))) (sample_fn ω) 5
      (fin 1) = some out ∧ ∀ i, 0 < max 0 (min (out i) 1) := by
  have hvol : IsProbabilityMeasure ((volume : Measure ℝ).restrict (Set.Icc 0 1)) := ⟨by simp⟩
  obtain ⟨P, sample_fn, uniform, hP, hid⟩ := idealStreams_exist ((volume : Measure ℝ).restrict (Set.Icc 0 1)) [] 5
  refine ⟨P, sample_fn, uniform, ?_⟩
  have hmeas : Measurable fun x : ℝ => max 0 (min x 1) := by fun_prop
  refine C71_almost_surely 5 hid hmeas one_pos (fun x => max_le zero_le_one (min_le_right _ _)) ?_
  rw [lintegral_pos_iff_support (hmeas.ennreal_ofReal), Measure.restrict_apply]
  · refine lt_of_lt_of_le ?_ (measure_mono (s := Set.Ioc 0 1) ?_)
    · simp
    · intro x hx
      refine ⟨?_, hx.1.le, hx.2⟩
      simp only [Function.mem_support, ne_eq, ENNReal.ofReal_eq_zero, not_le]
      exact lt_max_of_lt_right (lt_min hx.1 one_pos)
  · exact measurableSet_support (hmeas.ennreal_ofReal)

/-- If all uniform numbers are zero the first proposal is returned, whatever its density is. -/
example (pdf : ℕ → ℝ) (out : Fin 3 → ℕ)
    (h : rejectionSampling (fun _ => fin 0) [] (fun x => fin (pdf x)) (fun _ => 7) 3 (fin 2) = some out) (i : Fin 3)
    (h0 : pdf 7 = 0) : pdf (out i) = 0 :=
  (C71_exact (fun _ => 0) (fun _ => le_rfl) [] pdf (fun _ => 7) 3 2 two_pos out h i).mpr ⟨0, rfl, h0, fun _ h => by omega⟩

/-! ## C69 -/

/-- **C69, defaults**. The constructor accepts the default configuration, also with any other threshold for acceptance up to that for smaller radii. -/
theorem C69_default (a : ℝ) :
    TRConf.default.postInit = .ok .default ∧
    ({ TRConf.default with rho_accept := a }.postInit = .ok { TRConf.default with rho_accept := a } ↔ a ≤ 1 / 4) :=
  ⟨(C69_check _).2.mpr (by norm_num [TRConf.default]), (C69_check _).2⟩

/-- The threshold 1 / 5 is accepted. -/
example : { TRConf.default with rho_accept := 1 / 5 }.postInit = .ok { TRConf.default with rho_accept := 1 / 5 } := (C69_default _).2.mpr (by norm_num)

end Verif
