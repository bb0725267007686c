import Verif.Model.HysteresisRun
import Verif.Props.TrainAD
import Verif.Props.Training
import Verif.Props.Energies

/-! # The hysteresis loop of `hysteresis.ipynb` from beginning to end: C180 -/

namespace Verif

open Micromag XR

variable {q n N k r nodes depth : ℕ}

/-- **C180, objective.** The trust region method meets the contract of exact derivatives also for programs with `stop_gradient`; the gradient is that
for constant stopped parameters. -/
theorem C180_objective {L : Vec q → LossG q} {l : Vec q → Pt q → ℝ} (h : ∀ P p, LossSound (L P) (l P) p) (c : TRConf) (hc : c.approx_hvp = false) :
    ∃ B : Pt q → Pt q →ₗ[ℝ] Pt q, SecondOrder c (LossG.stopObjective L) (fun p => gradient (l (efin p)) p) B ∧
      (∀ p, (LossG.stopObjective L).value (efin p) = fin (l (efin p) p)) ∧
      (∀ p v w, inner ℝ w (B p v) = fderiv ℝ (fderiv ℝ (l (efin p))) p v w) ∧
      ∀ p, HasGradientAt (l (efin p)) (gradient (l (efin p)) p) p := by
  choose B hB1 hB2 hB3 hB4 using fun P : Vec q => C171_trust_region (h P) c hc
  refine ⟨fun p => B (efin p) p, ⟨fun p => (hB2 (efin p)).grad p, fun p v => ?_, fun p => (hB2 (efin p)).symm p⟩, fun p => hB3 (efin p) p,
    fun p => hB1 (efin p) p, fun p => hB4 (efin p) p⟩
  have := (hB2 (efin p)).hvp p v
  rw [TR.hvp, hc] at this ⊢
  exact this

/-- The program `x ^ 2 * stop_gradient(x)`: its value is `x ^ 3`, its derivative for the trust region method `2 * x ^ 2`. -/
example (c : TRConf) (hc : c.approx_hvp = false) : ∃ B : Pt 1 → Pt 1 →ₗ[ℝ] Pt 1,
    SecondOrder c (LossG.stopObjective fun P _ _ _ a => ADNum.ipow (a 0) 2 *ₐ ADNum.const (fin (P 0).toReal))
      (fun p => gradient (fun y : Pt 1 => y 0 ^ (2 : ℤ) * p 0) p) B := by
  obtain ⟨B, h, -⟩ := C180_objective (L := fun P _ _ _ a => ADNum.ipow (a 0) 2 *ₐ ADNum.const (fin (P 0).toReal))
    (l := fun P (y : Pt 1) => y 0 ^ (2 : ℤ) * (P 0).toReal) (fun P p α _ _ E _ _ w R S _ c Q _ hc => S.mul (S.ipow 2 (hc 0) (Or.inl (by norm_num))) (S.const _)) c hc
  exact ⟨B, h⟩

section

variable (s : StrayField N k r) {xs ys zs : List ℝ} (hD : Cuboid.init xs ys zs = .ok s.domain)
  (hlt : ∀ i, gridLo ![xs, ys, zs] i < gridHi ![xs, ys, zs] i) (ix : PinnIndex q (3 + 0) nodes depth) (x : Fin n → Pt 3)
  (xt : Fin n → List (List (List (Fin 6 → Pt 3))))

/-- The magnetisation of the notebook as a real function. -/
noncomputable abbrev hystMag (s : StrayField N k r) (ix : PinnIndex q (3 + 0) nodes depth) (p : Pt q) (y : Pt 3) : Pt 3 := mag s.domain (pinn ix ![]) m0 y p

/-- The loss for given values of the stray field. -/
noncomputable def hystFrozen (s : StrayField N k r) (ix : PinnIndex q (3 + 0) nodes depth) (x : Fin n → Pt 3) (A Ka : ℝ) (easy hax : Pt 3) (F : Fin n → Pt 3)
    (hext : ℝ) (p : Pt q) : ℝ :=
  exchange_energy A (hystMag s ix p) x + ani_energy Ka easy (hystMag s ix p) x + ext_energy (hystMag s ix p) x (hext • hax) +
    2 * (-(1 / 2) * ((∑ i, inner ℝ (hystMag s ix p (x i)) (F i)) / n))

include hD hlt

/-- **C180, field.** With the tensors of the samples inside the box there is a field for all parameters. -/
theorem C180_field (m : ℕ) (hm : s.subintervals = .int m)
    (hx : ∀ i, (x i).ofLp ∈ interior (Set.Icc (gridLo ![xs, ys, zs]) (gridHi ![xs, ys, zs])))
    (hxt : ∀ i, surfaceTensorsGrad (x i) s.domain s.subintervals s.method = .ok (xt i)) :
    ∃ field : Vec q → Fin n → Pt 3, ∀ (p : Pt q) i, s.hsTensors (hystMag s ix p) (x i) (xt i) = .ok (field (efin p) i) := by
  have h : ∀ (p : Pt q) i, ∃ v, s.hsTensors (hystMag s ix p) (x i) (xt i) = .ok v := fun p i => by
    obtain ⟨φ, -, -, dt, e1, e2⟩ := C99_inside _ _ _ s hD m hm (hystMag s ix p) (x i) hlt (hx i)
    obtain rfl : xt i = dt := Except.ok.inj ((hxt i).symm.trans e1)
    exact ⟨_, e2⟩
  choose F hF using h
  refine ⟨fun P => F (WithLp.toLp 2 fun j => (P j).toReal), fun p i => ?_⟩
  exact hF p i

theorem hystFrozen_sound (hn : n ≠ 0) (A Ka : ℝ) (easy hax : Pt 3) (F : Fin n → Pt 3) (h : ℝ) (p : Pt q) :
    LossSound (fun _ _ _ => hysteresisLossG A Ka easy hax F (magG s.domain (pinnG ix ![]) m0G) x h) (hystFrozen s ix x A Ka easy hax F h) p :=
  C171_hysteresis_program (fun _ => C171_mag hD hlt (C171_pinn ix ![] p _) (C171_m0 _)) hn A Ka easy hax F h

/-- **C180.** For every field of the hysteresis loop the trust region method starts at the parameters found for the field before and ends at finite
parameters, at which the loss (the energy plus the magnetostatic energy) is not larger. The reported value is this loss, and the reported error is
the norm of its gradient for constant stray field. -/
theorem C180_loop (hn : n ≠ 0) (A Ka : ℝ) (easy hax : Pt 3) (field : Vec q → Fin n → Pt 3)
    (hfield : ∀ (p : Pt q) i, s.hsTensors (hystMag s ix p) (x i) (xt i) = .ok (field (efin p) i)) :
    ∃ (V : ℝ → Pt q → ℝ) (g : ℝ → Pt q → Pt q), (∀ h p, (hysteresisLoss A Ka easy hax s (hystMag s ix) x xt p p h).map (·.1) = .ok (V h p)) ∧
      (∀ h p₀ (L : Pt q → ℝ), (∀ p, (hysteresisLoss A Ka easy hax s (hystMag s ix) x xt p₀ p h).map (·.1) = .ok (L p)) → HasGradientAt L (g h p₀) p₀) ∧
      ∀ (mm : Vec q → XR) (κ : OptStep q Unit → XR) (hext : List ℝ) (p₀ : Pt q) (maxiter : ℕ) (tol init max : ℝ), 0 < tol → 0 < maxiter → 1e-4 < init →
        ∃ (res : TrainResult q Unit) (P : ℕ → Pt q),
          train (hysteresisObjective A Ka easy hax field (magG s.domain (pinnG ix ![]) m0G) x) mm (fun s => .ok (κ s)) hext (efin p₀) maxiter tol init max =
            .ok res ∧ P 0 = p₀ ∧ res.params = efin (P hext.length) ∧
          ∀ i h, hext[i]? = some h → V h (P (i + 1)) ≤ V h (P i) ∧ ∃ state, res.states[i]? = some state ∧
            state.value = fin (V h (P (i + 1))) ∧ state.error = fin ‖g h (P (i + 1))‖ := by
  set l : Vec q → ℝ → Pt q → ℝ := fun P h => hystFrozen s ix x A Ka easy hax (field P) h with hl
  have hloss : ∀ h p₀ p, (hysteresisLoss A Ka easy hax s (hystMag s ix) x xt p₀ p h).map (·.1) = .ok (l (efin p₀) h p) := fun h p₀ p => by
    obtain ⟨L, E, h1, a1, a2, a3, a4, a5, a6⟩ := C165_hysteresis_loss (p0 := p₀) (p := p) s (hystMag s ix) x xt A Ka easy hax h _ (hfield p₀)
    rw [h1]
    show Except.ok L = Except.ok (hystFrozen s ix x A Ka easy hax (field (efin p₀)) h p)
    rw [a6, a5, a1, a2, a3, a4, hystFrozen]
    congr 1
    ring
  refine ⟨fun h p => l (efin p) h p, fun h p => gradient (l (efin p) h) p, fun h p => hloss h p p, fun h p₀ L hL => ?_, ?_⟩
  · have e : L = l (efin p₀) h := funext fun p => Except.ok.inj ((hL p).symm.trans (hloss h p₀ p))
    rw [e]
    exact ((C171_grad (hystFrozen_sound s hD hlt ix x hn A Ka easy hax (field (efin p₀)) h p₀)).1.differentiableAt (by simp)).hasGradientAt
  intro mm κ hext p₀ maxiter tol init max htol hmax hr
  choose B hB hv _ _ using fun h => C180_objective (fun P p => hystFrozen_sound s hD hlt ix x hn A Ka easy hax (field P) h p)
    (trainConf maxiter tol init max) rfl
  set obj := hysteresisObjective A Ka easy hax field (magG s.domain (pinnG ix ![]) m0G) x with hobj
  replace hB : ∀ h, SecondOrder (trainConf maxiter tol init max) (obj h) (fun p => gradient (l (efin p) h) p) (B h) := hB
  replace hv : ∀ h p, (obj h).value (efin p) = fin (l (efin p) h p) := hv
  clear_value obj
  obtain ⟨res, P, e1, e2, e3, e4⟩ := C176_descent obj (fun h p => gradient (l (efin p) h) p) B mm κ hext p₀ maxiter tol init max htol hmax hr
    hB (fun h p => by rw [hv]; simp)
  refine ⟨res, P, e1, e2, e3, fun i h hi => ?_⟩
  obtain ⟨state, a1, a2, a3, a4⟩ := e4 i h hi
  rw [hv] at a2 a3
  rw [a2] at a3
  refine ⟨by simpa using a3, state, a1, a2, ?_⟩
  have h5 := (C121_loop (trainConf maxiter tol init max) (obj h) (.inl (efin (P i)))).2.2
  rw [a4] at h5
  refine h5.trans ?_
  show vnorm ((obj h).grad (efin (P (i + 1)))) = _
  rw [(hB h).grad, vnorm_efin]

end

/-- The network of `smallIndex`, one sample at the centre of the cube `[-1, 1]³`, the fields and the configuration of the notebook. -/
example (p₀ : Pt 12) : ∃ (s : StrayField 1 1 1) (xt : List (List (List (Fin 6 → Pt 3)))) (field : Vec 12 → Fin 1 → Pt 3) (V : ℝ → Pt 12 → ℝ)
    (res : TrainResult 12 Unit) (P : ℕ → Pt 12),
    (∀ h p, (hysteresisLoss 1 2 (EuclideanSpace.single 2 1) (EuclideanSpace.single 0 1) s (hystMag s smallIndex) (fun _ : Fin 1 => 0) (fun _ => xt) p p
      h).map (·.1) = .ok (V h p)) ∧
    train (hysteresisObjective 1 2 (EuclideanSpace.single 2 1) (EuclideanSpace.single 0 1) field (magG s.domain (pinnG smallIndex ![]) m0G) fun _ => 0)
      (fun _ => 0) (fun s => .ok s.state.subproblem_result.curvature) hext (efin p₀) 100 1e-4 0.1 1 = .ok res ∧
    res.params = efin (P hext.length) ∧ ∀ i h, hext[i]? = some h → V h (P (i + 1)) ≤ V h (P i) := by
  have g : IsGrid [-1, 1] := ⟨by simp, by simp⟩
  obtain ⟨D, hD⟩ : ∃ D, Cuboid.init [-1, 1] [-1, 1] [-1, 1] = .ok D := ⟨_, init_ok g g g⟩
  let s : StrayField 1 1 1 := ⟨fun _ => 0, D, fun _ _ => 1, fun _ => 0, midpoint, .int 1, 1, fun _ => 1, 1⟩
  have hlt : ∀ i, gridLo ![[-1, 1], [-1, 1], [-1, 1]] i < gridHi ![[-1, 1], [-1, 1], [-1, 1]] i := fun i => by
    fin_cases i <;> simp [gridLo, gridHi]
  have hx : (0 : Pt 3).ofLp ∈ interior (Set.Icc (gridLo ![[-1, 1], [-1, 1], [-1, 1]]) (gridHi ![[-1, 1], [-1, 1], [-1, 1]])) := by
    rw [← Set.pi_univ_Icc, interior_pi_set Set.finite_univ]
    intro i _
    simp only [interior_Icc]
    fin_cases i <;> simp [gridLo, gridHi]
  obtain ⟨φ, -, -, dt, hdt, -⟩ := C99_inside _ _ _ s hD 1 rfl 0 0 hlt hx
  obtain ⟨field, hf⟩ := C180_field s hD hlt smallIndex (fun _ : Fin 1 => 0) (fun _ => dt) 1 rfl (fun _ => hx) (fun _ => hdt)
  obtain ⟨V, g, h1, -, h3⟩ := C180_loop s hD hlt smallIndex (fun _ : Fin 1 => 0) (fun _ => dt) one_ne_zero 1 2 (EuclideanSpace.single 2 1)
    (EuclideanSpace.single 0 1) field hf
  obtain ⟨res, P, e1, -, e3, e4⟩ := h3 (fun _ => 0) (fun s => s.state.subproblem_result.curvature) hext p₀ 100 1e-4 0.1 1 (by norm_num) (by norm_num)
    (by norm_num)
  exact ⟨s, dt, field, V, res, P, h1, e1, e3, fun i h hi => (e4 i h hi).1⟩

end Verif
