import Verif.Props.LossGradient

/-! # C172: the loss as objective of the trust region method

`TR(loss, ...)` (hysteresis.ipynb:153-161, 194-205) compares values of the loss at different parameters, so the field changes with the
parameters, but gets a gradient for which the field is constant. -/

namespace Verif

open Micromag

variable {P : Type} [NormedAddCommGroup P] [NormedSpace ℝ P] {n : ℕ}

theorem objective_core (c : ℝ) {O : P → ℝ} {m : P → Pt 3 → Pt 3} {p0 : P} {x : Fin n → Pt 3} (hO : DifferentiableAt ℝ O p0)
    (hm : ∀ i, ContDiffAt ℝ 2 (Function.uncurry m) (p0, x i)) {H : Fin n → (Pt 3 → Pt 3) → Pt 3} (hJ : ∀ i, JetLin m p0 (H i)) {L V M : P → ℝ}
    (hL : ∀ p, L p = O p + 2 * (-c * ((∑ i, inner ℝ (m p (x i)) (H i (m p0))) / n)))
    (hV : ∀ p, V p = O p + 2 * (-c * ((∑ i, inner ℝ (m p (x i)) (H i (m p))) / n)))
    (hM : ∀ p, M p = -c * ((∑ i, inner ℝ (m p (x i)) (H i (m p))) / n)) :
    DifferentiableAt ℝ L p0 ∧ DifferentiableAt ℝ V p0 ∧ DifferentiableAt ℝ M p0 ∧
    (∀ v, fderiv ℝ V p0 v - fderiv ℝ L p0 v = -(2 * c) * ((∑ i, inner ℝ (m p0 (x i)) (H i fun y => fderiv ℝ (fun p => m p y) p0 v)) / n)) ∧
    ∀ v, fderiv ℝ V p0 v - fderiv ℝ L p0 v = fderiv ℝ M p0 v + c * ((∑ i, (inner ℝ (fderiv ℝ (fun p => m p (x i)) p0 v) (H i (m p0)) -
      inner ℝ (m p0 (x i)) (H i fun y => fderiv ℝ (fun p => m p y) p0 v))) / n) := by
  have h : ∀ i, HasFDerivAt (fun p => m p (x i)) _ p0 := fun i => (param_differentiable ((hm i).of_le (by norm_num))).hasFDerivAt
  choose J h1 h2 using hJ
  obtain rfl : L = fun p => O p + 2 * (-c * ((∑ i, inner ℝ (m p (x i)) (H i (m p0))) / n)) := funext hL
  obtain rfl : V = fun p => O p + 2 * (-c * ((∑ i, inner ℝ (m p (x i)) (H i (m p))) / n)) := funext hV
  obtain rfl : M = fun p => -c * ((∑ i, inner ℝ (m p (x i)) (H i (m p))) / n) := funext hM
  have hl : HasFDerivAt (fun p => O p + 2 * (-c * ((∑ i, inner ℝ (m p (x i)) (H i (m p0))) / n))) _ p0 :=
    hO.hasFDerivAt.add ((((HasFDerivAt.fun_sum fun i _ => (h i).inner ℝ (hasFDerivAt_const (H i (m p0)) p0)).mul_const (n : ℝ)⁻¹).const_mul (-c)).const_mul 2)
  have hm' : HasFDerivAt (fun p => -c * ((∑ i, inner ℝ (m p (x i)) (H i (m p))) / n)) _ p0 :=
    ((HasFDerivAt.fun_sum fun i _ => (h i).inner ℝ (h1 i)).mul_const (n : ℝ)⁻¹).const_mul (-c)
  have hv : HasFDerivAt (fun p => O p + 2 * (-c * ((∑ i, inner ℝ (m p (x i)) (H i (m p))) / n))) _ p0 :=
    hO.hasFDerivAt.add (hm'.const_mul 2)
  refine ⟨hl.differentiableAt, hv.differentiableAt, hm'.differentiableAt, fun v => ?_, fun v => ?_⟩
  · rw [hl.fderiv, hv.fderiv]
    simp [h2, Finset.sum_add_distrib]
    ring
  · rw [hl.fderiv, hv.fderiv, hm'.fderiv]
    simp [h2, Finset.sum_add_distrib]
    ring

section
variable {N k r : ℕ} (s : StrayField N k r) {xs ys zs : List ℝ} (hD : Cuboid.init xs ys zs = .ok s.domain)
  (hlt : ∀ i, gridLo ![xs, ys, zs] i < gridHi ![xs, ys, zs] i) (l : ℕ) (hl : s.subintervals = .int l)
  (x : Fin n → Pt 3) (hx : ∀ i, (x i).ofLp ∈ interior (Set.Icc (gridLo ![xs, ys, zs]) (gridHi ![xs, ys, zs])))
  (xt : Fin n → List (List (List (Fin 6 → Pt 3)))) (hxt : ∀ i, surfaceTensorsGrad (x i) s.domain s.subintervals s.method = .ok (xt i))
  (m : P → Pt 3 → Pt 3) (p0 : P) (hX : ∀ a, ContDiffAt ℝ 4 (Function.uncurry m) (p0, s.X_dom a))
  (hF : ∀ F ∈ s.domain.faces, ∀ row ∈ F.midpoints, ∀ y ∈ row, ContDiffAt ℝ 3 (Function.uncurry m) (p0, y))
  (hm : ∀ i, ContDiffAt ℝ 2 (Function.uncurry m) (p0, x i))
include hD hlt hl hx hxt hX hF hm

/-- **C172, `hysteresis.ipynb`.** The derivative of the values `V` of the loss, which the trust region method compares, and of the loss
`L` with the constant field, whose gradient it gets, differ by minus the mean of `<m, H[dm]>`; that is the derivative of the magnetostatic
energy and half of the asymmetry of the field. -/
theorem C172_hysteresis (A Ka : ℝ) (easy hax : Pt 3) (hext : ℝ) (L V M : P → ℝ)
    (hL : ∀ p, (hysteresisLoss A Ka easy hax s m x xt p0 p hext).map (·.1) = .ok (L p))
    (hV : ∀ p, (hysteresisLoss A Ka easy hax s m x xt p p hext).map (·.1) = .ok (V p))
    (hM : ∀ p, (hysteresisLoss A Ka easy hax s m x xt p p hext).map (·.2.e_mag) = .ok (M p)) :
    DifferentiableAt ℝ L p0 ∧ DifferentiableAt ℝ V p0 ∧ DifferentiableAt ℝ M p0 ∧ ∃ H : Fin n → (Pt 3 → Pt 3) → Pt 3,
      (∀ i u, s.hsTensors u (x i) (xt i) = .ok (H i u)) ∧ ∀ v, let δ := fun y => fderiv ℝ (fun p => m p y) p0 v
        fderiv ℝ V p0 v - fderiv ℝ L p0 v = -((∑ i, inner ℝ (m p0 (x i)) (H i δ)) / n) ∧
        fderiv ℝ V p0 v - fderiv ℝ L p0 v = fderiv ℝ M p0 v +
          1 / 2 * ((∑ i, (inner ℝ (δ (x i)) (H i (m p0)) - inner ℝ (m p0 (x i)) (H i δ))) / n) := by
  choose H h1 h2 using fun i => jetLin_field s hD hlt hX hF (hx i) l hl (xt i) (hxt i)
  have h3 := objective_core (1 / 2) (L := L) (V := V) (M := M) (((exchange_differentiable A hm).add (ani_differentiable Ka easy hm)).add
    (ext_differentiable (hext • hax) hm)) hm h2 (fun p => by
      obtain ⟨l, E, e1, e2, e3, e4, e5, e6, e7⟩ := C165_hysteresis_loss s m x xt p0 p A Ka easy hax hext _ fun i => h1 i (m p0)
      have := hL p
      rw [e1] at this
      rw [← Except.ok.inj this]
      show l = _
      rw [e7, e6, e2, e3, e4, e5]
      simp only [Pi.add_apply]
      ring) (fun p => by
      obtain ⟨l, E, e1, e2, e3, e4, e5, e6, e7⟩ := C165_hysteresis_loss s m x xt p p A Ka easy hax hext _ fun i => h1 i (m p)
      have := hV p
      rw [e1] at this
      rw [← Except.ok.inj this]
      show l = _
      rw [e7, e6, e2, e3, e4, e5]
      simp only [Pi.add_apply]
      ring) (fun p => by
      obtain ⟨l, E, e1, e2, e3, e4, e5, e6, e7⟩ := C165_hysteresis_loss s m x xt p p A Ka easy hax hext _ fun i => h1 i (m p)
      have := hM p
      rw [e1] at this
      rw [← Except.ok.inj this]
      exact e5)
  refine ⟨h3.1, h3.2.1, h3.2.2.1, H, h1, fun v => ⟨?_, h3.2.2.2.2 v⟩⟩
  rw [h3.2.2.2.1 v]
  ring

/-- **C172, `mumag3.ipynb`.** The same for the other loss (there minimised by `optax.adamw`, mumag3.ipynb:208-210, 256). -/
theorem C172_mumag3 (lam : ℝ) (L V M : P → ℝ) (hL : ∀ p, (mumag3Loss lam s m x xt p0 p).map (·.1) = .ok (L p))
    (hV : ∀ p, (mumag3Loss lam s m x xt p p).map (·.1) = .ok (V p)) (hM : ∀ p, (mumag3Loss lam s m x xt p p).map (·.2.e_mag) = .ok (M p)) :
    DifferentiableAt ℝ L p0 ∧ DifferentiableAt ℝ V p0 ∧ DifferentiableAt ℝ M p0 ∧ ∃ H : Fin n → (Pt 3 → Pt 3) → Pt 3,
      (∀ i u, s.hsTensors u (x i) (xt i) = .ok (H i u)) ∧ ∀ v, let δ := fun y => fderiv ℝ (fun p => m p y) p0 v
        fderiv ℝ V p0 v - fderiv ℝ L p0 v = -(2 * ((∑ i, inner ℝ (m p0 (x i)) (H i δ)) / n)) ∧
        fderiv ℝ V p0 v - fderiv ℝ L p0 v = fderiv ℝ M p0 v +
          (∑ i, (inner ℝ (δ (x i)) (H i (m p0)) - inner ℝ (m p0 (x i)) (H i δ))) / n := by
  choose H h1 h2 using fun i => jetLin_field s hD hlt hX hF (hx i) l hl (xt i) (hxt i)
  have h3 := objective_core 1 (L := L) (V := V) (M := M) ((exchange_differentiable (1 / lam ^ 2) hm).add
    (ani_differentiable 0.1 (EuclideanSpace.single 2 1) hm)) hm h2 (fun p => by
      obtain ⟨l, E, e1, e2, e3, e5, e6, e7⟩ := C165_mumag3_loss s m x xt p0 p lam _ fun i => h1 i (m p0)
      have := hL p
      rw [e1] at this
      rw [← Except.ok.inj this]
      show l = _
      rw [e7, e6, e2, e3, e5]
      simp only [Pi.add_apply]
      ring) (fun p => by
      obtain ⟨l, E, e1, e2, e3, e5, e6, e7⟩ := C165_mumag3_loss s m x xt p p lam _ fun i => h1 i (m p)
      have := hV p
      rw [e1] at this
      rw [← Except.ok.inj this]
      show l = _
      rw [e7, e6, e2, e3, e5]
      simp only [Pi.add_apply]
      ring) (fun p => by
      obtain ⟨l, E, e1, e2, e3, e5, e6, e7⟩ := C165_mumag3_loss s m x xt p p lam _ fun i => h1 i (m p)
      have := hM p
      rw [e1] at this
      rw [← Except.ok.inj this]
      show E.e_mag = _
      rw [e5]
      ring)
  refine ⟨h3.1, h3.2.1, h3.2.2.1, H, h1, fun v => ⟨?_, ?_⟩⟩
  · rw [h3.2.2.2.1 v]
    ring
  · have := h3.2.2.2.2 v
    rw [one_mul] at this
    exact this

/-- **C172, consistency.** The gradient which the trust region method gets is that of the values it compares exactly if, in the mean over
the samples, the field of every derivative of the magnetisation is orthogonal to the magnetisation. -/
theorem C172_consistent (hn : n ≠ 0) (A Ka : ℝ) (easy hax : Pt 3) (hext : ℝ) (L V : P → ℝ)
    (hL : ∀ p, (hysteresisLoss A Ka easy hax s m x xt p0 p hext).map (·.1) = .ok (L p))
    (hV : ∀ p, (hysteresisLoss A Ka easy hax s m x xt p p hext).map (·.1) = .ok (V p)) :
    fderiv ℝ L p0 = fderiv ℝ V p0 ↔ ∀ (v : P) (b : Fin n → Pt 3),
      (∀ i, s.hsTensors (fun y => fderiv ℝ (fun p => m p y) p0 v) (x i) (xt i) = .ok (b i)) → ∑ i, inner ℝ (m p0 (x i)) (b i) = 0 := by
  have hM : ∀ p, ∃ M, (hysteresisLoss A Ka easy hax s m x xt p p hext).map (·.2.e_mag) = .ok M := fun p => by
    have := hV p
    cases h : hysteresisLoss A Ka easy hax s m x xt p p hext with
    | error e => rw [h] at this; cases this
    | ok a => exact ⟨_, rfl⟩
  choose M hM using hM
  obtain ⟨-, -, -, H, h1, h2⟩ := C172_hysteresis s hD hlt l hl x hx xt hxt m p0 hX hF hm A Ka easy hax hext L V M hL hV hM
  have hn' : (n : ℝ) ≠ 0 := Nat.cast_ne_zero.mpr hn
  have h3 : ∀ v, fderiv ℝ L p0 v = fderiv ℝ V p0 v ↔ ∑ i, inner ℝ (m p0 (x i)) (H i fun y => fderiv ℝ (fun p => m p y) p0 v) = 0 := by
    intro v
    rw [eq_comm, ← sub_eq_zero, (h2 v).1, neg_eq_zero, div_eq_zero_iff, or_iff_left hn']
  constructor
  · intro h v b hb
    obtain rfl : b = fun i => H i fun y => fderiv ℝ (fun p => m p y) p0 v := funext fun i => Except.ok.inj ((hb i).symm.trans (h1 i _))
    exact (h3 v).mp (by rw [h])
  · intro h
    ext v
    exact (h3 v).mpr (h v _ fun i => h1 i _)

end

/-- A box with one cell and constant networks: the hypotheses hold for every parameter. -/
example (p0 : Pt 3) : ∃ (s : StrayField 1 1 1) (xt : List (List (List (Fin 6 → Pt 3)))) (L V M : Pt 3 → ℝ),
    (∀ p, (hysteresisLoss 1 2 (EuclideanSpace.single 2 1) (EuclideanSpace.single 0 1) s
      (fun p x => mag s.domain (fun p _ => p) m0 x p) (fun _ : Fin 1 => 0) (fun _ => xt) p0 p 3).map (·.1) = .ok (L p)) ∧
    (∀ p, (hysteresisLoss 1 2 (EuclideanSpace.single 2 1) (EuclideanSpace.single 0 1) s
      (fun p x => mag s.domain (fun p _ => p) m0 x p) (fun _ : Fin 1 => 0) (fun _ => xt) p p 3).map (·.1) = .ok (V p)) ∧
    (∀ p, (hysteresisLoss 1 2 (EuclideanSpace.single 2 1) (EuclideanSpace.single 0 1) s
      (fun p x => mag s.domain (fun p _ => p) m0 x p) (fun _ : Fin 1 => 0) (fun _ => xt) p p 3).map (·.2.e_mag) = .ok (M p)) ∧
    DifferentiableAt ℝ L p0 ∧ DifferentiableAt ℝ V p0 ∧ DifferentiableAt ℝ M p0 := by
  have g : IsGrid [-1, 1] := ⟨by simp, by simp⟩
  obtain ⟨D, hD⟩ : ∃ D, Cuboid.init [-1, 1] [-1, 1] [-1, 1] = .ok D := ⟨_, init_ok g g g⟩
  let s : StrayField 1 1 1 := ⟨fun _ => 0, D, fun _ _ => 1, fun _ => 0, midpoint, .int 1, 1, fun _ => 1, 1⟩
  have hlt : ∀ i, gridLo ![[-1, 1], [-1, 1], [-1, 1]] i < gridHi ![[-1, 1], [-1, 1], [-1, 1]] i := fun i => by
    fin_cases i <;> simp [gridLo, gridHi]
  have hx : (0 : Pt 3).ofLp ∈ interior (Set.Icc (gridLo ![[-1, 1], [-1, 1], [-1, 1]]) (gridHi ![[-1, 1], [-1, 1], [-1, 1]])) := by
    rw [← Set.pi_univ_Icc, interior_pi_set Set.finite_univ]
    intro i _
    simp only [interior_Icc]
    fin_cases i <;> simp [gridLo, gridHi]
  have hs := C164_smooth hD hlt (fun (p : Pt 3) (_ : Pt 3) => p) m0 4 contDiff_fst contDiff_const
  obtain ⟨φ, -, -, dt, hdt, -⟩ := C99_inside _ _ _ s hD 1 rfl 0 0 hlt hx
  choose H h1 h2 using fun u => (C99_inside _ _ _ s hD 1 rfl u 0 hlt hx)
  have h3 : ∀ u, s.hsTensors u 0 dt = .ok (-gradient (fun y => s.phi1 u y + H u y) 0) := by
    intro u
    obtain ⟨-, dt', e1, e2⟩ := h2 u
    obtain rfl : dt = dt' := Except.ok.inj (hdt.symm.trans e1)
    exact e2
  let M : Pt 3 → Pt 3 → Pt 3 := fun p x => mag s.domain (fun p _ => p) m0 x p
  choose l1 E1 hl1 using fun p0 p => C165_hysteresis_loss s M (fun _ : Fin 1 => 0) (fun _ => dt) p0 p 1 2 (EuclideanSpace.single 2 1)
    (EuclideanSpace.single 0 1) 3 _ fun _ => h3 (M p0)
  have a1 : ∀ p, (hysteresisLoss 1 2 (EuclideanSpace.single 2 1) (EuclideanSpace.single 0 1) s M (fun _ : Fin 1 => 0) (fun _ => dt) p0 p
      3).map (·.1) = .ok (l1 p0 p) := fun p => by
    rw [(hl1 p0 p).1]
    rfl
  have a2 : ∀ p, (hysteresisLoss 1 2 (EuclideanSpace.single 2 1) (EuclideanSpace.single 0 1) s M (fun _ : Fin 1 => 0) (fun _ => dt) p p
      3).map (·.1) = .ok (l1 p p) := fun p => by
    rw [(hl1 p p).1]
    rfl
  have a3 : ∀ p, (hysteresisLoss 1 2 (EuclideanSpace.single 2 1) (EuclideanSpace.single 0 1) s M (fun _ : Fin 1 => 0) (fun _ => dt) p p
      3).map (·.2.e_mag) = .ok (E1 p p).e_mag := fun p => by
    rw [(hl1 p p).1]
    rfl
  have h4 := C172_hysteresis s hD hlt 1 rfl (fun _ : Fin 1 => 0) (fun _ => hx) (fun _ => dt) (fun _ => hdt) M p0
    (fun _ => hs.contDiffAt) (fun _ _ _ _ _ _ => hs.contDiffAt.of_le (by norm_num)) (fun _ => hs.contDiffAt.of_le (by norm_num)) 1 2
    (EuclideanSpace.single 2 1) (EuclideanSpace.single 0 1) 3 (l1 p0) (fun p => l1 p p) (fun p => (E1 p p).e_mag) a1 a2 a3
  exact ⟨s, dt, _, _, _, a1, a2, a3, h4.1, h4.2.1, h4.2.2.1⟩

end Verif
