import Verif.Lemmas.FieldSwap
import Verif.Props.Energies
import Verif.Props.Magnetisation

/-! # C166: the gradient of the loss of `hysteresis.ipynb` and `mumag3.ipynb` -/

namespace Verif

open Micromag

variable {P : Type} [NormedAddCommGroup P] [NormedSpace ℝ P] {n : ℕ}

theorem exchange_differentiable (A : ℝ) {m : P → Pt 3 → Pt 3} {p0 : P} {x : Fin n → Pt 3}
    (hm : ∀ i, ContDiffAt ℝ 2 (Function.uncurry m) (p0, x i)) : DifferentiableAt ℝ (fun p => exchange_energy A (m p) x) p0 := by
  simp only [exchange_eq]
  have h : ∀ i (j : Fin 3), DifferentiableAt ℝ (fun p => fderiv ℝ (m p) (x i) (EuclideanSpace.single j 1)) p0 := fun i j => by
    obtain ⟨L, h, -⟩ := swap1 (hm i) (EuclideanSpace.single j 1)
    exact h.differentiableAt
  have h' : ∀ i (j : Fin 3), DifferentiableAt ℝ (fun p => ‖fderiv ℝ (m p) (x i) (EuclideanSpace.single j 1)‖ ^ 2) p0 := fun i j =>
    (h i j).norm_sq ℝ
  have h'' : DifferentiableAt ℝ (fun p => ∑ i, ∑ j, ‖fderiv ℝ (m p) (x i) (EuclideanSpace.single j 1)‖ ^ 2) p0 :=
    DifferentiableAt.fun_sum fun i _ => DifferentiableAt.fun_sum fun j _ => h' i j
  exact (h''.mul_const (n : ℝ)⁻¹).const_mul A

theorem ani_differentiable (Ka : ℝ) (axis : Pt 3) {m : P → Pt 3 → Pt 3} {p0 : P} {x : Fin n → Pt 3}
    (hm : ∀ i, ContDiffAt ℝ 2 (Function.uncurry m) (p0, x i)) : DifferentiableAt ℝ (fun p => ani_energy Ka axis (m p) x) p0 := by
  have h : ∀ i, DifferentiableAt ℝ (fun p => m p (x i)) p0 := fun i => param_differentiable ((hm i).of_le (by norm_num))
  simp only [ani_energy, mean]
  have h' : DifferentiableAt ℝ (fun p => ∑ i, (1 - inner ℝ (m p (x i)) axis ^ 2)) p0 := DifferentiableAt.fun_sum fun i _ =>
    (differentiableAt_const 1).sub (((h i).inner ℝ (differentiableAt_const axis)).pow 2)
  exact (h'.mul_const (n : ℝ)⁻¹).const_mul Ka

theorem ext_differentiable (h0 : Pt 3) {m : P → Pt 3 → Pt 3} {p0 : P} {x : Fin n → Pt 3}
    (hm : ∀ i, ContDiffAt ℝ 2 (Function.uncurry m) (p0, x i)) : DifferentiableAt ℝ (fun p => ext_energy (m p) x h0) p0 := by
  have h : ∀ i, DifferentiableAt ℝ (fun p => m p (x i)) p0 := fun i => param_differentiable ((hm i).of_le (by norm_num))
  simp only [ext_energy, mean]
  have h' : DifferentiableAt ℝ (fun p => ∑ i, inner ℝ (m p (x i)) h0) p0 := DifferentiableAt.fun_sum fun i _ =>
    (h i).inner ℝ (differentiableAt_const h0)
  exact (h'.mul_const (n : ℝ)⁻¹).neg

theorem loss_core (c : ℝ) {O : P → ℝ} {m : P → Pt 3 → Pt 3} {p0 : P} {x : Fin n → Pt 3} (hO : DifferentiableAt ℝ O p0)
    (hm : ∀ i, ContDiffAt ℝ 2 (Function.uncurry m) (p0, x i)) {H : Fin n → (Pt 3 → Pt 3) → Pt 3} (hJ : ∀ i, JetLin m p0 (H i)) {L E : P → ℝ}
    (hL : ∀ p, L p = O p + 2 * (-c * ((∑ i, inner ℝ (m p (x i)) (H i (m p0))) / n)))
    (hE : ∀ p, E p = O p + -c * ((∑ i, inner ℝ (m p (x i)) (H i (m p))) / n)) :
    DifferentiableAt ℝ L p0 ∧ DifferentiableAt ℝ E p0 ∧ ∀ v, fderiv ℝ E p0 v - fderiv ℝ L p0 v = c * mean fun i =>
      inner ℝ (fderiv ℝ (fun p => m p (x i)) p0 v) (H i (m p0)) - inner ℝ (m p0 (x i)) (H i fun y => fderiv ℝ (fun p => m p y) p0 v) := by
  have h : ∀ i, HasFDerivAt (fun p => m p (x i)) _ p0 := fun i => (param_differentiable ((hm i).of_le (by norm_num))).hasFDerivAt
  choose J h1 h2 using hJ
  obtain rfl : L = fun p => O p + 2 * (-c * ((∑ i, inner ℝ (m p (x i)) (H i (m p0))) / n)) := funext hL
  obtain rfl : E = fun p => O p + -c * ((∑ i, inner ℝ (m p (x i)) (H i (m p))) / n) := funext hE
  have hl : HasFDerivAt (fun p => O p + 2 * (-c * ((∑ i, inner ℝ (m p (x i)) (H i (m p0))) / n))) _ p0 :=
    hO.hasFDerivAt.add ((((HasFDerivAt.fun_sum fun i _ => (h i).inner ℝ (hasFDerivAt_const (H i (m p0)) p0)).mul_const (n : ℝ)⁻¹).const_mul (-c)).const_mul 2)
  have he : HasFDerivAt (fun p => O p + -c * ((∑ i, inner ℝ (m p (x i)) (H i (m p))) / n)) _ p0 :=
    hO.hasFDerivAt.add (((HasFDerivAt.fun_sum fun i _ => (h i).inner ℝ (h1 i)).mul_const (n : ℝ)⁻¹).const_mul (-c))
  refine ⟨hl.differentiableAt, he.differentiableAt, fun v => ?_⟩
  rw [hl.fderiv, he.fderiv, mean]
  simp [h2, Finset.sum_add_distrib]
  ring

section
variable {N k r : ℕ} (s : StrayField N k r) {xs ys zs : List ℝ} (hD : Cuboid.init xs ys zs = .ok s.domain)
  (hlt : ∀ i, gridLo ![xs, ys, zs] i < gridHi ![xs, ys, zs] i) (l : ℕ) (hl : s.subintervals = .int l)
  (x : Fin n → Pt 3) (hx : ∀ i, (x i).ofLp ∈ interior (Set.Icc (gridLo ![xs, ys, zs]) (gridHi ![xs, ys, zs])))
  (xt : Fin n → List (List (List (Fin 6 → Pt 3)))) (hxt : ∀ i, surfaceTensorsGrad (x i) s.domain s.subintervals s.method = .ok (xt i))
  (m : P → Pt 3 → Pt 3) (p0 : P) (hX : ∀ a, ContDiffAt ℝ 4 (Function.uncurry m) (p0, s.X_dom a))
  (hF : ∀ F ∈ s.domain.faces, ∀ row ∈ F.midpoints, ∀ y ∈ row, ContDiffAt ℝ 3 (Function.uncurry m) (p0, y))
  (hm : ∀ i, ContDiffAt ℝ 2 (Function.uncurry m) (p0, x i))
include hD hlt hl hx hxt hX hF hm

/-- **C166, `hysteresis.ipynb`.** The gradient of the loss, for which the field is constant, and the gradient of the total energy
differ by the asymmetry of the field computed from the samples: `H` is the field as a function of the magnetisation, `δ` the
derivative of the magnetisation in direction `v`. -/
theorem C166_hysteresis (A Ka : ℝ) (easy hax : Pt 3) (hext : ℝ) (L E : P → ℝ)
    (hL : ∀ p, (hysteresisLoss A Ka easy hax s m x xt p0 p hext).map (·.1) = .ok (L p))
    (hE : ∀ p, (hysteresisLoss A Ka easy hax s m x xt p p hext).map (·.2.e_tot) = .ok (E p)) :
    DifferentiableAt ℝ L p0 ∧ DifferentiableAt ℝ E p0 ∧ ∃ H : Fin n → (Pt 3 → Pt 3) → Pt 3,
      (∀ i u, s.hsTensors u (x i) (xt i) = .ok (H i u)) ∧ ∀ v, let δ := fun y => fderiv ℝ (fun p => m p y) p0 v
        fderiv ℝ E p0 v - fderiv ℝ L p0 v =
          1 / 2 * ((∑ i, (inner ℝ (δ (x i)) (H i (m p0)) - inner ℝ (m p0 (x i)) (H i δ))) / n) := by
  choose H h1 h2 using fun i => jetLin_field s hD hlt hX hF (hx i) l hl (xt i) (hxt i)
  have h3 := loss_core (1 / 2) (L := L) (E := E) (((exchange_differentiable A hm).add (ani_differentiable Ka easy hm)).add
    (ext_differentiable (hext • hax) hm)) hm h2 (fun p => by
      obtain ⟨l, E, e1, e2, e3, e4, e5, e6, e7⟩ := C165_hysteresis_loss s m x xt p0 p A Ka easy hax hext _ fun i => h1 i (m p0)
      have := hL p
      rw [e1] at this
      rw [← Except.ok.inj this]
      show l = _
      rw [e7, e6, e2, e3, e4, e5]
      simp only [Pi.add_apply]
      ring) (fun p => by
      obtain ⟨l, E, e1, e2, e3, e4, e5, e6, e7⟩ := C165_hysteresis_loss s m x xt p p A Ka easy hax hext _ fun i => h1 i (m p)
      have := hE p
      rw [e1] at this
      rw [← Except.ok.inj this]
      show E.e_tot = _
      rw [e6, e2, e3, e4, e5]
      simp only [Pi.add_apply]
      ring)
  exact ⟨h3.1, h3.2.1, H, h1, h3.2.2⟩

/-- **C166, `mumag3.ipynb`.** The same for the other loss; the factor is that of the magnetostatic energy. -/
theorem C166_mumag3 (lam : ℝ) (L E : P → ℝ) (hL : ∀ p, (mumag3Loss lam s m x xt p0 p).map (·.1) = .ok (L p))
    (hE : ∀ p, (mumag3Loss lam s m x xt p p).map (·.2.e_tot) = .ok (E p)) :
    DifferentiableAt ℝ L p0 ∧ DifferentiableAt ℝ E p0 ∧ ∃ H : Fin n → (Pt 3 → Pt 3) → Pt 3,
      (∀ i u, s.hsTensors u (x i) (xt i) = .ok (H i u)) ∧ ∀ v, let δ := fun y => fderiv ℝ (fun p => m p y) p0 v
        fderiv ℝ E p0 v - fderiv ℝ L p0 v = (∑ i, (inner ℝ (δ (x i)) (H i (m p0)) - inner ℝ (m p0 (x i)) (H i δ))) / n := by
  choose H h1 h2 using fun i => jetLin_field s hD hlt hX hF (hx i) l hl (xt i) (hxt i)
  have h3 := loss_core 1 (L := L) (E := E) ((exchange_differentiable (1 / lam ^ 2) hm).add
    (ani_differentiable 0.1 (EuclideanSpace.single 2 1) hm)) hm h2 (fun p => by
      obtain ⟨l, E, e1, e2, e3, e5, e6, e7⟩ := C165_mumag3_loss s m x xt p0 p lam _ fun i => h1 i (m p0)
      have := hL p
      rw [e1] at this
      rw [← Except.ok.inj this]
      show l = _
      rw [e7, e6, e2, e3, e5]
      simp only [Pi.add_apply]
      ring) (fun p => by
      obtain ⟨l, E, e1, e2, e3, e5, e6, e7⟩ := C165_mumag3_loss s m x xt p p lam _ fun i => h1 i (m p)
      have := hE p
      rw [e1] at this
      rw [← Except.ok.inj this]
      show E.e_tot = _
      rw [e6, e2, e3, e5]
      simp only [Pi.add_apply]
      ring)
  refine ⟨h3.1, h3.2.1, H, h1, fun v => ?_⟩
  have := h3.2.2 v
  rw [one_mul] at this
  exact this

/-- **C166, symmetry.** The loss has the gradient of the total energy exactly if the field is symmetric, in the mean over the
samples, for the magnetisation and all its derivatives in the parameters. -/
theorem C166_symmetric (hn : n ≠ 0) (A Ka : ℝ) (easy hax : Pt 3) (hext : ℝ) (L E : P → ℝ)
    (hL : ∀ p, (hysteresisLoss A Ka easy hax s m x xt p0 p hext).map (·.1) = .ok (L p))
    (hE : ∀ p, (hysteresisLoss A Ka easy hax s m x xt p p hext).map (·.2.e_tot) = .ok (E p)) :
    fderiv ℝ L p0 = fderiv ℝ E p0 ↔ ∀ (v : P) (a b : Fin n → Pt 3), (∀ i, s.hsTensors (m p0) (x i) (xt i) = .ok (a i)) →
      (∀ i, s.hsTensors (fun y => fderiv ℝ (fun p => m p y) p0 v) (x i) (xt i) = .ok (b i)) →
      ∑ i, inner ℝ (fderiv ℝ (fun p => m p (x i)) p0 v) (a i) = ∑ i, inner ℝ (m p0 (x i)) (b i) := by
  obtain ⟨-, -, H, h1, h2⟩ := C166_hysteresis s hD hlt l hl x hx xt hxt m p0 hX hF hm A Ka easy hax hext L E hL hE
  have hn' : (n : ℝ) ≠ 0 := Nat.cast_ne_zero.mpr hn
  have h3 : ∀ v, fderiv ℝ L p0 v = fderiv ℝ E p0 v ↔ ∑ i, inner ℝ (fderiv ℝ (fun p => m p (x i)) p0 v) (H i (m p0)) =
      ∑ i, inner ℝ (m p0 (x i)) (H i fun y => fderiv ℝ (fun p => m p y) p0 v) := by
    intro v
    have := h2 v
    simp only [Finset.sum_sub_distrib] at this
    rw [eq_comm, ← sub_eq_zero, this, mul_eq_zero, or_iff_right (by norm_num), div_eq_zero_iff, or_iff_left hn', sub_eq_zero]
  constructor
  · intro h v a b ha hb
    obtain rfl : a = fun i => H i (m p0) := funext fun i => Except.ok.inj ((ha i).symm.trans (h1 i _))
    obtain rfl : b = fun i => H i fun y => fderiv ℝ (fun p => m p y) p0 v := funext fun i => Except.ok.inj ((hb i).symm.trans (h1 i _))
    exact (h3 v).mp (by rw [h])
  · intro h
    ext v
    exact (h3 v).mpr (h v _ _ (fun i => h1 i _) fun i => h1 i _)

end

/-- One sample at the centre of the cube `[-1, 1]³`, for the magnetisation of `hysteresis.ipynb` with a network that is constant in
space. -/
example (p0 : Pt 3) : ∃ (s : StrayField 1 1 1) (xt : List (List (List (Fin 6 → Pt 3)))) (L E : Pt 3 → ℝ),
    (∀ p, (hysteresisLoss 1 2 (EuclideanSpace.single 2 1) (EuclideanSpace.single 0 1) s
      (fun p x => mag s.domain (fun p _ => p) m0 x p) (fun _ : Fin 1 => 0) (fun _ => xt) p0 p 3).map (·.1) = .ok (L p)) ∧
    (∀ p, (hysteresisLoss 1 2 (EuclideanSpace.single 2 1) (EuclideanSpace.single 0 1) s
      (fun p x => mag s.domain (fun p _ => p) m0 x p) (fun _ : Fin 1 => 0) (fun _ => xt) p p 3).map (·.2.e_tot) = .ok (E p)) ∧
    DifferentiableAt ℝ L p0 ∧ DifferentiableAt ℝ E p0 := by
  have g : IsGrid [-1, 1] := ⟨by simp, by simp⟩
  obtain ⟨D, hD⟩ : ∃ D, Cuboid.init [-1, 1] [-1, 1] [-1, 1] = .ok D := ⟨_, init_ok g g g⟩
  let s : StrayField 1 1 1 := ⟨fun _ => 0, D, fun _ _ => 1, fun _ => 0, midpoint, .int 1, 1, fun _ => 1, 1⟩
  have hlt : ∀ i, gridLo ![[-1, 1], [-1, 1], [-1, 1]] i < gridHi ![[-1, 1], [-1, 1], [-1, 1]] i := fun i => by
    fin_cases i <;> simp [gridLo, gridHi]
  have hx : (0 : Pt 3).ofLp ∈ interior (Set.Icc (gridLo ![[-1, 1], [-1, 1], [-1, 1]]) (gridHi ![[-1, 1], [-1, 1], [-1, 1]])) := by
    rw [← Set.pi_univ_Icc, interior_pi_set Set.finite_univ]
    intro i _
    simp only [interior_Icc]
    fin_cases i <;> simp [gridLo, gridHi]
  have hs := C164_smooth hD hlt (fun (p : Pt 3) (_ : Pt 3) => p) m0 4 contDiff_fst contDiff_const
  obtain ⟨φ, -, -, dt, hdt, -⟩ := C99_inside _ _ _ s hD 1 rfl 0 0 hlt hx
  choose H h1 h2 using fun u => (C99_inside _ _ _ s hD 1 rfl u 0 hlt hx)
  have h3 : ∀ u, s.hsTensors u 0 dt = .ok (-gradient (fun y => s.phi1 u y + H u y) 0) := by
    intro u
    obtain ⟨-, dt', e1, e2⟩ := h2 u
    obtain rfl : dt = dt' := Except.ok.inj (hdt.symm.trans e1)
    exact e2
  let M : Pt 3 → Pt 3 → Pt 3 := fun p x => mag s.domain (fun p _ => p) m0 x p
  choose l1 E1 hl1 using fun p0 p => C165_hysteresis_loss s M (fun _ : Fin 1 => 0) (fun _ => dt) p0 p 1 2 (EuclideanSpace.single 2 1)
    (EuclideanSpace.single 0 1) 3 _ fun _ => h3 (M p0)
  have a1 : ∀ p, (hysteresisLoss 1 2 (EuclideanSpace.single 2 1) (EuclideanSpace.single 0 1) s M (fun _ : Fin 1 => 0) (fun _ => dt) p0 p
      3).map (·.1) = .ok (l1 p0 p) := fun p => by
    rw [(hl1 p0 p).1]
    rfl
  have a2 : ∀ p, (hysteresisLoss 1 2 (EuclideanSpace.single 2 1) (EuclideanSpace.single 0 1) s M (fun _ : Fin 1 => 0) (fun _ => dt) p p
      3).map (·.2.e_tot) = .ok (E1 p p).e_tot := fun p => by
    rw [(hl1 p p).1]
    rfl
  have h4 := C166_hysteresis s hD hlt 1 rfl (fun _ : Fin 1 => 0) (fun _ => hx) (fun _ => dt) (fun _ => hdt) M p0
    (fun _ => hs.contDiffAt) (fun _ _ _ _ _ _ => hs.contDiffAt.of_le (by norm_num)) (fun _ => hs.contDiffAt.of_le (by norm_num)) 1 2
    (EuclideanSpace.single 2 1) (EuclideanSpace.single 0 1) 3 (l1 p0) (fun p => (E1 p p).e_tot) a1 a2
  exact ⟨s, dt, _, _, a1, a2, h4.1, h4.2.1⟩

end Verif
