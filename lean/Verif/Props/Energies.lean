import Verif.Model.Notebooks
import Verif.Props.Opt
import Verif.Props.Mumag3
import Mathlib.Analysis.InnerProductSpace.Calculus
import Mathlib.Analysis.InnerProductSpace.PiL2

/-! # C165: the energies of `hysteresis.ipynb` and `mumag3.ipynb` -/

namespace Verif

open Micromag

variable {n : ℕ}

theorem mean_nonneg {a : Fin n → ℝ} (h : ∀ i, 0 ≤ a i) : 0 ≤ mean a := div_nonneg (Finset.sum_nonneg fun i _ => h i) (Nat.cast_nonneg n)

theorem mean_le (hn : n ≠ 0) {a : Fin n → ℝ} {c : ℝ} (h : ∀ i, a i ≤ c) : mean a ≤ c := by
  have : (0 : ℝ) < n := Nat.cast_pos.mpr (Nat.pos_of_ne_zero hn)
  rw [mean, div_le_iff₀ this]
  calc ∑ i, a i ≤ ∑ _i : Fin n, c := Finset.sum_le_sum fun i _ => h i
    _ = c * n := by rw [Finset.sum_const, Finset.card_univ, Fintype.card_fin, nsmul_eq_mul, mul_comm]

theorem mean_const_sub (hn : n ≠ 0) (a : Fin n → ℝ) (c : ℝ) : mean (fun i => c - a i) = c - mean a := by
  have : (n : ℝ) ≠ 0 := Nat.cast_ne_zero.mpr hn
  rw [mean, mean, Finset.sum_sub_distrib, Finset.sum_const, Finset.card_univ, Fintype.card_fin, nsmul_eq_mul]
  field_simp

theorem mean_eq_zero (hn : n ≠ 0) {a : Fin n → ℝ} (h : ∀ i, 0 ≤ a i) : mean a = 0 ↔ ∀ i, a i = 0 := by
  have : (n : ℝ) ≠ 0 := Nat.cast_ne_zero.mpr hn
  rw [mean, div_eq_zero_iff, or_iff_left this, Finset.sum_eq_zero_iff_of_nonneg fun i _ => h i]
  simp

theorem mean_eq_const (hn : n ≠ 0) {a : Fin n → ℝ} {c : ℝ} (h : ∀ i, a i ≤ c) : mean a = c ↔ ∀ i, a i = c := by
  have h1 := mean_eq_zero hn (a := fun i => c - a i) fun i => sub_nonneg.mpr (h i)
  rw [mean_const_sub hn, sub_eq_zero] at h1
  rw [eq_comm, h1]
  exact forall_congr' fun i => by rw [sub_eq_zero, eq_comm]

/-! ## Exchange -/

theorem exchange_eq (A : ℝ) (m : Pt 3 → Pt 3) (x : Fin n → Pt 3) :
    exchange_energy A m x = A * ((∑ i, ∑ j, ‖fderiv ℝ m (x i) (EuclideanSpace.single j 1)‖ ^ 2) / n) := by
  simp only [exchange_energy, mean]
  congr 2
  refine Finset.sum_congr rfl fun i _ => ?_
  rw [Finset.sum_comm]
  refine Finset.sum_congr rfl fun j _ => ?_
  rw [EuclideanSpace.norm_sq_eq]
  refine Finset.sum_congr rfl fun k _ => ?_
  rw [Real.norm_eq_abs, sq_abs, sq]
  rfl

/-- **C165, exchange energy.** `A` times the mean of the squares of all partial derivatives. It is not negative, and it is zero
exactly if the derivative vanishes at all samples. -/
theorem C165_exchange (hn : n ≠ 0) (A : ℝ) (hA : 0 < A) (m : Pt 3 → Pt 3) (x : Fin n → Pt 3) :
    exchange_energy A m x = A * ((∑ i, ∑ j, ‖fderiv ℝ m (x i) (EuclideanSpace.single j 1)‖ ^ 2) / n) ∧
    0 ≤ exchange_energy A m x ∧ (exchange_energy A m x = 0 ↔ ∀ i, fderiv ℝ m (x i) = 0) := by
  have e := exchange_eq A m x
  have h0 : ∀ i, 0 ≤ ∑ j, ‖fderiv ℝ m (x i) (EuclideanSpace.single j 1)‖ ^ 2 := fun i => Finset.sum_nonneg fun j _ => sq_nonneg _
  refine ⟨e, ?_, ?_⟩
  · rw [e]
    exact mul_nonneg hA.le (mean_nonneg h0)
  · rw [e, mul_eq_zero, or_iff_right hA.ne']
    refine (mean_eq_zero hn h0).trans (forall_congr' fun i => ?_)
    rw [Finset.sum_eq_zero_iff_of_nonneg fun j _ => sq_nonneg _]
    constructor
    · intro h
      have h1 : ∀ j, fderiv ℝ m (x i) (EuclideanSpace.single j 1) = 0 := fun j => by
        simpa using h j (Finset.mem_univ j)
      ext v : 1
      have hv : v = ∑ j, v j • (EuclideanSpace.single j 1 : Pt 3) := by
        ext k
        simp [Finset.sum_apply, Pi.single_apply]
      rw [hv, map_sum]
      simp [h1]
    · intro h j _
      simp [h]

/-- **C165, exchange energy.** It does not change if the magnetisation is rotated or reflected everywhere in the same way. -/
theorem C165_exchange_invariant (A : ℝ) (R : Pt 3 ≃ₗᵢ[ℝ] Pt 3) (m : Pt 3 → Pt 3) (x : Fin n → Pt 3)
    (hm : ∀ i, DifferentiableAt ℝ m (x i)) : exchange_energy A (fun y => R (m y)) x = exchange_energy A m x := by
  rw [exchange_eq, exchange_eq]
  congr 2
  refine Finset.sum_congr rfl fun i _ => Finset.sum_congr rfl fun j _ => ?_
  have : fderiv ℝ (fun y => R (m y)) (x i) = (R.toContinuousLinearEquiv : Pt 3 →L[ℝ] Pt 3).comp (fderiv ℝ m (x i)) :=
    ((R.toContinuousLinearEquiv : Pt 3 →L[ℝ] Pt 3).hasFDerivAt.comp (x i) (hm i).hasFDerivAt).fderiv
  rw [this]
  congr 1
  exact R.norm_map _

/-! ## Anisotropy -/

/-- **C165, anisotropy energy.** For unit vectors it is between zero and `Ka`, zero exactly if the magnetisation is along the axis
in one of the two directions at all samples, and `Ka` exactly if it is orthogonal to the axis at all samples. -/
theorem C165_anisotropy (hn : n ≠ 0) (Ka : ℝ) (hK : 0 < Ka) (axis : Pt 3) (ha : ‖axis‖ = 1) (m : Pt 3 → Pt 3) (x : Fin n → Pt 3)
    (hm : ∀ i, ‖m (x i)‖ = 1) : 0 ≤ ani_energy Ka axis m x ∧ ani_energy Ka axis m x ≤ Ka ∧
    (ani_energy Ka axis m x = 0 ↔ ∀ i, m (x i) = axis ∨ m (x i) = -axis) ∧
    (ani_energy Ka axis m x = Ka ↔ ∀ i, inner ℝ (m (x i)) axis = 0) := by
  have h1 : ∀ i, inner ℝ (m (x i)) axis ^ 2 ≤ 1 := fun i => by
    have := abs_real_inner_le_norm (m (x i)) axis
    rw [hm, ha, mul_one] at this
    rw [← sq_abs]
    exact pow_le_one₀ (abs_nonneg _) this
  have h2 : ∀ i, 0 ≤ 1 - inner ℝ (m (x i)) axis ^ 2 := fun i => sub_nonneg.mpr (h1 i)
  have h3 : ∀ i, 1 - inner ℝ (m (x i)) axis ^ 2 ≤ 1 := fun i => by linarith [sq_nonneg (inner ℝ (m (x i)) axis)]
  refine ⟨mul_nonneg hK.le (mean_nonneg h2), ?_, ?_, ?_⟩
  · exact (mul_le_mul_of_nonneg_left (mean_le hn h3) hK.le).trans (mul_one Ka).le
  · rw [ani_energy, mul_eq_zero, or_iff_right hK.ne']
    refine (mean_eq_zero hn h2).trans (forall_congr' fun i => ?_)
    have hs : ∀ a : ℝ, a ^ 2 = 1 ↔ a = 1 ∨ -a = 1 := fun a => by
      rw [neg_eq_iff_eq_neg, ← sq_eq_sq_iff_eq_or_eq_neg, one_pow]
    rw [sub_eq_zero, eq_comm, hs, ← inner_neg_right, inner_eq_one_iff_of_norm_eq_one (hm i) ha,
      inner_eq_one_iff_of_norm_eq_one (hm i) (by rw [norm_neg, ha])]
  · rw [ani_energy]
    constructor
    · intro h i
      have h4 : mean (fun i => 1 - inner ℝ (m (x i)) axis ^ 2) = 1 := mul_left_cancel₀ hK.ne' (h.trans (mul_one Ka).symm)
      have := (mean_eq_const hn h3).mp h4 i
      simpa using this
    · intro h
      have h4 : mean (fun i => 1 - inner ℝ (m (x i)) axis ^ 2) = 1 := (mean_eq_const hn h3).mpr fun i => by simp [h i]
      rw [h4, mul_one]

/-! ## External field -/

/-- **C165, external field.** The energy is at least minus the length of the field and at most the length. It is the minimum exactly
if the magnetisation is in the direction of the field at all samples. -/
theorem C165_external (hn : n ≠ 0) (h : Pt 3) (m : Pt 3 → Pt 3) (x : Fin n → Pt 3) (hm : ∀ i, ‖m (x i)‖ = 1) :
    |ext_energy m x h| ≤ ‖h‖ ∧ (ext_energy m x h = -‖h‖ ↔ ∀ i, ‖h‖ • m (x i) = h) := by
  have h1 : ∀ i, inner ℝ (m (x i)) h ≤ ‖h‖ := fun i => by
    have := real_inner_le_norm (m (x i)) h
    rwa [hm, one_mul] at this
  have h2 : ∀ i, -inner ℝ (m (x i)) h ≤ ‖h‖ := fun i => by
    have := real_inner_le_norm (-m (x i)) h
    rwa [inner_neg_left, norm_neg, hm, one_mul] at this
  refine ⟨abs_le.mpr ⟨?_, ?_⟩, ?_⟩
  · rw [ext_energy]
    exact neg_le_neg (mean_le hn h1)
  · have e : ext_energy m x h = mean fun i => -inner ℝ (m (x i)) h := by
      simp only [ext_energy, mean, Finset.sum_neg_distrib, neg_div]
    rw [e]
    exact mean_le hn h2
  · rw [ext_energy, neg_inj]
    refine (mean_eq_const hn h1).trans (forall_congr' fun i => ?_)
    have := inner_eq_norm_mul_iff_real (x := m (x i)) (y := h)
    rw [hm, one_mul, one_smul] at this
    exact this

/-- **C165, mean magnetisation.** It is between minus one and one, and one exactly if all samples are along the axis. -/
theorem C165_mean_mag (hn : n ≠ 0) (axis : Pt 3) (ha : ‖axis‖ = 1) (m : Pt 3 → Pt 3) (x : Fin n → Pt 3) (hm : ∀ i, ‖m (x i)‖ = 1) :
    |mean_mag axis m x| ≤ 1 ∧ (mean_mag axis m x = 1 ↔ ∀ i, m (x i) = axis) := by
  have h := C165_external hn axis m x hm
  have e : mean_mag axis m x = -ext_energy m x axis := by rw [ext_energy, neg_neg]; rfl
  rw [ha] at h
  rw [e, abs_neg, neg_eq_iff_eq_neg]
  simpa using h

/-! ## The loss -/

theorem mag_energy_ok {T : Type} (c : ℝ) (hs : Pt 3 → T → Except Err (Pt 3)) (m : Pt 3 → Pt 3) (x : Fin n → Pt 3) (xt : Fin n → T)
    (h : Fin n → Pt 3) (hh : ∀ i, hs (x i) (xt i) = .ok (h i)) :
    mag_energy c hs m x xt = .ok (-c * ((∑ i, inner ℝ (m (x i)) (h i)) / n)) := by
  have h1 := mapM_ok_map (fun i => (do
    let h ← hs (x i) (xt i)
    return inner ℝ (m (x i)) h : Except Err ℝ)) (fun i => inner ℝ (m (x i)) (h i)) (List.finRange n) (fun i _ => by rw [hh]; rfl)
  rw [mag_energy, h1, ← List.sum_ofFn, List.ofFn_eq_map]
  rfl

section
variable {N k r : ℕ} {P : Type} (s : StrayField N k r) (m : P → Pt 3 → Pt 3) (x : Fin n → Pt 3)
  (xt : Fin n → List (List (List (Fin 6 → Pt 3)))) (p0 p : P)

/-- **C165, loss of `hysteresis.ipynb`.** Where the stray field `h` is defined at all samples, the total energy is the sum of the four
energies, with one half of the magnetostatic integral, and the loss is the total energy plus the magnetostatic energy once more. -/
theorem C165_hysteresis_loss (A Ka : ℝ) (easy hax : Pt 3) (hext : ℝ) (h : Fin n → Pt 3)
    (hh : ∀ i, s.hsTensors (m p0) (x i) (xt i) = .ok (h i)) : ∃ l E, hysteresisLoss A Ka easy hax s m x xt p0 p hext = .ok (l, E) ∧
    E.e_ex = exchange_energy A (m p) x ∧ E.e_ani = ani_energy Ka easy (m p) x ∧ E.e_ext = ext_energy (m p) x (hext • hax) ∧
    E.e_mag = -(1 / 2) * ((∑ i, inner ℝ (m p (x i)) (h i)) / n) ∧ E.e_tot = E.e_ex + E.e_ani + E.e_mag + E.e_ext ∧
    l = E.e_tot + E.e_mag := by
  rw [hysteresisLoss]
  simp only [mag_energy_ok (1 / 2) _ (m p) x xt h hh]
  exact ⟨_, _, rfl, rfl, rfl, rfl, rfl, rfl, by ring⟩

/-- **C165, loss of `mumag3.ipynb`.** The same without external field and with the whole magnetostatic integral. -/
theorem C165_mumag3_loss (lam : ℝ) (h : Fin n → Pt 3) (hh : ∀ i, s.hsTensors (m p0) (x i) (xt i) = .ok (h i)) :
    ∃ l E, mumag3Loss lam s m x xt p0 p = .ok (l, E) ∧
    E.e_ex = exchange_energy (1 / lam ^ 2) (m p) x ∧ E.e_ani = ani_energy 0.1 (EuclideanSpace.single 2 1) (m p) x ∧
    E.e_mag = -((∑ i, inner ℝ (m p (x i)) (h i)) / n) ∧ E.e_tot = E.e_ex + E.e_ani + E.e_mag ∧ l = E.e_tot + E.e_mag := by
  rw [mumag3Loss]
  simp only [mag_energy_ok 1 _ (m p) x xt h hh]
  exact ⟨_, _, rfl, rfl, rfl, by ring, rfl, by ring⟩

end

/-- The initial state of `hysteresis.ipynb`: no exchange energy, the largest anisotropy energy, and the energy of the field. -/
example (x : Fin 2 → Pt 3) : exchange_energy 1 m0 x = 0 ∧ ani_energy 2 (EuclideanSpace.single 2 1) m0 x = 2 ∧
    ext_energy m0 x (EuclideanSpace.single 0 3) = -3 ∧ mean_mag (EuclideanSpace.single 0 1) m0 x = 1 := by
  have hm : ∀ i, ‖m0 (x i)‖ = 1 := fun i => by simp [m0]
  refine ⟨((C165_exchange (by norm_num) 1 one_pos m0 x).2.2).mpr fun i => ?_,
    ((C165_anisotropy (by norm_num) 2 two_pos _ (by simp) m0 x hm).2.2.2).mpr fun i => ?_, ?_,
    ((C165_mean_mag (by norm_num) _ (by simp) m0 x hm).2).mpr fun i => rfl⟩
  · exact fderiv_const_apply _
  · simp [m0, EuclideanSpace.inner_single_left]
  · have := ((C165_external (by norm_num) (EuclideanSpace.single 0 3) m0 x hm).2).mpr fun i => by
      ext j
      fin_cases j <;> simp [m0]
    simpa using this

example (A : ℝ) (p : Pt 3) (x : Fin 2 → Pt 3) (R : Pt 3 ≃ₗᵢ[ℝ] Pt 3) :
    exchange_energy A (fun y => R (cayleyRotation p y)) x = exchange_energy A (cayleyRotation p) x := by
  refine C165_exchange_invariant A R _ x fun i => ?_
  have e : cayleyRotation p = fun y => WithLp.toLp 2 (((1 - toSkewSimmetricMatrix p)⁻¹ * (1 + toSkewSimmetricMatrix p)).mulVec y.ofLp) := by
    funext y
    simp [cayleyRotation, Matrix.mulVec_mulVec]
  rw [e]
  refine differentiableAt_piLp 2 |>.mpr fun j => ?_
  simp only [Matrix.mulVec, dotProduct]
  fun_prop

end Verif
