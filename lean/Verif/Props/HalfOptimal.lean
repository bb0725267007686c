import Verif.Props.Krylov

/-! # Property C160: for convex models the truncated conjugate gradient method is half as good as the best step -/

namespace Verif

open XR Finset

local notation "⟪" x ", " y "⟫" => inner ℝ x y

variable {n : ℕ}

/-- The inequality behind C160. -/
theorem half_arith (k : ℕ) (m ρ y : ℕ → ℝ) (hm : ∀ j < k, 0 < m j) (hmk : 0 ≤ m k)
    (h : ∑ i ∈ range (k + 1), y i ^ 2 / ρ i ^ 2 ≤
      ∑ i ∈ range (k + 1), (∑ j ∈ range (k + 1), m j - ∑ j ∈ range i, m j) ^ 2 / ρ i ^ 2)
    (hρ : ∀ i ≤ k, 0 < ρ i) :
    y 0 - 1 / 2 * ∑ j ∈ range k, (y j - y (j + 1)) ^ 2 / m j ≤ ∑ j ∈ range (k + 1), m j := by
  by_contra hlt
  push Not at hlt
  have h1 : ∀ i ≤ k, y 0 - 1 / 2 * ∑ j ∈ range i, m j - 1 / 2 * ∑ j ∈ range i, (y j - y (j + 1)) ^ 2 / m j ≤ y i := by
    intro i
    induction i with
    | zero => intro _; simp
    | succ i ih =>
      intro hi
      have h2 := ih (by omega)
      have h3 := hm i (by omega)
      rw [sum_range_succ, sum_range_succ]
      have h4 : (y i - y (i + 1)) - 1 / 2 * m i ≤ 1 / 2 * ((y i - y (i + 1)) ^ 2 / m i) := by
        rw [mul_div_assoc', le_div_iff₀ h3]
        nlinarith [sq_nonneg (y i - y (i + 1) - m i)]
      linarith
  have hnn : ∀ a ∈ range k, 0 ≤ (y a - y (a + 1)) ^ 2 / m a := fun a ha =>
    div_nonneg (sq_nonneg _) (hm a (mem_range.mp ha)).le
  have hm0 : ∀ j ∈ range (k + 1), 0 ≤ m j := fun j hj => by
    rcases Nat.lt_succ_iff_lt_or_eq.mp (mem_range.mp hj) with h | rfl
    · exact (hm j h).le
    · exact hmk
  have h5 : ∀ i ≤ k, 0 ≤ ∑ j ∈ range (k + 1), m j - ∑ j ∈ range i, m j ∧
      ∑ j ∈ range (k + 1), m j - ∑ j ∈ range i, m j < y i := fun i hi => by
    have e1 : ∑ j ∈ range i, m j ≤ ∑ j ∈ range (k + 1), m j :=
      sum_le_sum_of_subset_of_nonneg (range_mono (by omega)) fun j hj _ => hm0 j hj
    have e2 : ∑ j ∈ range i, (y j - y (j + 1)) ^ 2 / m j ≤ ∑ j ∈ range k, (y j - y (j + 1)) ^ 2 / m j :=
      sum_le_sum_of_subset_of_nonneg (range_mono hi) fun j hj _ => hnn j hj
    have e3 : 0 ≤ ∑ j ∈ range i, m j := sum_nonneg fun j hj => hm0 j (by rw [mem_range] at hj ⊢; omega)
    have e4 := h1 i hi
    exact ⟨by linarith, by linarith⟩
  refine absurd h (not_le.mpr (sum_lt_sum_of_nonempty ⟨0, by simp⟩ fun i hi => ?_))
  obtain ⟨e1, e2⟩ := h5 i (by rw [mem_range] at hi; omega)
  have := hρ i (by rw [mem_range] at hi; omega)
  gcongr

section
variable (g : Pt n) (H : Pt n →ₗ[ℝ] Pt n)

/-- The decrease of twice the model in the step number `j`. -/
noncomputable def cgGain (j : ℕ) : ℝ := ‖(cg g H j).1‖ ^ 4 / ⟪(cg g H j).2, H (cg g H j).2⟫

/-- The directions are sums of residuals. -/
theorem cg_dir_eq (k : ℕ) (hr : ∀ i < k, (cg g H i).1 ≠ 0) (hk : (cg g H k).1 ≠ 0) :
    (cg g H k).2 = -(‖(cg g H k).1‖ ^ 2 • ∑ i ∈ range (k + 1), (‖(cg g H i).1‖ ^ 2)⁻¹ • (cg g H i).1) := by
  induction k with
  | zero =>
    have : 0 < ‖(cg g H 0).1‖ := norm_pos_iff.mpr hk
    rw [sum_range_one, smul_smul, mul_inv_cancel₀ (by positivity), one_smul]
    rfl
  | succ k ih =>
    have h1 : 0 < ‖(cg g H k).1‖ := norm_pos_iff.mpr (hr k (by omega))
    have h2 : 0 < ‖(cg g H (k + 1)).1‖ := norm_pos_iff.mpr hk
    rw [sum_range_succ, cg_succ_snd, ih (fun i hi => hr i (by omega)) (hr k (by omega)), smul_neg, smul_smul, smul_add, smul_smul,
      mul_inv_cancel₀ (by positivity), one_smul, div_mul_cancel₀ _ (by positivity), neg_add, add_comm]

/-- The iterates are sums of residuals. -/
theorem cgIter_eq (k : ℕ) (hr : ∀ i < k, (cg g H i).1 ≠ 0) :
    cgIter g H k = -∑ i ∈ range k, ((∑ j ∈ range k, cgGain g H j - ∑ j ∈ range i, cgGain g H j) / ‖(cg g H i).1‖ ^ 2) • (cg g H i).1 := by
  induction k with
  | zero => simp [cgIter]
  | succ k ih =>
    have e : ∀ i, ((∑ j ∈ range (k + 1), cgGain g H j - ∑ j ∈ range i, cgGain g H j) / ‖(cg g H i).1‖ ^ 2) • (cg g H i).1 =
        ((∑ j ∈ range k, cgGain g H j - ∑ j ∈ range i, cgGain g H j) / ‖(cg g H i).1‖ ^ 2) • (cg g H i).1 +
        cgGain g H k • ((‖(cg g H i).1‖ ^ 2)⁻¹ • (cg g H i).1) := fun i => by
      rw [sum_range_succ, smul_smul, ← add_smul]
      congr 1
      ring
    have e2 : ‖(cg g H k).1‖ ^ 2 / ⟪(cg g H k).2, H (cg g H k).2⟫ * ‖(cg g H k).1‖ ^ 2 = cgGain g H k := by
      rw [cgGain]; ring
    have e3 : (‖(cg g H k).1‖ ^ 2 / ⟪(cg g H k).2, H (cg g H k).2⟫) • (cg g H k).2 =
        -(cgGain g H k • ∑ i ∈ range (k + 1), (‖(cg g H i).1‖ ^ 2)⁻¹ • (cg g H i).1) := by
      rw [← e2, mul_smul, ← smul_neg, ← cg_dir_eq g H k (fun i hi => hr i (by omega)) (hr k (by omega))]
    rw [cgIter, e3, ih (fun i hi => hr i (by omega))]
    simp only [e]
    rw [sum_add_distrib, ← smul_sum, neg_add]
    congr 2
    rw [sum_range_succ]
    simp

/-- Bessel's inequality for conjugate directions. -/
theorem conj_bessel (hsym : ∀ x y, ⟪H x, y⟫ = ⟪x, H y⟫) (hpsd : ∀ v, 0 ≤ ⟪v, H v⟫) (d : ℕ → Pt n) (k : ℕ)
    (hκ : ∀ i < k, 0 < ⟪d i, H (d i)⟫) (hc : ∀ i j, i < j → j < k → ⟪d j, H (d i)⟫ = 0) (x : Pt n) :
    ∑ j ∈ range k, ⟪H (d j), x⟫ ^ 2 / ⟪d j, H (d j)⟫ ≤ ⟪x, H x⟫ := by
  induction k generalizing x with
  | zero => simpa using hpsd x
  | succ k ih =>
    have hk := hκ k (by omega)
    set c := ⟪H (d k), x⟫ / ⟪d k, H (d k)⟫ with hcdef
    have h := ih (fun i hi => hκ i (by omega)) (fun i j hij hj => hc i j hij (by omega)) (x - c • d k)
    have e1 : ∀ j ∈ range k, ⟪H (d j), x - c • d k⟫ ^ 2 / ⟪d j, H (d j)⟫ = ⟪H (d j), x⟫ ^ 2 / ⟪d j, H (d j)⟫ := fun j hj => by
      rw [inner_sub_right, inner_smul_right, real_inner_comm (d k), hc j k (mem_range.mp hj) (by omega), mul_zero, sub_zero]
    rw [sum_congr rfl e1] at h
    have e2 : ⟪x - c • d k, H (x - c • d k)⟫ = ⟪x, H x⟫ - ⟪H (d k), x⟫ ^ 2 / ⟪d k, H (d k)⟫ := by
      have h3 : ⟪d k, H x⟫ = ⟪H (d k), x⟫ := (hsym _ _).symm
      have h4 : ⟪x, H (d k)⟫ = ⟪H (d k), x⟫ := real_inner_comm _ _
      rw [map_sub, map_smul, inner_sub_left, inner_sub_right, inner_sub_right, inner_smul_left, inner_smul_left, inner_smul_right,
        inner_smul_right, h3, h4, hcdef]
      simp only [conj_trivial]
      field_simp
      ring
    rw [sum_range_succ]
    linarith

variable {g H}

theorem cg_model (hsym : ∀ x y, ⟪H x, y⟫ = ⟪x, H y⟫) (k : ℕ) (hκ : ∀ i < k, 0 < ⟪(cg g H i).2, H (cg g H i).2⟫)
    (hr : ∀ i < k, (cg g H i).1 ≠ 0) : 2 * qmodel g H (cgIter g H k) = -∑ j ∈ range k, cgGain g H j := by
  induction k with
  | zero => simp [cgIter, qmodel]
  | succ k ih =>
    have h1 := ih (fun i hi => hκ i (by omega)) fun i hi => hr i (by omega)
    have h2 := (cg_orthogonal g H hsym k (fun i hi => hκ i (by omega)) fun i hi => hr i (by omega)).2.2.2
    have h3 := hκ k (by omega)
    rw [cgIter, qmodel_line g H hsym, ← cg_residual, h2, sum_range_succ, mul_add, mul_add, h1, cgGain]
    field_simp
    ring

/-- Half of the best decrease for a step which ends on the boundary between two iterates. -/
theorem half_optimal (hsym : ∀ x y, ⟪H x, y⟫ = ⟪x, H y⟫) (hpsd : ∀ v, 0 ≤ ⟪v, H v⟫) (k : ℕ)
    (hκ : ∀ i < k, 0 < ⟪(cg g H i).2, H (cg g H i).2⟫) (hr : ∀ i ≤ k, (cg g H i).1 ≠ 0) (τ : ℝ) (hτ : 0 ≤ τ)
    (hτk : τ * ⟪(cg g H k).2, H (cg g H k).2⟫ ≤ ‖(cg g H k).1‖ ^ 2) (z : Pt n)
    (hz : ‖z‖ ≤ ‖cgIter g H k + τ • (cg g H k).2‖) :
    2 * qmodel g H (cgIter g H k + τ • (cg g H k).2) ≤ qmodel g H z := by
  set s := cgIter g H k + τ • (cg g H k).2 with hs
  set ρ : ℕ → ℝ := fun i => ‖(cg g H i).1‖ with hρ
  have hρ0 : ∀ i ≤ k, 0 < ρ i := fun i hi => norm_pos_iff.mpr (hr i hi)
  set m : ℕ → ℝ := fun j => if j < k then cgGain g H j else τ * ρ k ^ 2 with hm
  have hmlt : ∀ j < k, m j = cgGain g H j := fun j hj => if_pos hj
  have hmk : m k = τ * ρ k ^ 2 := if_neg (lt_irrefl k)
  have hsum : ∀ i ≤ k, ∑ j ∈ range i, m j = ∑ j ∈ range i, cgGain g H j := fun i hi =>
    sum_congr rfl fun j hj => hmlt j (by rw [mem_range] at hj; omega)
  set w : ℕ → ℝ := fun i => ∑ j ∈ range (k + 1), m j - ∑ j ∈ range i, m j with hw
  have horth : ∀ i j, i ≤ k → j ≤ k → i ≠ j → ⟪(cg g H i).1, (cg g H j).1⟫ = 0 := fun i j hi hj hij => by
    rcases lt_or_gt_of_ne hij with h | h
    · rw [real_inner_comm]
      exact (cg_orthogonal g H hsym j (fun i hi => hκ i (by omega)) fun i hi => hr i (by omega)).1 i h
    · exact (cg_orthogonal g H hsym i (fun i hi => hκ i (by omega)) fun i hi => hr i (by omega)).1 j h
  -- the step in terms of the residuals
  have hsr : s = -∑ i ∈ range (k + 1), (w i / ρ i ^ 2) • (cg g H i).1 := by
    rw [hs, cgIter_eq g H k fun i hi => hr i (by omega), cg_dir_eq g H k (fun i hi => hr i (by omega)) (hr k le_rfl), smul_neg,
      smul_smul, ← neg_add, smul_sum]
    congr 1
    rw [sum_range_succ _ k, sum_range_succ _ k, ← add_assoc, ← sum_add_distrib]
    congr 1
    · refine sum_congr rfl fun i hi => ?_
      rw [smul_smul, ← add_smul]
      congr 1
      simp only [hw]
      rw [sum_range_succ, hsum k le_rfl, hsum i (mem_range.mp hi).le, hmk]
      simp only [hρ]
      ring
    · rw [smul_smul]
      congr 1
      simp only [hw]
      rw [sum_range_succ, hmk]
      simp only [hρ]
      ring
  have hsi : ∀ i ≤ k, ⟪s, (cg g H i).1⟫ = -w i := fun i hi => by
    have hi' := hρ0 i hi
    rw [hsr, inner_neg_left, sum_inner, sum_eq_single i]
    · rw [inner_smul_left, real_inner_self_eq_norm_sq, conj_trivial]
      show -(w i / ρ i ^ 2 * ρ i ^ 2) = _
      rw [div_mul_cancel₀ _ (by positivity)]
    · intro j hj hji
      rw [inner_smul_left, horth j i (by rw [mem_range] at hj; omega) hi hji, mul_zero]
    · intro h; exact absurd (mem_range.mpr (by omega)) h
  have hnorm : ‖s‖ ^ 2 = ∑ i ∈ range (k + 1), w i ^ 2 / ρ i ^ 2 := by
    have e0 : ⟪s, s⟫ = ⟪-∑ i ∈ range (k + 1), (w i / ρ i ^ 2) • (cg g H i).1, s⟫ := by rw [← hsr]
    rw [← real_inner_self_eq_norm_sq, e0, inner_neg_left, sum_inner, ← sum_neg_distrib]
    refine sum_congr rfl fun i hi => ?_
    rw [inner_smul_left, conj_trivial, real_inner_comm, hsi i (by rw [mem_range] at hi; omega)]
    ring
  -- Bessel's inequality for the residuals
  set y : ℕ → ℝ := fun i => -⟪z, (cg g H i).1⟫ with hy
  have hbessel : ∑ i ∈ range (k + 1), y i ^ 2 / ρ i ^ 2 ≤ ‖z‖ ^ 2 := by
    have hon : Orthonormal ℝ fun i : Fin (k + 1) => (ρ i)⁻¹ • (cg g H i).1 := by
      refine ⟨fun i => ?_, fun i j hij => ?_⟩
      · have := hρ0 i (by omega)
        rw [norm_smul, norm_inv, Real.norm_of_nonneg this.le]
        exact inv_mul_cancel₀ this.ne'
      · show ⟪(ρ i)⁻¹ • (cg g H i).1, (ρ j)⁻¹ • (cg g H j).1⟫ = 0
        rw [inner_smul_left, inner_smul_right, horth i j (by omega) (by omega) fun h => hij (Fin.ext h)]
        simp
    have h := hon.sum_inner_products_le z (s := Finset.univ)
    rw [Finset.sum_range]
    refine le_trans (le_of_eq (sum_congr rfl fun i _ => ?_)) h
    rw [inner_smul_left, real_inner_comm, Real.norm_eq_abs, sq_abs, hy, conj_trivial]
    ring
  have hneed : ∑ i ∈ range (k + 1), y i ^ 2 / ρ i ^ 2 ≤ ∑ i ∈ range (k + 1), w i ^ 2 / ρ i ^ 2 := by
    rw [← hnorm]
    exact hbessel.trans (pow_le_pow_left₀ (norm_nonneg _) hz 2)
  have hgain : ∀ j < k, 0 < cgGain g H j := fun j hj => by
    have h1 := hκ j hj
    have h2 : 0 < ‖(cg g H j).1‖ := hρ0 j hj.le
    rw [cgGain]; positivity
  have key := half_arith k m ρ y (fun j hj => by rw [hmlt j hj]; exact hgain j hj)
    (by rw [hmk]; positivity) hneed hρ0
  -- the model at z
  have hq : -y 0 + 1 / 2 * ∑ j ∈ range k, (y j - y (j + 1)) ^ 2 / m j ≤ qmodel g H z := by
    have hb := conj_bessel H hsym hpsd (fun j => (cg g H j).2) k hκ (fun i j hij hj =>
      (cg_orthogonal g H hsym j (fun i hi => hκ i (by omega)) fun i hi => hr i (by omega)).2.1 i hij) z
    have e : ∀ j ∈ range k, (y j - y (j + 1)) ^ 2 / m j =
        ⟪H (cg g H j).2, z⟫ ^ 2 / ⟪(cg g H j).2, H (cg g H j).2⟫ := fun j hj => by
      have hj' := mem_range.mp hj
      have h1 := hκ j hj'
      have h2 : 0 < ‖(cg g H j).1‖ := hρ0 j hj'.le
      have h3 : y j - y (j + 1) = ‖(cg g H j).1‖ ^ 2 / ⟪(cg g H j).2, H (cg g H j).2⟫ * ⟪H (cg g H j).2, z⟫ := by
        simp only [hy]
        rw [cg_succ_fst, inner_add_right, inner_smul_right, real_inner_comm z (H (cg g H j).2)]
        ring
      rw [h3, hmlt j hj', cgGain]
      field_simp
    rw [sum_congr rfl e]
    have e0 : -y 0 = ⟪g, z⟫ := by
      simp only [hy, neg_neg]
      rw [real_inner_comm]; rfl
    rw [e0, qmodel]
    linarith
  -- the model at the step
  have hqs : 2 * qmodel g H s ≤ -∑ j ∈ range (k + 1), m j := by
    have h2 := (cg_orthogonal g H hsym k hκ fun i hi => hr i (by omega)).2.2.2
    rw [hs, qmodel_line g H hsym, ← cg_residual, h2, sum_range_succ, hsum k le_rfl, hmk, mul_add, mul_add,
      cg_model hsym k hκ fun i hi => hr i (by omega)]
    show -∑ j ∈ range k, cgGain g H j + 2 * (τ * -ρ k ^ 2) + 2 * (1 / 2 * τ ^ 2 * ⟪(cg g H k).2, H (cg g H k).2⟫) ≤ _
    have : τ * (τ * ⟪(cg g H k).2, H (cg g H k).2⟫) ≤ τ * ρ k ^ 2 := mul_le_mul_of_nonneg_left hτk hτ
    nlinarith
  linarith

end

/-- **C160, on the boundary and inside**. For a symmetric, positive semidefinite Hessian the decrease of the quadratic model
achieved by `steihaug` is at least half of the best possible decrease in the trust region if the step ends on the boundary; if
it ends inside, the model is larger than the minimum in the region at most by the norm of the residual times the radius, and
the residual is below the tolerance if the loop has converged. -/
theorem C160_half (Δ ε : ℝ) (hΔ : 0 < Δ) (hε : 0 < ε) (hvp : Vec n → Vec n) (H : Pt n →ₗ[ℝ] Pt n)
    (hH : ∀ x, hvp (efin x) = efin (H x)) (hsym : ∀ x y, ⟪H x, y⟫ = ⟪x, H y⟫) (hpsd : ∀ v, 0 ≤ ⟪v, H v⟫) (g : Pt n) (m : Option ℕ) :
    ∃ p : Pt n, (steihaug (efin g) hvp (fin Δ) (fin ε) m).p = efin p ∧ ‖p‖ ≤ Δ ∧
      (‖p‖ = Δ → ∀ z, ‖z‖ ≤ Δ → qmodel g H p ≤ 1 / 2 * qmodel g H z) ∧
      (‖p‖ < Δ → ∀ z, ‖z‖ ≤ Δ → qmodel g H p ≤ qmodel g H z + ‖g + H p‖ * Δ) ∧
      (‖p‖ < Δ → (steihaug (efin g) hvp (fin Δ) (fin ε) m).converged → ‖g + H p‖ < ε) := by
  rcases final_induct hΔ hε hH g m
    (fun s z d r => z = cgIter g H s.iter_num ∧ r = (cg g H s.iter_num).1 ∧ d = (cg g H s.iter_num).2 ∧
      (∀ i < s.iter_num, (cg g H i).1 ≠ 0) ∧ ∀ i < s.iter_num, 0 < ⟪(cg g H i).2, H (cg g H i).2⟫)
    (fun s p => ∀ z, ‖z‖ ≤ Δ → qmodel g H p ≤ 1 / 2 * qmodel g H z)
    (by refine ⟨rfl, rfl, rfl, ?_, ?_⟩ <;> · intro i hi; exact absurd hi (Nat.not_lt_zero i))
    (by
      rintro s z d r hin ⟨hz, hr, hd, hne, hκ⟩ hεr hr0 hd0
      have hne' : ∀ i < s.iter_num + 1, (cg g H i).1 ≠ 0 := by
        intro i hi
        rcases Nat.lt_succ_iff_lt_or_eq.mp hi with h | rfl
        · exact hne i h
        · rw [← hr]; exact hr0
      constructor
      · intro α β hpos hα hβ hI
        have e1 : r + α • H d = (cg g H (s.iter_num + 1)).1 := by
          rw [cg_succ_fst, ← hr, ← hd, hα]
        refine ⟨?_, e1, ?_, hne', ?_⟩
        · show _ = cgIter g H (s.iter_num + 1)
          rw [cgIter, ← hz, ← hr, ← hd, hα]
        · show _ = (cg g H (s.iter_num + 1)).2
          rw [cg_succ_snd, ← e1, ← hr, ← hd, hβ]
        · intro i hi
          rcases Nat.lt_succ_iff_lt_or_eq.mp hi with h | rfl
          · exact hκ i h
          · rw [← hd]; exact hpos
      · intro τ hτ hL hout v hv
        have hτk : τ * ⟪d, H d⟫ ≤ ‖r‖ ^ 2 := by
          rcases (hpsd d).lt_or_eq with hpos | h0
          · rw [← le_div_iff₀ hpos]
            by_contra hlt
            push Not at hlt
            set α := ‖r‖ ^ 2 / ⟪d, H d⟫ with hα
            have hα0 : 0 ≤ α := by positivity
            have e : z + α • d = (1 - α / τ) • z + (α / τ) • (z + τ • d) := by
              rw [smul_add, smul_smul, div_mul_cancel₀ _ hτ.ne', sub_smul, one_smul]
              abel
            have h1 : α / τ < 1 := (div_lt_one hτ).mpr hlt
            have h2 : 0 ≤ α / τ := by positivity
            have h3 := hout hpos
            rw [e] at h3
            have h4 := h3.trans (norm_add_le _ _)
            rw [norm_smul, norm_smul, Real.norm_of_nonneg h2, Real.norm_of_nonneg (by linarith), hL.norm] at h4
            nlinarith [hin.lt]
          · rw [← h0, mul_zero]; positivity
        have hk := half_optimal hsym hpsd s.iter_num hκ (fun i hi => hne' i (by omega)) τ hτ.le (by rw [← hd, ← hr]; exact hτk) v
          (by rw [← hz, ← hd, hL.norm]; exact hv)
        rw [← hz, ← hd] at hk
        linarith) with
    ⟨z, d, r, h, hz, hr, -, hne, hκ⟩ | ⟨z, h, hz⟩
  · refine ⟨z, h.hz, h.lt.le, fun h' => absurd h' h.lt.ne, fun _ v hv => ?_, fun _ hc => ?_⟩
    swap
    · have hc' : ¬ steihaug.condition (fin Δ) (fin ε) (steihaug.final (efin g) hvp (fin Δ) (fin ε) m) := hc
      rw [condition_inside h, not_le, hr, cg_residual, ← hz] at hc'
      exact hc'
    set k := (steihaug.final (efin g) hvp (fin Δ) (fin ε) m).iter_num
    have hort := (cg_orthogonal g H hsym k hκ hne).2.2.1
    have h0 : ⟪g + H z, z⟫ = 0 := by
      have : ∀ l ≤ k, ⟪(cg g H k).1, cgIter g H l⟫ = 0 := by
        intro l
        induction l with
        | zero => intro _; simp [cgIter]
        | succ l ih =>
          intro hl
          rw [cgIter, inner_add_right, inner_smul_right, ih (by omega), hort l (by omega)]
          simp
      rw [hz, ← cg_residual]
      exact this k le_rfl
    have h1 := hpsd (v - z)
    have h2 : -(‖g + H z‖ * Δ) ≤ ⟪g + H z, v⟫ := by
      have := abs_real_inner_le_norm (g + H z) v
      have h3 : ‖g + H z‖ * ‖v‖ ≤ ‖g + H z‖ * Δ := by gcongr
      linarith [neg_abs_le ⟪g + H z, v⟫]
    rw [qmodel_sub g H hsym z v, inner_sub_right, h0]
    linarith
  · exact ⟨z, h.hz, h.norm.le, fun _ => hz, fun h' => absurd h.norm h'.ne, fun h' => absurd h.norm h'.ne⟩

example (g : Pt 2) : ∃ p : Pt 2, (steihaug (efin g) (fun v => fun i => fin 2 * v i) (fin 1) (fin (1/100)) none).p = efin p ∧
    (‖p‖ = 1 → ∀ z, ‖z‖ ≤ 1 → qmodel g ((2 : ℝ) • LinearMap.id : Pt 2 →ₗ[ℝ] Pt 2) p ≤
      1 / 2 * qmodel g ((2 : ℝ) • LinearMap.id : Pt 2 →ₗ[ℝ] Pt 2) z) := by
  obtain ⟨p, h1, -, h2, -⟩ := C160_half 1 (1/100) one_pos (by norm_num) (fun v => fun i => fin 2 * v i)
    ((2 : ℝ) • LinearMap.id : Pt 2 →ₗ[ℝ] Pt 2) (fun x => by funext i; simp [efin])
    (fun x y => by simp [inner_smul_left, inner_smul_right]) (fun v => by simp [inner_smul_right]) g none
  exact ⟨p, h1, h2⟩

/-- **C160, the default limit**. With the default limit, or any which is not below the dimension, the loop converges, so the
step is half as good as the best one or optimal up to the tolerance times the radius. -/
theorem C160_default (Δ ε : ℝ) (hΔ : 0 < Δ) (hε : 0 < ε) (hvp : Vec n → Vec n) (H : Pt n →ₗ[ℝ] Pt n)
    (hH : ∀ x, hvp (efin x) = efin (H x)) (hsym : ∀ x y, ⟪H x, y⟫ = ⟪x, H y⟫) (hpsd : ∀ v, 0 ≤ ⟪v, H v⟫) (g : Pt n) (m : Option ℕ)
    (hm : ∀ k, m = some k → n ≤ k) :
    ∃ p : Pt n, (steihaug (efin g) hvp (fin Δ) (fin ε) m).p = efin p ∧ ‖p‖ ≤ Δ ∧
      ∀ z, ‖z‖ ≤ Δ → qmodel g H p ≤ max (1 / 2 * qmodel g H z) (qmodel g H z + ε * Δ) := by
  obtain ⟨p, hp, hle, h1, h2, h3⟩ := C160_half Δ ε hΔ hε hvp H hH hsym hpsd g m
  refine ⟨p, hp, hle, fun z hz => ?_⟩
  rcases hle.lt_or_eq with h | h
  · have := h3 h (C63_terminates Δ ε hΔ hε hvp H hH hsym g m hm).1
    exact le_max_of_le_right ((h2 h z hz).trans (by gcongr))
  · exact le_max_of_le_left (h1 h z hz)

/-- **C160, runs**. Let the Hessian be positive semidefinite at every point (a convex objective). In a run of `TR` from any finite
start, with any damping: if the step of an update reaches the trust radius, the decrease predicted by the undamped model is at
least half of the decrease which the damped model allows in the region; otherwise, if the sub-problem has converged, it is at
most the tolerance times the radius below it. An accepted step decreases the objective by at least `rho_accept` times this. -/
theorem C160_run {A : Type*} (c : TRConf) (hc : c.Valid) (f : Objective n A) (G : Pt n → Pt n) (B : Pt n → Pt n →ₗ[ℝ] Pt n)
    (hf : SecondOrder c f G B) (hpsd : ∀ x v, 0 ≤ ⟪v, B x v⟫) (init : Vec n ⊕ OptStep n A) (x₀ : Pt n) (Δ₀ : ℝ)
    (hx₀ : (TR.start c f init).params = efin x₀) (hΔ₀ : (TR.start c f init).state.tr_radius = fin Δ₀) (k : ℕ)
    (hfr : ¬ (TR.updates c f (TR.start c f init) k).state.tr_radius ≤ fin c.min_tr_radius) :
    ∃ (x p : Pt n) (Δ e : ℝ), (TR.updates c f (TR.start c f init) k).params = efin x ∧
      (TR.updates c f (TR.start c f init) k).state.tr_radius = fin Δ ∧
      (TR.updates c f (TR.start c f init) (k + 1)).state.subproblem_result.p = efin p ∧
      (TR.updates c f (TR.start c f init) (k + 1)).state.subproblem_result.eps = fin e ∧ ‖p‖ ≤ Δ ∧
      (‖p‖ = Δ → ∀ z, ‖z‖ ≤ Δ →
        1 / 2 * -(qmodel (G x) (B x) z + 1 / 2 * (c.damping * ‖z‖ ^ 2)) ≤ -qmodel (G x) (B x) p) ∧
      (‖p‖ < Δ → (TR.updates c f (TR.start c f init) (k + 1)).state.subproblem_result.converged → ∀ z, ‖z‖ ≤ Δ →
        -(qmodel (G x) (B x) z + 1 / 2 * (c.damping * ‖z‖ ^ 2)) - e * Δ ≤ -qmodel (G x) (B x) p) ∧
      ((TR.updates c f (TR.start c f init) (k + 1)).state.accepted →
        (TR.updates c f (TR.start c f init) (k + 1)).params = efin (x + p) ∧
        f.value (efin (x + p)) ≤ f.value (efin x) - fin (c.rho_accept * -qmodel (G x) (B x) p)) := by
  obtain ⟨x, Δ, h⟩ := updates_regular hc hf (regular_start hx₀ hΔ₀) k
  have hacc := C59_accepted c hc f G B hf init x₀ Δ₀ hx₀ hΔ₀ k hfr
  set s := TR.updates c f (TR.start c f init) k with hs
  have hΔ : c.min_tr_radius < Δ := by
    rw [h.radius, fin_le] at hfr; exact not_le.mp hfr
  have hΔ0 : 0 < Δ := lt_of_le_of_lt hc.min_radius hΔ
  obtain ⟨p, e, hp, -, -, he, hte, -⟩ := subproblem_regular hc hf h hΔ
  have he0 : 0 < e := lt_of_lt_of_le hc.tol hte
  have hr : (TR.updates c f (TR.start c f init) (k + 1)).state.subproblem_result =
      TR.subproblem c f s.params s.state := by
    show (TR.update c f s.params s.state).state.subproblem_result = _
    by_cases ha : fin c.rho_accept ≤ TR.ratio c f s.params s.state
    · rw [update_accept c f _ _ hfr ha]
    · rw [update_reject c f _ _ hfr ha]
  have hH : ∀ v, TR.dampedHvp c f s.params (efin v) = efin ((B x + c.damping • LinearMap.id : Pt n →ₗ[ℝ] Pt n) v) := by
    intro v; rw [h.params, damped_efin hf]
  have heps : TR.eps c f s.params s.state = fin e := he
  have hsub : TR.subproblem c f s.params s.state =
      steihaug (efin (G x)) (TR.dampedHvp c f s.params) (fin Δ) (fin e) c.maxiter_steihaug := by
    rw [TR.subproblem, h.radius, heps, h.params, hf.grad]
  have hd := damping_nonneg hc
  obtain ⟨p', hp', hle, h1, h2, h3⟩ := C160_half Δ e hΔ0 he0 (TR.dampedHvp c f s.params) _ hH
    (fun u v => by simp [inner_add_left, inner_add_right, inner_smul_left, inner_smul_right, hf.symm])
    (fun v => by
      rw [LinearMap.add_apply, LinearMap.smul_apply, LinearMap.id_apply, inner_add_right, inner_smul_right,
        real_inner_self_eq_norm_sq]
      have := hpsd x v
      positivity) (G x) c.maxiter_steihaug
  rw [← hsub, hp] at hp'
  obtain rfl : p = p' := efin_inj.mp hp'
  have hdp : 0 ≤ 1 / 2 * (c.damping * ‖p‖ ^ 2) := by positivity
  refine ⟨x, p, Δ, e, h.params, h.radius, by rw [hr, hp], by rw [hr, he], hle, fun hb z hz => ?_, fun hb hcv z hz => ?_, fun ha => ?_⟩
  · have := h1 hb z hz
    rw [qmodel_damped, qmodel_damped] at this
    linarith
  · rw [hr, hsub] at hcv
    have h5 := h2 hb z hz
    rw [qmodel_damped, qmodel_damped] at h5
    have h6 : ‖G x + (B x + c.damping • LinearMap.id : Pt n →ₗ[ℝ] Pt n) p‖ * Δ ≤ e * Δ :=
      mul_le_mul_of_nonneg_right (h3 hb hcv).le hΔ0.le
    linarith
  · obtain ⟨x', q, e1, e2, -, e3, -⟩ := hacc ha
    obtain rfl : x = x' := efin_inj.mp (h.params.symm.trans e1)
    have e4 : (TR.updates c f (TR.start c f init) (k + 1)).params = efin (x + p) := by
      have hupd : TR.updates c f (TR.start c f init) (k + 1) = TR.update c f s.params s.state := rfl
      rw [hupd] at ha ⊢
      by_cases hb : fin c.rho_accept ≤ TR.ratio c f s.params s.state
      · rw [update_accept c f _ _ hfr hb]
        show (fun i => s.params i + (TR.subproblem c f s.params s.state).p i) = _
        rw [hp, h.params, add_efin]
      · rw [update_reject c f _ _ hfr hb] at ha
        exact ha.elim
    have e5 : x + q = x + p := efin_inj.mp (e2.symm.trans e4)
    obtain rfl : q = p := add_left_cancel e5
    exact ⟨e4, e3⟩

/-- **C160, indefinite Hessians**. Without the hypothesis on the Hessian no fraction of the best decrease is guaranteed. -/
theorem C160_indefinite (a : ℝ) (ha : 0 < a) : ∃ (g : Pt 2) (H : Pt 2 →ₗ[ℝ] Pt 2) (hvp : Vec 2 → Vec 2),
    (∀ x, hvp (efin x) = efin (H x)) ∧ (∀ x y, ⟪H x, y⟫ = ⟪x, H y⟫) ∧ ∀ (ε : ℝ) (m : Option ℕ), 0 < ε →
      ∃ p z : Pt 2, (steihaug (efin g) hvp (fin 2) (fin ε) m).p = efin p ∧ ‖z‖ ≤ 2 ∧ -qmodel g H p < a * -qmodel g H z := by
  set K := 1 / a with hK
  have hK0 : 0 < K := by positivity
  set H : Pt 2 →ₗ[ℝ] Pt 2 := Matrix.toEuclideanLin !![1, 0; 0, -K] with hHdef
  have happ : ∀ x : Pt 2, H x = !₂[x 0, -K * x 1] := fun x => by
    ext i; fin_cases i <;> simp [hHdef, Matrix.toLpLin_apply, dotProduct, Fin.sum_univ_two]
  have hH : ∀ x : Pt 2, (fun v : Vec 2 => ![v 0, fin (-K) * v 1] : Vec 2 → Vec 2) (efin x) = efin (H x) := fun x => by
    rw [happ]
    funext i; fin_cases i <;> simp [efin]
  have hsym : ∀ x y, ⟪H x, y⟫ = ⟪x, H y⟫ := fun x y => by
    rw [happ, happ]
    simp [PiLp.inner_apply, Fin.sum_univ_two]
    ring
  refine ⟨!₂[1, 0], H, fun v => ![v 0, fin (-K) * v 1], hH, hsym, fun ε m hε => ?_⟩
  obtain ⟨p, hp, hmem, -⟩ := C145_krylov 2 ε two_pos hε (fun v : Vec 2 => ![v 0, fin (-K) * v 1]) H hH hsym !₂[1, 0] m
  have h1 : p 1 = 0 := by
    have hspan : ∀ k, ∀ v ∈ krylov !₂[1, 0] H k, v 1 = 0 := by
      intro k v hv
      refine Submodule.span_induction ?_ ?_ ?_ ?_ hv
      · rintro _ ⟨j, -, rfl⟩
        have : ∀ j, ((H ^ j) !₂[1, 0]) 1 = (0 : ℝ) := by
          intro j
          induction j with
          | zero => simp
          | succ j ih => rw [pow_succ', Module.End.mul_apply, happ]; simp [ih]
        exact this j
      · simp
      · intro x y _ _ hx hy; simp [hx, hy]
      · intro t x _ hx; simp [hx]
    exact hspan _ p hmem
  refine ⟨p, !₂[0, 2], hp, ?_, ?_⟩
  · rw [EuclideanSpace.norm_eq]
    simp
  · have e1 : qmodel !₂[1, 0] H p = p 0 + 1 / 2 * p 0 ^ 2 := by
      rw [qmodel, happ]
      simp [PiLp.inner_apply, Fin.sum_univ_two, h1]
      ring
    have e2 : qmodel !₂[1, 0] H !₂[0, 2] = -2 * K := by
      rw [qmodel, happ]
      simp [PiLp.inner_apply, Fin.sum_univ_two]
      ring
    rw [e1, e2]
    have : a * K = 1 := by rw [hK]; field_simp
    nlinarith [sq_nonneg (p 0 + 1)]

theorem sampleHessian_psd (v : Pt 2) : 0 ≤ ⟪v, sampleHessian v⟫ := by
  simp only [sampleHessian, PiLp.inner_apply, Fin.sum_univ_two, LinearMap.coe_mk, AddHom.coe_mk]
  simp
  nlinarith [sq_nonneg (v 0), sq_nonneg (v 1)]

/-- The Hessian `diag(2, 6)`: with the gradient `(2, 6)` and the radius 1 the best step is compared with `(-3/5, -4/5)`. -/
example : ∃ p : Pt 2, (steihaug (efin !₂[2, 6]) (sampleObjective.hvp (efin 0)) (fin 1) (fin (1/100)) none).p = efin p ∧
    qmodel !₂[2, 6] sampleHessian p ≤ -1.8 := by
  obtain ⟨p, hp, -, h⟩ := C160_default 1 (1/100) one_pos (by norm_num) _ sampleHessian sampleHessian_hvp
    (fun x y => sampleObjective_contract.symm 0 x y) sampleHessian_psd !₂[2, 6] none (by simp)
  refine ⟨p, hp, (h !₂[-3/5, -4/5] ?_).trans ?_⟩
  · rw [EuclideanSpace.norm_eq]
    simp [Fin.sum_univ_two]
    norm_num
  · have : qmodel !₂[2, 6] sampleHessian !₂[-3/5, -4/5] ≤ -3.6 := by
      simp [qmodel, sampleHessian, PiLp.inner_apply, Fin.sum_univ_two]
      norm_num
    refine max_le ?_ ?_ <;> linarith

/-- A run for the convex objective `x² + 3y²` with the default configuration. -/
example (x₀ : Pt 2) (k : ℕ)
    (hfr : ¬ (TR.updates .default sampleObjective (TR.start .default sampleObjective (.inl (efin x₀))) k).state.tr_radius ≤
      fin TRConf.default.min_tr_radius) :
    ∃ (x p : Pt 2) (Δ : ℝ),
      (TR.updates .default sampleObjective (TR.start .default sampleObjective (.inl (efin x₀))) k).params = efin x ∧
      (TR.updates .default sampleObjective (TR.start .default sampleObjective (.inl (efin x₀))) (k + 1)).state.subproblem_result.p =
        efin p ∧
      (‖p‖ = Δ → 1 / 2 * -qmodel (sampleHessian x) sampleHessian (-x) ≤ -qmodel (sampleHessian x) sampleHessian p ∨ Δ < ‖x‖) := by
  obtain ⟨x, p, Δ, e, h1, -, h2, -, -, h3, -⟩ := C160_run .default default_valid sampleObjective _ _ sampleObjective_contract
    (fun _ => sampleHessian_psd) (.inl (efin x₀)) x₀ 1 rfl rfl k hfr
  refine ⟨x, p, Δ, h1, h2, fun hb => ?_⟩
  rcases lt_or_ge Δ ‖x‖ with h | h
  · exact Or.inr h
  · have := h3 hb (-x) (by rwa [norm_neg])
    simp only [TRConf.damping, TRConf.default, Option.getD_none, zero_mul, mul_zero, add_zero] at this
    exact Or.inl this

end Verif
