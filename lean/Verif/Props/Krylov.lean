import Verif.Props.Newton
import Mathlib.LinearAlgebra.Span.Basic
import Mathlib.LinearAlgebra.Finsupp.LinearCombination
import Mathlib.Analysis.InnerProductSpace.PiL2

/-! # The sub-problem and Krylov spaces -/

namespace Verif

open XR

local notation "⟪" x ", " y "⟫" => inner ℝ x y

section
variable {n : ℕ} {A : Type*}

/-- Spec: the Krylov space spanned by `g, H g, …, H^(k-1) g`. -/
def krylov (g : Pt n) (H : Pt n →ₗ[ℝ] Pt n) (k : ℕ) : Submodule ℝ (Pt n) :=
  Submodule.span ℝ {v | ∃ i < k, v = (H ^ i) g}

theorem krylov_mono (g : Pt n) (H : Pt n →ₗ[ℝ] Pt n) {j k : ℕ} (h : j ≤ k) : krylov g H j ≤ krylov g H k :=
  Submodule.span_mono fun _ ⟨i, hi, e⟩ => ⟨i, lt_of_lt_of_le hi h, e⟩

theorem krylov_map (g : Pt n) (H : Pt n →ₗ[ℝ] Pt n) {k : ℕ} {v : Pt n} (h : v ∈ krylov g H k) :
    H v ∈ krylov g H (k + 1) := by
  induction h using Submodule.span_induction with
  | mem x hx =>
    obtain ⟨i, hi, rfl⟩ := hx
    refine Submodule.subset_span ⟨i + 1, by omega, ?_⟩
    rw [pow_succ']
    rfl
  | zero => rw [map_zero]; exact Submodule.zero_mem _
  | add x y _ _ hx hy => rw [map_add]; exact Submodule.add_mem _ hx hy
  | smul a x _ hx => rw [map_smul]; exact Submodule.smul_mem _ _ hx

theorem cg_mem_krylov (g : Pt n) (H : Pt n →ₗ[ℝ] Pt n) (k : ℕ) :
    (cg g H k).1 ∈ krylov g H (k + 1) ∧ (cg g H k).2 ∈ krylov g H (k + 1) := by
  induction k with
  | zero =>
    have : g ∈ krylov g H 1 := Submodule.subset_span ⟨0, by omega, by simp⟩
    exact ⟨this, Submodule.neg_mem _ this⟩
  | succ k ih =>
    have h1 : (cg g H (k + 1)).1 ∈ krylov g H (k + 1 + 1) := by
      rw [cg_succ_fst]
      exact Submodule.add_mem _ (krylov_mono g H (by omega) ih.1) (Submodule.smul_mem _ _ (krylov_map g H ih.2))
    refine ⟨h1, ?_⟩
    rw [cg_succ_snd]
    exact Submodule.add_mem _ (Submodule.neg_mem _ h1) (Submodule.smul_mem _ _ (krylov_mono g H (by omega) ih.2))

theorem cgIter_mem_krylov (g : Pt n) (H : Pt n →ₗ[ℝ] Pt n) (k : ℕ) : cgIter g H k ∈ krylov g H k := by
  induction k with
  | zero => exact Submodule.zero_mem _
  | succ k ih =>
    exact Submodule.add_mem _ (krylov_mono g H (by omega) ih) (Submodule.smul_mem _ _ (cg_mem_krylov g H k).2)

/-- The span of the first `k` directions. -/
def cgDirs (g : Pt n) (H : Pt n →ₗ[ℝ] Pt n) (k : ℕ) : Submodule ℝ (Pt n) :=
  Submodule.span ℝ (Set.range fun i : Fin k => (cg g H i).2)

theorem cg_mem_dirs (g : Pt n) (H : Pt n →ₗ[ℝ] Pt n) {i k : ℕ} (h : i < k) : (cg g H i).2 ∈ cgDirs g H k :=
  Submodule.subset_span ⟨⟨i, h⟩, rfl⟩

theorem cg_res_mem_dirs (g : Pt n) (H : Pt n →ₗ[ℝ] Pt n) {i k : ℕ} (h : i < k) : (cg g H i).1 ∈ cgDirs g H k := by
  cases i with
  | zero =>
    have : (cg g H 0).1 = -(cg g H 0).2 := by simp [cg]
    rw [this]
    exact Submodule.neg_mem _ (cg_mem_dirs g H h)
  | succ i =>
    have : (cg g H (i + 1)).1 =
        -(cg g H (i + 1)).2 + (‖(cg g H (i + 1)).1‖ ^ 2 / ‖(cg g H i).1‖ ^ 2) • (cg g H i).2 := by
      rw [cg_succ_snd]; abel
    rw [this]
    exact Submodule.add_mem _ (Submodule.neg_mem _ (cg_mem_dirs g H h))
      (Submodule.smul_mem _ _ (cg_mem_dirs g H (by omega)))

/-- Before the first zero residual the directions span the Krylov space. -/
theorem krylov_le_dirs (g : Pt n) (H : Pt n →ₗ[ℝ] Pt n) (k : ℕ) (hκ : ∀ i < k, 0 < ⟪(cg g H i).2, H (cg g H i).2⟫)
    (hr : ∀ i < k, (cg g H i).1 ≠ 0) : krylov g H k ≤ cgDirs g H k := by
  have hmap : ∀ j, j < k → ∀ v ∈ cgDirs g H j, H v ∈ cgDirs g H (j + 1) := by
    intro j hj v hv
    induction hv using Submodule.span_induction with
    | mem x hx =>
      obtain ⟨i, rfl⟩ := hx
      have h1 := hκ i (by omega)
      have h2 : 0 < ‖(cg g H i).1‖ := norm_pos_iff.mpr (hr i (by omega))
      have e : H (cg g H i).2 = (⟪(cg g H i).2, H (cg g H i).2⟫ / ‖(cg g H i).1‖ ^ 2) •
          ((cg g H (i + 1)).1 - (cg g H i).1) := by
        rw [cg_succ_fst, add_sub_cancel_left, smul_smul]
        rw [show ⟪(cg g H i).2, H (cg g H i).2⟫ / ‖(cg g H i).1‖ ^ 2 *
          (‖(cg g H i).1‖ ^ 2 / ⟪(cg g H i).2, H (cg g H i).2⟫) = 1 by field_simp, one_smul]
      show H (cg g H i).2 ∈ _
      rw [e]
      exact Submodule.smul_mem _ _ (Submodule.sub_mem _ (cg_res_mem_dirs g H (by omega)) (cg_res_mem_dirs g H (by omega)))
    | zero => rw [map_zero]; exact Submodule.zero_mem _
    | add x y _ _ hx hy => rw [map_add]; exact Submodule.add_mem _ hx hy
    | smul a x _ hx => rw [map_smul]; exact Submodule.smul_mem _ _ hx
  have hpow : ∀ i, i < k → (H ^ i) g ∈ cgDirs g H (i + 1) := by
    intro i
    induction i with
    | zero => intro _; exact cg_res_mem_dirs g H (i := 0) (by omega)
    | succ i ih =>
      intro hi
      rw [pow_succ']
      exact hmap (i + 1) hi _ (ih (by omega))
  refine Submodule.span_le.mpr ?_
  rintro _ ⟨i, hi, rfl⟩
  refine Submodule.span_mono ?_ (hpow i hi)
  rintro _ ⟨j, rfl⟩
  exact ⟨⟨j, by omega⟩, rfl⟩

/-- On the span of conjugate directions of positive curvature the quadratic form is nonnegative. -/
theorem dirs_nonneg (g : Pt n) (H : Pt n →ₗ[ℝ] Pt n) (hsym : ∀ x y, ⟪H x, y⟫ = ⟪x, H y⟫) (k : ℕ)
    (hκ : ∀ i < k, 0 < ⟪(cg g H i).2, H (cg g H i).2⟫) (hr : ∀ i < k, (cg g H i).1 ≠ 0) :
    ∀ w ∈ cgDirs g H k, 0 ≤ ⟪w, H w⟫ := by
  have hconj : ∀ i j, i < k → j < k → i ≠ j → ⟪(cg g H i).2, H (cg g H j).2⟫ = 0 := by
    have h1 : ∀ i j, i < j → j < k → ⟪(cg g H j).2, H (cg g H i).2⟫ = 0 := fun i j hij hj =>
      (cg_orthogonal g H hsym j (fun l hl => hκ l (by omega)) fun l hl => hr l (by omega)).2.1 i hij
    intro i j hi hj hij
    rcases lt_or_gt_of_ne hij with h | h
    · rw [← hsym, real_inner_comm]; exact h1 i j h hj
    · exact h1 j i h hi
  intro w hw
  obtain ⟨a, rfl⟩ := (Submodule.mem_span_range_iff_exists_fun ℝ).mp hw
  rw [map_sum, sum_inner]
  refine Finset.sum_nonneg fun i _ => ?_
  rw [inner_sum, Finset.sum_eq_single i]
  · rw [map_smul, inner_smul_left, inner_smul_right, conj_trivial, ← mul_assoc]
    exact mul_nonneg (mul_self_nonneg _) (hκ i i.2).le
  · intro j _ hji
    rw [map_smul, inner_smul_left, inner_smul_right, hconj i j i.2 j.2 fun h => hji (Fin.ext h.symm)]
    simp
  · intro h; exact absurd (Finset.mem_univ i) h

theorem qmodel_sub (g : Pt n) (H : Pt n →ₗ[ℝ] Pt n) (hsym : ∀ x y, ⟪H x, y⟫ = ⟪x, H y⟫) (p v : Pt n) :
    qmodel g H v = qmodel g H p + ⟪g + H p, v - p⟫ + 1 / 2 * ⟪v - p, H (v - p)⟫ := by
  have h1 : ⟪H p, v⟫ = ⟪p, H v⟫ := hsym p v
  have h2 : ⟪H p, p⟫ = ⟪p, H p⟫ := hsym p p
  have h3 : ⟪v, H p⟫ = ⟪p, H v⟫ := by rw [← hsym, real_inner_comm]
  simp only [qmodel, map_sub, inner_add_left, inner_sub_left, inner_sub_right, h1, h2, h3]
  ring

/-- The iterates minimise the quadratic model over the Krylov space. -/
theorem cgIter_optimal (g : Pt n) (H : Pt n →ₗ[ℝ] Pt n) (hsym : ∀ x y, ⟪H x, y⟫ = ⟪x, H y⟫) (k : ℕ)
    (hκ : ∀ i < k, 0 < ⟪(cg g H i).2, H (cg g H i).2⟫) (hr : ∀ i < k, (cg g H i).1 ≠ 0) :
    ∀ v ∈ krylov g H k, qmodel g H (cgIter g H k) ≤ qmodel g H v := by
  intro v hv
  have hd : v - cgIter g H k ∈ cgDirs g H k :=
    krylov_le_dirs g H k hκ hr (Submodule.sub_mem _ hv (cgIter_mem_krylov g H k))
  have h1 : ⟪g + H (cgIter g H k), v - cgIter g H k⟫ = 0 := by
    rw [← cg_residual]
    have hc := (cg_orthogonal g H hsym k hκ hr).2.2.1
    generalize v - cgIter g H k = w at hd
    induction hd using Submodule.span_induction with
    | mem x hx => obtain ⟨i, rfl⟩ := hx; exact hc i i.2
    | zero => exact inner_zero_right _
    | add x y _ _ hx hy => rw [inner_add_right, hx, hy, add_zero]
    | smul a x _ hx => rw [inner_smul_right, hx, mul_zero]
  have h2 := dirs_nonneg g H hsym k hκ hr _ hd
  rw [qmodel_sub g H hsym (cgIter g H k) v, h1]
  linarith

/-! ## C145 -/

/-- What is known of the loop of `steihaug` at its end. -/
theorem steihaug_cg (Δ ε : ℝ) (hΔ : 0 < Δ) (hε : 0 < ε) (hvp : Vec n → Vec n) (H : Pt n →ₗ[ℝ] Pt n)
    (hH : ∀ x, hvp (efin x) = efin (H x)) (g : Pt n) (m : Option ℕ) :
    ∃ (p : Pt n) (k : ℕ), (steihaug (efin g) hvp (fin Δ) (fin ε) m).p = efin p ∧
      (steihaug (efin g) hvp (fin Δ) (fin ε) m).iter_num = k ∧
      (∀ i < k, ε ≤ ‖(cg g H i).1‖) ∧ (∀ i, i + 1 < k → 0 < ⟪(cg g H i).2, H (cg g H i).2⟫) ∧
      ((p = cgIter g H k ∧ ‖p‖ < Δ ∧ ∀ i < k, 0 < ⟪(cg g H i).2, H (cg g H i).2⟫) ∨
        (‖p‖ = Δ ∧ p ∈ krylov g H k)) := by
  rcases final_induct hΔ hε hH g m
    (fun s z d r => z = cgIter g H s.iter_num ∧ r = (cg g H s.iter_num).1 ∧ d = (cg g H s.iter_num).2 ∧
      (∀ i < s.iter_num, ε ≤ ‖(cg g H i).1‖) ∧ ∀ i < s.iter_num, 0 < ⟪(cg g H i).2, H (cg g H i).2⟫)
    (fun s z => z ∈ krylov g H s.iter_num ∧
      (∀ i < s.iter_num, ε ≤ ‖(cg g H i).1‖) ∧ ∀ i, i + 1 < s.iter_num → 0 < ⟪(cg g H i).2, H (cg g H i).2⟫)
    (by refine ⟨rfl, rfl, rfl, ?_, ?_⟩ <;> · intro i hi; exact absurd hi (Nat.not_lt_zero i))
    (by
      rintro s z d r hin ⟨hz, hr, hd, hne, hκ⟩ hεr hr0 hd0
      have hne' : ∀ i < s.iter_num + 1, ε ≤ ‖(cg g H i).1‖ := by
        intro i hi
        rcases Nat.lt_succ_iff_lt_or_eq.mp hi with h | rfl
        · exact hne i h
        · rw [← hr]; exact hεr
      constructor
      · intro α β hpos hα hβ hI
        have e1 : r + α • H d = (cg g H (s.iter_num + 1)).1 := by
          rw [cg_succ_fst, ← hr, ← hd, hα]
        refine ⟨?_, e1, ?_, hne', ?_⟩
        · show _ = cgIter g H (s.iter_num + 1)
          rw [cgIter, ← hz, ← hr, ← hd, hα]
        · show _ = (cg g H (s.iter_num + 1)).2
          rw [cg_succ_snd, ← e1, ← hr, ← hd, hβ]
        · intro i hi
          rcases Nat.lt_succ_iff_lt_or_eq.mp hi with h | rfl
          · exact hκ i h
          · rw [← hd]; exact hpos
      · intro τ hτ hL hout
        refine ⟨?_, hne', fun i hi => hκ i (by simpa [steihaug.step] using hi)⟩
        show _ ∈ krylov g H (s.iter_num + 1)
        rw [hz, hd]
        exact Submodule.add_mem _ (krylov_mono g H (by omega) (cgIter_mem_krylov g H _))
          (Submodule.smul_mem _ _ (cg_mem_krylov g H _).2)) with
    ⟨z, d, r, h, hz, -, -, hne, hκ⟩ | ⟨z, h, hz, hne, hκ⟩
  · exact ⟨z, _, h.hz, rfl, hne, fun i hi => hκ i ((Nat.lt_succ_self i).trans hi), Or.inl ⟨hz, h.lt, hκ⟩⟩
  · exact ⟨z, _, h.hz, rfl, hne, hκ, Or.inr ⟨h.norm, hz⟩⟩

/-- **C145, optimality**. For a symmetric Hessian, definite or not, the step of `steihaug` lies in the Krylov space whose
dimension is the number of iterations, and if it does not reach the boundary of the trust region it minimises the
quadratic model over this space. -/
theorem C145_krylov (Δ ε : ℝ) (hΔ : 0 < Δ) (hε : 0 < ε) (hvp : Vec n → Vec n) (H : Pt n →ₗ[ℝ] Pt n)
    (hH : ∀ x, hvp (efin x) = efin (H x)) (hsym : ∀ x y, ⟪H x, y⟫ = ⟪x, H y⟫) (g : Pt n) (m : Option ℕ) :
    ∃ p : Pt n, (steihaug (efin g) hvp (fin Δ) (fin ε) m).p = efin p ∧
      p ∈ krylov g H (steihaug (efin g) hvp (fin Δ) (fin ε) m).iter_num ∧
      (‖p‖ < Δ → ∀ v ∈ krylov g H (steihaug (efin g) hvp (fin Δ) (fin ε) m).iter_num,
        qmodel g H p ≤ qmodel g H v) := by
  obtain ⟨p, k, hp, hk, hne, -, h⟩ := steihaug_cg Δ ε hΔ hε hvp H hH g m
  rw [hk]
  rcases h with ⟨rfl, -, hκ⟩ | ⟨hn, hmem⟩
  · exact ⟨_, hp, cgIter_mem_krylov g H k, fun _ => cgIter_optimal g H hsym k hκ fun i hi =>
      norm_pos_iff.mp (hε.trans_le (hne i hi))⟩
  · exact ⟨p, hp, hmem, fun h => absurd hn h.ne⟩

/-- One step of the conjugate gradient method reduces the distance to the minimum at least as much as the best gradient
step. -/
theorem cg_contract (g : Pt n) (H : Pt n →ₗ[ℝ] Pt n) (hsym : ∀ x y, ⟪H x, y⟫ = ⟪x, H y⟫) {l b : ℝ} (hl : 0 < l)
    (hb : 0 < b) (hlow : ∀ v, l * ‖v‖ ^ 2 ≤ ⟪v, H v⟫) (hup : ∀ v, ⟪v, H v⟫ ≤ b * ‖v‖ ^ 2) (q : Pt n) (hq : H q = -g) (k : ℕ)
    (hκ : ∀ i < k + 1, 0 < ⟪(cg g H i).2, H (cg g H i).2⟫) (hr : ∀ i < k + 1, (cg g H i).1 ≠ 0) :
    qmodel g H (cgIter g H (k + 1)) - qmodel g H q ≤
      (1 - l / b) * (qmodel g H (cgIter g H k) - qmodel g H q) := by
  set z := cgIter g H k with hz
  set r := (cg g H k).1 with hrdef
  have hrz : r = g + H z := cg_residual g H k
  have h1 := cgIter_optimal g H hsym (k + 1) hκ hr (z - (1 / b) • r) (Submodule.sub_mem _
    (krylov_mono g H (by omega) (cgIter_mem_krylov g H k)) (Submodule.smul_mem _ _ (cg_mem_krylov g H k).1))
  have h2 := qmodel_sub g H hsym z (z - (1 / b) • r)
  rw [← hrz, sub_sub_cancel_left, inner_neg_right, inner_smul_right, real_inner_self_eq_norm_sq, map_neg, map_smul,
    inner_neg_neg, inner_smul_left, inner_smul_right, conj_trivial] at h2
  have h3 : 1 / b * (1 / b * ⟪r, H r⟫) ≤ 1 / b * ‖r‖ ^ 2 := by
    have := hup r
    have h4 : 1 / b * ⟪r, H r⟫ ≤ ‖r‖ ^ 2 := by rw [one_div_mul_eq_div, div_le_iff₀ hb]; linarith
    exact mul_le_mul_of_nonneg_left h4 (by positivity)
  -- the distance to the minimum is bounded by the residual
  have h5 := qmodel_sub g H hsym q z
  rw [hq, add_neg_cancel, inner_zero_left, add_zero] at h5
  have h6 : H (z - q) = r := by rw [map_sub, hq, hrz]; abel
  rw [h6] at h5
  have h7 : ⟪z - q, r⟫ * l ≤ ‖r‖ ^ 2 := by
    have ha := hlow (z - q)
    rw [h6] at ha
    have hb' := real_inner_le_norm (z - q) r
    have hc := norm_nonneg (z - q)
    have hd := norm_nonneg r
    have he : l * ‖z - q‖ ≤ ‖r‖ := by
      rcases hc.eq_or_lt with h | h
      · rw [← h, mul_zero]; exact hd
      · exact le_of_mul_le_mul_right (by nlinarith) h
    nlinarith
  have h8 : qmodel g H z - qmodel g H q ≤ ‖r‖ ^ 2 / (2 * l) := by
    rw [le_div_iff₀ (by positivity)]; nlinarith
  have h9 : l / b * (qmodel g H z - qmodel g H q) ≤ 1 / (2 * b) * ‖r‖ ^ 2 := by
    have := mul_le_mul_of_nonneg_left h8 (by positivity : 0 ≤ l / b)
    refine this.trans_eq ?_
    field_simp
  have e : 1 / (2 * b) * ‖r‖ ^ 2 = 1 / b * ‖r‖ ^ 2 - 1 / 2 * (1 / b * ‖r‖ ^ 2) := by field_simp; ring
  rw [e] at h9
  nlinarith

/-- **C145, rate**. If the Hessian lies between the positive multiples `l` and `b` of the identity, the number of iterations
of `steihaug` is bounded by the condition number and the tolerance relative to the gradient, whatever the dimension and
the radius: `k + 1` iterations happen only if `ε² ≤ b / l * (1 - l / b) ^ k * ‖g‖²`. -/
theorem C145_rate (Δ ε : ℝ) (hΔ : 0 < Δ) (hε : 0 < ε) (hvp : Vec n → Vec n) (H : Pt n →ₗ[ℝ] Pt n)
    (hH : ∀ x, hvp (efin x) = efin (H x)) (hsym : ∀ x y, ⟪H x, y⟫ = ⟪x, H y⟫) {l b : ℝ} (hl : 0 < l) (hlb : l ≤ b)
    (hlow : ∀ v, l * ‖v‖ ^ 2 ≤ ⟪v, H v⟫) (hup : ∀ v, ⟪v, H v⟫ ≤ b * ‖v‖ ^ 2) (g : Pt n) (m : Option ℕ) (k : ℕ)
    (hk : (steihaug (efin g) hvp (fin Δ) (fin ε) m).iter_num = k + 1) :
    ε ^ 2 ≤ b / l * (1 - l / b) ^ k * ‖g‖ ^ 2 := by
  have hb : 0 < b := hl.trans_le hlb
  obtain ⟨p, k', -, hk', hne, hκ, -⟩ := steihaug_cg Δ ε hΔ hε hvp H hH g m
  obtain rfl : k' = k + 1 := hk'.symm.trans hk
  have hr : ∀ i < k + 1, (cg g H i).1 ≠ 0 := fun i hi => norm_pos_iff.mp (hε.trans_le (hne i hi))
  have hpos : ∀ v, v ≠ 0 → 0 < ⟪v, H v⟫ := fun v hv =>
    lt_of_lt_of_le (by have := norm_pos_iff.mpr hv; positivity) (hlow v)
  have hinj : Function.Injective H := by
    rw [← LinearMap.ker_eq_bot, LinearMap.ker_eq_bot']
    intro v hv
    by_contra h
    have := hpos v h
    rw [hv, inner_zero_right] at this
    exact lt_irrefl _ this
  obtain ⟨q, hq⟩ := (LinearMap.injective_iff_surjective.mp hinj) (-g)
  have hq01 : 0 ≤ 1 - l / b := by rw [sub_nonneg, div_le_one hb]; exact hlb
  have hmain : ∀ j ≤ k, qmodel g H (cgIter g H j) - qmodel g H q ≤ (1 - l / b) ^ j * (‖g‖ ^ 2 / (2 * l)) := by
    intro j
    induction j with
    | zero =>
      intro _
      have h5 := qmodel_sub g H hsym q 0
      rw [hq, add_neg_cancel, inner_zero_left, add_zero, zero_sub, map_neg, hq, neg_neg, inner_neg_left] at h5
      have h7 : -⟪q, g⟫ * l ≤ ‖g‖ ^ 2 := by
        have ha := hlow q
        rw [hq, inner_neg_right] at ha
        have hb' := abs_real_inner_le_norm q g
        have hb'' := neg_abs_le ⟪q, g⟫
        have hc := norm_nonneg q
        have hd := norm_nonneg g
        have he : l * ‖q‖ ≤ ‖g‖ := by
          rcases hc.eq_or_lt with h | h
          · rw [← h, mul_zero]; exact hd
          · exact le_of_mul_le_mul_right (by nlinarith) h
        nlinarith
      rw [pow_zero, one_mul, le_div_iff₀ (by positivity), cgIter]
      nlinarith
    | succ j ih =>
      intro hj
      have h1 := cg_contract g H hsym hl hb hlow hup q hq j (fun i hi => hκ i (by omega)) fun i hi => hr i (by omega)
      calc _ ≤ _ := h1
        _ ≤ (1 - l / b) * ((1 - l / b) ^ j * (‖g‖ ^ 2 / (2 * l))) := mul_le_mul_of_nonneg_left (ih (by omega)) hq01
        _ = _ := by ring
  have h1 := hmain k le_rfl
  set z := cgIter g H k with hz
  set r := (cg g H k).1 with hrdef
  have hrz : r = g + H z := cg_residual g H k
  -- the residual is bounded by the distance to the minimum
  have h2 : ‖r‖ ^ 2 / (2 * b) ≤ qmodel g H z - qmodel g H q := by
    have h3 := qmodel_sub g H hsym z (z - (1 / b) • r)
    rw [← hrz, sub_sub_cancel_left, inner_neg_right, inner_smul_right, real_inner_self_eq_norm_sq, map_neg, map_smul,
      inner_neg_neg, inner_smul_left, inner_smul_right, conj_trivial] at h3
    have h4 : 1 / b * (1 / b * ⟪r, H r⟫) ≤ 1 / b * ‖r‖ ^ 2 := by
      have := hup r
      have h4 : 1 / b * ⟪r, H r⟫ ≤ ‖r‖ ^ 2 := by rw [one_div_mul_eq_div, div_le_iff₀ hb]; linarith
      exact mul_le_mul_of_nonneg_left h4 (by positivity)
    have h5 := qmodel_sub g H hsym q (z - (1 / b) • r)
    rw [hq, add_neg_cancel, inner_zero_left, add_zero] at h5
    have h6 : 0 ≤ ⟪z - (1 / b) • r - q, H (z - (1 / b) • r - q)⟫ :=
      le_trans (by positivity) (hlow _)
    have e : ‖r‖ ^ 2 / (2 * b) = 1 / b * ‖r‖ ^ 2 - 1 / 2 * (1 / b * ‖r‖ ^ 2) := by field_simp; ring
    rw [e]
    linarith
  have h3 : ε ^ 2 ≤ ‖r‖ ^ 2 := pow_le_pow_left₀ hε.le (hne k (by omega)) 2
  have h4 := h2.trans h1
  rw [div_le_iff₀ (by positivity)] at h4
  refine (h3.trans h4).trans_eq ?_
  field_simp

theorem sampleHessian_hvp (x : Pt 2) : sampleObjective.hvp (efin 0) (efin x) = efin (sampleHessian x) := by
  funext i; fin_cases i <;> simp [sampleObjective, sampleHessian, efin]

/-- The indefinite Hessian `diag(1, -1)` in a region of radius 1. -/
example : ∃ p : Pt 2, (steihaug (efin !₂[1, 2]) (fun v i => if i = 0 then v 0 else -v 1) (fin 1) (fin (1/100)) none).p = efin p ∧
    p ∈ krylov !₂[1, 2] (Matrix.toEuclideanLin !![1, 0; 0, -1])
      (steihaug (efin !₂[1, 2]) (fun v i => if i = 0 then v 0 else -v 1) (fin 1) (fin (1/100)) none).iter_num := by
  have h := C145_krylov 1 (1/100) one_pos (by norm_num) (fun v i => if i = 0 then v 0 else -v 1)
    (Matrix.toEuclideanLin !![1, 0; 0, -1]) (fun x => ?_) (fun x y => ?_) !₂[1, 2] none
  · obtain ⟨p, h1, h2, -⟩ := h
    exact ⟨p, h1, h2⟩
  · funext i
    fin_cases i <;> simp [efin, Matrix.toLpLin_apply, dotProduct, Fin.sum_univ_two]
  · simp [PiLp.inner_apply, Fin.sum_univ_two, Matrix.toLpLin_apply, dotProduct]

/-- The Hessian `diag(2, 6)` with the condition number 3: with the relative tolerance `1/100` at most 29 iterations. -/
example (g : Pt 2) (hg : g ≠ 0) (Δ : ℝ) (hΔ : 0 < Δ) :
    (steihaug (efin g) (sampleObjective.hvp (efin 0)) (fin Δ) (fin (1/100 * ‖g‖)) none).iter_num ≤ 29 := by
  have hg0 : 0 < ‖g‖ := norm_pos_iff.mpr hg
  by_contra h
  push Not at h
  obtain ⟨k, hk⟩ := Nat.exists_eq_succ_of_ne_zero (by omega : (steihaug (efin g) (sampleObjective.hvp (efin 0)) (fin Δ)
    (fin (1/100 * ‖g‖)) none).iter_num ≠ 0)
  have := C145_rate Δ (1/100 * ‖g‖) hΔ (by positivity) _ sampleHessian sampleHessian_hvp
    (fun x y => sampleObjective_contract.symm 0 x y) (l := 2) (b := 6) two_pos (by norm_num) (fun v => ?_) (fun v => ?_)
    g none k hk
  · have h1 : ((1 : ℝ) - 2 / 6) ^ k ≤ (1 - 2 / 6) ^ 29 :=
      pow_le_pow_of_le_one (by norm_num) (by norm_num) (by omega)
    have h2 : (1/100 * ‖g‖) ^ 2 ≤ 6 / 2 * (1 - 2 / 6) ^ 29 * ‖g‖ ^ 2 := this.trans (by gcongr)
    have h3 : 0 < ‖g‖ ^ 2 := by positivity
    norm_num at h2
    nlinarith
  · simp only [sampleHessian, PiLp.inner_apply, Fin.sum_univ_two, EuclideanSpace.norm_sq_eq, LinearMap.coe_mk,
      AddHom.coe_mk]
    simp
    nlinarith [sq_nonneg (v 0), sq_nonneg (v 1)]
  · simp only [sampleHessian, PiLp.inner_apply, Fin.sum_univ_two, EuclideanSpace.norm_sq_eq, LinearMap.coe_mk,
      AddHom.coe_mk]
    simp
    nlinarith [sq_nonneg (v 0), sq_nonneg (v 1)]

end

end Verif
