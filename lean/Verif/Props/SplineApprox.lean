import Verif.Props.SplineSmooth
import Mathlib.Topology.UniformSpace.HeineCantor
import Mathlib.Topology.Order.ProjIcc
import Mathlib.Analysis.SpecialFunctions.Pow.Continuity

/-! # C141: spline activations approximate every continuous function -/

namespace Verif

open XR Set

section
variable {m : ℕ} (x : ℝ) (t : Fin m → ℝ) (ht : Monotone t) (k : ℕ) (hk : k + 1 ≤ m)
  (h1 : t ⟨k, by omega⟩ ≤ x) (h2 : x < t ⟨m - 1 - k, by omega⟩)
include ht h1 h2

/-- The values of a spline are averages: the error of a spline is at most the error of its coefficients near the point. -/
theorem spline_average (c : Fin (m - k - 1) → ℝ) (v ε : ℝ)
    (hc : ∀ i : Fin (m - k - 1), t ⟨i, by omega⟩ ≤ x → x ≤ t ⟨i + k + 1, by omega⟩ → |c i - v| ≤ ε) :
    ∃ s : ℝ, ∑ i, splineBasis (fin x) (vfin t) k i * fin (c i) = fin s ∧ |s - v| ≤ ε := by
  choose b hb hb0 hbl hbr using fun i => C73_basis x t ht k i
  have hp := C74_partition x t ht k hk h1 h2
  rw [Finset.sum_congr rfl fun i _ => hb i, fin_sum, fin_inj] at hp
  refine ⟨∑ i, b i * c i, ?_, ?_⟩
  · rw [← fin_sum]
    exact Finset.sum_congr rfl fun i _ => by rw [hb, fin_mul]
  · have e : ∑ i, b i * c i - v = ∑ i, b i * (c i - v) := by
      simp only [mul_sub, Finset.sum_sub_distrib, ← Finset.sum_mul, hp, one_mul]
    rw [e]
    refine (Finset.abs_sum_le_sum_abs _ _).trans ?_
    calc ∑ i, |b i * (c i - v)| ≤ ∑ i, b i * ε := ?_
      _ = ε := by rw [← Finset.sum_mul, hp, one_mul]
    refine Finset.sum_le_sum fun i _ => ?_
    rw [abs_mul, abs_of_nonneg (hb0 i)]
    by_cases hl : t ⟨i, by omega⟩ ≤ x
    · by_cases hr : x ≤ t ⟨i + k + 1, by omega⟩
      · exact mul_le_mul_of_nonneg_left (hc i hl hr) (hb0 i)
      · rw [hbr i (not_le.mp hr).le, zero_mul, zero_mul]
    · rw [hbl i (not_le.mp hl), zero_mul, zero_mul]

/-- **C141, error**. If every coefficient is a value of `f` at a point of the support of its basis function, and the supports are
not longer than `h`, then the error is at most the variation of `f` over the distance `h`. -/
theorem C141_error (f : ℝ → ℝ) (ξ : Fin (m - k - 1) → ℝ)
    (hξ : ∀ i : Fin (m - k - 1), t ⟨i, by omega⟩ ≤ ξ i ∧ ξ i ≤ t ⟨i + k + 1, by omega⟩) (h ε : ℝ)
    (hh : ∀ i : Fin (m - k - 1), t ⟨i + k + 1, by omega⟩ - t ⟨i, by omega⟩ ≤ h)
    (hf : ∀ y, |y - x| ≤ h → |f y - f x| ≤ ε) :
    ∃ s : ℝ, ∑ i, splineBasis (fin x) (vfin t) k i * fin (f (ξ i)) = fin s ∧ |s - f x| ≤ ε := by
  refine spline_average x t ht k hk h1 h2 (fun i => f (ξ i)) (f x) ε fun i hl hr => hf _ ?_
  have := hh i
  have := hξ i
  rw [abs_le]
  constructor <;> linarith

/-- **C141, second order**. With the values of `f` at the averages of the inner knots as coefficients, the error is at most
`M / 2 * h ^ 2`, where `M` bounds the second derivative. -/
theorem C141_second_order (hk1 : 1 ≤ k) (f : ℝ → ℝ) (f' M h : ℝ)
    (hh : ∀ i : Fin (m - k - 1), t ⟨i + k + 1, by omega⟩ - t ⟨i, by omega⟩ ≤ h)
    (hf : ∀ y, |y - x| ≤ h → |f y - f x - f' * (y - x)| ≤ M / 2 * (y - x) ^ 2) :
    ∃ s : ℝ, ∑ i, splineBasis (fin x) (vfin t) k i * fin (f ((∑ j : Fin k, t ⟨i + 1 + j, by omega⟩) / k)) = fin s ∧
      |s - f x| ≤ M / 2 * h ^ 2 := by
  set ξ : Fin (m - k - 1) → ℝ := fun i => (∑ j : Fin k, t ⟨i + 1 + j, by omega⟩) / k with hξ
  have hk0 : (0 : ℝ) < k := by exact_mod_cast hk1
  have hm : 0 < m := by omega
  have hbd : ∀ i : Fin (m - k - 1), t ⟨i, by omega⟩ ≤ ξ i ∧ ξ i ≤ t ⟨i + k + 1, by omega⟩ := by
    intro i
    constructor
    · rw [hξ, le_div_iff₀ hk0]
      have := Finset.card_nsmul_le_sum (Finset.univ : Finset (Fin k)) (fun j => t ⟨i + 1 + j, by omega⟩)
        (t ⟨i, by omega⟩) fun j _ => ht (by rw [Fin.mk_le_mk]; omega)
      simpa [mul_comm] using this
    · rw [hξ, div_le_iff₀ hk0]
      have := Finset.sum_le_card_nsmul (Finset.univ : Finset (Fin k)) (fun j => t ⟨i + 1 + j, by omega⟩)
        (t ⟨i + k + 1, by omega⟩) fun j _ => ht (by rw [Fin.mk_le_mk]; omega)
      simpa [mul_comm] using this
  have hlin := C116_linear x t ht k hk h1 h2 hk1
  have hp := C74_partition x t ht k hk h1 h2
  have hM : 0 ≤ M / 2 * h ^ 2 ∨ IsEmpty (Fin (m - k - 1)) := by
    by_cases he : IsEmpty (Fin (m - k - 1))
    · exact Or.inr he
    · left
      rw [not_isEmpty_iff] at he
      obtain ⟨i⟩ := he
      have h0 : 0 ≤ h := le_trans (sub_nonneg.2 (ht (by rw [Fin.mk_le_mk]; omega))) (hh i)
      have := hf (x + h) (by rw [add_sub_cancel_left, abs_of_nonneg h0])
      have := (abs_nonneg _).trans this
      simpa using this
  obtain ⟨s, hs, hle⟩ := spline_average x t ht k hk h1 h2 (fun i => f (ξ i) - f' * (ξ i - x)) (f x) (M / 2 * h ^ 2) (by
    intro i hl hr
    have hi := hh i
    have hb := hbd i
    have hd : |ξ i - x| ≤ h := by rw [abs_le]; constructor <;> linarith
    have := hf (ξ i) hd
    rw [show f (ξ i) - f' * (ξ i - x) - f x = f (ξ i) - f x - f' * (ξ i - x) by ring]
    refine this.trans ?_
    rcases eq_or_ne ((ξ i - x) ^ 2) 0 with hz | hz
    · rw [hz, mul_zero]
      rcases hM with hM | hM
      · exact hM
      · exact (hM.false i).elim
    · have hpos : 0 < (ξ i - x) ^ 2 := lt_of_le_of_ne (sq_nonneg _) (Ne.symm hz)
      have hM2 : 0 ≤ M / 2 := by
        by_contra hneg
        have := (abs_nonneg _).trans this
        nlinarith
      have : (ξ i - x) ^ 2 ≤ h ^ 2 := sq_le_sq' (by linarith [(abs_le.1 hd).1]) (abs_le.1 hd).2
      gcongr)
  refine ⟨s, ?_, hle⟩
  rw [← hs]
  rw [Finset.sum_congr rfl fun i _ => by rw [splineBasis_fin x t k i hm, fin_mul], fin_sum, fin_inj] at hlin
  rw [Finset.sum_congr rfl fun i _ => by rw [splineBasis_fin x t k i hm], fin_sum, fin_inj] at hp
  have hsum : ∀ c : Fin (m - k - 1) → ℝ, ∑ i, splineBasis (fin x) (vfin t) k i * fin (c i) =
      fin (∑ i : Fin (m - k - 1), bspline x (clampReal hm t) k i * c i) := by
    intro c
    rw [← fin_sum]
    exact Finset.sum_congr rfl fun i _ => by rw [splineBasis_fin x t k i hm, fin_mul]
  rw [hsum, hsum fun i => f (ξ i) - f' * (ξ i - x), fin_inj]
  have e : ∀ i : Fin (m - k - 1), bspline x (clampReal hm t) k i * (f (ξ i) - f' * (ξ i - x)) =
      bspline x (clampReal hm t) k i * f (ξ i) - f' * (bspline x (clampReal hm t) k i * ξ i -
        bspline x (clampReal hm t) k i * x) := fun i => by ring
  rw [Finset.sum_congr rfl fun i _ => e i, Finset.sum_sub_distrib, ← Finset.mul_sum, Finset.sum_sub_distrib, hlin,
    ← Finset.sum_mul, hp]
  ring

end

theorem signedPow_continuous {p : ℝ} (hp : 0 < p) : Continuous (signedPow p) := by
  have e : signedPow p = fun t => (max t 0) ^ p - (max (-t) 0) ^ p := by
    funext t
    rcases le_total 0 t with h | h
    · rw [signedPow_of_nonneg hp h, max_eq_left h, max_eq_right (by linarith), Real.zero_rpow hp.ne', sub_zero]
    · have := signedPow_neg p (-t)
      rw [neg_neg] at this
      rw [this, signedPow_of_nonneg hp (by linarith), max_eq_right h, max_eq_left (by linarith), Real.zero_rpow hp.ne',
        zero_sub]
  rw [e]
  exact ((continuous_id.max continuous_const).rpow_const fun _ => Or.inr hp.le).sub
    ((continuous_neg.max continuous_const).rpow_const fun _ => Or.inr hp.le)

/-- The distance of knots of `make_grid` with a fixed difference of their indices tends to zero. -/
theorem makeGrid_mesh (start stop power : ℝ) (hs : start < stop) (hp : 0 < power) (r : ℕ) {δ : ℝ} (hδ : 0 < δ) :
    ∃ N : ℕ, 2 ≤ N ∧ ∀ num, N ≤ num → ∀ t : Fin num → ℝ, makeGrid start stop power num = vfin t →
      ∀ i j : Fin num, (i : ℕ) ≤ j → (j : ℕ) ≤ i + r → t j - t i < δ := by
  have huc := (isCompact_Icc (a := (-1 : ℝ)) (b := 1)).uniformContinuousOn_of_continuous
    (signedPow_continuous hp).continuousOn
  rw [Metric.uniformContinuousOn_iff] at huc
  have hL : 0 < stop - start := by linarith
  obtain ⟨η, hη, huc⟩ := huc (2 * δ / (stop - start)) (by positivity)
  obtain ⟨N, hN⟩ := exists_nat_gt (2 * r / η + 1)
  refine ⟨max N 2, le_max_right _ _, fun num hnum t ht i j hij hjr => ?_⟩
  have hn2 : 2 ≤ num := (le_max_right _ _).trans hnum
  have hnN : (N : ℝ) ≤ num := by exact_mod_cast (le_max_left _ _).trans hnum
  have hn1 : (0 : ℝ) < (num : ℝ) - 1 := by
    have : (2 : ℝ) ≤ num := by exact_mod_cast hn2
    linarith
  have hti : ∀ i, t i = (signedPow power (-1 + (i : ℕ) * (2 / ((num : ℝ) - 1))) + 1) / 2 * (stop - start) + start := by
    intro i
    have := congrFun ht i
    rw [makeGrid_fin _ _ _ hp _ hn2, vfin_apply, fin_inj, abs_sub_comm, abs_of_pos hL] at this
    exact this.symm
  have hmem : ∀ i : Fin num, (-1 + (i : ℕ) * (2 / ((num : ℝ) - 1))) ∈ Icc (-1 : ℝ) 1 := by
    intro i
    have h0 : (0 : ℝ) ≤ (i : ℕ) * (2 / ((num : ℝ) - 1)) := by positivity
    have h1 : ((i : ℕ) : ℝ) ≤ num - 1 := by
      have : (i : ℕ) + 1 ≤ num := i.isLt
      have : ((i : ℕ) : ℝ) + 1 ≤ num := by exact_mod_cast this
      linarith
    have h2 : ((i : ℕ) : ℝ) * (2 / ((num : ℝ) - 1)) ≤ 2 := by
      rw [← mul_div_assoc, div_le_iff₀ hn1]
      linarith
    exact ⟨by linarith, by linarith⟩
  have hd := huc _ (hmem j) _ (hmem i) (by
    rw [Real.dist_eq, show -1 + ((j : ℕ) : ℝ) * (2 / ((num : ℝ) - 1)) - (-1 + ((i : ℕ) : ℝ) * (2 / ((num : ℝ) - 1))) =
      (((j : ℕ) : ℝ) - (i : ℕ)) * (2 / ((num : ℝ) - 1)) by ring]
    have h0 : ((i : ℕ) : ℝ) ≤ (j : ℕ) := by exact_mod_cast hij
    have h1 : ((j : ℕ) : ℝ) ≤ (i : ℕ) + r := by exact_mod_cast hjr
    rw [abs_of_nonneg (mul_nonneg (by linarith) (by positivity)), ← mul_div_assoc, div_lt_iff₀ hn1]
    have h2 : 2 * r / η < (num : ℝ) - 1 := by linarith
    rw [div_lt_iff₀ hη] at h2
    linarith)
  rw [Real.dist_eq] at hd
  rw [hti i, hti j]
  have := (abs_lt.1 hd).2
  rw [lt_div_iff₀ hL] at this
  linarith

/-- **C141, every continuous function**. Let `f` be continuous on an interval inside of the nodes. With enough nodes there are
coefficients for which the layer agrees with `f` up to `ε` on the whole interval – for every degree, every spacing of the grid and
every continuous activation. -/
theorem C141_dense (node_min node_max a b : ℝ) (ha : node_min < a) (hb : b < node_max) (degree : ℕ)
    (grid_power : ℝ) (hp : 0 < grid_power) (activation : ℝ → ℝ) (act : XR → XR) (hact : ∀ y, act (fin y) = fin (activation y))
    (hcont : ContinuousOn activation (Icc a b)) {d : ℕ} (f : Fin d → ℝ → ℝ) (hf : ∀ j, ContinuousOn (f j) (Icc a b))
    {ε : ℝ} (hε : 0 < ε) :
    ∃ N, ∀ nodes, N ≤ nodes → ∃ coefs : Fin d → Fin (nodes - degree - 1) → ℝ, ∀ x : Fin d → ℝ, (∀ j, x j ∈ Icc a b) →
      ∃ y : Fin d → ℝ, SplineActivation nodes node_min node_max degree grid_power act none (fun j => vfin (coefs j)) (vfin x) =
        vfin y ∧ ∀ j, |y j - f j (x j)| < ε := by
  rcases lt_or_ge b a with hab | hab
  · rcases Nat.eq_zero_or_pos d with rfl | hd
    · exact ⟨0, fun nodes _ => ⟨fun j => j.elim0, fun x _ => ⟨fun j => j.elim0, funext fun j => j.elim0, fun j => j.elim0⟩⟩⟩
    · refine ⟨0, fun nodes _ => ⟨fun _ _ => 0, fun x hx => ?_⟩⟩
      have := hx ⟨0, hd⟩
      exact absurd (this.1.trans this.2) (not_le.2 hab)
  have hs : node_min < node_max := by linarith
  -- the difference to the activation, extended by constants
  set g : Fin d → ℝ → ℝ := fun j => IccExtend hab (domRestrict (Icc a b) fun y => f j y - activation y) with hg
  have hguc : ∀ j, ∃ δ > 0, ∀ y z, |y - z| ≤ δ → |g j y - g j z| ≤ ε / 2 := by
    intro j
    have hc : ContinuousOn (fun y => f j y - activation y) (Icc a b) := (hf j).sub hcont
    have huc := (isCompact_Icc (a := a) (b := b)).uniformContinuousOn_of_continuous hc
    rw [Metric.uniformContinuousOn_iff] at huc
    obtain ⟨δ, hδ, huc⟩ := huc (ε / 2) (by linarith)
    refine ⟨δ / 2, by linarith, fun y z hyz => ?_⟩
    have hval : ∀ y, g j y = f j (projIcc a b hab y) - activation (projIcc a b hab y) := fun y => rfl
    rw [hval, hval]
    have := huc _ (projIcc a b hab y).2 _ (projIcc a b hab z).2 (by
      rw [Real.dist_eq]
      refine lt_of_le_of_lt (abs_projIcc_sub_projIcc hab) (by linarith))
    rw [Real.dist_eq] at this
    exact this.le
  choose δ hδ hδg using hguc
  obtain ⟨δ₀, hδ₀, hle⟩ : ∃ δ₀ > 0, ∀ j, δ₀ ≤ δ j := by
    rcases Nat.eq_zero_or_pos d with rfl | hd
    · exact ⟨1, one_pos, fun j => j.elim0⟩
    · have : Nonempty (Fin d) := ⟨⟨0, hd⟩⟩
      obtain ⟨j, hj⟩ := Finite.exists_min δ
      exact ⟨δ j, hδ j, hj⟩
  obtain ⟨N, hN2, hN⟩ := makeGrid_mesh node_min node_max grid_power hs hp (degree + 1)
    (δ := min δ₀ (min (a - node_min) (node_max - b))) (by
      refine lt_min hδ₀ (lt_min ?_ ?_) <;> linarith)
  refine ⟨max N (degree + 1), fun nodes hnodes => ?_⟩
  have hn2 : 2 ≤ nodes := hN2.trans ((le_max_left _ _).trans hnodes)
  have hnd : degree + 1 ≤ nodes := (le_max_right _ _).trans hnodes
  obtain ⟨t, ht, hmono, h0, h1, -⟩ := C75_grid node_min node_max grid_power hs hp nodes hn2
  have hmesh := hN nodes ((le_max_left _ _).trans hnodes) t ht
  refine ⟨fun j i => g j (t ⟨i, by omega⟩), fun x hx => ?_⟩
  have hlow : ∀ j, t ⟨degree, by omega⟩ ≤ x j := by
    intro j
    have h := hmesh ⟨0, by omega⟩ ⟨degree, by omega⟩ (Nat.zero_le _) (by simp)
    rw [h0] at h
    have h' := h.trans_le ((min_le_right _ _).trans (min_le_left _ _))
    have := (hx j).1
    linarith
  have hhigh : ∀ j, x j < t ⟨nodes - 1 - degree, by omega⟩ := by
    intro j
    have h := hmesh ⟨nodes - 1 - degree, by omega⟩ ⟨nodes - 1, by omega⟩ (by simp) (by simp; omega)
    rw [h1] at h
    have h' := h.trans_le ((min_le_right _ _).trans (min_le_right _ _))
    have := (hx j).2
    linarith
  have hsp := fun j => C141_error (x j) t hmono.monotone degree hnd (hlow j) (hhigh j) (g j) (fun i => t ⟨i, by omega⟩)
    (fun i => ⟨le_rfl, hmono.monotone (by rw [Fin.mk_le_mk]; omega)⟩) δ₀ (ε / 2)
    (fun i => ((hmesh _ _ (by simp only; omega) (by simp only; omega)).trans_le (min_le_left _ _)).le)
    (fun y hy => hδg j y (x j) (hy.trans (hle j)))
  choose s hs hse using hsp
  refine ⟨fun j => activation (x j) + s j, ?_, fun j => ?_⟩
  · simp only [SplineActivation, ht]
    funext j
    simp only [splineActivation, vfin_apply, hact]
    rw [hs j, fin_add]
  · have e : g j (x j) = f j (x j) - activation (x j) := IccExtend_of_mem hab _ (hx j)
    have := hse j
    rw [e] at this
    have h2 : activation (x j) + s j - f j (x j) = s j - (f j (x j) - activation (x j)) := by ring
    rw [h2]
    linarith

/-- The default layer (`sin` as activation) approximates `|x|` on `[-2, 2]`. -/
example : ∃ N, ∀ nodes, N ≤ nodes → ∃ coefs : Fin 1 → Fin (nodes - 3 - 1) → ℝ, ∀ x : Fin 1 → ℝ, (∀ j, x j ∈ Icc (-2 : ℝ) 2) →
    ∃ y : Fin 1 → ℝ, SplineActivation nodes (-3) 3 3 2 XR.sin none (fun j => vfin (coefs j)) (vfin x) =
      vfin y ∧ ∀ j, abs (y j - |x j|) < 1 / 1000 :=
  C141_dense (-3) 3 (-2) 2 (by norm_num) (by norm_num) 3 2 two_pos Real.sin XR.sin (fun _ => rfl)
    Real.continuous_sin.continuousOn (fun _ y => |y|) (fun _ => continuous_abs.continuousOn) (by norm_num)

/-- The square on equidistant nodes with the distance one, quadratic splines: the error is at most nine. -/
example : ∃ s : ℝ, ∑ i, splineBasis (fin (5 / 2)) (vfin fun i : Fin 7 => ((i : ℕ) : ℝ)) 2 i *
    fin (((∑ j : Fin 2, (((i : ℕ) + 1 + j : ℕ) : ℝ)) / (2 : ℕ)) ^ 2) = fin s ∧ |s - (5 / 2) ^ 2| ≤ 2 / 2 * 3 ^ 2 :=
  C141_second_order (5 / 2) (fun i : Fin 7 => ((i : ℕ) : ℝ)) (fun i j h => Nat.cast_le.2 h) 2 (by norm_num)
    (by norm_num) (by norm_num) (by norm_num) (fun y => y ^ 2) 5 2 3 (fun i => by push_cast; linarith) (fun y _ => by
      rw [show y ^ 2 - (5 / 2 : ℝ) ^ 2 - 5 * (y - 5 / 2) = (y - 5 / 2) ^ 2 by ring, abs_of_nonneg (sq_nonneg _)]
      linarith)

end Verif
