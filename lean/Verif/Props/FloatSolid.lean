import Verif.Props.FloatSphere
import Verif.Props.FloatCsg

/-! # Property C156, continued: solids of balls in floating point arithmetic (`/repo/magpi/r_fun.py`) -/

namespace Verif

open XR

/-- Solids built from balls by the set operations of `r0`, all in floating point arithmetic. Let the exact value of each ball at the
point `x` be at least twice the bound of its error and in the range between `2^(k+1)` and `2^(l-1)`. Then the computed value of the solid
is finite; if it is positive `x` belongs to the solid, if it is negative `x` does not. -/
theorem C156_solids {ι : Type*} {n : ℕ} {F : Fmt} (hp : 4 ≤ F.p) (hF : F.emin + 2 * F.p ≤ 2) (k l : ℤ) (hkl : k ≤ l) (x : Pt n)
    (hx : ∀ i, F.Rep (x i)) (c : ι → Pt n) (hc : ∀ j i, F.Rep (c j i)) (hxc : ∀ j i, |x i - c j i| ≤ 2 ^ F.emax) (r : ι → ℝ)
    (hr : ∀ j, SphereRange F (n + 7) n (r j) (‖x - c j‖ ^ 2))
    (herr : ∀ j, 2 * sphereErr F (n + 7) n (r j) (‖x - c j‖ ^ 2) ≤ |r j ^ 2 - ‖x - c j‖ ^ 2| / (2 * r j))
    (hlow : ∀ j, (2 : ℝ) ^ (k + 1) ≤ |r j ^ 2 - ‖x - c j‖ ^ 2| / (2 * r j))
    (hhigh : ∀ j, |r j ^ 2 - ‖x - c j‖ ^ 2| / (2 * r j) ≤ 2 ^ (l - 1))
    (leaf : ι → ADF n) (hleaf : ∀ j, TranslateFl F (SphereFl F (fin (r j))) (efin (c j)) (efin x) (leaf j (efin x))) (e : SetExpr ι)
    (hk : F.emin + (F.p - 1) ≤ 2 * (k - F.p * e.levels)) (hl : 2 * (l + 2 * e.levels) + 3 ≤ F.emax) :
    ∃ v : ℝ, e.build (RAlpha.sysFl F 0) leaf (efin x) = fin v ∧
      (0 < v → e.mem fun j => x ∈ Metric.ball (c j) (r j)) ∧ (v < 0 → ¬ e.mem fun j => x ∈ Metric.ball (c j) (r j)) := by
  choose V hV hrep hclose hsign using fun j => C156_translated hF x (c j) hx (hc j) (hxc j) (hr j) (hleaf j)
  have hpos : ∀ j, 0 < |r j ^ 2 - ‖x - c j‖ ^ 2| / (2 * r j) := fun j => lt_of_lt_of_le (by positivity) (hlow j)
  have hr0 : ∀ j, 0 < r j := fun j => (hr j).1
  have hex : ∀ j, |(r j ^ 2 - ‖x - c j‖ ^ 2) / (2 * r j)| = |r j ^ 2 - ‖x - c j‖ ^ 2| / (2 * r j) := fun j => by
    rw [abs_div, abs_of_pos (show 0 < 2 * r j by linarith [hr0 j])]
  have hrange : ∀ j, InRange F k l (V j) := fun j => by
    have h1 := abs_sub_abs_le_abs_sub ((r j ^ 2 - ‖x - c j‖ ^ 2) / (2 * r j)) (V j)
    rw [abs_sub_comm, hex j] at h1
    have h2 := abs_sub_abs_le_abs_sub (V j) ((r j ^ 2 - ‖x - c j‖ ^ 2) / (2 * r j))
    rw [hex j] at h2
    have h3 := herr j
    have h4 := hlow j
    have h5 := hhigh j
    have h6 := hclose j
    have h7 := hpos j
    rw [zpow_add_one₀ (by norm_num)] at h4
    have h8 : (2 : ℝ) ^ l = 2 * 2 ^ (l - 1) := by rw [← zpow_one_add₀ (by norm_num)]; congr 1; ring
    exact ⟨hrep j, Or.inr (by linarith), by rw [h8]; linarith⟩
  have hmem : ∀ j, 0 < V j ↔ x ∈ Metric.ball (c j) (r j) := fun j => by
    have h1 := hsign j (by have := herr j; have := hpos j; linarith)
    rw [Metric.mem_ball, dist_eq_norm]
    refine ⟨fun h => ?_, h1.1⟩
    rcases lt_trichotomy ‖x - c j‖ (r j) with h2 | h2 | h2
    · exact h2
    · have := hpos j
      rw [h2] at this
      simp at this
    · exact absurd (h1.2 h2) (not_lt.mpr h.le)
  obtain ⟨v, h1, -, -, h2⟩ := C140_csg F hp k l leaf (efin x) V hV hrange hkl e hk hl
  have hne : ∀ j, V j ≠ 0 := fun j => by
    rcases (hrange j).small with h | h
    · have h3 := hclose j
      have h4 := herr j
      have h5 := hpos j
      rw [h, zero_sub, abs_neg, hex j] at h3
      linarith
    · intro h0
      rw [h0, abs_zero] at h
      exact absurd h (not_le.mpr (by positivity))
  have h3 := h2 hne
  simp only [hmem] at h3
  exact ⟨v, h1, h3⟩

/-- A disk of radius `2` around the origin without a disk of radius `1` around `(4, 0)`, in single precision at the point `(1, 0)`. -/
example (leaf : Fin 2 → ADF 2)
    (hleaf : ∀ j : Fin 2, TranslateFl Fmt.single (SphereFl Fmt.single (fin ((![2, 1] : Fin 2 → ℝ) j))) (efin ((![!₂[0, 0], !₂[4, 0]] : Fin 2 → Pt 2) j))
      (efin (!₂[1, 0] : Pt 2)) (leaf j (efin (!₂[1, 0] : Pt 2)))) :
    ∃ v : ℝ, (SetExpr.diff (.leaf 0) (.leaf 1)).build (RAlpha.sysFl Fmt.single 0) leaf (efin (!₂[1, 0] : Pt 2)) = fin v ∧ ¬ v < 0 := by
  have hd : ∀ j : Fin 2, ‖(!₂[1, 0] : Pt 2) - (![!₂[0, 0], !₂[4, 0]] : Fin 2 → Pt 2) j‖ = (![1, 3] : Fin 2 → ℝ) j := by
    intro j
    rw [EuclideanSpace.norm_eq, Fin.sum_univ_two]
    fin_cases j
    · rw [Real.sqrt_eq_iff_mul_self_eq (by positivity) (by norm_num)]
      show ‖(1 - 0 : ℝ)‖ ^ 2 + ‖(0 - 0 : ℝ)‖ ^ 2 = 1 * 1
      norm_num
    · rw [Real.sqrt_eq_iff_mul_self_eq (by positivity) (by norm_num)]
      show ‖(1 - 4 : ℝ)‖ ^ 2 + ‖(0 - 0 : ℝ)‖ ^ 2 = 3 * 3
      norm_num
  have h0 : Fmt.single.Rep 0 := Fmt.single.rep_zero
  have h1 : Fmt.single.Rep 1 := ⟨1, 0, by norm_num [Fmt.single], by decide, by norm_num⟩
  have h2 : Fmt.single.Rep 2 := ⟨1, 1, by norm_num [Fmt.single], by decide, by norm_num⟩
  have h4 : Fmt.single.Rep 4 := ⟨1, 2, by norm_num [Fmt.single], by decide, by norm_num⟩
  obtain ⟨v, e1, -, e2⟩ := C156_solids (F := Fmt.single) (by decide) (by decide) (-10) 20 (by norm_num) (!₂[1, 0] : Pt 2)
    (fun i => by fin_cases i <;> [exact h1; exact h0]) ![!₂[0, 0], !₂[4, 0]]
    (fun j i => by fin_cases j <;> fin_cases i <;> [exact h0; exact h0; exact h4; exact h0])
    (fun j i => by
      refine le_trans (b := (2 : ℝ) ^ (2 : ℤ)) ?_ (zpow_le_zpow_right₀ (by norm_num) (by decide))
      fin_cases j <;> fin_cases i <;> norm_num [abs_of_neg]) ![2, 1]
    (fun j => by
      rw [hd j]
      fin_cases j
      · refine ⟨by norm_num, h2, ?_, ?_⟩ <;> simp only [Fmt.single] <;> norm_num
      · refine ⟨by norm_num, h1, ?_, ?_⟩ <;> simp only [Fmt.single] <;> norm_num)
    (fun j => by
      rw [hd j, sphereErr]
      fin_cases j <;> simp only [Fmt.single] <;> norm_num [abs_of_pos, abs_of_neg])
    (fun j => by rw [hd j]; fin_cases j <;> norm_num [abs_of_pos, abs_of_neg])
    (fun j => by rw [hd j]; fin_cases j <;> norm_num [abs_of_pos, abs_of_neg]) leaf hleaf (.diff (.leaf 0) (.leaf 1)) (by decide) (by decide)
  refine ⟨v, e1, fun hv => e2 hv ?_⟩
  simp only [SetExpr.mem, Metric.mem_ball, dist_eq_norm, hd]
  norm_num

end Verif
