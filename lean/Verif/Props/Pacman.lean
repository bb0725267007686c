import Verif.Model.Notebooks
import Verif.Props.RSystems
import Verif.Props.Shapes
import Verif.Props.Transforms
import Verif.Lemmas.Steihaug

/-! # C162: the solid of `pacman.ipynb` -/

namespace Verif

open XR

theorem SignLaw.or_pos {conj disj : XR → XR → XR} (h : SignLaw conj disj) (a b : ℝ) :
    ∃ c : ℝ, disj (fin a) (fin b) = fin c ∧ (0 < c ↔ 0 < a ∨ 0 < b) ∧ (0 ≤ c ↔ 0 ≤ a ∨ 0 ≤ b) := by
  obtain ⟨c, h1, h2⟩ := h.or_sign a b
  refine ⟨c, h1, ?_, ?_⟩
  · rw [← sign_eq_one_iff, h2, ← sign_eq_one_iff (a := a), ← sign_eq_one_iff (a := b)]
    generalize SignType.sign a = s
    generalize SignType.sign b = t
    revert s t
    decide
  · rw [← sign_nonneg_iff, h2, ← sign_nonneg_iff (a := a), ← sign_nonneg_iff (a := b)]
    exact le_max_iff

theorem SignLaw.and_pos {conj disj : XR → XR → XR} (h : SignLaw conj disj) (a b : ℝ) :
    ∃ c : ℝ, conj (fin a) (fin b) = fin c ∧ (0 < c ↔ 0 < a ∧ 0 < b) ∧ (0 ≤ c ↔ 0 ≤ a ∧ 0 ≤ b) := by
  obtain ⟨c, h1, h2⟩ := h.and_sign a b
  refine ⟨c, h1, ?_, ?_⟩
  · rw [← sign_eq_one_iff, h2, ← sign_eq_one_iff (a := a), ← sign_eq_one_iff (a := b)]
    generalize SignType.sign a = s
    generalize SignType.sign b = t
    revert s t
    decide
  · rw [← sign_nonneg_iff, h2, ← sign_nonneg_iff (a := a), ← sign_nonneg_iff (a := b)]
    exact le_min_iff

theorem ball_sign {n : ℕ} {r : ℝ} (hr : 0 < r) (y x : Pt n) : ∃ c : ℝ, translate (sphere (fin r)) (efin y) (efin x) = fin c ∧
    (0 < c ↔ ‖x - y‖ < r) ∧ (0 ≤ c ↔ ‖x - y‖ ≤ r) := by
  obtain ⟨c, h1, h2⟩ := (C12_sphere_cylinder n r hr).1 (x - y)
  refine ⟨c, ?_, ?_, ?_⟩
  · rw [← h1, translate]
    congr 1
  · rw [← sign_eq_one_iff, h2, sign_eq_one_iff, sub_pos]
  · rw [← sign_nonneg_iff, h2, sign_nonneg_iff, sub_nonneg]

theorem halfSpace_fin (b : ℝ) (x : Pt 3) : ∃ c : ℝ, Pacman.halfSpace ![1, 0, fin b] (efin x) = fin c ∧
    (0 < c ↔ 0 < x 0 + b * x 2) ∧ (0 ≤ c ↔ 0 ≤ x 0 + b * x 2) := by
  have e : (![1, 0, fin b] : Vec 3) = efin !₂[1, 0, b] := by
    funext i
    fin_cases i <;> simp [efin, one_eq, zero_eq]
  have hn : 0 < ‖(!₂[1, 0, b] : Pt 3)‖ := by
    rw [norm_pos_iff]
    intro h
    simpa using congrArg (fun z : Pt 3 => z 0) h
  refine ⟨(x 0 + b * x 2) / ‖(!₂[1, 0, b] : Pt 3)‖, ?_, by rw [div_pos_iff_of_pos_right hn], by rw [le_div_iff₀ hn, zero_mul]⟩
  have e2 : unitVector (efin !₂[1, 0, b]) = vfin fun i => (!₂[1, 0, b] : Pt 3) i / ‖(!₂[1, 0, b] : Pt 3)‖ := by
    funext i
    rw [unitVector, vnorm_efin']
    exact fin_div _ hn.ne'
  rw [Pacman.halfSpace, e, e2, show efin x = vfin x.ofLp from rfl, vdot_fin]
  congr 1
  simp [Fin.sum_univ_three]
  ring

/-- **C162.** The function of `pacman.ipynb` is finite everywhere. It is positive exactly in the open ball without the closed wedge
of the mouth and in the four open balls of the eyes and the food, and it is not negative exactly in the closed ball without
the open wedge and in the four closed balls. -/
theorem C162_pacman (S : RFun) (hS : r0 = .ok S) (x : Pt 3) : ∃ c : ℝ, Pacman.pacman S (efin x) = fin c ∧
    (0 < c ↔ (‖x‖ < 1 ∧ x 0 < 1.8 * |x 2|) ∨ ‖x - !₂[0.4, -0.5, 0.6]‖ < 0.25 ∨ ‖x - !₂[0.4, 0.5, 0.6]‖ < 0.25 ∨
      ‖x - !₂[1, 0, 0]‖ < 0.15 ∨ ‖x - !₂[2, 0, 0]‖ < 0.15) ∧
    (0 ≤ c ↔ (‖x‖ ≤ 1 ∧ x 0 ≤ 1.8 * |x 2|) ∨ ‖x - !₂[0.4, -0.5, 0.6]‖ ≤ 0.25 ∨ ‖x - !₂[0.4, 0.5, 0.6]‖ ≤ 0.25 ∨
      ‖x - !₂[1, 0, 0]‖ ≤ 0.15 ∨ ‖x - !₂[2, 0, 0]‖ ≤ 0.15) := by
  have hL := (C01_ralpha_sign_law 0).1 S hS
  obtain ⟨a1, e1, p1, q1⟩ := halfSpace_fin (-1.8) x
  obtain ⟨a2, e2, p2, q2⟩ := halfSpace_fin 1.8 x
  obtain ⟨m, em, pm, qm⟩ := hL.and_pos a1 a2
  obtain ⟨b, eb, pb, qb⟩ := ball_sign one_pos 0 x
  obtain ⟨d, ed, pd, qd⟩ := hL.and_pos b (-m)
  obtain ⟨l, el, pl, ql⟩ := ball_sign (r := 0.25) (by norm_num) !₂[0.4, -0.5, 0.6] x
  obtain ⟨r, er, pr, qr⟩ := ball_sign (r := 0.25) (by norm_num) !₂[0.4, 0.5, 0.6] x
  obtain ⟨f, ef, pf, qf⟩ := ball_sign (r := 0.15) (by norm_num) !₂[1, 0, 0] x
  obtain ⟨g, eg, pg, qg⟩ := ball_sign (r := 0.15) (by norm_num) !₂[2, 0, 0] x
  obtain ⟨c1, h1, i1, j1⟩ := hL.or_pos d l
  obtain ⟨c2, h2, i2, j2⟩ := hL.or_pos c1 r
  obtain ⟨c3, h3, i3, j3⟩ := hL.or_pos c2 f
  obtain ⟨c4, h4, i4, j4⟩ := hL.or_pos c3 g
  have k : ∀ a b c : ℝ, (![fin a, fin b, fin c] : Vec 3) = efin !₂[a, b, c] := by
    intro a b c
    funext i
    fin_cases i <;> rfl
  have hb : sphere (fin 1) (efin x) = fin b := by
    rw [← eb, translate]
    congr 1
    funext i
    simp [efin, fin_sub]
  have hm : Pacman.mouth S (efin x) = fin m := by
    rw [← em, ← e1, ← e2]
    rfl
  refine ⟨c4, ?_, ?_, ?_⟩
  · simp only [Pacman.pacman, RFun.union, RFun.disjADF, RFun.difference, Pacman.leftEye, Pacman.rightEye, hb, hm, fin_neg, ed,
      k, el, er, one_eq, zero_eq, ef, h1, h2, h3]
    rw [show (2 : XR) = fin 2 from rfl, k, eg, h4]
  · rw [i4, i3, i2, i1, pd, pb, pl, pr, pf, pg, sub_zero, neg_pos, ← not_le (a := 0) (b := m), qm, q1, q2]
    have : (¬(0 ≤ x 0 + -1.8 * x 2 ∧ 0 ≤ x 0 + 1.8 * x 2)) ↔ x 0 < 1.8 * |x 2| := by
      rw [not_and_or, not_le, not_le]
      rcases abs_cases (x 2) with ⟨h, h'⟩ | ⟨h, h'⟩ <;> rw [h] <;> constructor <;> intro hh
      · rcases hh with hh | hh <;> linarith
      · left; linarith
      · rcases hh with hh | hh <;> linarith
      · right; linarith
    rw [this, or_assoc, or_assoc, or_assoc]
  · rw [j4, j3, j2, j1, qd, qb, ql, qr, qf, qg, sub_zero, neg_nonneg, ← not_lt (a := 0) (b := m), pm, p1, p2]
    have : (¬(0 < x 0 + -1.8 * x 2 ∧ 0 < x 0 + 1.8 * x 2)) ↔ x 0 ≤ 1.8 * |x 2| := by
      rw [not_and_or, not_lt, not_lt]
      rcases abs_cases (x 2) with ⟨h, h'⟩ | ⟨h, h'⟩ <;> rw [h] <;> constructor <;> intro hh
      · rcases hh with hh | hh <;> linarith
      · left; linarith
      · rcases hh with hh | hh <;> linarith
      · right; linarith
    rw [this, or_assoc, or_assoc, or_assoc]

/-- The middle of the mouth is outside, the back of the head inside. -/
example (S : RFun) (hS : r0 = .ok S) : (∃ c : ℝ, Pacman.pacman S (efin !₂[0.5, 0, 0]) = fin c ∧ c < 0) ∧
    ∃ c : ℝ, Pacman.pacman S (efin !₂[-0.5, 0, 0]) = fin c ∧ 0 < c := by
  have n : ∀ a b c : ℝ, ‖(!₂[a, b, c] : Pt 3)‖ = Real.sqrt (a ^ 2 + b ^ 2 + c ^ 2) := by
    intro a b c
    simp [EuclideanSpace.norm_eq, Fin.sum_univ_three]
  have d : ∀ a b c a' b' c' : ℝ, (!₂[a, b, c] : Pt 3) - !₂[a', b', c'] = !₂[a - a', b - b', c - c'] := by
    intro a b c a' b' c'
    ext i
    fin_cases i <;> simp
  refine ⟨?_, ?_⟩
  · obtain ⟨c, h1, -, h2⟩ := C162_pacman S hS !₂[0.5, 0, 0]
    refine ⟨c, h1, not_le.mp fun h => ?_⟩
    rcases h2.mp h with ⟨-, h⟩ | h | h | h | h
    · simp at h
      norm_num at h
    all_goals
      rw [d, n, Real.sqrt_le_left (by norm_num)] at h
      norm_num at h
  · obtain ⟨c, h1, h2, -⟩ := C162_pacman S hS !₂[-0.5, 0, 0]
    refine ⟨c, h1, h2.mpr (Or.inl ⟨?_, ?_⟩)⟩
    · rw [n, Real.sqrt_lt' (by norm_num)]
      norm_num
    · simp
      norm_num

end Verif
