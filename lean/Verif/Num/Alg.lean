import Verif.Num.XR
import Mathlib.Tactic.Linarith
import Mathlib.Tactic.Positivity
import Mathlib.Tactic.Ring
import Mathlib.Tactic.FieldSimp

/-! # Algebraic laws of `XR` that survive non-finite values -/

namespace Verif.XR

theorem neg_neg' (a : XR) : - -a = a := by
  show neg (neg a) = a
  cases a <;> simp [neg]

theorem neg_add' (a b : XR) : -(a + b) = -a + -b := by
  show neg (add a b) = add (neg a) (neg b)
  cases a <;> cases b <;> simp [neg, add, add_comm]

theorem neg_infSign (a : ℝ) : -infSign a = infSign (-a) := by
  unfold infSign
  rcases lt_trichotomy a 0 with h | h | h
  · have h1 : ¬ 0 < a := not_lt.mpr h.le
    simp only [h1, h, if_true, if_false, Left.neg_pos_iff]; rfl
  · simp [h]
  · have h1 : ¬ a < 0 := not_lt.mpr h.le
    simp only [h1, h, if_true, if_false, Left.neg_pos_iff, Left.neg_neg_iff]; rfl

theorem neg_mul' (a b : XR) : -a * b = -(a * b) := by
  have h1 (a : ℝ) : -infSign (-a) = infSign a := by rw [neg_infSign, neg_neg]
  rcases a with _ | _ | _ | x <;> rcases b with _ | _ | _ | y <;>
    first
    | rfl
    | (simp only [fin_neg, fin_mul, neg_mul]; done)
    | exact (h1 _).symm
    | exact (neg_infSign _).symm

theorem mul_neg' (a b : XR) : a * -b = -(a * b) := by
  rw [mul_comm', neg_mul', mul_comm']

noncomputable instance : HasDistribNeg XR where
  neg_neg := neg_neg'
  neg_mul := neg_mul'
  mul_neg := mul_neg'

theorem sub_eq (a b : XR) : a - b = a + -b := rfl

theorem infSign_mul_pos {a b : ℝ} (h : 0 < b) : infSign (a * b) = infSign a := by
  unfold infSign
  simp [mul_pos_iff_of_pos_right h, mul_neg_iff, h, not_lt.mpr h.le]

theorem fin_mul_infSign (a b : ℝ) : fin a * infSign b = infSign (a * b) := by
  rcases lt_trichotomy b 0 with h | h | h
  · have : infSign b = ninf := by simp [infSign, h, not_lt.mpr h.le]
    rw [this]; show infSign (-a) = _
    rw [show a * b = (-a) * (-b) by ring, infSign_mul_pos (by linarith)]
  · subst h; simp [infSign]
  · have : infSign b = pinf := by simp [infSign, h]
    rw [this]; show infSign a = _
    rw [infSign_mul_pos h]

theorem pinf_mul_infSign (b : ℝ) : pinf * infSign b = infSign b := by
  unfold infSign; split_ifs <;> rfl

theorem ninf_eq : ninf = -pinf := rfl

theorem mul_assoc' (a b c : XR) : a * b * c = a * (b * c) := by
  have ff (x y : ℝ) : fin x * (fin y * pinf) = fin x * fin y * pinf := by
    show fin x * infSign y = infSign (x * y)
    exact fin_mul_infSign _ _
  have fp (x : ℝ) : fin x * pinf = infSign x := rfl
  have pp : pinf * pinf = pinf := rfl
  have key : ∀ a b c : XR, (a = pinf ∨ ∃ x, a = fin x) → (b = pinf ∨ ∃ x, b = fin x) →
      (c = pinf ∨ ∃ x, c = fin x) → a * b * c = a * (b * c) := by
    rintro a b c (rfl | ⟨x, rfl⟩) (rfl | ⟨y, rfl⟩) (rfl | ⟨z, rfl⟩)
    · rfl
    · rw [pp, mul_comm' pinf (fin z), fp, pinf_mul_infSign]
    · rw [mul_comm' pinf (fin y), fp, pinf_mul_infSign, mul_comm', pinf_mul_infSign]
    · rw [mul_comm' pinf (fin y), fp, mul_comm', fin_mul_infSign, fin_mul, mul_comm', fp, mul_comm]
    · rw [fp, mul_comm', pinf_mul_infSign, pp, fp]
    · rw [fp, mul_comm', fin_mul_infSign, mul_comm' pinf, fp, fin_mul_infSign, mul_comm]
    · rw [ff]
    · simp [mul_assoc]
  rcases a with _ | _ | _ | x <;> rcases b with _ | _ | _ | y <;> rcases c with _ | _ | _ | z <;>
    (try simp only [nan_mul, mul_nan, ninf_eq, neg_mul', mul_neg', neg_neg']) <;>
    first
    | rfl
    | (rw [key]
       · exact .inl rfl
       · first | exact .inl rfl | exact .inr ⟨_, rfl⟩
       · first | exact .inl rfl | exact .inr ⟨_, rfl⟩)
    | (rw [key]
       · exact .inr ⟨_, rfl⟩
       · first | exact .inl rfl | exact .inr ⟨_, rfl⟩
       · first | exact .inl rfl | exact .inr ⟨_, rfl⟩)

theorem one_mul' (a : XR) : 1 * a = a := by
  rw [one_eq]
  rcases a with _ | _ | _ | x
  · rfl
  · show infSign (-1) = _; simp [infSign]
  · show infSign 1 = _; simp [infSign]
  · simp

theorem npow_eq (a : XR) : a ^ 2 = a * a := by
  show (1 * a) * a = _
  rw [one_mul']

theorem neg_sq' (a : XR) : (-a) ^ 2 = a ^ 2 := by
  rw [npow_eq, npow_eq, neg_mul', mul_neg', neg_neg']

end Verif.XR
