import Verif.Model.FloatQuat
import Verif.Props.FloatSphere
import Verif.Props.Quaternions
import Verif.Lemmas.Steihaug

/-! # Property C161: quaternions in floating point arithmetic (`/repo/magpi/quaternions.py`) -/

namespace Verif

open XR Quat Matrix
open scoped Quaternion

section
variable (F : Fmt)

theorem xr_neg_add (a b : XR) : -(a + b) = -a + -b := by
  cases a <;> cases b <;> first | rfl | (simp only [fin_add, fin_neg]; rw [fin_inj]; ring)

theorem infSign_neg (x : ℝ) : infSign (-x) = -infSign x := by
  unfold infSign
  rcases lt_trichotomy x 0 with h | h | h
  · rw [if_pos (by linarith), if_neg (by linarith), if_pos h]; rfl
  · subst h; simp
  · rw [if_neg (by linarith), if_pos (by linarith), if_pos h]; rfl

theorem rnd_neg (x : XR) : F.rnd (-x) = -F.rnd x := by
  cases x with
  | fin a =>
    rw [fin_neg, Fmt.rnd, Fmt.rnd, F.rndR_neg, abs_neg]
    split_ifs
    · rw [fin_neg]
    · exact infSign_neg a
  | nan => rfl
  | pinf => rfl
  | ninf => rfl

theorem sub_eq_add_neg' (a b : XR) : F.sub a b = F.add a (-b) := by
  rw [Fmt.sub, Fmt.add]
  congr 1

theorem add_neg_neg (a b : XR) : F.add (-a) (-b) = -F.add a b := by
  rw [Fmt.add, Fmt.add, ← xr_neg_add, rnd_neg]

theorem mul_neg_fin (a b : ℝ) : F.mul (fin (-a)) (fin b) = -F.mul (fin a) (fin b) := by
  rw [Fmt.mul, Fmt.mul, fin_mul, fin_mul, ← rnd_neg, fin_neg, neg_mul]

/-- A negated dot product is a dot product. -/
theorem flDot_neg {l : Multiset (XR × XR)} {r : XR} (h : FlDot F l r) (hfin : ∀ q ∈ l, ∃ a b, q = (fin a, fin b)) :
    FlDot F (l.map fun q => (-q.1, q.2)) (-r) := by
  induction h with
  | zero =>
    rw [Multiset.map_zero, fin_neg, neg_zero]
    exact FlDot.zero
  | mul w y =>
    obtain ⟨a, b, hq⟩ := hfin _ (Multiset.mem_singleton_self _)
    rw [Prod.mk.injEq] at hq
    obtain ⟨rfl, rfl⟩ := hq
    rw [Multiset.map_singleton, ← mul_neg_fin]
    simp only [fin_neg]
    exact FlDot.mul _ _
  | add _ _ ih1 ih2 =>
    rw [Multiset.map_add, ← add_neg_neg]
    exact FlDot.add (ih1 fun q hq => hfin q (Multiset.mem_add.mpr (.inl hq))) (ih2 fun q hq => hfin q (Multiset.mem_add.mpr (.inr hq)))
  | fma w y _ ih =>
    obtain ⟨a, b, hq⟩ := hfin (w, y) (Multiset.mem_add.mpr (.inr (Multiset.mem_singleton_self _)))
    rw [Prod.mk.injEq] at hq
    obtain ⟨rfl, rfl⟩ := hq
    have h1 := FlDot.fma (F := F) (-fin a) (fin b) (ih fun q hq => hfin q (Multiset.mem_add.mpr (.inl hq)))
    rw [Multiset.map_add, Multiset.map_singleton, ← rnd_neg, xr_neg_add]
    rw [fin_neg, fin_mul] at h1
    have e : -(fin a * fin b) = fin (-a * b) := by rw [fin_mul, fin_neg, neg_mul]
    rw [e, fin_neg]
    exact h1

theorem cs4 {a b c d e f g h P Q : ℝ} (hP : 0 ≤ P) (hQ : 0 ≤ Q) (h1 : P ^ 2 = a ^ 2 + b ^ 2 + c ^ 2 + d ^ 2)
    (h2 : Q ^ 2 = e ^ 2 + f ^ 2 + g ^ 2 + h ^ 2) : |a * e| + |b * f| + |c * g| + |d * h| ≤ P * Q := by
  refine abs_le_of_sq_le_sq' ?_ (mul_nonneg hP hQ) |>.2
  rw [mul_pow, h1, h2]
  simp only [abs_mul]
  rw [← sq_abs a, ← sq_abs b, ← sq_abs c, ← sq_abs d, ← sq_abs e, ← sq_abs f, ← sq_abs g, ← sq_abs h]
  nlinarith [sq_nonneg (|a| * |f| - |b| * |e|), sq_nonneg (|a| * |g| - |c| * |e|), sq_nonneg (|a| * |h| - |d| * |e|),
    sq_nonneg (|b| * |g| - |c| * |f|), sq_nonneg (|b| * |h| - |d| * |f|), sq_nonneg (|c| * |h| - |d| * |g|)]

/-- A sum of four products. -/
theorem flDot_four {a b c d e f g h : ℝ} {r : XR} (hr : FlDot F {(fin a, fin e), (fin b, fin f), (fin c, fin g), (fin d, fin h)} r)
    {P Q : ℝ} (hP : 0 ≤ P) (hQ : 0 ≤ Q) (h1 : P ^ 2 = a ^ 2 + b ^ 2 + c ^ 2 + d ^ 2)
    (h2 : Q ^ 2 = e ^ 2 + f ^ 2 + g ^ 2 + h ^ 2) (hov : (1 + F.u) ^ 4 * (P * Q + 4 * F.η) ≤ 2 ^ F.emax) :
    ∃ R : ℝ, r = fin R ∧ |R - (a * e + b * f + c * g + d * h)| ≤ ((1 + F.u) ^ 4 - 1) * (P * Q) + (1 + F.u) ^ 4 * (4 * F.η) := by
  have hcs := cs4 hP hQ h1 h2
  have hu := F.u_pos
  have hη := F.η_pos
  have hA : dotAbs {(fin a, fin e), (fin b, fin f), (fin c, fin g), (fin d, fin h)} = |a * e| + |b * f| + |c * g| + |d * h| := by
    simp [dotAbs, rePart]; ring
  have hS : dotSum {(fin a, fin e), (fin b, fin f), (fin c, fin g), (fin d, fin h)} = a * e + b * f + c * g + d * h := by
    simp [dotSum, rePart]; ring
  have hg : 1 ≤ (1 + F.u) ^ 4 := one_le_pow₀ (by linarith)
  obtain ⟨R, h3, -, -, h4⟩ := flDot_bound F hr (fun q hq => by
    simp only [Multiset.insert_eq_cons, Multiset.mem_cons, Multiset.mem_singleton] at hq
    rcases hq with rfl | rfl | rfl | rfl <;> exact ⟨_, _, rfl⟩) (by
      rw [hA]
      simp only [Multiset.insert_eq_cons, Multiset.card_cons, Multiset.card_singleton]
      refine le_trans (mul_le_mul_of_nonneg_left ?_ (by positivity)) hov
      show _ + ((0 + 1 + 1 + 1 + 1 : ℕ) : ℝ) * F.η ≤ _
      norm_num only
      linarith)
  rw [hA, hS] at h4
  simp only [Multiset.insert_eq_cons, Multiset.card_cons, Multiset.card_singleton] at h4
  refine ⟨R, h3, h4.trans ?_⟩
  have : ((1 + F.u) ^ 4 - 1) * (|a * e| + |b * f| + |c * g| + |d * h|) ≤ ((1 + F.u) ^ 4 - 1) * (P * Q) :=
    mul_le_mul_of_nonneg_left hcs (by linarith)
  show (1 + F.u) ^ 4 * (|a * e| + |b * f| + |c * g| + |d * h| + ((0 + 1 + 1 + 1 + 1 : ℕ) : ℝ) * F.η) - _ ≤ _
  norm_num only at this ⊢
  linarith

theorem norm_le_four {p : ℍ[ℝ]} {ε : ℝ} (hε : 0 ≤ ε) (h0 : |p.re| ≤ ε) (h1 : |p.imI| ≤ ε) (h2 : |p.imJ| ≤ ε) (h3 : |p.imK| ≤ ε) :
    ‖p‖ ≤ 2 * ε := by
  refine abs_le_of_sq_le_sq' ?_ (by linarith) |>.2
  rw [norm_sq_H]
  nlinarith [sq_le_sq' (abs_le.mp h0).1 (abs_le.mp h0).2, sq_le_sq' (abs_le.mp h1).1 (abs_le.mp h1).2,
    sq_le_sq' (abs_le.mp h2).1 (abs_le.mp h2).2, sq_le_sq' (abs_le.mp h3).1 (abs_le.mp h3).2]

/-- **C161, products**. The error of a computed product of quaternions, in any order of the sums. -/
theorem C161_mul (p q : ℍ[ℝ]) {r : Quat} (hr : Quat.MulFl F (ofH p) (ofH q) r)
    (hov : (1 + F.u) ^ 4 * (‖p‖ * ‖q‖ + 4 * F.η) ≤ 2 ^ F.emax) :
    ∃ R : ℍ[ℝ], r = ofH R ∧
      ‖R - p * q‖ ≤ 2 * (((1 + F.u) ^ 4 - 1) * (‖p‖ * ‖q‖) + (1 + F.u) ^ 4 * (4 * F.η)) := by
  have hu := F.u_pos
  have hη := F.η_pos
  have hg : 1 ≤ (1 + F.u) ^ 4 := one_le_pow₀ (by linarith)
  obtain ⟨⟨s, hs, hre⟩, him⟩ := hr
  have hpn := norm_sq_H p
  have hqn := norm_sq_H q
  -- the real part
  have d0 : FlDot F {(fin p.re, fin q.re), (fin (-p.imI), fin q.imI), (fin (-p.imJ), fin q.imJ), (fin (-p.imK), fin q.imK)} r.re := by
    rw [hre, sub_eq_add_neg']
    have h1 := FlDot.add (FlDot.mul (F := F) (fin p.re) (fin q.re)) (flDot_neg F hs (fun t ht => by
      obtain ⟨i, -, rfl⟩ := Multiset.mem_map.mp ht
      exact ⟨_, _, rfl⟩))
    have e : ({(fin p.re, fin q.re)} : Multiset (XR × XR)) + (pairsFl (ofH p).im (ofH q).im).map (fun t => (-t.1, t.2)) =
        {(fin p.re, fin q.re), (fin (-p.imI), fin q.imI), (fin (-p.imJ), fin q.imJ), (fin (-p.imK), fin q.imK)} := by
      rw [pairsFl, Multiset.map_map]
      rfl
    rw [e] at h1
    exact h1
  -- the imaginary part
  have dim : ∀ (a b c d e f g h : ℝ), FlDot F {(fin a, fin e), (fin b, fin f), (fin c, fin g), (fin (-d), fin h)}
      (F.add (F.add (F.mul (fin a) (fin e)) (F.mul (fin b) (fin f))) (F.sub (F.mul (fin c) (fin g)) (F.mul (fin d) (fin h)))) := by
    intro a b c d e f g h
    rw [sub_eq_add_neg', ← mul_neg_fin]
    exact FlDot.add (FlDot.add (FlDot.mul _ _) (FlDot.mul _ _)) (FlDot.add (FlDot.mul _ _) (FlDot.mul _ _))
  have d1 := dim p.re q.re p.imJ p.imK q.imI p.imI q.imK q.imJ
  have d2 := dim p.re q.re p.imK p.imI q.imJ p.imJ q.imI q.imK
  have d3 := dim p.re q.re p.imI p.imJ q.imK p.imK q.imJ q.imI
  have hPQ : 0 ≤ ‖p‖ * ‖q‖ := by positivity
  obtain ⟨R0, e0, b0⟩ := flDot_four F d0 (norm_nonneg p) (norm_nonneg q) (by rw [hpn]; ring) (by rw [hqn]) hov
  -- in the sums of the imaginary part the factors of the second product are exchanged
  have swap : ∀ (a b c d e f g h : ℝ) {r : XR}, FlDot F {(fin a, fin e), (fin b, fin f), (fin c, fin g), (fin (-d), fin h)} r →
      (∀ A B : ℝ, 0 ≤ A → 0 ≤ B → A ^ 2 = a ^ 2 + f ^ 2 + c ^ 2 + d ^ 2 → B ^ 2 = e ^ 2 + b ^ 2 + g ^ 2 + h ^ 2 →
      (1 + F.u) ^ 4 * (A * B + 4 * F.η) ≤ 2 ^ F.emax →
      ∃ R : ℝ, r = fin R ∧ |R - (a * e + b * f + c * g - d * h)| ≤ ((1 + F.u) ^ 4 - 1) * (A * B) + (1 + F.u) ^ 4 * (4 * F.η)) := by
    intro a b c d e f g h r hr A B hA hB hA2 hB2 hov
    have hcs := cs4 (a := a) (b := f) (c := c) (d := -d) (e := e) (f := b) (g := g) (h := h) hA hB (by rw [hA2]; ring) hB2
    have hDA : dotAbs {(fin a, fin e), (fin b, fin f), (fin c, fin g), (fin (-d), fin h)} = |a * e| + |f * b| + |c * g| + |-d * h| := by
      simp [dotAbs, rePart]; ring
    have hDS : dotSum {(fin a, fin e), (fin b, fin f), (fin c, fin g), (fin (-d), fin h)} = a * e + b * f + c * g - d * h := by
      simp [dotSum, rePart]; ring
    obtain ⟨R, h3, -, -, h4⟩ := flDot_bound F hr (fun q hq => by
      simp only [Multiset.insert_eq_cons, Multiset.mem_cons, Multiset.mem_singleton] at hq
      rcases hq with rfl | rfl | rfl | rfl <;> exact ⟨_, _, rfl⟩) (by
        rw [hDA]
        simp only [Multiset.insert_eq_cons, Multiset.card_cons, Multiset.card_singleton]
        refine le_trans (mul_le_mul_of_nonneg_left ?_ (by positivity)) hov
        norm_num at hcs ⊢
        linarith)
    rw [hDA, hDS] at h4
    simp only [Multiset.insert_eq_cons, Multiset.card_cons, Multiset.card_singleton] at h4
    refine ⟨R, h3, h4.trans ?_⟩
    have : ((1 + F.u) ^ 4 - 1) * (|a * e| + |f * b| + |c * g| + |-d * h|) ≤ ((1 + F.u) ^ 4 - 1) * (A * B) :=
      mul_le_mul_of_nonneg_left hcs (by linarith)
    show (1 + F.u) ^ 4 * (|a * e| + |f * b| + |c * g| + |-d * h| + ((0 + 1 + 1 + 1 + 1 : ℕ) : ℝ) * F.η) - _ ≤ _
    norm_num at this ⊢
    linarith
  obtain ⟨R1, e1, b1⟩ := swap _ _ _ _ _ _ _ _ d1 ‖p‖ ‖q‖ (norm_nonneg p) (norm_nonneg q) (by rw [hpn]) (by rw [hqn]; ring) hov
  obtain ⟨R2, e2, b2⟩ := swap _ _ _ _ _ _ _ _ d2 ‖p‖ ‖q‖ (norm_nonneg p) (norm_nonneg q) (by rw [hpn]; ring) (by rw [hqn]; ring) hov
  obtain ⟨R3, e3, b3⟩ := swap _ _ _ _ _ _ _ _ d3 ‖p‖ ‖q‖ (norm_nonneg p) (norm_nonneg q) (by rw [hpn]; ring) (by rw [hqn]; ring) hov
  obtain ⟨R, rfl, rfl, rfl, rfl⟩ : ∃ R : ℍ[ℝ], R.re = R0 ∧ R.imI = R1 ∧ R.imJ = R2 ∧ R.imK = R3 := ⟨⟨R0, R1, R2, R3⟩, rfl, rfl, rfl, rfl⟩
  refine ⟨R, ?_, norm_le_four (by nlinarith) ?_ ?_ ?_ ?_⟩
  · refine Quat.ext e0 ?_
    rw [him]
    funext i
    fin_cases i
    · exact e1
    · exact e2
    · exact e3
  · refine le_trans (le_of_eq ?_) b0
    congr 1
    rw [Quaternion.re_sub, Quaternion.re_mul]
    ring
  · refine le_trans (le_of_eq ?_) b1
    congr 1
    rw [Quaternion.imI_sub, Quaternion.imI_mul]
    ring
  · refine le_trans (le_of_eq ?_) b2
    congr 1
    rw [Quaternion.imJ_sub, Quaternion.imJ_mul]
    ring
  · refine le_trans (le_of_eq ?_) b3
    congr 1
    rw [Quaternion.imK_sub, Quaternion.imK_mul]
    ring

/-- `|aᵢ| ≤ κ |bᵢ| + η` for the four components. -/
theorem norm_le_comp {a b : ℍ[ℝ]} {κ η : ℝ} (hκ : 0 ≤ κ) (hη : 0 ≤ η) (h0 : |a.re| ≤ κ * |b.re| + η) (h1 : |a.imI| ≤ κ * |b.imI| + η)
    (h2 : |a.imJ| ≤ κ * |b.imJ| + η) (h3 : |a.imK| ≤ κ * |b.imK| + η) : ‖a‖ ≤ κ * ‖b‖ + 2 * η := by
  have hb := norm_nonneg b
  have hbn := norm_sq_H b
  refine abs_le_of_sq_le_sq' ?_ (by positivity) |>.2
  have s : |b.re| + |b.imI| + |b.imJ| + |b.imK| ≤ ‖b‖ * 2 := by
    have := cs4 (a := b.re) (b := b.imI) (c := b.imJ) (d := b.imK) (e := 1) (f := 1) (g := 1) (h := 1) hb (show (0 : ℝ) ≤ 2 by norm_num) hbn
      (by norm_num)
    simpa using this
  have sq' : ∀ x y : ℝ, |x| ≤ κ * |y| + η → x ^ 2 ≤ κ ^ 2 * y ^ 2 + 2 * (κ * η) * |y| + η ^ 2 := by
    intro x y h
    have := pow_le_pow_left₀ (abs_nonneg x) h 2
    rw [sq_abs] at this
    rw [← sq_abs y]
    linarith
  have t0 := sq' _ _ h0
  have t1 := sq' _ _ h1
  have t2 := sq' _ _ h2
  have t3 := sq' _ _ h3
  have hm : κ * η * (|b.re| + |b.imI| + |b.imJ| + |b.imK|) ≤ κ * η * (‖b‖ * 2) := mul_le_mul_of_nonneg_left s (by positivity)
  rw [norm_sq_H]
  have : (κ * ‖b‖ + 2 * η) ^ 2 = κ ^ 2 * ‖b‖ ^ 2 + 2 * (κ * η * (‖b‖ * 2)) + 4 * η ^ 2 := by ring
  rw [this, hbn]
  linarith

/-- Powers of `1 + u` for formats with 8 or more digits. -/
theorem pow_u (hp : 8 ≤ F.p) : F.u ≤ 1 / 256 ∧ (1 + F.u) ^ 4 ≤ 1 + 4.03 * F.u ∧ (1 + F.u) ^ 6 ≤ 1 + 6.06 * F.u ∧ (1 + F.u) ^ 7 ≤ 1.03 := by
  have hu := F.u_pos
  have h : F.u ≤ 1 / 256 := by
    calc F.u ≤ 2 ^ (-8 : ℤ) := zpow_le_zpow_right₀ (by norm_num) (by omega)
      _ = 1 / 256 := by norm_num
  have h2 : F.u * F.u ≤ F.u * (1 / 256) := mul_le_mul_of_nonneg_left h hu.le
  have a : (1 + F.u) ^ 2 ≤ 1 + 2.004 * F.u := by linarith
  have b : (1 + F.u) ^ 4 ≤ 1 + 4.03 * F.u := by
    calc (1 + F.u) ^ 4 = ((1 + F.u) ^ 2) ^ 2 := by ring
      _ ≤ (1 + 2.004 * F.u) ^ 2 := pow_le_pow_left₀ (by positivity) a 2
      _ ≤ _ := by linarith
  have c : (1 + F.u) ^ 6 ≤ 1 + 6.06 * F.u := by
    calc (1 + F.u) ^ 6 = (1 + F.u) ^ 4 * (1 + F.u) ^ 2 := by ring
      _ ≤ (1 + 4.024 * F.u) * (1 + 2.004 * F.u) := by
        refine mul_le_mul ?_ a (by positivity) (by positivity)
        calc (1 + F.u) ^ 4 = ((1 + F.u) ^ 2) ^ 2 := by ring
          _ ≤ (1 + 2.004 * F.u) ^ 2 := pow_le_pow_left₀ (by positivity) a 2
          _ ≤ _ := by linarith
      _ ≤ _ := by linarith
  refine ⟨h, b, c, ?_⟩
  calc (1 + F.u) ^ 7 = (1 + F.u) ^ 6 * (1 + F.u) := by ring
    _ ≤ (1 + 6.06 * F.u) * (1 + F.u) := mul_le_mul_of_nonneg_right c (by positivity)
    _ ≤ 1.03 := by linarith

/-- Products in formats with 8 or more digits. -/
theorem mulFl_err (hp : 8 ≤ F.p) (p q : ℍ[ℝ]) {r : Quat} (hr : Quat.MulFl F (ofH p) (ofH q) r)
    (hov : 1.1 * (‖p‖ * ‖q‖) + 1 ≤ 2 ^ F.emax) :
    ∃ R : ℍ[ℝ], r = ofH R ∧ ‖R - p * q‖ ≤ 8.1 * F.u * (‖p‖ * ‖q‖) + 8.2 * F.η := by
  obtain ⟨hu1, h4, -, -⟩ := pow_u F hp
  have hu := F.u_pos
  have hη := F.η_pos
  have hηu := F.η_le
  have hPQ : 0 ≤ ‖p‖ * ‖q‖ := by positivity
  have h4' : (1 + F.u) ^ 4 ≤ 1.02 := by linarith
  obtain ⟨R, h1, h2⟩ := C161_mul F p q hr (by
    refine le_trans ?_ hov
    have : (1 + F.u) ^ 4 * (‖p‖ * ‖q‖ + 4 * F.η) ≤ 1.02 * (‖p‖ * ‖q‖ + 4 * F.η) := mul_le_mul_of_nonneg_right h4' (by positivity)
    linarith)
  refine ⟨R, h1, h2.trans ?_⟩
  have e1 : ((1 + F.u) ^ 4 - 1) * (‖p‖ * ‖q‖) ≤ 4.03 * F.u * (‖p‖ * ‖q‖) := mul_le_mul_of_nonneg_right (by linarith) hPQ
  have e2 : (1 + F.u) ^ 4 * (4 * F.η) ≤ 1.02 * (4 * F.η) := mul_le_mul_of_nonneg_right h4' (by positivity)
  have : 0 ≤ F.u * (‖p‖ * ‖q‖) := by positivity
  linarith

/-- The numbers of a computed squared norm. -/
theorem sqnorm_real (hp : 8 ≤ F.p) {X W : ℝ} {n : ℕ} (hn : n ≤ 4) (hX : 0 < X) (hη : 32 * F.η ≤ F.u * X)
    (hW : |W ^ 2 - X| ≤ ((1 + F.u) ^ (n + 0 + 2) - 1) * X + (1 + F.u) ^ (n + 0 + 2) * (n * F.η)) : |W ^ 2 - X| ≤ 6.25 * F.u * X := by
  obtain ⟨hu1, -, h6, -⟩ := pow_u F hp
  have hu := F.u_pos
  have hη0 := F.η_pos
  have hg : (1 + F.u) ^ (n + 0 + 2) ≤ 1 + 6.06 * F.u := (pow_le_pow_right₀ (by linarith) (by omega)).trans h6
  have hn' : (n : ℝ) ≤ 4 := by exact_mod_cast hn
  have e1 : ((1 + F.u) ^ (n + 0 + 2) - 1) * X ≤ 6.06 * F.u * X := mul_le_mul_of_nonneg_right (by linarith) hX.le
  have e2 : (1 + F.u) ^ (n + 0 + 2) * (n * F.η) ≤ 1.03 * (4 * F.η) :=
    mul_le_mul (by linarith) (mul_le_mul_of_nonneg_right hn' hη0.le) (by positivity) (by norm_num)
  linarith

/-- The range of the squared norm. -/
theorem range_sq {m : ℕ} (h : F.emin + F.p + 2 * m + 4 ≤ 0) {N : ℝ} (h1 : 2 ^ (-(m : ℤ)) ≤ N) (h2 : N ≤ 2 ^ (m : ℤ)) :
    0 < N ∧ 32 * F.η ≤ F.u * N ^ 2 ∧ 32 * F.η * N ^ 2 ≤ F.u ∧ 32 * F.η * N ≤ F.u ∧ 32 * F.η ≤ F.u ∧ N ^ 2 ≤ 2 ^ (2 * m : ℤ) ∧ 1 / N ≤ 2 ^ (m : ℤ) := by
  have hN : 0 < N := lt_of_lt_of_le (by positivity) h1
  have hη0 := F.η_pos
  set S : ℝ := 2 ^ (m : ℤ) with hS
  have hS1 : 1 ≤ S := one_le_zpow₀ (by norm_num) (by omega)
  have hinv : (2 : ℝ) ^ (-(m : ℤ)) = 1 / S := by rw [zpow_neg, one_div]
  rw [hinv, div_le_iff₀ (by linarith)] at h1
  have key : 32 * F.η * S ^ 2 ≤ F.u := by
    have e : 32 * F.η * S ^ 2 = 2 ^ (5 + (F.emin - 1) + (m + m : ℤ)) := by
      rw [zpow_add₀ (by norm_num), zpow_add₀ (by norm_num), zpow_add₀ (by norm_num) (m : ℤ), ← hS, sq]
      have : (2 : ℝ) ^ (5 : ℤ) = 32 := by norm_num
      rw [this]
    rw [e]
    exact zpow_le_zpow_right₀ (by norm_num) (by omega)
  have hSN : 1 ≤ S ^ 2 * N ^ 2 := by nlinarith
  have hNS : N ^ 2 ≤ S ^ 2 := pow_le_pow_left₀ hN.le h2 2
  have hS2 : S ≤ S ^ 2 := by nlinarith
  refine ⟨hN, ?_, ?_, ?_, ?_, ?_, ?_⟩
  · calc 32 * F.η ≤ 32 * F.η * (S ^ 2 * N ^ 2) := le_mul_of_one_le_right (by positivity) hSN
      _ = 32 * F.η * S ^ 2 * N ^ 2 := by ring
      _ ≤ F.u * N ^ 2 := mul_le_mul_of_nonneg_right key (by positivity)
  · exact (mul_le_mul_of_nonneg_left hNS (by positivity)).trans key
  · exact (mul_le_mul_of_nonneg_left (h2.trans hS2) (by positivity)).trans key
  · exact (le_mul_of_one_le_right (by positivity) (by nlinarith)).trans key
  · rw [show (2 * m : ℤ) = m + m by ring, zpow_add₀ (by norm_num), ← hS, ← sq]; exact hNS
  · rw [div_le_iff₀ hN]; linarith

/-- The computed inverse square. -/
theorem invsq_real (hp : 8 ≤ F.p) {X W : ℝ} (hX : 0 < X) (hη : 32 * F.η ≤ F.u * X) (hη' : 32 * F.η * X ≤ F.u)
    (hW : |W ^ 2 - X| ≤ 6.25 * F.u * X) (hov : 1.1 * X ≤ 2 ^ F.emax) (hov' : 1.1 / X ≤ 2 ^ F.emax) :
    ∃ C : ℝ, F.div (fin 1) (F.mul (fin W) (fin W)) = fin C ∧ |C - 1 / X| ≤ 9 * F.u / X := by
  obtain ⟨hu1, -, -, -⟩ := pow_u F hp
  have hu := F.u_pos
  have hη0 := F.η_pos
  have hux : F.u * X ≤ X / 256 := by nlinarith
  have hw := abs_le.mp hW
  have hWle : W ^ 2 ≤ 1.025 * X := by linarith
  obtain ⟨V, hV, -, hVe, -⟩ := mulE F (a := W) (b := W) (X := 1.025 * X) (by rw [← sq, abs_of_nonneg (sq_nonneg W)]; exact hWle)
    (by linarith)
  rw [← sq] at hVe
  have hv := abs_le.mp hVe
  have hu2 : F.u * (1.025 * X) = 1.025 * (F.u * X) := by ring
  have hVX : |V - X| ≤ 7.4 * F.u * X := by
    rw [abs_le]; constructor <;> linarith
  have hvx := abs_le.mp hVX
  have hVlo : 0.971 * X ≤ V := by linarith
  have hVpos : 0 < V := by linarith
  have hinv : 1 / V ≤ 1.03 / X := by
    rw [div_le_div_iff₀ hVpos hX]; linarith
  have hdiff : |1 / V - 1 / X| ≤ 7.623 * F.u / X := by
    have e : 1 / V - 1 / X = (X - V) * (1 / V) / X := by field_simp
    rw [e, abs_div, abs_of_pos hX, abs_mul, abs_sub_comm, abs_of_pos (by positivity : 0 < 1 / V)]
    refine div_le_div_of_nonneg_right ?_ hX.le
    calc |V - X| * (1 / V) ≤ 7.4 * F.u * X * (1.03 / X) := mul_le_mul hVX hinv (by positivity) (by positivity)
      _ = 7.622 * F.u := by field_simp; norm_num
      _ ≤ _ := by linarith
  have hov2 : |1 / V| ≤ 2 ^ F.emax := by
    rw [abs_of_pos (by positivity)]
    refine hinv.trans (le_trans ?_ hov')
    exact div_le_div_of_nonneg_right (by norm_num) hX.le
  refine ⟨F.rndR (1 / V), by rw [hV, Fmt.div, fin_div _ hVpos.ne', F.rnd_fin hov2], ?_⟩
  have h1 := rndR_mixed F (1 / V)
  rw [abs_of_pos (by positivity : 0 < 1 / V)] at h1
  have h2 : 1 / V * F.u ≤ 1.03 / X * F.u := mul_le_mul_of_nonneg_right hinv hu.le
  have h3 : F.η ≤ F.u / 32 / X := by
    rw [le_div_iff₀ hX]; linarith
  have h4 : |F.rndR (1 / V) - 1 / X| ≤ |F.rndR (1 / V) - 1 / V| + |1 / V - 1 / X| := abs_sub_le _ _ _
  have e1 : 1.03 / X * F.u = 1.03 * (F.u / X) := by ring
  have e2 : F.u / 32 / X = 1 / 32 * (F.u / X) := by ring
  have e3 : 7.623 * F.u / X = 7.623 * (F.u / X) := by ring
  have e4 : 9 * F.u / X = 9 * (F.u / X) := by ring
  have h5 : 0 < F.u / X := by positivity
  have h1' : |F.rndR (1 / V) - 1 / V| ≤ 1 / V * F.u + F.η := h1
  rw [e4]
  rw [e3] at hdiff
  rw [e1] at h2
  rw [e2] at h3
  linarith

/-- `abs(q)` is the norm of the four components. -/
theorem absFl_norm {q : Quat} {w : XR} (h : Quat.AbsFl F q w) : NormFl F ![q.re, q.im 0, q.im 1, q.im 2] w := by
  obtain ⟨s, hs, rfl⟩ := h
  exact ⟨_, FlDot.add (FlDot.mul q.re q.re) hs, rfl⟩

theorem vec4 (q : ℍ[ℝ]) : (![(ofH q).re, (ofH q).im 0, (ofH q).im 1, (ofH q).im 2] : Vec 4) =
    fun i => fin ((![q.re, q.imI, q.imJ, q.imK] : Fin 4 → ℝ) i) := by
  funext i
  fin_cases i <;> rfl

/-- A component of the reciprocal. -/
theorem rec_comp {X C N S : ℝ} (hX : 0 < X) (hCe : |C - 1 / X| ≤ 9 * F.u / X) (hCle : |C| ≤ 1.036 / X) (hN : 0 < N) (hXdef : X = N ^ 2)
    (r6 : 1 / N ≤ S) (hS : 1.036 * S ≤ 2 ^ F.emax) (a : ℝ) (ha : |a| ≤ N) :
    ∃ z, F.mul (fin a) (fin C) = fin z ∧ |z - a / X| ≤ 10.04 * F.u * |a / X| + F.η := by
  have hu := F.u_pos
  have hb : |a * C| ≤ 1.036 * |a / X| := by
    rw [abs_mul, abs_div, abs_of_pos hX]
    calc |a| * |C| ≤ |a| * (1.036 / X) := mul_le_mul_of_nonneg_left hCle (abs_nonneg _)
      _ = _ := by ring
  have hax : |a / X| ≤ S := by
    rw [abs_div, abs_of_pos hX]
    calc |a| / X ≤ N / X := div_le_div_of_nonneg_right ha hX.le
      _ = 1 / N := by rw [hXdef]; field_simp
      _ ≤ _ := r6
  obtain ⟨z, hz, -, hze, -⟩ := mulE F hb (by linarith)
  refine ⟨z, hz, ?_⟩
  have h3 : |a * C - a / X| ≤ 9 * F.u * |a / X| := by
    rw [show a * C - a / X = a * (C - 1 / X) by ring, abs_mul, abs_div, abs_of_pos hX]
    calc |a| * |C - 1 / X| ≤ |a| * (9 * F.u / X) := mul_le_mul_of_nonneg_left hCe (abs_nonneg _)
      _ = _ := by ring
  have h4 : |z - a / X| ≤ |z - a * C| + |a * C - a / X| := abs_sub_le _ _ _
  have h5 : 0 ≤ F.u * |a / X| := by positivity
  linarith

theorem inv_comp (q : ℍ[ℝ]) : (q⁻¹).re = q.re / ‖q‖ ^ 2 ∧ (q⁻¹).imI = -q.imI / ‖q‖ ^ 2 ∧ (q⁻¹).imJ = -q.imJ / ‖q‖ ^ 2 ∧
    (q⁻¹).imK = -q.imK / ‖q‖ ^ 2 := by
  have hinv : q⁻¹ = (‖q‖ ^ 2)⁻¹ • star q := by
    show (Quaternion.normSq q)⁻¹ • star q = _
    rw [Quaternion.normSq_eq_norm_mul_self, sq]
  rw [hinv]
  refine ⟨?_, ?_, ?_, ?_⟩
  · rw [Quaternion.re_smul, Quaternion.re_star, smul_eq_mul]; ring
  · rw [Quaternion.imI_smul, Quaternion.imI_star, smul_eq_mul]; ring
  · rw [Quaternion.imJ_smul, Quaternion.imJ_star, smul_eq_mul]; ring
  · rw [Quaternion.imK_smul, Quaternion.imK_star, smul_eq_mul]; ring

theorem abs_comp (q : ℍ[ℝ]) : |q.re| ≤ ‖q‖ ∧ |-q.imI| ≤ ‖q‖ ∧ |-q.imJ| ≤ ‖q‖ ∧ |-q.imK| ≤ ‖q‖ := by
  have hn := norm_sq_H q
  have h0 := sq_nonneg q.re
  have h1 := sq_nonneg q.imI
  have h2 := sq_nonneg q.imJ
  have h3 := sq_nonneg q.imK
  refine ⟨?_, ?_, ?_, ?_⟩ <;> refine abs_le_of_sq_le_sq ?_ (norm_nonneg _) <;> rw [hn] <;> linarith

/-- **C161, reciprocals**. The computed reciprocal has a relative error of at most `11 u`. -/
theorem C161_reciprocal (hF : F.emin + 2 * F.p ≤ 2) (hp : 8 ≤ F.p) {m : ℕ} (hm : F.emin + F.p + 2 * m + 4 ≤ 0) (hm' : 2 * m + 2 ≤ F.emax)
    (q : ℍ[ℝ]) (h1 : 2 ^ (-(m : ℤ)) ≤ ‖q‖) (h2 : ‖q‖ ≤ 2 ^ (m : ℤ)) {r : Quat} (hr : Quat.RecFl F (ofH q) r) :
    ∃ R : ℍ[ℝ], r = ofH R ∧ ‖R - q⁻¹‖ ≤ 11 * F.u * ‖q⁻¹‖ := by
  obtain ⟨hN, r1, r2, r3, r4, r5, r6⟩ := range_sq F hm h1 h2
  obtain ⟨hu1, -, -, h7⟩ := pow_u F hp
  have hu := F.u_pos
  have hη0 := F.η_pos
  have hq0 : q ≠ 0 := norm_pos_iff.mp hN
  set X := ‖q‖ ^ 2 with hXdef
  have hX : 0 < X := by positivity
  have hemax : (4 : ℝ) * 2 ^ (2 * m : ℤ) ≤ 2 ^ F.emax := by
    rw [show (4 : ℝ) = 2 ^ (2 : ℤ) by norm_num, ← zpow_add₀ (by norm_num)]
    exact zpow_le_zpow_right₀ (by norm_num) (by omega)
  have hm1 : (1 : ℝ) ≤ 2 ^ (2 * m : ℤ) := one_le_zpow₀ (by norm_num) (by omega)
  have hmm : (2 : ℝ) ^ (m : ℤ) ≤ 2 ^ (2 * m : ℤ) := zpow_le_zpow_right₀ (by norm_num) (by omega)
  obtain ⟨w, hw, rfl⟩ := hr
  have hw' := absFl_norm F hw
  rw [vec4] at hw'
  have hsum : ∑ i, (![q.re, q.imI, q.imJ, q.imK] : Fin 4 → ℝ) i ^ 2 = X := by
    rw [hXdef, norm_sq_H, Fin.sum_univ_four]; rfl
  obtain ⟨W, rfl, -, -, hW⟩ := normFl_bound F hF (![q.re, q.imI, q.imJ, q.imK] : Fin 4 → ℝ) (X := X) (k := 0) hX.le
    (by rw [hsum]; simp) (by
      have : (1 + F.u) ^ (4 + 0 + 3) * (X + ((4 : ℕ) : ℝ) * F.η) ≤ 1.03 * (X + ((4 : ℕ) : ℝ) * F.η) := mul_le_mul_of_nonneg_right h7 (by positivity)
      refine this.trans ?_
      push_cast
      linarith) hw'
  have hW' := sqnorm_real F hp (n := 4) le_rfl hX r1 (by exact_mod_cast hW)
  have hXinv : 1 / X ≤ 2 ^ (2 * m : ℤ) := by
    have : 1 / X = (1 / ‖q‖) ^ 2 := by rw [hXdef]; ring
    rw [this, show (2 * m : ℤ) = m + m by ring, zpow_add₀ (by norm_num), ← sq]
    exact pow_le_pow_left₀ (by positivity) r6 2
  have e11 : 1.1 / X = 1.1 * (1 / X) := by ring
  obtain ⟨C, hC, hCe⟩ := invsq_real F hp hX r1 r2 hW' (by linarith) (by rw [e11]; linarith)
  rw [hC]
  have hCle : |C| ≤ 1.036 / X := by
    have := abs_sub_abs_le_abs_sub C (1 / X)
    rw [abs_of_pos (by positivity : 0 < 1 / X)] at this
    have e : 1.036 / X = 1 / X + 0.036 / X := by ring
    have : 9 * F.u / X ≤ 0.036 / X := div_le_div_of_nonneg_right (by linarith) hX.le
    linarith
  have hcomp := rec_comp F hX hCe hCle hN hXdef r6 (by linarith)
  obtain ⟨a0, a1, a2, a3⟩ := abs_comp q
  obtain ⟨z0, e0, b0⟩ := hcomp _ a0
  obtain ⟨z1, e1, b1⟩ := hcomp _ a1
  obtain ⟨z2, e2, b2⟩ := hcomp _ a2
  obtain ⟨z3, e3, b3⟩ := hcomp _ a3
  obtain ⟨R, rfl, rfl, rfl, rfl⟩ : ∃ R : ℍ[ℝ], R.re = z0 ∧ R.imI = z1 ∧ R.imJ = z2 ∧ R.imK = z3 := ⟨⟨z0, z1, z2, z3⟩, rfl, rfl, rfl, rfl⟩
  obtain ⟨i0, i1, i2, i3⟩ := inv_comp q
  rw [← hXdef] at i0 i1 i2 i3
  refine ⟨R, ?_, ?_⟩
  · refine Quat.ext e0 ?_
    funext i
    fin_cases i
    · exact e1
    · exact e2
    · exact e3
  · have := norm_le_comp (a := R - q⁻¹) (b := q⁻¹) (κ := 10.04 * F.u) (by positivity) hη0.le
      (by rw [Quaternion.re_sub, i0]; exact b0) (by rw [Quaternion.imI_sub, i1]; exact b1) (by rw [Quaternion.imJ_sub, i2]; exact b2)
      (by rw [Quaternion.imK_sub, i3]; exact b3)
    have h3 : ‖q⁻¹‖ = 1 / ‖q‖ := by rw [norm_inv, one_div]
    have h4 : 2 * F.η ≤ 0.1 * F.u * ‖q⁻¹‖ := by
      rw [h3, mul_one_div, le_div_iff₀ hN]
      linarith
    have h5 : 0 ≤ F.u * ‖q⁻¹‖ := by positivity
    linarith

theorem norm_pureH (x : Pt 3) : ‖pureH fun i => x i‖ = ‖x‖ := by
  rw [← sq_eq_sq₀ (norm_nonneg _) (norm_nonneg _), norm_sq_H, EuclideanSpace.norm_sq_eq, Fin.sum_univ_three]
  simp

theorem imv_norm_le (q : ℍ[ℝ]) : ‖(WithLp.toLp 2 (imv q) : Pt 3)‖ ≤ ‖q‖ := by
  refine abs_le_of_sq_le_sq' ?_ (norm_nonneg _) |>.2
  rw [norm_sq_H, EuclideanSpace.norm_sq_eq, Fin.sum_univ_three]
  simp only [imv, Real.norm_eq_abs, sq_abs]
  show q.imI ^ 2 + q.imJ ^ 2 + q.imK ^ 2 ≤ _
  nlinarith [sq_nonneg q.re]

theorem pureH_eq (x : Pt 3) : (⟨fin 0, efin x⟩ : Quat) = ofH (pureH fun i => x i) := by
  show (⟨fin 0, vfin fun i => x i⟩ : Quat) = _
  rw [ofH_eq_of]; rfl

/-- **C161, rotations**. The computed rotated vector differs from the rotated vector by at most `30 u ‖x‖ + 9 (1 + ‖q‖) η`; in
particular the lengths differ by no more. -/
theorem C161_rotation (hF : F.emin + 2 * F.p ≤ 2) (hp : 8 ≤ F.p) {m k : ℕ} (hm : F.emin + F.p + 2 * m + 4 ≤ 0) (hm' : 2 * m + 2 ≤ F.emax)
    (hk : m + k + 2 ≤ F.emax) (q : ℍ[ℝ]) (h1 : 2 ^ (-(m : ℤ)) ≤ ‖q‖) (h2 : ‖q‖ ≤ 2 ^ (m : ℤ)) (x : Pt 3) (hx : ‖x‖ ≤ 2 ^ (k : ℤ))
    {v : Vec 3} (hv : RotationFl F (efin x) (ofH q) v) :
    ∃ V Y : Pt 3, v = efin V ∧ quaternionRotation (efin x) (ofH q) = efin Y ∧ ‖Y‖ = ‖x‖ ∧
      ‖V - Y‖ ≤ 30 * F.u * ‖x‖ + 9 * (1 + ‖q‖) * F.η ∧ |‖V‖ - ‖x‖| ≤ 30 * F.u * ‖x‖ + 9 * (1 + ‖q‖) * F.η := by
  obtain ⟨hN, r1, r2, r3, r4, r5, r6⟩ := range_sq F hm h1 h2
  obtain ⟨hu1, -, -, h7⟩ := pow_u F hp
  have hu := F.u_pos
  have hη0 := F.η_pos
  have hq0 : q ≠ 0 := norm_pos_iff.mp hN
  have hemax : (4 : ℝ) * (2 ^ (m : ℤ) * 2 ^ (k : ℤ)) ≤ 2 ^ F.emax := by
    rw [show (4 : ℝ) = 2 ^ (2 : ℤ) by norm_num, ← zpow_add₀ (by norm_num), ← zpow_add₀ (by norm_num)]
    exact zpow_le_zpow_right₀ (by norm_num) (by omega)
  have hm1 : (1 : ℝ) ≤ 2 ^ (m : ℤ) := one_le_zpow₀ (by norm_num) (by omega)
  have hk1 : (1 : ℝ) ≤ 2 ^ (k : ℤ) := one_le_zpow₀ (by norm_num) (by omega)
  have hmk : (2 : ℝ) ^ (k : ℤ) ≤ 2 ^ (m : ℤ) * 2 ^ (k : ℤ) := le_mul_of_one_le_left (by positivity) hm1
  obtain ⟨qinv, a, b, hr, ha, hb, rfl⟩ := hv
  obtain ⟨R, rfl, hR⟩ := C161_reciprocal F hF hp hm hm' q h1 h2 hr
  rw [pureH_eq] at ha
  set P := pureH fun i => x i with hP
  have hPn : ‖P‖ = ‖x‖ := norm_pureH x
  set N := ‖q‖ with hNdef
  have hNi : ‖q⁻¹‖ = 1 / N := by rw [norm_inv, one_div]
  set Y := ‖q⁻¹‖ * ‖x‖ with hY
  have hY0 : 0 ≤ Y := by positivity
  have hYN : Y * N = ‖x‖ := by rw [hY, hNi]; field_simp
  have hYle : Y ≤ 2 ^ (m : ℤ) * 2 ^ (k : ℤ) := by
    rw [hY, hNi]
    exact mul_le_mul r6 hx (norm_nonneg _) (by positivity)
  have hRn : ‖R‖ * ‖x‖ ≤ 1.043 * Y := by
    have : ‖R‖ ≤ ‖q⁻¹‖ + ‖R - q⁻¹‖ := by
      have := norm_add_le q⁻¹ (R - q⁻¹)
      rwa [add_sub_cancel] at this
    have h3 : ‖R‖ ≤ 1.043 * ‖q⁻¹‖ := by
      have : F.u * ‖q⁻¹‖ ≤ 1 / 256 * ‖q⁻¹‖ := mul_le_mul_of_nonneg_right hu1 (norm_nonneg _)
      have := norm_nonneg q⁻¹
      linarith
    calc ‖R‖ * ‖x‖ ≤ 1.043 * ‖q⁻¹‖ * ‖x‖ := mul_le_mul_of_nonneg_right h3 (norm_nonneg _)
      _ = _ := by rw [hY]; ring
  have hRP : ‖R‖ * ‖P‖ = ‖R‖ * ‖x‖ := by rw [hPn]
  obtain ⟨A, rfl, hA⟩ := mulFl_err F hp R P ha (by rw [hRP]; linarith)
  rw [hRP] at hA
  have huY : F.u * Y ≤ 1 / 256 * Y := mul_le_mul_of_nonneg_right hu1 hY0
  have huY0 : 0 ≤ F.u * Y := by positivity
  have hA' : ‖A - q⁻¹ * P‖ ≤ 19.5 * F.u * Y + 8.2 * F.η := by
    have e : A - q⁻¹ * P = (A - R * P) + (R - q⁻¹) * P := by rw [sub_mul]; abel
    have h3 : ‖(R - q⁻¹) * P‖ ≤ 11 * F.u * Y := by
      rw [norm_mul, hPn]
      calc ‖R - q⁻¹‖ * ‖x‖ ≤ 11 * F.u * ‖q⁻¹‖ * ‖x‖ := mul_le_mul_of_nonneg_right hR (norm_nonneg _)
        _ = _ := by rw [hY]; ring
    have h4 : 8.1 * F.u * (‖R‖ * ‖x‖) ≤ 8.1 * F.u * (1.043 * Y) := mul_le_mul_of_nonneg_left hRn (by positivity)
    rw [e]
    refine (norm_add_le _ _).trans ?_
    linarith
  have hAn : ‖A‖ ≤ 1.077 * Y + 8.2 * F.η := by
    have h3 : ‖A‖ ≤ ‖q⁻¹ * P‖ + ‖A - q⁻¹ * P‖ := by
      have := norm_add_le (q⁻¹ * P) (A - q⁻¹ * P)
      rwa [add_sub_cancel] at this
    have h4 : ‖q⁻¹ * P‖ = Y := by rw [norm_mul, hPn]
    linarith
  have hx0 := norm_nonneg x
  have hAN : ‖A‖ * N ≤ 1.077 * ‖x‖ + 8.2 * F.η * N := by
    calc ‖A‖ * N ≤ (1.077 * Y + 8.2 * F.η) * N := mul_le_mul_of_nonneg_right hAn hN.le
      _ = 1.077 * (Y * N) + 8.2 * F.η * N := by ring
      _ = _ := by rw [hYN]
  obtain ⟨B, rfl, hB⟩ := mulFl_err F hp A q hb (by
    rw [← hNdef]
    linarith)
  rw [← hNdef] at hB
  have hB' : ‖B - q⁻¹ * P * q‖ ≤ 30 * F.u * ‖x‖ + 9 * (1 + N) * F.η := by
    have e : B - q⁻¹ * P * q = (B - A * q) + (A - q⁻¹ * P) * q := by rw [sub_mul]; abel
    have h3 : ‖(A - q⁻¹ * P) * q‖ ≤ 19.5 * F.u * ‖x‖ + 8.2 * F.η * N := by
      rw [norm_mul, ← hNdef]
      calc ‖A - q⁻¹ * P‖ * N ≤ (19.5 * F.u * Y + 8.2 * F.η) * N := mul_le_mul_of_nonneg_right hA' hN.le
        _ = 19.5 * F.u * (Y * N) + 8.2 * F.η * N := by ring
        _ = _ := by rw [hYN]
    have h4 : 8.1 * F.u * (‖A‖ * N) ≤ 8.1 * F.u * (1.077 * ‖x‖ + 8.2 * F.η * N) := mul_le_mul_of_nonneg_left hAN (by positivity)
    have h5 : F.u * (F.η * N) ≤ 1 / 256 * (F.η * N) := mul_le_mul_of_nonneg_right hu1 (by positivity)
    have h6 : 0 ≤ F.η * N := by positivity
    have h8 : 0 ≤ F.u * ‖x‖ := by positivity
    rw [e]
    refine (norm_add_le _ _).trans ?_
    linarith
  have hrot : quaternionRotation (efin x) (ofH q) = efin (WithLp.toLp 2 (imv (q⁻¹ * P * q)) : Pt 3) := by
    show quaternionRotation (vfin fun i => x i) (ofH q) = _
    rw [quaternionRotation_ofH hq0]
    rfl
  have hYnorm : ‖(WithLp.toLp 2 (imv (q⁻¹ * P * q)) : Pt 3)‖ = ‖x‖ := by
    have h3 : pureH (imv (q⁻¹ * P * q)) = q⁻¹ * P * q := pure_rotH hq0 _
    have h4 := norm_pureH (WithLp.toLp 2 (imv (q⁻¹ * P * q)) : Pt 3)
    rw [← h4]
    show ‖pureH (imv (q⁻¹ * P * q))‖ = _
    rw [h3, norm_mul, norm_mul, hPn, norm_inv]
    field_simp
  have hd : ‖(WithLp.toLp 2 (imv B) : Pt 3) - WithLp.toLp 2 (imv (q⁻¹ * P * q))‖ ≤ 30 * F.u * ‖x‖ + 9 * (1 + N) * F.η := by
    refine le_trans ?_ hB'
    refine le_trans (le_of_eq ?_) (imv_norm_le (B - q⁻¹ * P * q))
    congr 1
    ext i
    fin_cases i <;> rfl
  refine ⟨WithLp.toLp 2 (imv B), _, rfl, hrot, hYnorm, hd, ?_⟩
  have := abs_norm_sub_norm_le (WithLp.toLp 2 (imv B) : Pt 3) (WithLp.toLp 2 (imv (q⁻¹ * P * q)))
  rw [hYnorm] at this
  exact this.trans hd

/-- **C161, reflections**. The computed reflected vector differs from the mirror image by at most `34 u ‖x‖ + 18 η`. -/
theorem C161_reflection (hF : F.emin + 2 * F.p ≤ 2) (hp : 8 ≤ F.p) {m k : ℕ} (hm : F.emin + F.p + 2 * m + 4 ≤ 0) (hm' : 2 * m + 2 ≤ F.emax)
    (hk : k + 2 ≤ F.emax) (n x : Pt 3) (h1 : 2 ^ (-(m : ℤ)) ≤ ‖n‖) (h2 : ‖n‖ ≤ 2 ^ (m : ℤ)) (hx : ‖x‖ ≤ 2 ^ (k : ℤ))
    {v : Vec 3} (hv : ReflectionFl F (efin x) (efin n) v) :
    ∃ V : Pt 3, v = efin V ∧ ‖V - (x - (2 * inner ℝ n x / ‖n‖ ^ 2) • n)‖ ≤ 34 * F.u * ‖x‖ + 18 * F.η := by
  obtain ⟨hN, r1, r2, r3, r4, r5, r6⟩ := range_sq F hm h1 h2
  obtain ⟨hu1, -, -, h7⟩ := pow_u F hp
  have hu := F.u_pos
  have hη0 := F.η_pos
  set N := ‖n‖ with hNdef
  have hX : 0 < N ^ 2 := by positivity
  have hemax : (4 : ℝ) * 2 ^ (2 * m : ℤ) ≤ 2 ^ F.emax := by
    rw [show (4 : ℝ) = 2 ^ (2 : ℤ) by norm_num, ← zpow_add₀ (by norm_num)]
    exact zpow_le_zpow_right₀ (by norm_num) (by omega)
  have hkmax : (4 : ℝ) * 2 ^ (k : ℤ) ≤ 2 ^ F.emax := by
    rw [show (4 : ℝ) = 2 ^ (2 : ℤ) by norm_num, ← zpow_add₀ (by norm_num)]
    exact zpow_le_zpow_right₀ (by norm_num) (by omega)
  have hm1 : (1 : ℝ) ≤ 2 ^ (2 * m : ℤ) := one_le_zpow₀ (by norm_num) (by omega)
  have hk1 : (1 : ℝ) ≤ 2 ^ (k : ℤ) := one_le_zpow₀ (by norm_num) (by omega)
  obtain ⟨w, a, b, hw, ha, hb, rfl⟩ := hv
  have hsum : ∑ i, n i ^ 2 = N ^ 2 := by
    rw [hNdef, EuclideanSpace.norm_sq_eq]
    simp
  obtain ⟨W, rfl, -, hW0, hW⟩ := normFl_bound F hF (fun i => n i) (X := N ^ 2) (k := 0) hX.le (by rw [hsum]; simp) (by
      have : (1 + F.u) ^ (3 + 0 + 3) * (N ^ 2 + ((3 : ℕ) : ℝ) * F.η) ≤ 1.03 * (N ^ 2 + ((3 : ℕ) : ℝ) * F.η) :=
        mul_le_mul_of_nonneg_right ((pow_le_pow_right₀ (by linarith) (by norm_num)).trans h7) (by positivity)
      refine this.trans ?_
      push_cast
      linarith) hw
  have hW' := sqnorm_real F hp (n := 3) (by norm_num) hX r1 (by exact_mod_cast hW)
  -- the computed norm
  have huN : F.u * N ≤ 1 / 256 * N := mul_le_mul_of_nonneg_right hu1 hN.le
  have hWN : |W - N| ≤ 6.25 * F.u * N := by
    have e : W ^ 2 - N ^ 2 = (W - N) * (W + N) := by ring
    rw [e, abs_mul, abs_of_pos (by linarith : 0 < W + N)] at hW'
    have h3 : |W - N| * N ≤ 6.25 * F.u * N * N := by
      have : |W - N| * N ≤ |W - N| * (W + N) := mul_le_mul_of_nonneg_left (by linarith) (abs_nonneg _)
      linarith
    exact le_of_mul_le_mul_right h3 hN
  have hwn := abs_le.mp hWN
  have hWlo : 0.975 * N ≤ W := by linarith
  have hWpos : 0 < W := by linarith
  have hcomp : ∀ i, ∃ z, F.div (fin (n i)) (fin W) = fin z ∧ |z - n i / N| ≤ 7.5 * F.u * |n i / N| + F.η := by
    intro i
    have hinv : 1 / W ≤ 1.026 / N := by
      rw [div_le_div_iff₀ hWpos hN]; linarith
    have hb : |n i / W| ≤ 1.026 * |n i / N| := by
      rw [abs_div, abs_div, abs_of_pos hWpos, abs_of_pos hN]
      calc |n i| / W = |n i| * (1 / W) := by ring
        _ ≤ |n i| * (1.026 / N) := mul_le_mul_of_nonneg_left hinv (abs_nonneg _)
        _ = _ := by ring
    have hle : |n i / N| ≤ 1 := by
      rw [abs_div, abs_of_pos hN, div_le_one hN]
      exact PiLp.norm_apply_le n i
    refine ⟨F.rndR (n i / W), by rw [Fmt.div, fin_div _ hWpos.ne', F.rnd_fin (by linarith)], ?_⟩
    have h3 : |F.rndR (n i / W) - n i / W| ≤ |n i / W| * F.u + F.η := rndR_mixed F (n i / W)
    have h4 : |n i / W - n i / N| ≤ 6.42 * F.u * |n i / N| := by
      have e : n i / W - n i / N = n i / W * ((N - W) / N) := by field_simp
      have h6 : |N - W| / N ≤ 6.25 * F.u := by rw [div_le_iff₀ hN, abs_sub_comm]; exact hWN
      rw [e, abs_mul, abs_div (N - W), abs_of_pos hN]
      calc |n i / W| * (|N - W| / N) ≤ 1.026 * |n i / N| * (6.25 * F.u) := mul_le_mul hb h6 (by positivity) (by positivity)
        _ ≤ _ := by
          have : 0 ≤ F.u * |n i / N| := by positivity
          linarith
    have h5 : |F.rndR (n i / W) - n i / N| ≤ |F.rndR (n i / W) - n i / W| + |n i / W - n i / N| := abs_sub_le _ _ _
    have h6 : |n i / W| * F.u ≤ 1.026 * |n i / N| * F.u := mul_le_mul_of_nonneg_right hb hu.le
    have : 0 ≤ F.u * |n i / N| := by positivity
    linarith
  choose z hz hze using hcomp
  have hzq : (⟨fin 0, fun i => F.div (efin n i) (fin W)⟩ : Quat) = ofH (pureH z) := by
    have : (fun i => F.div (efin n i) (fin W)) = vfin z := by
      funext i
      exact hz i
    rw [this, ofH_eq_of]; rfl
  rw [hzq, pureH_eq] at ha
  rw [hzq] at hb
  set P := pureH fun i => x i with hP
  have hPn : ‖P‖ = ‖x‖ := norm_pureH x
  set Q := pureH z with hQ
  set U := pureH fun i => n i / N with hU
  have hUn : ‖U‖ = 1 := by
    have h3 := norm_pureH (N⁻¹ • n)
    have h4 : (pureH fun i => (N⁻¹ • n) i) = U := by
      rw [hU]
      congr 1
      funext i
      simp [div_eq_inv_mul]
    rw [h4, norm_smul, norm_inv, Real.norm_eq_abs, abs_of_pos hN, ← hNdef, inv_mul_cancel₀ hN.ne'] at h3
    exact h3
  have hQU : ‖Q - U‖ ≤ 7.6 * F.u := by
    have h3 := norm_le_comp (a := Q - U) (b := U) (κ := 7.5 * F.u) (η := F.η) (by positivity) hη0.le
      (by rw [Quaternion.re_sub]; simp [hQ, hU]; positivity)
      (by rw [Quaternion.imI_sub]; exact hze 0) (by rw [Quaternion.imJ_sub]; exact hze 1) (by rw [Quaternion.imK_sub]; exact hze 2)
    rw [hUn] at h3
    linarith
  have hQn : ‖Q‖ ≤ 1.03 := by
    have := norm_add_le U (Q - U)
    rw [add_sub_cancel, hUn] at this
    linarith
  have hx0 := norm_nonneg x
  have hux : F.u * ‖x‖ ≤ 1 / 256 * ‖x‖ := mul_le_mul_of_nonneg_right hu1 hx0
  have hux0 : 0 ≤ F.u * ‖x‖ := by positivity
  have hQP : ‖Q‖ * ‖P‖ ≤ 1.03 * ‖x‖ := by rw [hPn]; exact mul_le_mul_of_nonneg_right hQn hx0
  obtain ⟨A, rfl, hA⟩ := mulFl_err F hp Q P ha (by linarith)
  have hA' : ‖A - U * P‖ ≤ 16 * F.u * ‖x‖ + 8.2 * F.η := by
    have e : A - U * P = (A - Q * P) + (Q - U) * P := by rw [sub_mul]; abel
    have h3 : ‖(Q - U) * P‖ ≤ 7.6 * F.u * ‖x‖ := by
      rw [norm_mul, hPn]
      exact mul_le_mul_of_nonneg_right hQU hx0
    have h4 : 8.1 * F.u * (‖Q‖ * ‖P‖) ≤ 8.1 * F.u * (1.03 * ‖x‖) := mul_le_mul_of_nonneg_left hQP (by positivity)
    rw [e]
    refine (norm_add_le _ _).trans ?_
    linarith
  have hAn : ‖A‖ ≤ 1.063 * ‖x‖ + 8.2 * F.η := by
    have h3 : ‖A‖ ≤ ‖U * P‖ + ‖A - U * P‖ := by
      have := norm_add_le (U * P) (A - U * P)
      rwa [add_sub_cancel] at this
    have h4 : ‖U * P‖ = ‖x‖ := by rw [norm_mul, hPn, hUn, one_mul]
    linarith
  have hAQ : ‖A‖ * ‖Q‖ ≤ 1.03 * (1.063 * ‖x‖ + 8.2 * F.η) := by
    rw [mul_comm]
    exact mul_le_mul hQn hAn (norm_nonneg _) (by norm_num)
  obtain ⟨B, rfl, hB⟩ := mulFl_err F hp A Q hb (by linarith)
  have huη : F.u * F.η ≤ 1 / 256 * F.η := mul_le_mul_of_nonneg_right hu1 hη0.le
  have hB' : ‖B - U * P * U‖ ≤ 34 * F.u * ‖x‖ + 18 * F.η := by
    have e : B - U * P * U = (B - A * Q) + (A * (Q - U) + (A - U * P) * U) := by rw [sub_mul, mul_sub]; abel
    have h3 : ‖A * (Q - U)‖ ≤ (1.063 * ‖x‖ + 8.2 * F.η) * (7.6 * F.u) := by
      rw [norm_mul]
      exact mul_le_mul hAn hQU (norm_nonneg _) (by positivity)
    have h4 : ‖(A - U * P) * U‖ ≤ 16 * F.u * ‖x‖ + 8.2 * F.η := by
      rw [norm_mul, hUn, mul_one]; exact hA'
    have h5 : 8.1 * F.u * (‖A‖ * ‖Q‖) ≤ 8.1 * F.u * (1.03 * (1.063 * ‖x‖ + 8.2 * F.η)) := mul_le_mul_of_nonneg_left hAQ (by positivity)
    rw [e]
    refine (norm_add_le _ _).trans ?_
    have := norm_add_le (A * (Q - U)) ((A - U * P) * U)
    linarith
  refine ⟨WithLp.toLp 2 (imv B), rfl, ?_⟩
  refine le_trans ?_ hB'
  refine le_trans (le_of_eq ?_) (imv_norm_le (B - U * P * U))
  congr 1
  have hin : inner ℝ n x = n 0 * x 0 + n 1 * x 1 + n 2 * x 2 := by
    rw [PiLp.inner_apply, Fin.sum_univ_three]
    simp [mul_comm]
  have hs : n 0 ^ 2 + n 1 ^ 2 + n 2 ^ 2 = N ^ 2 := by rw [← hsum, Fin.sum_univ_three]
  have hUPU : imv (U * P * U) = fun i => x i - 2 * inner ℝ n x / N ^ 2 * n i := by
    rw [hin]
    funext i
    fin_cases i
    · show (U * P * U).imI = _
      simp only [Quaternion.imI_mul, Quaternion.re_mul, Quaternion.imJ_mul, Quaternion.imK_mul, hU, hP, pureH_re, pureH_imI, pureH_imJ, pureH_imK]
      simp only [Fin.zero_eta]
      field_simp
      linear_combination x 0 * hs
    · show (U * P * U).imJ = _
      simp only [Quaternion.imI_mul, Quaternion.re_mul, Quaternion.imJ_mul, Quaternion.imK_mul, hU, hP, pureH_re, pureH_imI, pureH_imJ, pureH_imK]
      simp only [Fin.mk_one]
      field_simp
      linear_combination x 1 * hs
    · show (U * P * U).imK = _
      simp only [Quaternion.imI_mul, Quaternion.re_mul, Quaternion.imJ_mul, Quaternion.imK_mul, hU, hP, pureH_re, pureH_imI, pureH_imJ, pureH_imK]
      simp only [Fin.reduceFinMk]
      field_simp
      linear_combination x 2 * hs
  have hsub : imv (B - U * P * U) = fun i => imv B i - imv (U * P * U) i := by
    funext i
    fin_cases i <;> rfl
  rw [hsub, hUPU]
  rfl

/-- Halving is exact up to the smallest number. -/
theorem rndR_half {t : ℝ} (ht : F.Rep t) : |F.rndR (t / 2) - t / 2| ≤ F.η := by
  obtain ⟨m, e, hm, he, rfl⟩ := ht
  rcases eq_or_lt_of_le he with h | h
  · -- the spacing is the smallest one
    subst h
    have e2 : (2 : ℝ) ^ F.emin = 2 * F.η := by
      rw [show F.emin = 1 + (F.emin - 1) by ring, zpow_add₀ (by norm_num), zpow_one]
    have hη := F.η_pos
    have hrep : F.Rep ((m / 2 : ℤ) * (2 : ℝ) ^ F.emin) := by
      refine ⟨m / 2, F.emin, ?_, le_rfl, rfl⟩
      rw [abs_lt] at hm ⊢
      omega
    refine (F.rndR_nearest _ _ hrep).trans ?_
    have hd : (m : ℝ) = 2 * (m / 2 : ℤ) + (m % 2 : ℤ) := by exact_mod_cast (Int.mul_ediv_add_emod m 2).symm
    have h0 : (0 : ℝ) ≤ (m % 2 : ℤ) := by exact_mod_cast Int.emod_nonneg m (by norm_num)
    have h1 : ((m % 2 : ℤ) : ℝ) ≤ 1 := by
      have := Int.emod_lt_of_pos m (show (0 : ℤ) < 2 by norm_num)
      exact_mod_cast (by omega : m % 2 ≤ 1)
    rw [e2, hd, show ((m / 2 : ℤ) : ℝ) * (2 * F.η) - (2 * (m / 2 : ℤ) + (m % 2 : ℤ)) * (2 * F.η) / 2 = -((m % 2 : ℤ) * F.η) by ring, abs_neg,
      abs_of_nonneg (by positivity)]
    exact mul_le_of_le_one_left hη.le h1
  · have hrep : F.Rep (m * (2 : ℝ) ^ e / 2) := by
      refine ⟨m, e - 1, hm, by omega, ?_⟩
      rw [zpow_sub_one₀ (by norm_num)]
      ring
    rw [F.rndR_rep hrep, sub_self, abs_zero]
    exact F.η_pos.le

/-- The rotations by two quaternions. -/
theorem rot_perturb {p q : ℍ[ℝ]} (hp : p ≠ 0) (hq : q ≠ 0) (P : ℍ[ℝ]) : ‖p⁻¹ * P * p - q⁻¹ * P * q‖ ≤ 2 * (‖p - q‖ / ‖q‖) * ‖P‖ := by
  have hp' : 0 < ‖p‖ := norm_pos_iff.mpr hp
  have hq' : 0 < ‖q‖ := norm_pos_iff.mpr hq
  have e : p⁻¹ * P * p - q⁻¹ * P * q = p⁻¹ * (q - p) * (q⁻¹ * P * p) + q⁻¹ * P * (p - q) := by
    have : p⁻¹ * (q - p) * (q⁻¹ * P * p) = p⁻¹ * (q * q⁻¹) * P * p - p⁻¹ * p * (q⁻¹ * P * p) := by
      rw [mul_sub, sub_mul]
      simp only [mul_assoc]
    rw [this, mul_inv_cancel₀ hq, inv_mul_cancel₀ hp, mul_one, one_mul, mul_sub]
    abel
  have h1 : ‖p⁻¹ * (q - p) * (q⁻¹ * P * p)‖ = ‖p - q‖ / ‖q‖ * ‖P‖ := by
    simp only [norm_mul, norm_inv]
    rw [norm_sub_rev]
    field_simp
  have h2 : ‖q⁻¹ * P * (p - q)‖ = ‖p - q‖ / ‖q‖ * ‖P‖ := by
    simp only [norm_mul, norm_inv]
    field_simp
  rw [e]
  refine (norm_add_le _ _).trans ?_
  rw [h1, h2]
  linarith

/-- The distance of two quaternions with close components. -/
theorem axis_dist {q q' : ℍ[ℝ]} {axis : Pt 3} {ε r : ℝ} (hε0 : 0 ≤ ε) (h32 : 128 * F.η ≤ F.u) (hax2 : ‖axis‖ ≤ 2)
    (haxn : axis 0 ^ 2 + axis 1 ^ 2 + axis 2 ^ 2 = ‖axis‖ ^ 2) (hr : q'.re - q.re = r) (hce' : |r| ≤ ε + F.η)
    (h1 : |q'.imI - q.imI| ≤ (ε + F.η + 1.02 * F.u) * |axis 0| + F.η) (h2 : |q'.imJ - q.imJ| ≤ (ε + F.η + 1.02 * F.u) * |axis 1| + F.η)
    (h3 : |q'.imK - q.imK| ≤ (ε + F.η + 1.02 * F.u) * |axis 2| + F.η) : ‖q' - q‖ ≤ 3 * ε + 2.1 * F.u := by
  have hu := F.u_pos
  have hη0 := F.η_pos
  obtain ⟨U, U0, U1, U2, U3⟩ : ∃ q : ℍ[ℝ], q.re = 0 ∧ q.imI = axis 0 ∧ q.imJ = axis 1 ∧ q.imK = axis 2 :=
    ⟨⟨0, axis 0, axis 1, axis 2⟩, rfl, rfl, rfl, rfl⟩
  have hUn : ‖U‖ = ‖axis‖ := by
    rw [← sq_eq_sq₀ (norm_nonneg _) (norm_nonneg _), norm_sq_H, U0, U1, U2, U3, ← haxn]
    ring
  have h1 := norm_le_comp (a := q' - q - (r : ℍ[ℝ])) (b := U) (κ := ε + F.η + 1.02 * F.u) (η := F.η) (by positivity) hη0.le
    (by rw [Quaternion.re_sub, Quaternion.re_sub, Quaternion.re_coe, hr, U0, sub_self, abs_zero, mul_zero, zero_add]; exact hη0.le)
    (by rw [Quaternion.imI_sub, Quaternion.imI_sub, Quaternion.imI_coe, U1, sub_zero]; exact h1)
    (by rw [Quaternion.imJ_sub, Quaternion.imJ_sub, Quaternion.imJ_coe, U2, sub_zero]; exact h2)
    (by rw [Quaternion.imK_sub, Quaternion.imK_sub, Quaternion.imK_coe, U3, sub_zero]; exact h3)
  rw [hUn] at h1
  have h2 : (ε + F.η + 1.02 * F.u) * ‖axis‖ ≤ (ε + F.η + 1.02 * F.u) * 2 := mul_le_mul_of_nonneg_left hax2 (by positivity)
  have h3 : ‖q' - q‖ ≤ ‖(r : ℍ[ℝ])‖ + ‖q' - q - (r : ℍ[ℝ])‖ := by
    have := norm_add_le (r : ℍ[ℝ]) (q' - q - (r : ℍ[ℝ]))
    rwa [add_sub_cancel] at this
  rw [Quaternion.norm_coe, Real.norm_eq_abs] at h3
  linarith

theorem axis_norm {q : ℍ[ℝ]} {a t : ℝ} (h1 : 1 / 2 ≤ a) (h2 : a ≤ 2) (hq : ‖q‖ ^ 2 = 1 + (a ^ 2 - 1) * Real.sin t ^ 2) : 1 / 2 ≤ ‖q‖ ∧ ‖q‖ ≤ 2 := by
  have hs1 : Real.sin t ^ 2 ≤ 1 := Real.sin_sq_le_one t
  have hs0 := sq_nonneg (Real.sin t)
  have h3 : 1 / 4 ≤ a ^ 2 := by nlinarith
  have h4 : a ^ 2 ≤ 4 := by nlinarith
  have h5 : (1 / 4 - 1) * Real.sin t ^ 2 ≤ (a ^ 2 - 1) * Real.sin t ^ 2 := mul_le_mul_of_nonneg_right (by linarith) hs0
  have h6 : (a ^ 2 - 1) * Real.sin t ^ 2 ≤ (4 - 1) * Real.sin t ^ 2 := mul_le_mul_of_nonneg_right (by linarith) hs0
  exact ⟨abs_le_of_sq_le_sq' (by rw [hq]; linarith) (norm_nonneg q) |>.2, abs_le_of_sq_le_sq' (by rw [hq]; linarith) (by norm_num) |>.2⟩

/-- The computed quaternion of an axis and an angle. -/
theorem fromAxisAngleFl_dist (hp : 8 ≤ F.p) (hm : F.emin + F.p + 8 ≤ 0) (hm' : 6 ≤ F.emax)
    {cosL sinL : XR → XR} {T ε : ℝ} (hε : ε ≤ 1 / 64)
    (hcos : ∀ t, F.Rep t → |t| ≤ T → ∃ c, cosL (fin t) = fin c ∧ |c - Real.cos t| ≤ ε)
    (hsin : ∀ t, F.Rep t → |t| ≤ T → ∃ s, sinL (fin t) = fin s ∧ |s - Real.sin t| ≤ ε)
    {angle : ℝ} (ha : F.Rep angle) (hT : |angle| ≤ 2 ^ F.emax) (hT' : |angle| / 2 + F.η ≤ T) (axis : Pt 3) (hax1 : 1 / 2 ≤ ‖axis‖)
    (hax2 : ‖axis‖ ≤ 2) :
    ∃ q q' : ℍ[ℝ], fromAxisAngle (fin angle) (efin axis) = ofH q ∧ fromAxisAngleFl F cosL sinL (fin angle) (efin axis) = ofH q' ∧
      1 / 2 ≤ ‖q‖ ∧ ‖q‖ ≤ 2 ∧ ‖q' - q‖ ≤ 3 * ε + 2.1 * F.u ∧ 0 ≤ ε := by
  obtain ⟨hu1, -, -, -⟩ := pow_u F hp
  have hu := F.u_pos
  have hη0 := F.η_pos
  have h32 : 128 * F.η ≤ F.u := by
    have e : 128 * F.η = 2 ^ (7 + (F.emin - 1)) := by
      rw [zpow_add₀ (by norm_num)]
      have : (2 : ℝ) ^ (7 : ℤ) = 128 := by norm_num
      rw [this]
    rw [e]
    exact zpow_le_zpow_right₀ (by norm_num) (by omega)
  have h16 : (16 : ℝ) ≤ 2 ^ F.emax := by
    calc (16 : ℝ) = 2 ^ (4 : ℤ) := by norm_num
      _ ≤ _ := zpow_le_zpow_right₀ (by norm_num) (by omega)
  -- half of the angle
  set h := F.rndR (angle / 2) with hh
  have hhalf : |h - angle / 2| ≤ F.η := rndR_half F ha
  have hdiv : F.div (fin angle) (fin 2) = fin h := by
    rw [Fmt.div, fin_div _ (by norm_num), F.rnd_fin]
    rw [abs_div, abs_two]
    linarith [abs_nonneg angle]
  have hhT : |h| ≤ T := by
    have := abs_sub_abs_le_abs_sub h (angle / 2)
    rw [abs_div, abs_two] at this
    linarith
  obtain ⟨c, hc, hce⟩ := hcos h (F.rep_rndR _) hhT
  obtain ⟨s, hs, hse⟩ := hsin h (F.rep_rndR _) hhT
  have hε0 : 0 ≤ ε := (abs_nonneg _).trans hce
  have hce' : |c - Real.cos (angle / 2)| ≤ ε + F.η := by
    have h1 := Real.abs_cos_sub_cos_le h (angle / 2)
    have h2 := abs_sub_le c (Real.cos h) (Real.cos (angle / 2))
    linarith
  have hse' : |s - Real.sin (angle / 2)| ≤ ε + F.η := by
    have h1 := Real.abs_sin_sub_sin_le h (angle / 2)
    have h2 := abs_sub_le s (Real.sin h) (Real.sin (angle / 2))
    linarith
  have hs1 : |s| ≤ 1.02 := by
    have h1 := abs_sub_abs_le_abs_sub s (Real.sin h)
    have h2 := Real.abs_sin_le_one h
    linarith
  have haxi : ∀ i, |axis i| ≤ 2 := fun i => (PiLp.norm_apply_le axis i).trans hax2
  have hcomp : ∀ i, ∃ z, F.mul (fin (axis i)) (fin s) = fin z ∧
      |z - axis i * Real.sin (angle / 2)| ≤ (ε + F.η + 1.02 * F.u) * |axis i| + F.η := by
    intro i
    have hb : |axis i * s| ≤ 1.02 * |axis i| := by
      rw [abs_mul, mul_comm]
      exact mul_le_mul_of_nonneg_right hs1 (abs_nonneg _)
    obtain ⟨z, hz, -, hze, -⟩ := mulE F hb (by linarith [haxi i])
    refine ⟨z, hz, ?_⟩
    have h1 : |axis i * s - axis i * Real.sin (angle / 2)| ≤ (ε + F.η) * |axis i| := by
      rw [← mul_sub, abs_mul, mul_comm]
      exact mul_le_mul_of_nonneg_right hse' (abs_nonneg _)
    have h2 := abs_sub_le z (axis i * s) (axis i * Real.sin (angle / 2))
    linarith
  choose z hz hze using hcomp
  obtain ⟨q', q'0, q'1, q'2, q'3⟩ : ∃ q : ℍ[ℝ], q.re = c ∧ q.imI = z 0 ∧ q.imJ = z 1 ∧ q.imK = z 2 := ⟨⟨c, z 0, z 1, z 2⟩, rfl, rfl, rfl, rfl⟩
  obtain ⟨q, hq, q0, q1, q2, q3⟩ : ∃ q : ℍ[ℝ], fromAxisAngle (fin angle) (efin axis) = ofH q ∧ q.re = Real.cos (angle / 2) ∧
      q.imI = axis 0 * Real.sin (angle / 2) ∧ q.imJ = axis 1 * Real.sin (angle / 2) ∧ q.imK = axis 2 * Real.sin (angle / 2) :=
    ⟨_, fromAxisAngle_fin angle fun i => axis i, rfl, rfl, rfl, rfl⟩
  have hq' : fromAxisAngleFl F cosL sinL (fin angle) (efin axis) = ofH q' := by
    refine Quat.ext ?_ ?_
    · show cosL (F.div (fin angle) (fin 2)) = fin q'.re
      rw [hdiv, hc, q'0]
    · funext i
      show F.mul (fin (axis i)) (sinL (F.div (fin angle) (fin 2))) = fin (![q'.imI, q'.imJ, q'.imK] i)
      rw [hdiv, hs, hz, q'1, q'2, q'3]
      fin_cases i <;> rfl
  have haxn : axis 0 ^ 2 + axis 1 ^ 2 + axis 2 ^ 2 = ‖axis‖ ^ 2 := by
    rw [EuclideanSpace.norm_sq_eq, Fin.sum_univ_three]
    simp
  have hcs := Real.cos_sq_add_sin_sq (angle / 2)
  have hqn : ‖q‖ ^ 2 = 1 + (‖axis‖ ^ 2 - 1) * Real.sin (angle / 2) ^ 2 := by
    rw [norm_sq_H, q0, q1, q2, q3, ← haxn]
    linear_combination hcs
  obtain ⟨hqlo, hqhi⟩ := axis_norm hax1 hax2 hqn
  refine ⟨q, q', hq, hq', hqlo, hqhi, ?_, hε0⟩
  refine axis_dist F hε0 h32 hax2 haxn (by rw [q'0, q0]) hce' ?_ ?_ ?_
  · rw [q'1, q1]; exact hze 0
  · rw [q'2, q2]; exact hze 1
  · rw [q'3, q3]; exact hze 2

/-- **C161, rotations about an axis**. If the library computes cosines and sines with errors of at most `ε`, the vector rotated by
the computed quaternion of an axis and an angle is within `(12 ε + 39 u) ‖x‖ + 45 η` of the vector rotated exactly; for a unit axis this is
the rotation by `-angle` about the axis. -/
theorem C161_axis_angle (hF : F.emin + 2 * F.p ≤ 2) (hp : 8 ≤ F.p) (hm : F.emin + F.p + 8 ≤ 0) {k : ℕ} (hm' : 6 ≤ F.emax) (hk : k + 4 ≤ F.emax)
    {cosL sinL : XR → XR} {T ε : ℝ} (hε : ε ≤ 1 / 64)
    (hcos : ∀ t, F.Rep t → |t| ≤ T → ∃ c, cosL (fin t) = fin c ∧ |c - Real.cos t| ≤ ε)
    (hsin : ∀ t, F.Rep t → |t| ≤ T → ∃ s, sinL (fin t) = fin s ∧ |s - Real.sin t| ≤ ε)
    {angle : ℝ} (ha : F.Rep angle) (hT : |angle| ≤ 2 ^ F.emax) (hT' : |angle| / 2 + F.η ≤ T) (axis x : Pt 3) (hax1 : 1 / 2 ≤ ‖axis‖)
    (hax2 : ‖axis‖ ≤ 2) (hx : ‖x‖ ≤ 2 ^ (k : ℤ)) {v : Vec 3}
    (hv : RotationFl F (efin x) (fromAxisAngleFl F cosL sinL (fin angle) (efin axis)) v) :
    ∃ V Y : Pt 3, v = efin V ∧ quaternionRotation (efin x) (fromAxisAngle (fin angle) (efin axis)) = efin Y ∧
      (‖axis‖ = 1 → Y = WithLp.toLp 2 (rodrigues (fun i => axis i) (-angle) fun i => x i)) ∧
      ‖V - Y‖ ≤ (12 * ε + 39 * F.u) * ‖x‖ + 45 * F.η := by
  obtain ⟨hu1, -, -, -⟩ := pow_u F hp
  have hu := F.u_pos
  have hη0 := F.η_pos
  obtain ⟨q, q', hq, hq', hqlo, hqhi, hdist, hε0⟩ := fromAxisAngleFl_dist F hp hm hm' hε hcos hsin ha hT hT' axis hax1 hax2
  have hqpos : 0 < ‖q‖ := by linarith
  have hq'lo : 1 / 4 ≤ ‖q'‖ := by
    have := norm_sub_norm_le q q'
    rw [norm_sub_rev] at this
    linarith
  have hq'hi : ‖q'‖ ≤ 4 := by
    have := norm_sub_norm_le q' q
    linarith
  rw [hq'] at hv
  obtain ⟨V, Y', hV, hY', -, hVY, -⟩ := C161_rotation F hF hp (m := 2) (k := k) (by push_cast; linarith) (by push_cast; linarith)
    (by push_cast; linarith) q' (by norm_num at hq'lo ⊢; linarith) (by norm_num at hq'hi ⊢; linarith) x hx hv
  have hq0 : q ≠ 0 := norm_pos_iff.mp hqpos
  have hq'0 : q' ≠ 0 := norm_pos_iff.mp (by linarith)
  set P := pureH fun i => x i with hP
  have hPn : ‖P‖ = ‖x‖ := norm_pureH x
  have rot : ∀ q : ℍ[ℝ], q ≠ 0 → quaternionRotation (efin x) (ofH q) = efin (WithLp.toLp 2 (imv (q⁻¹ * P * q)) : Pt 3) := by
    intro q hq
    show quaternionRotation (vfin fun i => x i) (ofH q) = _
    rw [quaternionRotation_ofH hq]
    rfl
  have hYe : Y' = WithLp.toLp 2 (imv (q'⁻¹ * P * q')) := efin_inj.mp (hY'.symm.trans (rot q' hq'0))
  have hpert : ‖Y' - WithLp.toLp 2 (imv (q⁻¹ * P * q))‖ ≤ (12 * ε + 8.4 * F.u) * ‖x‖ := by
    have h1 := rot_perturb hq'0 hq0 P
    have h2 : ‖q' - q‖ / ‖q‖ ≤ 2 * (3 * ε + 2.1 * F.u) := by
      rw [div_le_iff₀ hqpos]
      have : (3 * ε + 2.1 * F.u) * (1 / 2) ≤ (3 * ε + 2.1 * F.u) * ‖q‖ := mul_le_mul_of_nonneg_left hqlo (by positivity)
      linarith
    have h3 : 2 * (‖q' - q‖ / ‖q‖) * ‖P‖ ≤ (12 * ε + 8.4 * F.u) * ‖x‖ := by
      rw [hPn]
      exact mul_le_mul_of_nonneg_right (by linarith) (norm_nonneg _)
    refine le_trans ?_ (h1.trans h3)
    refine le_trans (le_of_eq ?_) (imv_norm_le (q'⁻¹ * P * q' - q⁻¹ * P * q))
    rw [hYe]
    congr 1
    ext i
    fin_cases i <;> rfl
  refine ⟨V, WithLp.toLp 2 (imv (q⁻¹ * P * q)), hV, by rw [hq]; exact rot q hq0, fun h1 => ?_, ?_⟩
  · have hdot : (fun i => axis i) ⬝ᵥ (fun i => axis i) = 1 := by
      rw [dotProduct, Fin.sum_univ_three]
      have haxn : axis 0 ^ 2 + axis 1 ^ 2 + axis 2 ^ 2 = ‖axis‖ ^ 2 := by
        rw [EuclideanSpace.norm_sq_eq, Fin.sum_univ_three]
        simp
      rw [h1] at haxn
      linarith
    have h2 := (C26_axis_angle angle (fun i => axis i) (fun i => x i) hdot).2
    have h3 := rot q hq0
    rw [← hq] at h3
    exact (efin_inj (x := WithLp.toLp 2 (imv (q⁻¹ * P * q))) (y := WithLp.toLp 2 (rodrigues (fun i => axis i) (-angle) fun i => x i))).mp
      (h3.symm.trans h2)
  · have h1 := norm_sub_le_norm_sub_add_norm_sub V Y' (WithLp.toLp 2 (imv (q⁻¹ * P * q)))
    have h2 : 9 * (1 + ‖q'‖) * F.η ≤ 45 * F.η := mul_le_mul_of_nonneg_right (by linarith) hη0.le
    have h3 := norm_nonneg x
    have h4 : 0 ≤ F.u * ‖x‖ := by positivity
    linarith

/-- Some order of the sum exists. -/
theorem exists_flDot (l : Multiset (XR × XR)) : ∃ s, FlDot F l s := by
  induction l using Multiset.induction with
  | empty => exact ⟨_, FlDot.zero⟩
  | cons a l ih =>
    obtain ⟨s, hs⟩ := ih
    exact ⟨_, by rw [← Multiset.singleton_add]; exact FlDot.add (FlDot.mul a.1 a.2) hs⟩

theorem exists_mulFl (p q : Quat) : ∃ r, Quat.MulFl F p q r := by
  obtain ⟨s, hs⟩ := exists_flDot F (pairsFl p.im q.im)
  exact ⟨⟨_, _⟩, ⟨s, hs, rfl⟩, rfl⟩

theorem exists_rotationFl (x : Vec 3) (q : Quat) : ∃ v, RotationFl F x q v := by
  obtain ⟨s, hs⟩ := exists_flDot F (squaresFl q.im)
  obtain ⟨a, ha⟩ := exists_mulFl F _ ⟨fin 0, x⟩
  obtain ⟨b, hb⟩ := exists_mulFl F a q
  exact ⟨_, _, a, b, ⟨_, ⟨s, hs, rfl⟩, rfl⟩, ha, hb, rfl⟩

theorem exists_reflectionFl (x n : Vec 3) : ∃ v, ReflectionFl F x n v := by
  obtain ⟨s, hs⟩ := exists_flDot F (squaresFl n)
  obtain ⟨a, ha⟩ := exists_mulFl F ⟨fin 0, fun i => F.div (n i) (F.sqrt s)⟩ ⟨fin 0, x⟩
  obtain ⟨b, hb⟩ := exists_mulFl F a ⟨fin 0, fun i => F.div (n i) (F.sqrt s)⟩
  exact ⟨_, _, a, b, ⟨s, hs, rfl⟩, ha, hb, rfl⟩

/-- A sum of products which all vanish is 0 in any order. -/
theorem flDot_zeros {l : Multiset (XR × XR)} {r : XR} (h : FlDot F l r) (hl : ∀ q ∈ l, ∃ a b : ℝ, q = (fin a, fin b) ∧ a * b = 0) : r = fin 0 := by
  have r0 : F.rnd (fin 0) = fin 0 := by rw [F.rnd_fin (by rw [abs_zero]; positivity), F.rndR_zero]
  induction h with
  | zero => rfl
  | mul w y =>
    obtain ⟨a, b, hq, hab⟩ := hl _ (Multiset.mem_singleton_self _)
    rw [Prod.mk.injEq] at hq
    obtain ⟨rfl, rfl⟩ := hq
    rw [Fmt.mul, fin_mul, hab, r0]
  | add _ _ ih1 ih2 =>
    rw [ih1 fun q hq => hl q (Multiset.mem_add.mpr (.inl hq)), ih2 fun q hq => hl q (Multiset.mem_add.mpr (.inr hq)), Fmt.add, fin_add, add_zero, r0]
  | fma w y _ ih =>
    obtain ⟨a, b, hq, hab⟩ := hl (w, y) (Multiset.mem_add.mpr (.inr (Multiset.mem_singleton_self _)))
    rw [Prod.mk.injEq] at hq
    obtain ⟨rfl, rfl⟩ := hq
    rw [ih fun q hq => hl q (Multiset.mem_add.mpr (.inl hq)), fin_mul, hab, fin_add, add_zero, r0]

end

/-! ## Quaternions whose squared norm underflows or overflows -/

theorem ofH_coe (a : ℝ) : ofH (a : ℍ[ℝ]) = ⟨fin a, fun _ => fin 0⟩ := by
  refine Quat.ext rfl ?_
  funext i
  fin_cases i <;> rfl

/-- The exact rotation by a real number does nothing. -/
theorem rotation_coe {a : ℝ} (ha : a ≠ 0) (x : Pt 3) : quaternionRotation (efin x) (ofH (a : ℍ[ℝ])) = efin x := by
  have h : (a : ℍ[ℝ]) ≠ 0 := fun h => ha (by simpa using congrArg (fun q : ℍ[ℝ] => q.re) h)
  show quaternionRotation (vfin fun i => x i) _ = vfin fun i => x i
  rw [quaternionRotation_ofH h, rotH, mul_assoc, ← Quaternion.coe_commutes, ← mul_assoc, inv_mul_cancel₀ h, one_mul, imv_pureH]

/-- Numbers below half of the smallest number are rounded to 0. -/
theorem rndR_tiny (F : Fmt) {x : ℝ} (h : |x| < F.η) : F.rndR x = 0 := by
  have h1 := F.rndR_nearest x 0 F.rep_zero
  rw [zero_sub, abs_neg] at h1
  obtain ⟨n, hn⟩ := (F.rep_rndR x).mul_emin
  have e : (2 : ℝ) ^ F.emin = 2 * F.η := by
    rw [show F.emin = 1 + (F.emin - 1) by ring, zpow_add₀ (by norm_num), zpow_one]
  have h2 := abs_sub_abs_le_abs_sub (F.rndR x) x
  have hη := F.η_pos
  have h3 : |(n : ℝ)| * (2 * F.η) < 1 * (2 * F.η) := by
    rw [← abs_of_pos (by positivity : 0 < 2 * F.η), ← abs_mul, abs_of_pos (by positivity : 0 < 2 * F.η), ← e, ← hn, e]
    linarith
  have h4 : |(n : ℝ)| < 1 := lt_of_mul_lt_mul_right h3 (by positivity)
  have h5 : n = 0 := Int.abs_lt_one_iff.mp (by exact_mod_cast h4)
  rw [hn, h5, Int.cast_zero, zero_mul]

/-- **C161, small quaternions**. In single precision the rotation by the quaternion `2⁻⁸⁰`, exactly the identity, gives no numbers: the
square of the norm is rounded to 0. -/
theorem C161_small_norm (x : Pt 3) {v : Vec 3} (hv : RotationFl Fmt.single (efin x) (ofH ((2 ^ (-80 : ℤ) : ℝ) : ℍ[ℝ])) v) :
    (v = fun _ => nan) ∧ quaternionRotation (efin x) (ofH ((2 ^ (-80 : ℤ) : ℝ) : ℍ[ℝ])) = efin x := by
  refine ⟨?_, rotation_coe (by positivity) x⟩
  rw [ofH_coe] at hv
  set t : ℝ := 2 ^ (-80 : ℤ) with ht
  have hsq : Fmt.single.mul (fin t) (fin t) = fin 0 := by
    have e : t * t = 2 ^ (-160 : ℤ) := by rw [ht, ← zpow_add₀ (by norm_num)]; norm_num
    rw [Fmt.mul, fin_mul, e, Fmt.single.rnd_fin, rndR_tiny]
    · rw [abs_of_pos (by positivity)]
      exact zpow_lt_zpow_right₀ (by norm_num) (by decide)
    · rw [abs_of_pos (by positivity)]
      exact zpow_le_zpow_right₀ (by norm_num) (by decide)
  clear_value t
  obtain ⟨qinv, a, b, ⟨w, ⟨s, hs, hw⟩, rfl⟩, ⟨-, ha⟩, ⟨-, hb⟩, rfl⟩ := hv
  have hs0 : s = fin 0 := flDot_zeros _ hs fun t ht => by
    obtain ⟨i, -, rfl⟩ := Multiset.mem_map.mp ht
    exact ⟨0, 0, rfl, mul_zero _⟩
  have r0 : Fmt.single.rnd (fin 0) = fin 0 := by rw [Fmt.single.rnd_fin (by rw [abs_zero]; positivity), Fmt.single.rndR_zero]
  have rn : Fmt.single.rnd nan = nan := rfl
  have hw0 : w = fin 0 := by
    rw [hw]
    show Fmt.single.sqrt (Fmt.single.add (Fmt.single.mul (fin t) (fin t)) s) = _
    rw [hsq, hs0, Fmt.add, fin_add, add_zero, r0, Fmt.sqrt, fin_sqrt le_rfl, Real.sqrt_zero, r0]
  have hc : Fmt.single.div (fin 1) (Fmt.single.mul w w) = pinf := by
    rw [hw0, Fmt.mul, fin_mul, mul_zero, r0, Fmt.div, fin_div_zero, infSign, if_pos one_pos]
    rfl
  have h1 : Fmt.single.mul (-fin 0) pinf = nan := by
    rw [fin_neg, neg_zero, Fmt.mul]
    show Fmt.single.rnd (infSign 0) = nan
    simp [infSign, rn]
  have addr : ∀ y z : XR, z = nan → Fmt.single.add y z = nan := by
    intro y z h
    rw [h, Fmt.add, add_nan, rn]
  have addl : ∀ y z : XR, y = nan → Fmt.single.add y z = nan := by
    intro y z h
    rw [h, Fmt.add, nan_add, rn]
  have mulr : ∀ y z : XR, z = nan → Fmt.single.mul y z = nan := by
    intro y z h
    rw [h, Fmt.mul, mul_nan, rn]
  funext i
  rw [hb]
  refine addl _ _ (addr _ _ (mulr _ _ ?_))
  rw [ha]
  refine addl _ _ (addr _ _ (mulr _ _ ?_))
  show Fmt.single.mul (-fin 0) (Fmt.single.div (fin 1) (Fmt.single.mul w w)) = nan
  rw [hc, h1]

/-- **C161, large quaternions**. In single precision the rotation by the quaternion `2⁷⁰`, exactly the identity, maps every vector to 0: the
square of the norm is infinite. -/
theorem C161_large_norm (x : Pt 3) {v : Vec 3} (hv : RotationFl Fmt.single (efin x) (ofH ((2 ^ (70 : ℤ) : ℝ) : ℍ[ℝ])) v) :
    v = efin 0 ∧ quaternionRotation (efin x) (ofH ((2 ^ (70 : ℤ) : ℝ) : ℍ[ℝ])) = efin x := by
  refine ⟨?_, rotation_coe (by positivity) x⟩
  rw [ofH_coe] at hv
  set t : ℝ := 2 ^ (70 : ℤ) with ht
  have hsq : Fmt.single.mul (fin t) (fin t) = pinf := by
    have e : t * t = 2 ^ (140 : ℤ) := by rw [ht, ← zpow_add₀ (by norm_num)]; norm_num
    have h140 : Fmt.single.rndR (2 ^ (140 : ℤ)) = 2 ^ (140 : ℤ) := Fmt.single.rndR_rep (Fmt.single.rep_two_zpow (by decide))
    rw [Fmt.mul, fin_mul, e, Fmt.rnd, h140, if_neg, infSign, if_pos (by positivity)]
    rw [not_lt, abs_of_pos (by positivity)]
    exact zpow_le_zpow_right₀ (by norm_num) (by decide)
  clear_value t
  obtain ⟨qinv, a, b, ⟨w, ⟨s, hs, hw⟩, hqe⟩, hA, ⟨-, hb⟩, rfl⟩ := hv
  have hs0 : s = fin 0 := flDot_zeros _ hs fun t ht => by
    obtain ⟨i, -, rfl⟩ := Multiset.mem_map.mp ht
    exact ⟨0, 0, rfl, mul_zero _⟩
  have r0 : Fmt.single.rnd (fin 0) = fin 0 := by rw [Fmt.single.rnd_fin (by rw [abs_zero]; positivity), Fmt.single.rndR_zero]
  have hw0 : w = pinf := by
    rw [hw]
    show Fmt.single.sqrt (Fmt.single.add (Fmt.single.mul (fin t) (fin t)) s) = _
    rw [hsq, hs0]
    rfl
  have hc : Fmt.single.div (fin 1) (Fmt.single.mul w w) = fin 0 := by
    rw [hw0]
    show Fmt.single.rnd (fin 1 / Fmt.single.rnd (pinf * pinf)) = fin 0
    have : (pinf : XR) * pinf = pinf := rfl
    rw [this]
    exact r0
  have mul0 : ∀ y : ℝ, Fmt.single.mul (fin 0) (fin y) = fin 0 ∧ Fmt.single.mul (fin y) (fin 0) = fin 0 := by
    intro y
    rw [Fmt.mul, fin_mul, zero_mul, r0, Fmt.mul, fin_mul, mul_zero, r0]
    exact ⟨rfl, rfl⟩
  have add0 : Fmt.single.add (fin 0) (fin 0) = fin 0 := by rw [Fmt.add, fin_add, add_zero, r0]
  have sub0 : Fmt.single.sub (fin 0) (fin 0) = fin 0 := by rw [Fmt.sub, fin_sub, sub_zero, r0]
  have hqi : (⟨Fmt.single.mul (fin t) (Fmt.single.div (fin 1) (Fmt.single.mul w w)),
      fun _ => Fmt.single.mul (-fin 0) (Fmt.single.div (fin 1) (Fmt.single.mul w w))⟩ : Quat) = ⟨fin 0, fun _ => fin 0⟩ := by
    rw [hc, fin_neg, neg_zero, (mul0 t).2, (mul0 0).1]
  have cross0 : ∀ (y : Vec 3) (i : Fin 3), (∀ j, ∃ r, y j = fin r) → Quat.crossFl Fmt.single (fun _ => fin 0) y i = fin 0 := by
    intro y i hy
    choose r hr using hy
    fin_cases i <;> simp [Quat.crossFl, hr, (mul0 _).1, sub0]
  rw [hqe.trans hqi] at hA
  obtain ⟨⟨s', hs', ha0⟩, ha⟩ := hA
  have hs'0 : s' = fin 0 := flDot_zeros _ hs' fun t ht => by
    obtain ⟨i, -, rfl⟩ := Multiset.mem_map.mp ht
    exact ⟨0, x i, rfl, zero_mul _⟩
  have hare : a.re = fin 0 := by
    rw [ha0, hs'0]
    show Fmt.single.sub (Fmt.single.mul (fin 0) (fin 0)) (fin 0) = fin 0
    rw [(mul0 0).1, sub0]
  have haim : a.im = fun _ => fin 0 := by
    rw [ha]
    funext i
    show Fmt.single.add (Fmt.single.add (Fmt.single.mul (fin 0) (fin (x i))) (Fmt.single.mul (fin 0) (fin 0)))
      (Quat.crossFl Fmt.single (fun _ => fin 0) (efin x) i) = fin 0
    rw [cross0 (efin x) i fun j => ⟨x j, rfl⟩, (mul0 _).1, (mul0 _).1, add0, add0]
  rw [hb, hare, haim]
  funext i
  show Fmt.single.add (Fmt.single.add (Fmt.single.mul (fin 0) (fin 0)) (Fmt.single.mul (fin t) (fin 0)))
    (Quat.crossFl Fmt.single (fun _ => fin 0) (fun _ => fin 0) i) = fin 0
  rw [cross0 (fun _ => fin 0) i fun j => ⟨0, rfl⟩, (mul0 _).1, (mul0 _).2, add0, add0]

/-! ## Examples -/

theorem single_η : Fmt.single.η = 2 ^ (-150 : ℤ) := rfl

theorem norm_one_add_k : ‖(1 + pureH ![0, 0, 1] : ℍ[ℝ])‖ ^ 2 = 2 := by
  rw [norm_sq_H]
  simp
  norm_num

/-- The product of `1 + k` with itself in single precision. -/
example : ∃ r : Quat, Quat.MulFl Fmt.single (ofH (1 + pureH ![0, 0, 1])) (ofH (1 + pureH ![0, 0, 1])) r ∧
    ∃ R : ℍ[ℝ], r = ofH R ∧ ‖R - (1 + pureH ![0, 0, 1]) * (1 + pureH ![0, 0, 1])‖ ≤
      2 * (((1 + Fmt.single.u) ^ 4 - 1) * (‖1 + pureH ![0, 0, 1]‖ * ‖1 + pureH ![0, 0, 1]‖) + (1 + Fmt.single.u) ^ 4 * (4 * Fmt.single.η)) := by
  obtain ⟨r, hr⟩ := exists_mulFl Fmt.single (ofH (1 + pureH ![0, 0, 1])) (ofH (1 + pureH ![0, 0, 1]))
  refine ⟨r, hr, C161_mul Fmt.single _ _ hr ?_⟩
  rw [← sq, norm_one_add_k]
  have h1 := Fmt.single.u_le
  have h2 := Fmt.single.η_le
  have h3 : (1 + Fmt.single.u) ^ 4 ≤ (1 + 1 / 4) ^ 4 := pow_le_pow_left₀ (by have := Fmt.single.u_pos; linarith) (by linarith) 4
  have h4 : (1 + Fmt.single.u) ^ 4 * (2 + 4 * Fmt.single.η) ≤ (1 + 1 / 4) ^ 4 * (2 + 1) :=
    mul_le_mul h3 (by linarith) (by have := Fmt.single.η_pos; linarith) (by norm_num)
  refine h4.trans ?_
  show (_ : ℝ) ≤ 2 ^ (127 : ℤ)
  norm_num

/-- Rotation of a vector of length 1 by `1 + k` in single precision, in any order of the sums. -/
example (v : Vec 3) (hv : RotationFl Fmt.single (efin !₂[1, 0, 0]) (ofH (1 + pureH ![0, 0, 1])) v) : ∃ V : Pt 3, v = efin V ∧ |‖V‖ - 1| ≤ 1 / 10 ^ 5 := by
  have hn := norm_nonneg (1 + pureH ![0, 0, 1])
  have hn2 := norm_one_add_k
  have hx : ‖(!₂[1, 0, 0] : Pt 3)‖ = 1 := by
    rw [EuclideanSpace.norm_eq, Fin.sum_univ_three]
    simp
  have h2 : ‖(1 + pureH ![0, 0, 1] : ℍ[ℝ])‖ ≤ 2 := by nlinarith
  obtain ⟨V, Y, h3, -, -, -, h4⟩ := C161_rotation Fmt.single (by decide) (by decide) (m := 1) (k := 0) (by decide) (by decide) (by decide) _
    (by norm_num; nlinarith) (by norm_num; nlinarith) _ (by rw [hx]; norm_num) hv
  refine ⟨V, h3, ?_⟩
  rw [hx] at h4
  refine h4.trans ?_
  have h5 : Fmt.single.u = 2 ^ (-24 : ℤ) := rfl
  have h6 : 9 * (1 + ‖(1 + pureH ![0, 0, 1] : ℍ[ℝ])‖) * Fmt.single.η ≤ 27 * Fmt.single.η :=
    mul_le_mul_of_nonneg_right (by linarith) Fmt.single.η_pos.le
  rw [single_η] at h6
  rw [h5, single_η]
  refine (add_le_add_right h6 _).trans ?_
  norm_num

/-- Such results exist. -/
example : ∃ v, RotationFl Fmt.single (efin !₂[1, 0, 0]) (ofH (1 + pureH ![0, 0, 1])) v := exists_rotationFl _ _ _

/-- The mirror image of a vector in the plane normal to `(0, 0, 2)` in single precision. -/
example : ∃ v, ReflectionFl Fmt.single (efin !₂[1, 0, 0]) (efin !₂[0, 0, 2]) v ∧
    ∃ V : Pt 3, v = efin V ∧ ‖V - ((!₂[1, 0, 0] : Pt 3) - (2 * inner ℝ (!₂[0, 0, 2] : Pt 3) !₂[1, 0, 0] / ‖(!₂[0, 0, 2] : Pt 3)‖ ^ 2) •
      !₂[0, 0, 2])‖ ≤ 34 * Fmt.single.u * ‖(!₂[1, 0, 0] : Pt 3)‖ + 18 * Fmt.single.η := by
  obtain ⟨v, hv⟩ := exists_reflectionFl Fmt.single (efin !₂[1, 0, 0]) (efin !₂[0, 0, 2])
  have hx : ‖(!₂[1, 0, 0] : Pt 3)‖ = 1 := by
    rw [EuclideanSpace.norm_eq, Fin.sum_univ_three]
    simp
  have hn : ‖(!₂[0, 0, 2] : Pt 3)‖ = 2 := by
    rw [EuclideanSpace.norm_eq, Fin.sum_univ_three]
    simp
  exact ⟨v, hv, C161_reflection Fmt.single (by decide) (by decide) (m := 1) (k := 0) (by decide) (by decide) (by decide) _ _
    (by rw [hn]; norm_num) (by rw [hn]; norm_num) (by rw [hx]; norm_num) hv⟩

/-- The rotation by the angle 1 about the third axis in single precision, with exact cosines and sines. -/
example : ∃ v, RotationFl Fmt.single (efin !₂[1, 0, 0]) (fromAxisAngleFl Fmt.single XR.cos XR.sin (fin 1) (efin !₂[0, 0, 1])) v ∧
    ∃ V : Pt 3, v = efin V ∧ ‖V - WithLp.toLp 2 (rodrigues (fun i => (!₂[0, 0, 1] : Pt 3) i) (-1) fun i => (!₂[1, 0, 0] : Pt 3) i)‖ ≤
      (12 * 0 + 39 * Fmt.single.u) * ‖(!₂[1, 0, 0] : Pt 3)‖ + 45 * Fmt.single.η := by
  obtain ⟨v, hv⟩ := exists_rotationFl Fmt.single (efin !₂[1, 0, 0]) (fromAxisAngleFl Fmt.single XR.cos XR.sin (fin 1) (efin !₂[0, 0, 1]))
  have hx : ‖(!₂[1, 0, 0] : Pt 3)‖ = 1 := by
    rw [EuclideanSpace.norm_eq, Fin.sum_univ_three]
    simp
  have hn : ‖(!₂[0, 0, 1] : Pt 3)‖ = 1 := by
    rw [EuclideanSpace.norm_eq, Fin.sum_univ_three]
    simp
  obtain ⟨V, Y, h1, -, h2, h3⟩ := C161_axis_angle Fmt.single (by decide) (by decide) (by decide) (k := 0) (by decide) (by decide) (T := 10) (ε := 0)
    (by norm_num) (fun t _ _ => ⟨_, fin_cos t, by simp⟩) (fun t _ _ => ⟨_, fin_sin t, by simp⟩)
    ⟨1, 0, by norm_num [Fmt.single], by decide, by norm_num⟩ (by rw [abs_one]; exact one_le_zpow₀ (by norm_num) (by decide))
    (by have := Fmt.single.η_le; have := Fmt.single.u_le; rw [abs_one]; linarith) _ _ (by rw [hn]; norm_num) (by rw [hn]; norm_num)
    (by rw [hx]; norm_num) hv
  rw [h2 hn] at h3
  exact ⟨v, hv, V, h1, h3⟩

end Verif
