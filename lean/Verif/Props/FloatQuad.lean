import Verif.Model.FloatQuad
import Verif.Props.Quadrature
import Verif.Props.FloatR

/-! # C154: quadrature in floating point arithmetic -/

namespace Verif

open XR

/-! ## Rounding -/

section
variable (F : Fmt)

/-- The rounding of small numbers. -/
theorem rndR_small {y : ℝ} (h : |y| < 2 ^ (F.emin + (F.p : ℤ))) : |F.rndR y - y| ≤ 2 ^ (F.emin - 1) := by
  by_cases hy : y = 0
  · rw [hy, F.rndR_zero, sub_self, abs_zero]; positivity
  have h2 : (2 : ℝ) ^ Int.log 2 |y| < 2 ^ (F.emin + (F.p : ℤ)) := lt_of_le_of_lt (Fmt.log_le hy) h
  rw [zpow_lt_zpow_iff_right₀ (by norm_num)] at h2
  have h3 : F.ulpExp y = F.emin := max_eq_right (by omega)
  refine (F.rndR_err y).trans ?_
  rw [Fmt.ulp, h3, zpow_sub₀ (by norm_num), zpow_one]

/-- The rounding of any number: a relative error, and an absolute one for small numbers. -/
theorem rndR_mixed (y : ℝ) : |F.rndR y - y| ≤ |y| * 2 ^ (-(F.p : ℤ)) + 2 ^ (F.emin - 1) := by
  by_cases h : (2 : ℝ) ^ (F.emin + ((F.p : ℤ) - 1)) ≤ |y|
  · have := F.rndR_rel h
    have h0 : (0 : ℝ) < 2 ^ (F.emin - 1) := by positivity
    linarith
  · push Not at h
    have := rndR_small F (h.trans (zpow_lt_zpow_right₀ (by norm_num) (by omega)))
    have h0 : 0 ≤ |y| * 2 ^ (-(F.p : ℤ)) := by positivity
    linarith

theorem rep_two_mul {x : ℝ} (h : F.Rep x) : F.Rep (2 * x) := by
  obtain ⟨m, e, h1, h2, rfl⟩ := h
  exact ⟨m, e + 1, h1, by omega, by rw [zpow_add₀ (by norm_num), zpow_one]; ring⟩

/-- Halving. -/
theorem half_err {z : ℝ} (h : F.Rep z) : |F.rndR (z / 2) - z / 2| ≤ 2 ^ (F.emin - 1) := by
  obtain ⟨m, e, h1, h2, hz⟩ := h
  rcases h2.lt_or_eq with h2 | h2
  · have : F.Rep (z / 2) := ⟨m, e - 1, h1, by omega, by rw [hz, zpow_sub₀ (by norm_num), zpow_one]; ring⟩
    rw [F.rndR_rep this, sub_self, abs_zero]
    positivity
  · refine rndR_small F ?_
    have h3 : |(m : ℝ)| < 2 ^ F.p := by exact_mod_cast h1
    have h4 : (0 : ℝ) < 2 ^ e := by positivity
    rw [hz, abs_div, abs_mul, abs_of_pos h4, abs_two, h2, zpow_add₀ (by norm_num), zpow_natCast]
    have h5 : |(m : ℝ)| * 2 ^ e < 2 ^ F.p * 2 ^ e := mul_lt_mul_of_pos_right h3 h4
    have h6 : 0 ≤ |(m : ℝ)| * 2 ^ e := by positivity
    linarith

/-! ## Dot products -/

/-- The real number behind a finite one. -/
def rePart : XR → ℝ
  | fin a => a
  | _ => 0

/-- The exact dot product. -/
noncomputable def dotSum (l : Multiset (XR × XR)) : ℝ := (l.map fun q => rePart q.1 * rePart q.2).sum

/-- The exact dot product of the absolute values. -/
noncomputable def dotAbs (l : Multiset (XR × XR)) : ℝ := (l.map fun q => |rePart q.1 * rePart q.2|).sum

theorem dotAbs_nonneg (l : Multiset (XR × XR)) : 0 ≤ dotAbs l := by
  refine Multiset.sum_nonneg fun x hx => ?_
  rw [Multiset.mem_map] at hx
  obtain ⟨q, -, rfl⟩ := hx
  exact abs_nonneg _

theorem dotSum_le (l : Multiset (XR × XR)) : |dotSum l| ≤ dotAbs l := by
  refine (Multiset.abs_sum_le_sum_abs).trans (le_of_eq ?_)
  rw [Multiset.map_map]
  rfl

/-- The error of a dot product, whatever the order of the operations. -/
theorem flDot_bound {l : Multiset (XR × XR)} {r : XR} (h : FlDot F l r) (hfin : ∀ q ∈ l, ∃ a b, q = (fin a, fin b))
    (hov : (1 + 2 ^ (-(F.p : ℤ))) ^ l.card * (dotAbs l + l.card * 2 ^ (F.emin - 1)) ≤ (2 : ℝ) ^ F.emax) :
    ∃ R : ℝ, r = fin R ∧ F.Rep R ∧ (l = 0 → R = 0) ∧
      |R - dotSum l| ≤ (1 + 2 ^ (-(F.p : ℤ))) ^ l.card * (dotAbs l + l.card * 2 ^ (F.emin - 1)) - dotAbs l := by
  set u : ℝ := 2 ^ (-(F.p : ℤ)) with hu
  set η : ℝ := 2 ^ (F.emin - 1) with hη
  have hu0 : 0 < u := by positivity
  have hη0 : 0 < η := by positivity
  have hg : ∀ n m : ℕ, n ≤ m → (1 + u) ^ n ≤ (1 + u) ^ m := fun n m hnm => pow_le_pow_right₀ (by linarith) hnm
  have hg0 : ∀ n : ℕ, 0 < (1 + u) ^ n := fun n => by positivity
  induction h with
  | zero =>
    refine ⟨0, rfl, F.rep_zero, fun _ => rfl, ?_⟩
    simp [dotSum, dotAbs]
  | mul w y =>
    obtain ⟨a, b, hq⟩ := hfin _ (Multiset.mem_singleton_self _)
    rw [Prod.mk.injEq] at hq
    obtain ⟨rfl, rfl⟩ := hq
    simp only [dotSum, dotAbs, Multiset.map_singleton, Multiset.sum_singleton, rePart, Multiset.card_singleton, pow_one,
      Nat.cast_one, one_mul] at hov ⊢
    have h1 := rndR_mixed F (a * b)
    rw [← hu, ← hη] at h1
    have hb : 0 ≤ |a * b| := abs_nonneg _
    refine ⟨F.rndR (a * b), ?_, F.rep_rndR _, fun h => absurd h (Multiset.singleton_ne_zero _), ?_⟩
    · rw [Fmt.mul, fin_mul, F.rnd_fin]
      nlinarith
    · nlinarith
  | @add l m a b hl hm ih1 ih2 =>
    have e1 : dotAbs (l + m) = dotAbs l + dotAbs m := by simp [dotAbs]
    have e2 : dotSum (l + m) = dotSum l + dotSum m := by simp [dotSum]
    rw [e1, e2, Multiset.card_add]
    rw [e1, Multiset.card_add] at hov
    push_cast at hov ⊢
    have p1 := dotAbs_nonneg l
    have p2 := dotAbs_nonneg m
    have t1 : 0 ≤ dotAbs l + l.card * η := by positivity
    have t2 : 0 ≤ dotAbs m + m.card * η := by positivity
    have k1 : (1 + u) ^ l.card * (dotAbs l + l.card * η) ≤ (1 + u) ^ (l.card + m.card) * (dotAbs l + l.card * η) :=
      mul_le_mul_of_nonneg_right (hg _ _ (by omega)) t1
    have k2 : (1 + u) ^ m.card * (dotAbs m + m.card * η) ≤ (1 + u) ^ (l.card + m.card) * (dotAbs m + m.card * η) :=
      mul_le_mul_of_nonneg_right (hg _ _ (by omega)) t2
    have n1 : 0 ≤ (1 + u) ^ (l.card + m.card) * (dotAbs l + l.card * η) := mul_nonneg (hg0 _).le t1
    have n2 : 0 ≤ (1 + u) ^ (l.card + m.card) * (dotAbs m + m.card * η) := mul_nonneg (hg0 _).le t2
    have esum : (1 + u) ^ (l.card + m.card) * (dotAbs l + dotAbs m + (l.card + m.card) * η) =
      (1 + u) ^ (l.card + m.card) * (dotAbs l + l.card * η) + (1 + u) ^ (l.card + m.card) * (dotAbs m + m.card * η) := by ring
    rw [esum] at hov ⊢
    obtain ⟨A, rfl, rA, zA, eA⟩ := ih1 (fun q hq => hfin q (Multiset.mem_add.mpr (.inl hq))) (by linarith)
    obtain ⟨B, rfl, rB, zB, eB⟩ := ih2 (fun q hq => hfin q (Multiset.mem_add.mpr (.inr hq))) (by linarith)
    have sA : |A| ≤ (1 + u) ^ l.card * (dotAbs l + l.card * η) := by
      have := abs_sub_abs_le_abs_sub A (dotSum l)
      linarith [dotSum_le l]
    have sB : |B| ≤ (1 + u) ^ m.card * (dotAbs m + m.card * η) := by
      have := abs_sub_abs_le_abs_sub B (dotSum m)
      linarith [dotSum_le m]
    have sAB : |A + B| ≤ |A| + |B| := abs_add_le _ _
    have hr : F.add (fin A) (fin B) = fin (F.rndR (A + B)) := by
      rw [Fmt.add, fin_add, F.rnd_fin (by linarith)]
    refine ⟨_, hr, F.rep_rndR _, fun h => ?_, ?_⟩
    · have h1 : l.card + m.card = 0 := by rw [← Multiset.card_add, h, Multiset.card_zero]
      rw [zA (Multiset.card_eq_zero.mp (by omega)), zB (Multiset.card_eq_zero.mp (by omega)), add_zero, F.rndR_zero]
    by_cases hl0 : l = 0
    · rw [zA hl0, zero_add, F.rndR_rep rB]
      have : dotSum l = 0 := by rw [hl0]; simp [dotSum]
      have h3 : dotAbs l = 0 := by rw [hl0]; simp [dotAbs]
      rw [this, h3, zero_add, zero_add]
      rw [h3] at n1
      linarith
    by_cases hm0 : m = 0
    · rw [zB hm0, add_zero, F.rndR_rep rA]
      have : dotSum m = 0 := by rw [hm0]; simp [dotSum]
      have h3 : dotAbs m = 0 := by rw [hm0]; simp [dotAbs]
      rw [this, h3, add_zero, add_zero]
      rw [h3] at n2
      linarith
    have c1 : 1 ≤ l.card := Multiset.card_pos.mpr hl0
    have c2 : 1 ≤ m.card := Multiset.card_pos.mpr hm0
    have q1 : (1 + u) * ((1 + u) ^ l.card * (dotAbs l + l.card * η)) ≤ (1 + u) ^ (l.card + m.card) * (dotAbs l + l.card * η) := by
      rw [← mul_assoc, ← pow_succ']
      exact mul_le_mul_of_nonneg_right (hg _ _ (by omega)) t1
    have q2 : (1 + u) * ((1 + u) ^ m.card * (dotAbs m + m.card * η)) ≤ (1 + u) ^ (l.card + m.card) * (dotAbs m + m.card * η) := by
      rw [← mul_assoc, ← pow_succ']
      exact mul_le_mul_of_nonneg_right (hg _ _ (by omega)) t2
    have er := F.rndR_add rA rB
    rw [← hu] at er
    have er' : |A + B| * u ≤ ((1 + u) ^ l.card * (dotAbs l + l.card * η) + (1 + u) ^ m.card * (dotAbs m + m.card * η)) * u :=
      mul_le_mul_of_nonneg_right (by linarith) hu0.le
    calc |F.rndR (A + B) - (dotSum l + dotSum m)|
        = |(F.rndR (A + B) - (A + B)) + ((A - dotSum l) + (B - dotSum m))| := by congr 1; ring
      _ ≤ |F.rndR (A + B) - (A + B)| + (|A - dotSum l| + |B - dotSum m|) :=
        (abs_add_le _ _).trans (add_le_add le_rfl (abs_add_le _ _))
      _ ≤ _ := by linarith
  | @fma l a w y hl ih =>
    obtain ⟨c, d, hq⟩ := hfin (w, y) (Multiset.mem_add.mpr (.inr (Multiset.mem_singleton_self _)))
    rw [Prod.mk.injEq] at hq
    obtain ⟨rfl, rfl⟩ := hq
    have e1 : dotAbs (l + {(fin c, fin d)}) = dotAbs l + |c * d| := by simp [dotAbs, rePart]
    have e2 : dotSum (l + {(fin c, fin d)}) = dotSum l + c * d := by simp [dotSum, rePart]
    rw [e1, e2, Multiset.card_add, Multiset.card_singleton]
    rw [e1, Multiset.card_add, Multiset.card_singleton] at hov
    push_cast at hov ⊢
    have p1 := dotAbs_nonneg l
    have p2 := abs_nonneg (c * d)
    have t1 : 0 ≤ dotAbs l + l.card * η := by positivity
    have G1 : 1 ≤ (1 + u) ^ l.card := one_le_pow₀ (by linarith)
    have esum : (1 + u) ^ (l.card + 1) * (dotAbs l + |c * d| + (l.card + 1) * η) =
      (1 + u) * ((1 + u) ^ l.card * (dotAbs l + l.card * η)) + (1 + u) * ((1 + u) ^ l.card * |c * d|) +
        (1 + u) * ((1 + u) ^ l.card * η) := by rw [pow_succ]; ring
    rw [esum] at hov ⊢
    have m1 : |c * d| ≤ (1 + u) ^ l.card * |c * d| := le_mul_of_one_le_left p2 G1
    have m2 : η ≤ (1 + u) ^ l.card * η := le_mul_of_one_le_left hη0.le G1
    have n1 : 0 ≤ (1 + u) ^ l.card * (dotAbs l + l.card * η) := by positivity
    have l1 : ∀ z : ℝ, 0 ≤ z → z ≤ (1 + u) * z := fun z hz => le_mul_of_one_le_left hz (by linarith)
    have l2 := l1 _ n1
    have l3 := l1 _ (p2.trans m1)
    have l4 := l1 _ (hη0.le.trans m2)
    obtain ⟨A, rfl, rA, zA, eA⟩ := ih (fun q hq => hfin q (Multiset.mem_add.mpr (.inl hq))) (by linarith)
    have sA : |A| ≤ (1 + u) ^ l.card * (dotAbs l + l.card * η) := by
      have := abs_sub_abs_le_abs_sub A (dotSum l)
      linarith [dotSum_le l]
    have sAB : |A + c * d| ≤ |A| + |c * d| := abs_add_le _ _
    have hr : F.rnd (fin A + fin c * fin d) = fin (F.rndR (A + c * d)) := by
      rw [fin_mul, fin_add, F.rnd_fin (by linarith)]
    refine ⟨_, hr, F.rep_rndR _, fun h => ?_, ?_⟩
    · have h1 : l.card + 1 = 0 := by
        rw [← Multiset.card_singleton (fin c, fin d), ← Multiset.card_add, h, Multiset.card_zero]
      omega
    have er := rndR_mixed F (A + c * d)
    rw [← hu, ← hη] at er
    have er' : |A + c * d| * u ≤ ((1 + u) ^ l.card * (dotAbs l + l.card * η) + |c * d|) * u :=
      mul_le_mul_of_nonneg_right (by linarith) hu0.le
    have m1' : |c * d| * u ≤ (1 + u) ^ l.card * |c * d| * u := mul_le_mul_of_nonneg_right m1 hu0.le
    calc |F.rndR (A + c * d) - (dotSum l + c * d)|
        = |(F.rndR (A + c * d) - (A + c * d)) + (A - dotSum l)| := by congr 1; ring
      _ ≤ |F.rndR (A + c * d) - (A + c * d)| + |A - dotSum l| := abs_add_le _ _
      _ ≤ _ := by linarith

/-! ## The rules -/

/-- `y` is `x` with at most `k` roundings. -/
def CloseFl (k : ℕ) (x y : ℝ) : Prop := |y - x| ≤ ((1 + 2 ^ (-(F.p : ℤ))) ^ k - 1) * x

theorem CloseFl.step {k : ℕ} {x y z : ℝ} (hx : 0 ≤ x) (h : CloseFl F k x y) (hz : |z - y| ≤ |y| * 2 ^ (-(F.p : ℤ))) : CloseFl F (k + 1) x z := by
  rw [CloseFl] at h ⊢
  set u : ℝ := 2 ^ (-(F.p : ℤ)) with hu
  have hu0 : 0 < u := by positivity
  have h1 : |y| ≤ (1 + u) ^ k * x := by
    have := abs_sub_abs_le_abs_sub y x
    rw [abs_of_nonneg hx] at this
    linarith
  have h2 : |y| * u ≤ (1 + u) ^ k * x * u := mul_le_mul_of_nonneg_right h1 hu0.le
  calc |z - x| ≤ |z - y| + |y - x| := abs_sub_le _ _ _
    _ ≤ (1 + u) ^ k * x * u + ((1 + u) ^ k - 1) * x := by linarith
    _ = ((1 + u) ^ (k + 1) - 1) * x := by rw [pow_succ]; ring

theorem CloseFl.refl (x : ℝ) : CloseFl F 0 x x := by simp [CloseFl]

theorem CloseFl.mono {k m : ℕ} (hkm : k ≤ m) {x y : ℝ} (hx : 0 ≤ x) (h : CloseFl F k x y) : CloseFl F m x y := by
  rw [CloseFl] at h ⊢
  refine h.trans (mul_le_mul_of_nonneg_right ?_ hx)
  have : (1 + (2 : ℝ) ^ (-(F.p : ℤ))) ^ k ≤ (1 + 2 ^ (-(F.p : ℤ))) ^ m :=
    pow_le_pow_right₀ (by have : (0 : ℝ) < 2 ^ (-(F.p : ℤ)) := by positivity
                          linarith) hkm
  linarith

theorem CloseFl.add {k : ℕ} {x y x' y' : ℝ} (h : CloseFl F k x y) (h' : CloseFl F k x' y') : CloseFl F k (x + x') (y + y') := by
  rw [CloseFl] at h h' ⊢
  calc |y + y' - (x + x')| = |(y - x) + (y' - x')| := by congr 1; ring
    _ ≤ |y - x| + |y' - x'| := abs_add_le _ _
    _ ≤ _ := by linarith

theorem CloseFl.smul {k : ℕ} {x y : ℝ} (c : ℝ) (hc : 0 ≤ c) (h : CloseFl F k x y) : CloseFl F k (c * x) (c * y) := by
  rw [CloseFl] at h ⊢
  rw [← mul_sub, abs_mul, abs_of_nonneg hc]
  calc c * |y - x| ≤ c * (((1 + 2 ^ (-(F.p : ℤ))) ^ k - 1) * x) := mul_le_mul_of_nonneg_left h hc
    _ = _ := by ring

/-- The length of a cell. -/
theorem cellFl {a b : ℝ} (ha : F.Rep a) (hb : F.Rep b) (ha1 : |a| ≤ 2 ^ (F.emax - 2)) (hb1 : |b| ≤ 2 ^ (F.emax - 2))
    (hab : a + 2 ^ (F.emin + F.p + 2) ≤ b) :
    ∃ d : ℝ, F.sub (fin b) (fin a) = fin d ∧ F.Rep d ∧ 2 ^ (F.emin + F.p + 2) ≤ d ∧ d ≤ 2 ^ (F.emax - 1) ∧ CloseFl F 1 (b - a) d := by
  have hmin := F.hmin
  have hmax := F.hmax
  have hp := F.hp
  have h0 : (0 : ℝ) < 2 ^ (F.emin + F.p + 2) := by positivity
  have e1 : (2 : ℝ) ^ (F.emax - 1) = 2 * 2 ^ (F.emax - 2) := by
    rw [← zpow_one_add₀ (by norm_num)]; congr 1; ring
  have hd : b - a ≤ 2 ^ (F.emax - 1) := by
    rw [abs_le] at ha1 hb1
    linarith [ha1.1, hb1.2]
  have hle : (2 : ℝ) ^ (F.emax - 1) ≤ 2 ^ F.emax := zpow_le_zpow_right₀ (by norm_num) (by omega)
  refine ⟨F.rndR (b - a), ?_, F.rep_rndR _, F.le_rndR (F.rep_two_zpow (by omega)) (by linarith), F.rndR_le (F.rep_two_zpow (by omega)) hd, ?_⟩
  · rw [Fmt.sub, fin_sub, F.rnd_fin (by rw [abs_of_nonneg (by linarith)]; linarith)]
  · refine (CloseFl.refl F (b - a)).step F (by linarith) ?_
    have := F.rndR_add hb ha.neg
    rwa [← sub_eq_add_neg] at this

/-- The middle of a cell. -/
theorem middleFl {a b : ℝ} (ha : F.Rep a) (hb : F.Rep b) (ha1 : |a| ≤ 2 ^ (F.emax - 2)) (hb1 : |b| ≤ 2 ^ (F.emax - 2)) (hab : a ≤ b)
    {M : ℝ} (haM : |a| ≤ M) (hbM : |b| ≤ M) :
    ∃ x : ℝ, F.div (F.add (fin a) (fin b)) (fin 2) = fin x ∧ F.Rep x ∧ a ≤ x ∧ x ≤ b ∧
      |x - (a + b) / 2| ≤ M * 2 ^ (-(F.p : ℤ)) + 2 ^ (F.emin - 1) := by
  have hmax := F.hmax
  have e1 : (2 : ℝ) ^ (F.emax - 1) = 2 * 2 ^ (F.emax - 2) := by
    rw [← zpow_one_add₀ (by norm_num)]; congr 1; ring
  have hle : (2 : ℝ) ^ (F.emax - 1) ≤ 2 ^ F.emax := zpow_le_zpow_right₀ (by norm_num) (by omega)
  have hs : |a + b| ≤ 2 ^ F.emax := (abs_add_le _ _).trans (by linarith)
  have z1 : 2 * a ≤ F.rndR (a + b) := F.le_rndR (rep_two_mul F ha) (by linarith)
  have z2 : F.rndR (a + b) ≤ 2 * b := F.rndR_le (rep_two_mul F hb) (by linarith)
  have hz : |F.rndR (a + b) / 2| ≤ 2 ^ F.emax := by
    rw [abs_le] at ha1 hb1 ⊢
    have : (2 : ℝ) ^ (F.emax - 2) ≤ 2 ^ F.emax := zpow_le_zpow_right₀ (by norm_num) (by omega)
    constructor <;> linarith [ha1.1, hb1.2]
  refine ⟨F.rndR (F.rndR (a + b) / 2), ?_, F.rep_rndR _, F.le_rndR ha (by linarith), F.rndR_le hb (by linarith), ?_⟩
  · rw [Fmt.add, fin_add, F.rnd_fin hs, Fmt.div, fin_div _ (by norm_num), F.rnd_fin hz]
  · have h1 := half_err F (F.rep_rndR (a + b))
    have h2 := F.rndR_add ha hb
    have h3 : |F.rndR (a + b) / 2 - (a + b) / 2| ≤ M * 2 ^ (-(F.p : ℤ)) := by
      rw [← sub_div, abs_div, abs_two, div_le_iff₀ (by norm_num)]
      have h4 : |a + b| ≤ 2 * M := (abs_add_le _ _).trans (by linarith)
      have h5 : |a + b| * (2 : ℝ) ^ (-(F.p : ℤ)) ≤ 2 * M * 2 ^ (-(F.p : ℤ)) := mul_le_mul_of_nonneg_right h4 (by positivity)
      linarith
    calc |F.rndR (F.rndR (a + b) / 2) - (a + b) / 2|
        ≤ |F.rndR (F.rndR (a + b) / 2) - F.rndR (a + b) / 2| + |F.rndR (a + b) / 2 - (a + b) / 2| := abs_sub_le _ _ _
      _ ≤ _ := by linarith

/-- The weights of Simpson's rule on a cell. -/
theorem simpsonCellFl {a b : ℝ} (ha : F.Rep a) (hb : F.Rep b) (ha1 : |a| ≤ 2 ^ (F.emax - 2)) (hb1 : |b| ≤ 2 ^ (F.emax - 2))
    (hab : a + 2 ^ (F.emin + F.p + 2) ≤ b) :
    ∃ h : ℝ, simpsonFl.weights F (fin a) (fin b) = (fin h, fin (4 * h), fin h) ∧ F.Rep h ∧ 0 ≤ h ∧ h ≤ 2 ^ (F.emax - 3) ∧
      CloseFl F 2 ((b - a) / 6) h := by
  have hmin := F.hmin
  have hmax := F.hmax
  have hp := F.hp
  obtain ⟨d, h1, h2, h3, h4, h5⟩ := cellFl F ha hb ha1 hb1 hab
  have h0 : (0 : ℝ) < 2 ^ (F.emin + F.p + 2) := by positivity
  have e3 : (2 : ℝ) ^ (F.emax - 1) = 4 * 2 ^ (F.emax - 3) := by
    rw [show (4 : ℝ) = 2 ^ (2 : ℤ) by norm_num, ← zpow_add₀ (by norm_num)]; congr 1; ring
  have e4 : (2 : ℝ) ^ F.emax = 8 * 2 ^ (F.emax - 3) := by
    rw [show (8 : ℝ) = 2 ^ (3 : ℤ) by norm_num, ← zpow_add₀ (by norm_num)]; congr 1; ring
  have e5 : (2 : ℝ) ^ (F.emin + F.p + 2) = 8 * 2 ^ (F.emin + ((F.p : ℤ) - 1)) := by
    rw [show (8 : ℝ) = 2 ^ (3 : ℤ) by norm_num, ← zpow_add₀ (by norm_num)]; congr 1; ring
  have hE : (0 : ℝ) < 2 ^ (F.emax - 3) := by positivity
  have hd0 : 0 < d := lt_of_lt_of_le h0 h3
  have hh : F.rndR (d / 6) ≤ 2 ^ (F.emax - 3) := F.rndR_le (F.rep_two_zpow (by omega)) (by linarith)
  have hh0 : 0 ≤ F.rndR (d / 6) := F.rndR_nonneg (by positivity)
  have hw : F.div (F.sub (fin b) (fin a)) (fin 6) = fin (F.rndR (d / 6)) := by
    rw [h1, Fmt.div, fin_div _ (by norm_num), F.rnd_fin (by rw [abs_of_nonneg (by positivity)]; linarith)]
  have r4 : F.Rep (4 * F.rndR (d / 6)) := by
    have := rep_two_mul F (rep_two_mul F (F.rep_rndR (d / 6)))
    rwa [← mul_assoc, show (2 : ℝ) * 2 = 4 by norm_num] at this
  refine ⟨F.rndR (d / 6), ?_, F.rep_rndR _, hh0, hh, ?_⟩
  · rw [simpsonFl.weights, hw]
    simp only [Fmt.mul, fin_mul, mul_one]
    rw [F.rnd_fin (by rw [abs_of_nonneg hh0]; linarith), F.rndR_rep (F.rep_rndR _), mul_comm,
      F.rnd_fin (by rw [abs_of_nonneg (by positivity)]; linarith), F.rndR_rep r4]
  · have h6 : CloseFl F 1 ((b - a) / 6) (d / 6) := by
      have := h5.smul F (1 / 6) (by norm_num)
      rwa [one_div_mul_eq_div, one_div_mul_eq_div] at this
    refine h6.step F (by linarith) (F.rndR_rel ?_)
    rw [abs_of_nonneg (by positivity)]
    linarith

/-- A grid which the rules can handle in the format: numbers of the format without overflow of differences, and cells which are not
extremely small. -/
structure GridFl (l : List ℝ) : Prop where
  len : 2 ≤ l.length
  rep : ∀ t ∈ l, F.Rep t
  bound : ∀ t ∈ l, |t| ≤ 2 ^ (F.emax - 2)
  gap : l.IsChain fun a b => a + 2 ^ (F.emin + F.p + 2) ≤ b

/-- What the rules have in common: weights with at most `k` roundings, nodes in the interval and close to the exact ones. -/
def RuleFl (k : ℕ) (r : List XR × List XR) (r' : List ℝ × List ℝ) (a b M : ℝ) : Prop :=
  ∃ (n : ℕ) (w w' x x' : ℕ → ℝ), r = ((List.range n).map fun i => fin (w i), (List.range n).map fun i => fin (x i)) ∧
    r' = ((List.range n).map w', (List.range n).map x') ∧
    ∀ i < n, 0 ≤ w' i ∧ CloseFl F k (w' i) (w i) ∧ F.Rep (x i) ∧ a ≤ x i ∧ x i ≤ b ∧
      |x i - x' i| ≤ M * 2 ^ (-(F.p : ℤ)) + 2 ^ (F.emin - 1)

theorem zipWith_range {α β : Type*} (f : α → α → β) (l : List α) (d : α) :
    List.zipWith f l.tail l.dropLast = (List.range (l.length - 1)).map fun j => f (l.getD (j + 1) d) (l.getD j d) := by
  refine List.ext_getElem (by simp) fun j h1 h2 => ?_
  simp only [List.length_zipWith, List.length_tail, List.length_dropLast, min_self] at h1
  simp [List.getElem_zipWith, List.getElem_tail, List.getElem_dropLast, List.getD_eq_getElem?_getD, List.getElem?_eq_getElem (show j < l.length by omega),
    List.getElem?_eq_getElem (show j + 1 < l.length by omega)]

theorem zipWith_getD {α β : Type*} (f : α → α → β) (l : List α) (d : α) (e : β) {j : ℕ} (h : j + 1 < l.length) :
    (List.zipWith f l.dropLast l.tail).getD j e = f (l.getD j d) (l.getD (j + 1) d) := by
  have : List.zipWith f l.dropLast l.tail = List.zipWith (fun b a => f a b) l.tail l.dropLast := List.zipWith_comm ..
  rw [this, zipWith_range _ l d]
  simp [List.getD_eq_getElem?_getD, List.getElem?_range (show j < l.length - 1 by omega)]

theorem map_fin_getD (l : List ℝ) {j : ℕ} (h : j < l.length) : (l.map fin).getD j (fin 0) = fin (l.getD j 0) := by
  simp [List.getD_eq_getElem?_getD, h]

variable {F} {l : List ℝ} (hl : GridFl F l)
include hl

theorem GridFl.ne : l ≠ [] := List.ne_nil_of_length_pos (by have := hl.len; omega)

theorem GridFl.rep' {j : ℕ} (h : j < l.length) : F.Rep (l.getD j 0) := by
  have : l.getD j 0 = l[j] := by simp [List.getD_eq_getElem?_getD, h]
  rw [this]
  exact hl.rep _ (List.getElem_mem h)

theorem GridFl.bound' {j : ℕ} (h : j < l.length) : |l.getD j 0| ≤ 2 ^ (F.emax - 2) := by
  have : l.getD j 0 = l[j] := by simp [List.getD_eq_getElem?_getD, h]
  rw [this]
  exact hl.bound _ (List.getElem_mem h)

theorem GridFl.gap' {j : ℕ} (h : j + 1 < l.length) : l.getD j 0 + 2 ^ (F.emin + F.p + 2) ≤ l.getD (j + 1) 0 := by
  have h1 : l.getD j 0 = l[j] := by simp [List.getD_eq_getElem?_getD, (by omega : j < l.length)]
  have h2 : l.getD (j + 1) 0 = l[j + 1] := by simp [List.getD_eq_getElem?_getD, h]
  rw [h1, h2]
  exact List.isChain_iff_getElem.mp hl.gap j h

theorem GridFl.le {i j : ℕ} (hij : i ≤ j) (h : j < l.length) : l.getD i 0 ≤ l.getD j 0 := by
  induction j, hij using Nat.le_induction with
  | base => exact le_rfl
  | succ j hij ih =>
    have h0 : (0 : ℝ) < 2 ^ (F.emin + F.p + 2) := by positivity
    linarith [ih (by omega), hl.gap' h]

theorem GridFl.pairwise : l.Pairwise (· < ·) := by
  refine List.IsChain.pairwise (hl.gap.imp fun a b h => ?_)
  have h0 : (0 : ℝ) < 2 ^ (F.emin + F.p + 2) := by positivity
  linarith

theorem GridFl.head : l.head hl.ne = l.getD 0 0 := by
  cases l with
  | nil => exact absurd rfl hl.ne
  | cons a l => rfl

theorem GridFl.last : l.getLast hl.ne = l.getD (l.length - 1) 0 := by
  have := hl.len
  rw [List.getLast_eq_getElem]
  simp [List.getD_eq_getElem?_getD, (by omega : l.length - 1 < l.length)]

theorem GridFl.mem {j : ℕ} (h : j < l.length) : l.head hl.ne ≤ l.getD j 0 ∧ l.getD j 0 ≤ l.getLast hl.ne := by
  rw [hl.head, hl.last]
  exact ⟨hl.le (by omega) h, hl.le (by omega) (by omega)⟩

theorem GridFl.abs {j : ℕ} (h : j < l.length) : |l.getD j 0| ≤ max |l.head hl.ne| |l.getLast hl.ne| := by
  obtain ⟨h1, h2⟩ := hl.mem h
  exact abs_le_max_abs_abs h1 h2

/-- The midpoint rule. -/
theorem midpointFl_rule : RuleFl F 3 (midpointFl F (l.map fin)) (midpoint l) (l.head hl.ne) (l.getLast hl.ne)
    (max |l.head hl.ne| |l.getLast hl.ne|) := by
  have key : ∀ j, ∃ d x : ℝ, j + 1 < l.length → F.sub (fin (l.getD (j + 1) 0)) (fin (l.getD j 0)) = fin d ∧
      CloseFl F 1 (l.getD (j + 1) 0 - l.getD j 0) d ∧ F.div (F.add (fin (l.getD (j + 1) 0)) (fin (l.getD j 0))) (fin 2) = fin x ∧
      F.Rep x ∧ l.getD j 0 ≤ x ∧ x ≤ l.getD (j + 1) 0 ∧ |x - (l.getD (j + 1) 0 + l.getD j 0) / 2| ≤
        max |l.head hl.ne| |l.getLast hl.ne| * 2 ^ (-(F.p : ℤ)) + 2 ^ (F.emin - 1) := by
    intro j
    by_cases h : j + 1 < l.length
    · have hj : j < l.length := by omega
      obtain ⟨d, h1, -, -, -, h2⟩ := cellFl F (hl.rep' hj) (hl.rep' h) (hl.bound' hj) (hl.bound' h) (hl.gap' h)
      obtain ⟨x, h3, h4, h5, h6, h7⟩ := middleFl F (hl.rep' hj) (hl.rep' h) (hl.bound' hj) (hl.bound' h) (hl.le (by omega) h) (hl.abs hj) (hl.abs h)
      refine ⟨d, x, fun _ => ⟨h1, h2, ?_, h4, h5, h6, ?_⟩⟩
      · rw [← h3, Fmt.add, Fmt.add, fin_add, fin_add, add_comm]
      · rwa [add_comm (l.getD (j + 1) 0)]
    · exact ⟨0, 0, fun h' => absurd h' h⟩
  choose d x key using key
  refine ⟨l.length - 1, d, fun j => l.getD (j + 1) 0 - l.getD j 0, x, fun j => (l.getD (j + 1) 0 + l.getD j 0) / 2, ?_, ?_, fun j hj => ?_⟩
  · rw [midpointFl, zipWith_range _ _ (fin 0), zipWith_range _ _ (fin 0), List.length_map]
    refine Prod.ext ?_ ?_
    · refine List.map_congr_left fun j hj => ?_
      rw [List.mem_range] at hj
      rw [map_fin_getD l (by omega), map_fin_getD l (by omega)]
      exact (key j (by omega)).1
    · refine List.map_congr_left fun j hj => ?_
      rw [List.mem_range] at hj
      rw [map_fin_getD l (by omega), map_fin_getD l (by omega)]
      exact (key j (by omega)).2.2.1
  · rw [midpoint, zipWith_range _ _ 0, zipWith_range _ _ 0]
  · obtain ⟨-, h2, -, h4, h5, h6, h7⟩ := key j (by omega)
    have h8 := hl.le (show j ≤ j + 1 by omega) (by omega)
    exact ⟨by linarith, h2.mono F (by norm_num) (by linarith), h4, (hl.mem (by omega)).1.trans h5, h6.trans (hl.mem (by omega)).2, h7⟩

end

theorem map_eq_range' (l : List ℝ) : l = (List.range l.length).map fun i => l.getD i 0 := by
  refine List.ext_getElem (by simp) fun i h1 h2 => ?_
  simp [List.getD_eq_getElem?_getD, h1]

theorem diffs_append {α : Type*} (z : α) (d : ℕ → α) (m : ℕ) (h : d m = z) :
    (List.range m).map d ++ [z] = (List.range (m + 1)).map d := by
  rw [List.range_succ, List.map_append, List.map_singleton, h]

theorem diffs_cons {α : Type*} (z : α) (d : ℕ → α) (m : ℕ) :
    z :: (List.range m).map d = (List.range (m + 1)).map fun i => if i = 0 then z else d (i - 1) := by
  rw [List.range_succ_eq_map, List.map_cons, if_pos rfl, List.map_map]
  rfl

theorem zipWith_map_range {α β γ : Type*} (f : α → β → γ) (g : ℕ → α) (h : ℕ → β) (n : ℕ) :
    List.zipWith f ((List.range n).map g) ((List.range n).map h) = (List.range n).map fun i => f (g i) (h i) := by
  rw [List.zipWith_map, List.zipWith_self]

section
variable {F : Fmt} {l : List ℝ} (hl : GridFl F l)
include hl

/-- The trapezoidal rule. -/
theorem trapFl_rule : RuleFl F 3 (trapFl F (l.map fin)) (trap l) (l.head hl.ne) (l.getLast hl.ne)
    (max |l.head hl.ne| |l.getLast hl.ne|) := by
  have hlen := hl.len
  have hmax := F.hmax
  obtain ⟨m, hm⟩ : ∃ m, l.length = m + 1 := ⟨l.length - 1, by omega⟩
  -- the differences, zero behind the end
  set D : ℕ → ℝ := fun j => if j < m then l.getD (j + 1) 0 - l.getD j 0 else 0 with hD
  have key : ∀ j, ∃ d : ℝ, (j < m → F.sub (fin (l.getD (j + 1) 0)) (fin (l.getD j 0)) = fin d) ∧ (¬ j < m → d = 0) ∧ F.Rep d ∧
      CloseFl F 1 (D j) d ∧ 0 ≤ d ∧ d ≤ 2 ^ (F.emax - 1) ∧ (j < m → 2 ^ (F.emin + F.p + 2) ≤ d) := by
    intro j
    by_cases h : j < m
    · obtain ⟨d, h1, h2, h3, h4, h5⟩ := cellFl F (hl.rep' (show j < l.length by omega)) (hl.rep' (show j + 1 < l.length by omega))
        (hl.bound' (by omega)) (hl.bound' (by omega)) (hl.gap' (by omega))
      have h0 : (0 : ℝ) < 2 ^ (F.emin + F.p + 2) := by positivity
      exact ⟨d, fun _ => h1, fun h' => absurd h h', h2, by rw [hD]; simp only [if_pos h]; exact h5, by linarith, h4, fun _ => h3⟩
    · refine ⟨0, fun h' => absurd h' h, fun _ => rfl, F.rep_zero, ?_, le_rfl, by positivity, fun h' => absurd h' h⟩
      rw [hD]; simp only [if_neg h]
      exact (CloseFl.refl F 0).mono F (by norm_num) le_rfl
  choose d k1 k2 k3 k4 k5 k6 k7 using key
  have hD0 : ∀ j, 0 ≤ D j := fun j => by
    rw [hD]; simp only
    split
    · have := hl.le (show j ≤ j + 1 by omega) (by omega); linarith
    · exact le_rfl
  -- the entries
  set e : ℕ → ℝ := fun i => if i = 0 then 0 else d (i - 1) with he
  set E : ℕ → ℝ := fun i => if i = 0 then 0 else D (i - 1) with hE
  have e1 : ∀ i, F.Rep (e i) ∧ CloseFl F 1 (E i) (e i) ∧ 0 ≤ e i ∧ e i ≤ 2 ^ (F.emax - 1) ∧ 0 ≤ E i := fun i => by
    rw [he, hE]; simp only
    split
    · exact ⟨F.rep_zero, (CloseFl.refl F 0).mono F (by norm_num) le_rfl, le_rfl, by positivity, le_rfl⟩
    · exact ⟨k3 _, k4 _, k5 _, k6 _, hD0 _⟩
  have e2 : (2 : ℝ) ^ F.emax = 2 * 2 ^ (F.emax - 1) := by
    rw [← zpow_one_add₀ (by norm_num)]; congr 1; ring
  have e5 : (2 : ℝ) ^ (F.emin + F.p + 2) = 8 * 2 ^ (F.emin + ((F.p : ℤ) - 1)) := by
    rw [show (8 : ℝ) = 2 ^ (3 : ℤ) by norm_num, ← zpow_add₀ (by norm_num)]; congr 1; ring
  have hmin := F.hmin
  refine ⟨m + 1, fun i => F.rndR (F.rndR (d i + e i) / 2), fun i => (D i + E i) / 2, fun i => l.getD i 0, fun i => l.getD i 0, ?_, ?_, fun i hi => ?_⟩
  · rw [trapFl]
    refine Prod.ext ?_ ?_
    · simp only
      have hd : List.zipWith (fun b a => F.sub b a) (l.map fin).tail (l.map fin).dropLast = (List.range m).map fun j => fin (d j) := by
        rw [zipWith_range _ _ (fin 0), List.length_map, hm]
        refine List.map_congr_left fun j hj => ?_
        rw [List.mem_range] at hj
        rw [map_fin_getD l (by omega), map_fin_getD l (by omega)]
        exact k1 j (by omega)
      rw [hd, diffs_append (fin 0) (fun j => fin (d j)) m (by simp only [k2 m (lt_irrefl m)]), diffs_cons, zipWith_map_range]
      refine List.map_congr_left fun i _ => ?_
      have : (if i = 0 then fin 0 else fin (d (i - 1))) = fin (e i) := by
        rw [he]; simp only; split <;> rfl
      rw [this]
      obtain ⟨-, -, h3, h4, -⟩ := e1 i
      have h5 := k5 i
      have h6 := k6 i
      have h7 : F.rndR (d i + e i) ≤ 2 ^ F.emax := F.rndR_le (F.rep_two_zpow F.emin_le) (by linarith)
      have h8 : 0 ≤ F.rndR (d i + e i) := F.rndR_nonneg (by linarith)
      rw [Fmt.add, fin_add, F.rnd_fin (by rw [abs_of_nonneg (by linarith)]; linarith), Fmt.div, fin_div _ (by norm_num),
        F.rnd_fin (by rw [abs_of_nonneg (by linarith)]; linarith)]
    · simp only
      conv_lhs => rw [map_eq_range' l, List.map_map]
      rw [hm]
      rfl
  · rw [trap]
    refine Prod.ext ?_ ?_
    · simp only
      have hd : List.zipWith (fun b a => b - a) l.tail l.dropLast = (List.range m).map D := by
        rw [zipWith_range _ _ 0, hm]
        refine List.map_congr_left fun j hj => ?_
        rw [List.mem_range] at hj
        rw [hD]; simp only [if_pos (show j < m by omega)]
      rw [hd, diffs_append 0 D m (by rw [hD]; simp), diffs_cons, zipWith_map_range]
    · simp only
      conv_lhs => rw [map_eq_range' l]
      rw [hm]
  · obtain ⟨h1, h2, h3, h4, h5⟩ := e1 i
    have h6 := hD0 i
    have hne : 2 ^ (F.emin + F.p + 2) ≤ d i + e i := by
      by_cases h : i < m
      · linarith [k7 i h]
      · have hi0 : i ≠ 0 := by omega
        have : e i = d (i - 1) := by rw [he]; simp only [if_neg hi0]
        rw [this]
        linarith [k7 (i - 1) (by omega), k5 i]
    have hs : 2 ^ (F.emin + F.p + 2) ≤ F.rndR (d i + e i) := F.le_rndR (F.rep_two_zpow (by omega)) hne
    have h0 : (0 : ℝ) < 2 ^ (F.emin + F.p + 2) := by positivity
    have c2 : CloseFl F 2 (D i + E i) (F.rndR (d i + e i)) := ((k4 i).add F h2).step F (by linarith) (F.rndR_add (k3 i) h1)
    have c2' : CloseFl F 2 ((D i + E i) / 2) (F.rndR (d i + e i) / 2) := by
      have := c2.smul F (1 / 2) (by norm_num)
      rwa [one_div_mul_eq_div, one_div_mul_eq_div] at this
    refine ⟨by linarith, c2'.step F (by linarith) (F.rndR_rel ?_), hl.rep' (by omega), (hl.mem (by omega)).1, (hl.mem (by omega)).2, ?_⟩
    · rw [abs_of_nonneg (by linarith)]; linarith
    · rw [sub_self, abs_zero]; positivity

/-- Simpson's rule. -/
theorem simpsonFl_rule : RuleFl F 3 (simpsonFl F (l.map fin)) (simpson l) (l.head hl.ne) (l.getLast hl.ne)
    (max |l.head hl.ne| |l.getLast hl.ne|) := by
  have hlen := hl.len
  have hmax := F.hmax
  have key : ∀ j, ∃ h x : ℝ, j + 1 < l.length → simpsonFl.weights F (fin (l.getD j 0)) (fin (l.getD (j + 1) 0)) = (fin h, fin (4 * h), fin h) ∧
      F.Rep h ∧ 0 ≤ h ∧ h ≤ 2 ^ (F.emax - 3) ∧ CloseFl F 2 ((l.getD (j + 1) 0 - l.getD j 0) / 6) h ∧
      F.div (F.add (fin (l.getD j 0)) (fin (l.getD (j + 1) 0))) (fin 2) = fin x ∧
      F.Rep x ∧ l.getD j 0 ≤ x ∧ x ≤ l.getD (j + 1) 0 ∧ |x - (l.getD j 0 + l.getD (j + 1) 0) / 2| ≤
        max |l.head hl.ne| |l.getLast hl.ne| * 2 ^ (-(F.p : ℤ)) + 2 ^ (F.emin - 1) := by
    intro j
    by_cases h : j + 1 < l.length
    · have hj : j < l.length := by omega
      obtain ⟨d, h1, h1a, h1b, h1c, h2⟩ := simpsonCellFl F (hl.rep' hj) (hl.rep' h) (hl.bound' hj) (hl.bound' h) (hl.gap' h)
      obtain ⟨x, h3, h4, h5, h6, h7⟩ := middleFl F (hl.rep' hj) (hl.rep' h) (hl.bound' hj) (hl.bound' h) (hl.le (by omega) h) (hl.abs hj) (hl.abs h)
      exact ⟨d, x, fun _ => ⟨h1, h1a, h1b, h1c, h2, h3, h4, h5, h6, h7⟩⟩
    · exact ⟨0, 0, fun h' => absurd h' h⟩
  choose h x key using key
  set L := l.length with hL
  set n := L + L - 1 with hn
  set w : ℕ → ℝ := fun i => if i = 0 then h 0 else if i = n - 1 then h (L - 2) else if i % 2 = 1 then 4 * h ((i - 1) / 2)
    else F.rndR (h (i / 2 - 1) + h (i / 2)) with hw
  set w' : ℕ → ℝ := fun i =>
    let _w := List.zipWith simpson.weights l.dropLast l.tail
    if i = 0 then (_w.getD 0 0).1
    else if i = n - 1 then (_w.getD (_w.length - 1) 0).2.2
    else if i % 2 = 1 then (_w.getD ((i - 1) / 2) 0).2.1
    else (_w.getD (i / 2 - 1) 0).2.2 + (_w.getD (i / 2) 0).1 with hw'
  set y : ℕ → ℝ := fun i => if i % 2 = 1 then x ((i - 1) / 2) else l.getD (i / 2) 0 with hy
  set y' : ℕ → ℝ := fun i =>
    if i % 2 = 1 then (List.zipWith (fun a b => (a + b) / 2) l.dropLast l.tail).getD ((i - 1) / 2) 0 else l.getD (i / 2) 0 with hy'
  have hlast : (List.zipWith simpson.weights l.dropLast l.tail).length - 1 = L - 2 := by
    simp only [List.length_zipWith, List.length_dropLast, List.length_tail, min_self]; omega
  have hlast' : (List.zipWith (simpsonFl.weights F) (l.map fin).dropLast (l.map fin).tail).length - 1 = L - 2 := by
    simp only [List.length_zipWith, List.length_dropLast, List.length_tail, min_self, List.length_map]; omega
  have zw : ∀ j, j + 1 < L → (List.zipWith (simpsonFl.weights F) (l.map fin).dropLast (l.map fin).tail).getD j 0 = (fin (h j), fin (4 * h j), fin (h j)) := by
    intro j hj
    rw [zipWith_getD _ _ (fin 0) _ (by rw [List.length_map]; exact hj), map_fin_getD l (by omega), map_fin_getD l (by omega)]
    exact (key j hj).1
  have zw' : ∀ j, j + 1 < L → (List.zipWith simpson.weights l.dropLast l.tail).getD j 0 = simpson.weights (l.getD j 0) (l.getD (j + 1) 0) :=
    fun j hj => zipWith_getD _ _ 0 _ hj
  have e4 : (2 : ℝ) ^ F.emax = 8 * 2 ^ (F.emax - 3) := by
    rw [show (8 : ℝ) = 2 ^ (3 : ℤ) by norm_num, ← zpow_add₀ (by norm_num)]; congr 1; ring
  have hE : (0 : ℝ) < 2 ^ (F.emax - 3) := by positivity
  refine ⟨n, w, w', y, y', ?_, ?_, fun i hi => ?_⟩
  · rw [simpsonFl, List.length_map]
    refine Prod.ext (List.map_congr_left fun i hi => ?_) (List.map_congr_left fun i hi => ?_)
    · rw [List.mem_range] at hi
      rw [hlast', hw]
      simp only
      by_cases h0 : i = 0
      · rw [if_pos h0, if_pos h0, zw 0 (by omega)]
      rw [if_neg h0, if_neg h0]
      by_cases h1 : i = L + L - 1 - 1
      · rw [if_pos h1, if_pos h1, zw (L - 2) (by omega)]
      rw [if_neg h1, if_neg h1]
      by_cases h2 : i % 2 = 1
      · rw [if_pos h2, if_pos h2, zw _ (by omega)]
      · rw [if_neg h2, if_neg h2, zw _ (by omega), zw _ (by omega)]
        simp only
        obtain ⟨-, -, a1, a2, -⟩ := key (i / 2 - 1) (by omega)
        obtain ⟨-, -, b1, b2, -⟩ := key (i / 2) (by omega)
        rw [Fmt.add, fin_add, F.rnd_fin (by rw [abs_of_nonneg (by linarith)]; linarith)]
    · rw [List.mem_range] at hi
      rw [hy]
      simp only
      by_cases h2 : i % 2 = 1
      · rw [if_pos h2, if_pos h2, zipWith_getD _ _ (fin 0) _ (by rw [List.length_map]; omega), map_fin_getD l (by omega), map_fin_getD l (by omega)]
        exact (key _ (by omega)).2.2.2.2.2.1
      · rw [if_neg h2, if_neg h2]
        simp [List.getD, List.getElem?_eq_getElem (show i / 2 < l.length by omega)]
  · rw [simpson]
  · have hyi : F.Rep (y i) ∧ l.head hl.ne ≤ y i ∧ y i ≤ l.getLast hl.ne ∧
        |y i - y' i| ≤ max |l.head hl.ne| |l.getLast hl.ne| * 2 ^ (-(F.p : ℤ)) + 2 ^ (F.emin - 1) := by
      rw [hy, hy']
      simp only
      by_cases h2 : i % 2 = 1
      · rw [if_pos h2, if_pos h2, zipWith_getD _ _ 0 _ (by omega)]
        obtain ⟨-, -, -, -, -, -, a1, a2, a3, a4⟩ := key ((i - 1) / 2) (by omega)
        exact ⟨a1, (hl.mem (by omega)).1.trans a2, a3.trans (hl.mem (by omega)).2, a4⟩
      · rw [if_neg h2, if_neg h2]
        refine ⟨hl.rep' (by omega), (hl.mem (by omega)).1, (hl.mem (by omega)).2, ?_⟩
        rw [sub_self, abs_zero]; positivity
    have hwi : 0 ≤ w' i ∧ CloseFl F 3 (w' i) (w i) := by
      have pos : ∀ j, j + 1 < L → 0 ≤ (l.getD (j + 1) 0 - l.getD j 0) / 6 := fun j hj => by
        have := hl.le (show j ≤ j + 1 by omega) hj
        linarith
      rw [hw, hw']
      simp only
      by_cases h0 : i = 0
      · rw [if_pos h0, if_pos h0, zw' 0 (by omega)]
        obtain ⟨-, -, a1, a2, a3, -⟩ := key 0 (by omega)
        simp only [simpson.weights, mul_one]
        exact ⟨pos 0 (by omega), a3.mono F (by norm_num) (pos 0 (by omega))⟩
      rw [if_neg h0, if_neg h0]
      by_cases h1 : i = n - 1
      · rw [if_pos h1, if_pos h1, hlast, zw' (L - 2) (by omega)]
        obtain ⟨-, -, a1, a2, a3, -⟩ := key (L - 2) (by omega)
        simp only [simpson.weights, mul_one]
        exact ⟨pos _ (by omega), a3.mono F (by norm_num) (pos _ (by omega))⟩
      rw [if_neg h1, if_neg h1]
      by_cases h2 : i % 2 = 1
      · rw [if_pos h2, if_pos h2, zw' _ (by omega)]
        obtain ⟨-, -, a1, a2, a3, -⟩ := key ((i - 1) / 2) (by omega)
        have p0 := pos ((i - 1) / 2) (by omega)
        simp only [simpson.weights]
        rw [mul_comm _ (4 : ℝ)]
        exact ⟨by linarith, (a3.smul F 4 (by norm_num)).mono F (by norm_num) (by linarith)⟩
      · rw [if_neg h2, if_neg h2, zw' _ (by omega), zw' _ (by omega)]
        obtain ⟨-, a0, a1, a2, a3, -⟩ := key (i / 2 - 1) (by omega)
        obtain ⟨-, b0, b1, b2, b3, -⟩ := key (i / 2) (by omega)
        have p0 := pos (i / 2 - 1) (by omega)
        have p1 := pos (i / 2) (by omega)
        simp only [simpson.weights, mul_one]
        exact ⟨by linarith, (a3.add F b3).step F (by linarith) (F.rndR_add a0 b0)⟩
    exact ⟨hwi.1, hwi.2, hyi⟩

end

theorem sum_range_map (n : ℕ) (f : ℕ → ℝ) : ((List.range n).map f).sum = ∑ i ∈ Finset.range n, f i := by
  rw [Finset.sum, Finset.range_val, Multiset.range, Multiset.map_coe, Multiset.sum_coe]

/-- The error of a rule which is close to the exact one. -/
theorem ruleFl_error {F : Fmt} {k : ℕ} {r : List XR × List XR} {r' : List ℝ × List ℝ} {a b M : ℝ} (hr : RuleFl F k r r' a b M)
    (hw : WellFormed r' a b) (f : ℝ → ℝ) (fl : XR → XR) {C K ε : ℝ} (hε : 0 ≤ ε) (hK : 0 ≤ K)
    (hC : ∀ x, a ≤ x → x ≤ b → |f x| ≤ C) (hLip : ∀ x y, a ≤ x → x ≤ b → a ≤ y → y ≤ b → |f x - f y| ≤ K * |x - y|)
    (hfl : ∀ x, F.Rep x → a ≤ x → x ≤ b → ∃ y, fl (fin x) = fin y ∧ |y - f x| ≤ ε) (hM : 0 ≤ M) {e : ℝ}
    (he : e = ε + K * (M * 2 ^ (-(F.p : ℤ)) + 2 ^ (F.emin - 1)))
    (hov : (1 + 2 ^ (-(F.p : ℤ))) ^ (r'.1.length + k) * (C + e) * (b - a) +
      (1 + 2 ^ (-(F.p : ℤ))) ^ r'.1.length * (r'.1.length * 2 ^ (F.emin - 1)) ≤ (2 : ℝ) ^ F.emax)
    {res : XR} (hres : FlDot F (List.zip r.1 (r.2.map fl)) res) :
    ∃ R : ℝ, res = fin R ∧ |R - quad r' f| ≤ (b - a) * (((1 + 2 ^ (-(F.p : ℤ))) ^ (r'.1.length + k) - 1) * (C + e) + e) +
      (1 + 2 ^ (-(F.p : ℤ))) ^ r'.1.length * (r'.1.length * 2 ^ (F.emin - 1)) := by
  obtain ⟨n, w, w', x, x', rfl, rfl, hall⟩ := hr
  set u : ℝ := 2 ^ (-(F.p : ℤ)) with hu
  set η : ℝ := 2 ^ (F.emin - 1) with hη
  have hu0 : 0 < u := by positivity
  have hη0 : 0 < η := by positivity
  simp only [List.length_map, List.length_range] at hov ⊢
  have he0 : 0 ≤ e := by rw [he]; positivity
  have hx' : ∀ i < n, a ≤ x' i ∧ x' i ≤ b := fun i hi => hw.mem _ (List.mem_map.mpr ⟨i, List.mem_range.mpr hi, rfl⟩)
  have hsum : ∑ i ∈ Finset.range n, w' i = b - a := by rw [← sum_range_map]; exact hw.sum_eq
  have hy : ∀ i, ∃ y : ℝ, i < n → fl (fin (x i)) = fin y ∧ |y - f (x' i)| ≤ e := by
    intro i
    by_cases hi : i < n
    · obtain ⟨-, -, h3, h4, h5, h6⟩ := hall i hi
      obtain ⟨y, h7, h8⟩ := hfl (x i) h3 h4 h5
      refine ⟨y, fun _ => ⟨h7, ?_⟩⟩
      have h9 := hLip (x i) (x' i) h4 h5 (hx' i hi).1 (hx' i hi).2
      have h10 : K * |x i - x' i| ≤ K * (M * u + η) := mul_le_mul_of_nonneg_left h6 hK
      calc |y - f (x' i)| ≤ |y - f (x i)| + |f (x i) - f (x' i)| := abs_sub_le _ _ _
        _ ≤ e := by rw [he]; linarith
    · exact ⟨0, fun h => absurd h hi⟩
  choose y hy using hy
  have hzip : List.zip ((List.range n).map fun i => fin (w i)) (((List.range n).map fun i => fin (x i)).map fl) =
      (List.range n).map fun i => (fin (w i), fin (y i)) := by
    rw [List.map_map, List.zip, zipWith_map_range]
    refine List.map_congr_left fun i hi => ?_
    rw [List.mem_range] at hi
    simp only [Function.comp_apply, (hy i hi).1]
  rw [hzip] at hres
  set l : Multiset (XR × XR) := (((List.range n).map fun i => (fin (w i), fin (y i)) : List (XR × XR)) : Multiset (XR × XR)) with hl
  have hcard : l.card = n := by rw [hl, Multiset.coe_card, List.length_map, List.length_range]
  have hS : dotSum l = ∑ i ∈ Finset.range n, w i * y i := by
    rw [dotSum, hl, Multiset.map_coe, Multiset.sum_coe, List.map_map, ← sum_range_map]
    rfl
  have hA : dotAbs l = ∑ i ∈ Finset.range n, |w i * y i| := by
    rw [dotAbs, hl, Multiset.map_coe, Multiset.sum_coe, List.map_map, ← sum_range_map]
    rfl
  have hg1 : 1 ≤ (1 + u) ^ k := one_le_pow₀ (by linarith)
  have hCe : ∀ i < n, |y i| ≤ C + e := fun i hi => by
    have h1 := (hy i hi).2
    have h2 := hC _ (hx' i hi).1 (hx' i hi).2
    have := abs_sub_abs_le_abs_sub (y i) (f (x' i))
    linarith
  have hwi : ∀ i < n, |w i| ≤ (1 + u) ^ k * w' i := fun i hi => by
    obtain ⟨h1, h2, -⟩ := hall i hi
    rw [CloseFl, ← hu] at h2
    have := abs_sub_abs_le_abs_sub (w i) (w' i)
    rw [abs_of_nonneg h1] at this
    linarith
  have hA' : dotAbs l ≤ (1 + u) ^ k * (C + e) * (b - a) := by
    rw [hA, ← hsum, Finset.mul_sum]
    refine Finset.sum_le_sum fun i hi => ?_
    rw [Finset.mem_range] at hi
    rw [abs_mul]
    calc |w i| * |y i| ≤ (1 + u) ^ k * w' i * (C + e) :=
          mul_le_mul (hwi i hi) (hCe i hi) (abs_nonneg _) (mul_nonneg (by positivity) (hall i hi).1)
      _ = _ := by ring
  have hgn : 0 < (1 + u) ^ n := by positivity
  have hA'' : (1 + u) ^ n * dotAbs l ≤ (1 + u) ^ (n + k) * (C + e) * (b - a) := by
    calc (1 + u) ^ n * dotAbs l ≤ (1 + u) ^ n * ((1 + u) ^ k * (C + e) * (b - a)) := mul_le_mul_of_nonneg_left hA' hgn.le
      _ = _ := by rw [pow_add]; ring
  obtain ⟨R, hR, -, -, hR'⟩ := flDot_bound F hres (fun q hq => by
    rw [hl, Multiset.mem_coe, List.mem_map] at hq
    obtain ⟨i, -, rfl⟩ := hq
    exact ⟨_, _, rfl⟩) (by
    rw [hcard, ← hu, ← hη, mul_add]
    linarith)
  rw [hcard, ← hu, ← hη] at hR'
  refine ⟨R, hR, ?_⟩
  have hq : quad ((List.range n).map w', (List.range n).map x') f = ∑ i ∈ Finset.range n, w' i * f (x' i) := by
    rw [quad, zipWith_map_range, sum_range_map]
    rfl
  rw [hq]
  have hdiff : |dotSum l - ∑ i ∈ Finset.range n, w' i * f (x' i)| ≤ (b - a) * (((1 + u) ^ k - 1) * (C + e) + e) := by
    rw [hS, ← Finset.sum_sub_distrib, ← hsum, Finset.sum_mul]
    refine (Finset.abs_sum_le_sum_abs _ _).trans (Finset.sum_le_sum fun i hi => ?_)
    rw [Finset.mem_range] at hi
    obtain ⟨h1, h2, -⟩ := hall i hi
    rw [CloseFl, ← hu] at h2
    have e1 : w i * y i - w' i * f (x' i) = (w i - w' i) * y i + w' i * (y i - f (x' i)) := by ring
    rw [e1]
    calc |(w i - w' i) * y i + w' i * (y i - f (x' i))| ≤ |(w i - w' i) * y i| + |w' i * (y i - f (x' i))| := abs_add_le _ _
      _ = |w i - w' i| * |y i| + w' i * |y i - f (x' i)| := by rw [abs_mul, abs_mul, abs_of_nonneg h1]
      _ ≤ ((1 + u) ^ k - 1) * w' i * (C + e) + w' i * e :=
        add_le_add (mul_le_mul h2 (hCe i hi) (abs_nonneg _) (mul_nonneg (by linarith) h1)) (mul_le_mul_of_nonneg_left (hy i hi).2 h1)
      _ = _ := by ring
  have hA3 : ((1 + u) ^ n - 1) * dotAbs l ≤ ((1 + u) ^ n - 1) * ((1 + u) ^ k * (C + e) * (b - a)) :=
    mul_le_mul_of_nonneg_left hA' (by have : 1 ≤ (1 + u) ^ n := one_le_pow₀ (by linarith)
                                      linarith)
  calc |R - ∑ i ∈ Finset.range n, w' i * f (x' i)|
      ≤ |R - dotSum l| + |dotSum l - ∑ i ∈ Finset.range n, w' i * f (x' i)| := abs_sub_le _ _ _
    _ ≤ ((1 + u) ^ n * (dotAbs l + n * η) - dotAbs l) + (b - a) * (((1 + u) ^ k - 1) * (C + e) + e) := add_le_add hR' hdiff
    _ = ((1 + u) ^ n - 1) * dotAbs l + (1 + u) ^ n * (n * η) + (b - a) * (((1 + u) ^ k - 1) * (C + e) + e) := by ring
    _ ≤ ((1 + u) ^ n - 1) * ((1 + u) ^ k * (C + e) * (b - a)) + (1 + u) ^ n * (n * η) + (b - a) * (((1 + u) ^ k - 1) * (C + e) + e) := by linarith
    _ = _ := by rw [pow_add]; ring

/-! ## C154 -/

/-- The three rules with and without rounding. -/
inductive RulePair (F : Fmt) : (List XR → List XR × List XR) → QuadRule → Prop
  | midpoint : RulePair F (midpointFl F) midpoint
  | trap : RulePair F (trapFl F) trap
  | simpson : RulePair F (simpsonFl F) simpson

theorem RulePair.close {F : Fmt} {mFl : List XR → List XR × List XR} {m : QuadRule} (hm : RulePair F mFl m) {l : List ℝ} (hl : GridFl F l) :
    RuleFl F 3 (mFl (l.map fin)) (m l) (l.head hl.ne) (l.getLast hl.ne) (max |l.head hl.ne| |l.getLast hl.ne|) ∧
      WellFormed (m l) (l.head hl.ne) (l.getLast hl.ne) := by
  cases hm with
  | midpoint => exact ⟨midpointFl_rule hl, (C46_midpoint l hl.ne).2.2.2 hl.pairwise⟩
  | trap => exact ⟨trapFl_rule hl, (C46_trap l hl.ne).2.2.2 hl.pairwise hl.len⟩
  | simpson => exact ⟨simpsonFl_rule hl, (C46_simpson l hl.ne hl.len).2.2.2 hl.pairwise⟩

/-- The computed weights of the three rules are non-negative, each with a relative error of at most three roundings; the computed
nodes are numbers of the format, lie in the interval and have an error of one unit. -/
theorem C154_rules {F : Fmt} {mFl : List XR → List XR × List XR} {m : QuadRule} (hm : RulePair F mFl m) {l : List ℝ} (hl : GridFl F l) :
    ∃ w x : List ℝ, mFl (l.map fin) = (w.map fin, x.map fin) ∧
      List.Forall₂ (fun v w => |w - v| ≤ ((1 + 2 ^ (-(F.p : ℤ))) ^ 3 - 1) * v) (m l).1 w ∧
      List.Forall₂ (fun y x => F.Rep x ∧ l.head hl.ne ≤ x ∧ x ≤ l.getLast hl.ne ∧
        |x - y| ≤ max |l.head hl.ne| |l.getLast hl.ne| * 2 ^ (-(F.p : ℤ)) + 2 ^ (F.emin - 1)) (m l).2 x := by
  obtain ⟨n, w, w', x, x', h1, h2, h3⟩ := (hm.close hl).1
  refine ⟨(List.range n).map w, (List.range n).map x, ?_, ?_, ?_⟩
  · rw [h1, List.map_map, List.map_map]
    rfl
  · rw [h2, List.forall₂_map_left_iff, List.forall₂_map_right_iff, List.forall₂_same]
    intro i hi
    exact (h3 i (List.mem_range.mp hi)).2.1
  · rw [h2, List.forall₂_map_left_iff, List.forall₂_map_right_iff, List.forall₂_same]
    intro i hi
    exact (h3 i (List.mem_range.mp hi)).2.2

/-- The result of a dot product of `n` pairs, in whatever order it is computed and with or without fused operations: the error is at
most `(1 + u)^n - 1` times the sum of the absolute values (and a term for underflow). -/
theorem C154_dot {F : Fmt} (l : List (ℝ × ℝ)) {r : XR}
    (h : FlDot F (l.map fun q => (fin q.1, fin q.2)) r)
    (hov : (1 + 2 ^ (-(F.p : ℤ))) ^ l.length * ((l.map fun q => |q.1 * q.2|).sum + l.length * 2 ^ (F.emin - 1)) ≤ (2 : ℝ) ^ F.emax) :
    ∃ R : ℝ, r = fin R ∧ |R - (l.map fun q => q.1 * q.2).sum| ≤
      ((1 + 2 ^ (-(F.p : ℤ))) ^ l.length - 1) * (l.map fun q => |q.1 * q.2|).sum +
        (1 + 2 ^ (-(F.p : ℤ))) ^ l.length * (l.length * 2 ^ (F.emin - 1)) := by
  have hA : dotAbs ((l.map fun q => ((fin q.1, fin q.2) : XR × XR) : List (XR × XR)) : Multiset (XR × XR)) = (l.map fun q => |q.1 * q.2|).sum := by
    rw [dotAbs, Multiset.map_coe, Multiset.sum_coe, List.map_map]
    rfl
  have hS : dotSum ((l.map fun q => ((fin q.1, fin q.2) : XR × XR) : List (XR × XR)) : Multiset (XR × XR)) = (l.map fun q => q.1 * q.2).sum := by
    rw [dotSum, Multiset.map_coe, Multiset.sum_coe, List.map_map]
    rfl
  obtain ⟨R, h1, -, -, h2⟩ := flDot_bound F h (fun q hq => by
    rw [Multiset.mem_coe, List.mem_map] at hq
    obtain ⟨i, -, rfl⟩ := hq
    exact ⟨_, _, rfl⟩) (by rw [hA, Multiset.coe_card, List.length_map]; exact hov)
  rw [hA, hS, Multiset.coe_card, List.length_map] at h2
  exact ⟨R, h1, h2.trans (le_of_eq (by ring))⟩

/-- Integration in floating point arithmetic. Let `f` be bounded by `C` with Lipschitz constant `K` on the interval, and let the
program `fl` compute it with an absolute error `ε` at the numbers of the format. Then every possible result of `integrate` with the
midpoint, trapezoidal or Simpson's rule differs from the exact value of the rule by at most the length of the interval times
`e + ((1 + u)^(n + 3) - 1) (C + e)`, where `n` is the number of nodes, `e` is `ε` and the effect of the rounding of the nodes; the
size of the cells does not matter. -/
theorem C154_integrate {F : Fmt} {mFl : List XR → List XR × List XR} {m : QuadRule} (hm : RulePair F mFl m) {l : List ℝ} (hl : GridFl F l)
    (f : ℝ → ℝ) (fl : XR → XR) {a b : ℝ} (ha : a = l.head hl.ne) (hb : b = l.getLast hl.ne) {C K ε : ℝ} (hε : 0 ≤ ε) (hK : 0 ≤ K)
    (hC : ∀ x, a ≤ x → x ≤ b → |f x| ≤ C) (hLip : ∀ x y, a ≤ x → x ≤ b → a ≤ y → y ≤ b → |f x - f y| ≤ K * |x - y|)
    (hfl : ∀ x, F.Rep x → a ≤ x → x ≤ b → ∃ y, fl (fin x) = fin y ∧ |y - f x| ≤ ε) {e : ℝ}
    (he : e = ε + K * (max |a| |b| * 2 ^ (-(F.p : ℤ)) + 2 ^ (F.emin - 1))) {n : ℕ} (hn : n = (m l).1.length)
    (hov : (1 + 2 ^ (-(F.p : ℤ))) ^ (n + 3) * (C + e) * (b - a) + (1 + 2 ^ (-(F.p : ℤ))) ^ n * (n * 2 ^ (F.emin - 1)) ≤ (2 : ℝ) ^ F.emax)
    {r : XR} (hr : IntegrateFl F fl (l.map fin) mFl r) :
    ∃ R Q : ℝ, r = fin R ∧ integrate1 (fun X => X.map f) l m = .ok Q ∧
      |R - Q| ≤ (b - a) * (((1 + 2 ^ (-(F.p : ℤ))) ^ (n + 3) - 1) * (C + e) + e) +
        (1 + 2 ^ (-(F.p : ℤ))) ^ n * (n * 2 ^ (F.emin - 1)) := by
  subst ha hb hn
  obtain ⟨h1, h2⟩ := hm.close hl
  obtain ⟨R, h3, h4⟩ := ruleFl_error h1 h2 f fl hε hK hC hLip hfl (le_max_of_le_left (abs_nonneg _)) he hov hr
  refine ⟨R, quad (m l) f, h3, ?_, h4⟩
  rw [integrate1]
  simp only [List.length_map]
  rw [if_pos h2.length_eq, tensordot, quad, List.zipWith_map_right]

/-- The grid `0, 1/2, 1` in single precision. -/
theorem gridFl_example : GridFl Fmt.single [0, 1 / 2, 1] := by
  have r : ∀ j : ℤ, -149 ≤ j → Fmt.single.Rep (2 ^ j) := fun j hj => Fmt.single.rep_two_zpow (by simpa [Fmt.single] using hj)
  have r1 : Fmt.single.Rep 1 := by simpa using r 0 (by norm_num)
  have r2 : Fmt.single.Rep (1 / 2) := by simpa using r (-1) (by norm_num)
  have big : (1 : ℝ) ≤ 2 ^ (Fmt.single.emax - 2) := one_le_zpow₀ (by norm_num) (by simp [Fmt.single])
  have tiny : (2 : ℝ) ^ (Fmt.single.emin + Fmt.single.p + 2) ≤ 1 / 2 := by
    calc (2 : ℝ) ^ (Fmt.single.emin + Fmt.single.p + 2) ≤ 2 ^ (-1 : ℤ) := zpow_le_zpow_right₀ (by norm_num) (by simp [Fmt.single])
      _ = 1 / 2 := by norm_num
  refine ⟨by simp, ?_, ?_, ?_⟩
  · intro t ht
    simp only [List.mem_cons, List.not_mem_nil, or_false] at ht
    rcases ht with rfl | rfl | rfl
    exacts [Fmt.single.rep_zero, r2, r1]
  · intro t ht
    simp only [List.mem_cons, List.not_mem_nil, or_false] at ht
    rcases ht with rfl | rfl | rfl
    · rw [abs_zero]; positivity
    · rw [abs_of_pos (by norm_num)]; linarith
    · rw [abs_one]; exact big
  · simp only [List.isChain_cons_cons, List.isChain_singleton, and_true]
    constructor <;> linarith

/-- Simpson's rule with the identity on this grid: every order of the operations gives a result within `10^-6`. -/
example (r : XR) (hr : IntegrateFl Fmt.single (fun x => x) ([0, 1 / 2, 1].map fin) (simpsonFl Fmt.single) r) :
    ∃ R Q : ℝ, r = fin R ∧ integrate1 (fun X => X.map fun x => x) [0, 1 / 2, 1] simpson = .ok Q ∧ |R - Q| ≤ 1 / 10 ^ 6 := by
  have hη : (2 : ℝ) ^ (Fmt.single.emin - 1) ≤ 2 ^ (-(30 : ℤ)) := zpow_le_zpow_right₀ (by norm_num) (by simp [Fmt.single])
  have hη0 : (0 : ℝ) < 2 ^ (Fmt.single.emin - 1) := by positivity
  have hu : (2 : ℝ) ^ (-(Fmt.single.p : ℤ)) = 1 / 16777216 := by norm_num [Fmt.single]
  have hbig : (4 : ℝ) ≤ 2 ^ Fmt.single.emax := by
    calc (4 : ℝ) = 2 ^ (2 : ℤ) := by norm_num
      _ ≤ _ := zpow_le_zpow_right₀ (by norm_num) (by simp [Fmt.single])
  rw [show (2 : ℝ) ^ (-(30 : ℤ)) = 1 / 1073741824 by norm_num] at hη
  have hlen : (5 : ℕ) = (simpson [0, 1 / 2, 1]).1.length := by simp [simpson]
  obtain ⟨R, Q, h1, h2, h3⟩ := C154_integrate (F := Fmt.single) .simpson gridFl_example (fun x => x) (fun x => x) (a := 0) (b := 1)
    (C := 1) (K := 1) (ε := 0) rfl rfl le_rfl zero_le_one (fun x h1 h2 => by rw [abs_of_nonneg h1]; exact h2)
    (fun x y _ _ _ _ => by rw [one_mul]) (fun x _ _ _ => ⟨x, rfl, by simp⟩) (n := 5) rfl hlen (by
      simp only [abs_zero, abs_one, hu]
      norm_num
      nlinarith) hr
  refine ⟨R, Q, h1, h2, h3.trans ?_⟩
  simp only [abs_zero, abs_one, hu]
  norm_num
  nlinarith

/-- The bound on the grid is needed: the sum of two large neighbouring nodes overflows, and the computed midpoint is `inf` although the
midpoint is in the range of the format. -/
theorem C154_overflow_counterexample (F : Fmt) :
    (midpointFl F [fin (2 ^ F.emax), fin (3 / 2 * 2 ^ F.emax)]).2 = [pinf] ∧
    F.Rep (2 ^ F.emax) ∧ F.Rep (3 / 2 * 2 ^ F.emax) ∧ (3 / 2 * 2 ^ F.emax : ℝ) < 2 ^ (F.emax + 1) := by
  have hmin := F.hmin
  have hmax := F.hmax
  have hp := F.hp
  have e1 : (2 : ℝ) ^ F.emax = 2 * 2 ^ (F.emax - 1) := by
    rw [mul_comm, ← zpow_add_one₀ (by norm_num)]; congr 1; ring
  have e2 : (2 : ℝ) ^ (F.emax + 1) = 4 * 2 ^ (F.emax - 1) := by
    rw [show F.emax + 1 = F.emax - 1 + 1 + 1 by ring, zpow_add_one₀ (by norm_num), zpow_add_one₀ (by norm_num)]; ring
  have hpos : (0 : ℝ) < 2 ^ (F.emax - 1) := by positivity
  have hr1 : F.Rep (2 ^ F.emax) := F.rep_two_zpow (by omega)
  have hr3 : F.Rep (3 / 2 * 2 ^ F.emax) := by
    rw [e1, show (3 / 2 * (2 * 2 ^ (F.emax - 1)) : ℝ) = 3 * 2 ^ (F.emax - 1) by ring]
    refine ⟨3, F.emax - 1, ?_, by omega, by norm_num⟩
    have h4 : (2 : ℤ) ^ 2 ≤ 2 ^ F.p := pow_le_pow_right₀ (by norm_num) hp
    rw [show |(3 : ℤ)| = 3 from rfl]
    linarith
  refine ⟨?_, hr1, hr3, by rw [e1, e2]; linarith⟩
  have hsum : F.add (fin (3 / 2 * 2 ^ F.emax)) (fin (2 ^ F.emax)) = pinf := by
    have h : (2 : ℝ) ^ (F.emax + 1) ≤ F.rndR (3 / 2 * 2 ^ F.emax + 2 ^ F.emax) :=
      F.le_rndR (F.rep_two_zpow (by omega)) (by rw [e1, e2]; linarith)
    have h0 : 0 < F.rndR (3 / 2 * 2 ^ F.emax + 2 ^ F.emax) := lt_of_lt_of_le (by positivity) h
    rw [Fmt.add, fin_add, Fmt.rnd, if_neg (by rw [abs_of_pos h0, not_lt]; exact h)]
    exact if_pos (by positivity)
  show [F.div (F.add (fin (3 / 2 * 2 ^ F.emax)) (fin (2 ^ F.emax))) (fin 2)] = [pinf]
  rw [hsum]
  have : (pinf : XR) / fin 2 = pinf := by
    show XR.div _ _ = _
    simp [XR.div]
  rw [Fmt.div, this]
  rfl

end Verif
