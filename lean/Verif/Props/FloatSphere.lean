import Verif.Model.FloatSphere
import Verif.Props.FloatOde
import Verif.Spec.Geometry

/-! # Property C156: spheres, cylinders and translations in floating point arithmetic (`/repo/magpi/r_fun.py`) -/

namespace Verif

open XR

section
variable (F : Fmt)

theorem rnd_nonneg_cases {a : XR} (h : a = nan ∨ a = pinf ∨ ∃ R, 0 ≤ R ∧ a = fin R) :
    F.rnd a = nan ∨ F.rnd a = pinf ∨ ∃ R, 0 ≤ R ∧ F.rnd a = fin R := by
  rcases h with rfl | rfl | ⟨R, hR, rfl⟩
  · exact Or.inl rfl
  · exact Or.inr (Or.inl rfl)
  · rw [Fmt.rnd]
    split
    · exact Or.inr (Or.inr ⟨_, F.rndR_nonneg hR, rfl⟩)
    · rcases hR.eq_or_lt with rfl | h
      · exact Or.inl (by simp [infSign])
      · exact Or.inr (Or.inl (by simp [infSign, h]))

theorem add_nonneg_cases {a b : XR} (ha : a = nan ∨ a = pinf ∨ ∃ R, 0 ≤ R ∧ a = fin R) (hb : b = nan ∨ b = pinf ∨ ∃ R, 0 ≤ R ∧ b = fin R) :
    a + b = nan ∨ a + b = pinf ∨ ∃ R, 0 ≤ R ∧ a + b = fin R := by
  rcases ha with rfl | rfl | ⟨R, hR, rfl⟩ <;> rcases hb with rfl | rfl | ⟨S, hS, rfl⟩
  all_goals first
    | exact Or.inl rfl
    | exact Or.inr (Or.inl rfl)
    | exact Or.inr (Or.inr ⟨R + S, by linarith, by rw [fin_add]⟩)

theorem flDot_nonneg {l : Multiset (XR × XR)} {r : XR} (h : FlDot F l r) (hl : ∀ q ∈ l, ∃ a : ℝ, q = (fin a, fin a)) :
    r = nan ∨ r = pinf ∨ ∃ R, 0 ≤ R ∧ r = fin R := by
  induction h with
  | zero => exact Or.inr (Or.inr ⟨0, le_rfl, rfl⟩)
  | mul w y =>
    obtain ⟨a, ha⟩ := hl _ (Multiset.mem_singleton_self _)
    rw [Prod.mk.injEq] at ha
    obtain ⟨rfl, rfl⟩ := ha
    exact rnd_nonneg_cases F (Or.inr (Or.inr ⟨a * a, mul_self_nonneg a, by rw [fin_mul]⟩))
  | add _ _ iha ihb =>
    exact rnd_nonneg_cases F (add_nonneg_cases (iha fun q hq => hl q (Multiset.mem_add.mpr (Or.inl hq)))
      (ihb fun q hq => hl q (Multiset.mem_add.mpr (Or.inr hq))))
  | fma w y _ iha =>
    obtain ⟨a, ha⟩ := hl (w, y) (Multiset.mem_add.mpr (Or.inr (Multiset.mem_singleton_self _)))
    rw [Prod.mk.injEq] at ha
    obtain ⟨rfl, rfl⟩ := ha
    exact rnd_nonneg_cases F (add_nonneg_cases (iha fun q hq => hl q (Multiset.mem_add.mpr (Or.inl hq)))
      (Or.inr (Or.inr ⟨a * a, mul_self_nonneg a, by rw [fin_mul]⟩)))

/-- The square root of a number of the format does not underflow. -/
theorem sqrt_rel (hF : F.emin + 2 * F.p ≤ 2) {s : ℝ} (hs : F.Rep s) (h0 : 0 ≤ s) :
    |F.rndR (Real.sqrt s) - Real.sqrt s| ≤ Real.sqrt s * F.u := by
  rcases h0.eq_or_lt with rfl | h
  · simp [Fmt.rndR_zero]
  · have h1 : (2 : ℝ) ^ F.emin ≤ s := by
      obtain ⟨m, hm⟩ := hs.mul_emin
      have hm1 : 1 ≤ m := by
        by_contra hc
        have : (m : ℝ) ≤ 0 := by exact_mod_cast (by omega : m ≤ 0)
        have h2 : (0 : ℝ) < 2 ^ F.emin := by positivity
        nlinarith
      have : (1 : ℝ) ≤ m := by exact_mod_cast hm1
      have h2 : (0 : ℝ) < 2 ^ F.emin := by positivity
      nlinarith
    have h2 : (2 : ℝ) ^ (F.emin + ((F.p : ℤ) - 1)) ≤ Real.sqrt s := by
      apply Real.le_sqrt_of_sq_le
      refine le_trans ?_ h1
      rw [← zpow_natCast, ← zpow_mul]
      exact zpow_le_zpow_right₀ (by norm_num) (by push_cast; linarith)
    have h3 := F.rndR_rel (x := Real.sqrt s) (by rwa [abs_of_nonneg (Real.sqrt_nonneg _)])
    rwa [abs_of_nonneg (Real.sqrt_nonneg _)] at h3

theorem squaresFl_fin {n : ℕ} (Z : Fin n → ℝ) :
    (∀ q ∈ squaresFl (fun i => fin (Z i)), ∃ a : ℝ, q = (fin a, fin a)) ∧ (squaresFl (fun i => fin (Z i))).card = n ∧
      dotSum (squaresFl (fun i => fin (Z i))) = ∑ i, Z i ^ 2 ∧ dotAbs (squaresFl (fun i => fin (Z i))) = ∑ i, Z i ^ 2 := by
  refine ⟨fun q hq => ?_, by simp [squaresFl], ?_, ?_⟩
  · obtain ⟨i, -, rfl⟩ := Multiset.mem_map.mp hq
    exact ⟨_, rfl⟩
  · rw [dotSum, squaresFl, Multiset.map_map, Finset.sum]
    congr 1
    exact Multiset.map_congr rfl fun i _ => by simp [rePart, sq]
  · rw [dotAbs, squaresFl, Multiset.map_map, Finset.sum]
    congr 1
    exact Multiset.map_congr rfl fun i _ => by simp [rePart, sq]

/-- The computed norm. -/
theorem normFl_bound (hF : F.emin + 2 * F.p ≤ 2) {n : ℕ} (Z : Fin n → ℝ) {X : ℝ} {k : ℕ} (hX : 0 ≤ X)
    (hZ : |(∑ i, Z i ^ 2) - X| ≤ ((1 + F.u) ^ k - 1) * X)
    (hov : (1 + F.u) ^ (n + k + 3) * (X + n * F.η) ≤ 2 ^ F.emax) {w : XR} (hw : NormFl F (fun i => fin (Z i)) w) :
    ∃ W : ℝ, w = fin W ∧ F.Rep W ∧ 0 ≤ W ∧
      |W ^ 2 - X| ≤ ((1 + F.u) ^ (n + k + 2) - 1) * X + (1 + F.u) ^ (n + k + 2) * (n * F.η) := by
  obtain ⟨s, hs, rfl⟩ := hw
  obtain ⟨h1, h2, h3, h4⟩ := squaresFl_fin Z
  set S := ∑ i, Z i ^ 2 with hS
  have hS0 : 0 ≤ S := Finset.sum_nonneg fun i _ => sq_nonneg _
  have hu := F.u_pos
  have hη := F.η_pos
  set g := 1 + F.u with hg
  have hg1 : 1 ≤ g := by linarith
  have hpow : ∀ m : ℕ, 1 ≤ g ^ m := fun m => one_le_pow₀ hg1
  have hn0 : (0 : ℝ) ≤ n * F.η := by positivity
  have hSk : S ≤ g ^ k * X := by have := (abs_le.mp hZ).2; linarith
  have e1 : g ^ n * (S + n * F.η) ≤ g ^ (n + k) * (X + n * F.η) := by
    rw [pow_add, mul_assoc]
    refine mul_le_mul_of_nonneg_left ?_ (by linarith [hpow n])
    nlinarith [hpow k]
  have e2 : g ^ (n + k) * (X + n * F.η) ≤ g ^ (n + k + 3) * (X + n * F.η) :=
    mul_le_mul_of_nonneg_right (pow_le_pow_right₀ hg1 (by omega)) (by linarith)
  obtain ⟨R, rfl, hRep, -, hR⟩ := flDot_bound F hs (fun q hq => by obtain ⟨a, ha⟩ := h1 q hq; exact ⟨a, a, ha⟩)
    (by rw [h2, h4]; exact e1.trans (e2.trans hov))
  rw [h2, h3, h4] at hR
  have hR0 : 0 ≤ R := by
    rcases flDot_nonneg F hs h1 with h | h | ⟨R', h, h'⟩
    · cases h
    · cases h
    · rw [fin_inj] at h'; rwa [h']
  have hRX : |R - X| ≤ (g ^ (n + k) - 1) * X + g ^ n * (n * F.η) := by
    have a1 := abs_sub_le R S X
    have a2 : (g ^ n - 1) * S ≤ (g ^ n - 1) * (g ^ k * X) := mul_le_mul_of_nonneg_left hSk (by linarith [hpow n])
    rw [pow_add]
    linarith
  have hRle : R ≤ g ^ (n + k) * X + g ^ n * (n * F.η) := by have := (abs_le.mp hRX).2; linarith
  have hRov : R ≤ 2 ^ F.emax := by
    have a3 : g ^ n * (n * F.η) ≤ g ^ (n + k) * (n * F.η) := mul_le_mul_of_nonneg_right (pow_le_pow_right₀ hg1 (by omega)) hn0
    linarith
  have hq := sqrt_rel F hF hRep hR0
  set q := Real.sqrt R with hqd
  have hq0 : 0 ≤ q := Real.sqrt_nonneg _
  have hqq : q ^ 2 = R := Real.sq_sqrt hR0
  have hqov : |q| ≤ 2 ^ F.emax := by
    rw [abs_of_nonneg hq0]
    have a4 : (1 : ℝ) ≤ 2 ^ F.emax := one_le_zpow₀ (by norm_num) (by have := F.hmax; omega)
    nlinarith
  have hW0 : 0 ≤ F.rndR q := F.rndR_nonneg hq0
  refine ⟨F.rndR q, ?_, F.rep_rndR _, hW0, ?_⟩
  · rw [Fmt.sqrt, fin_sqrt hR0, F.rnd_fin hqov]
  · have b1 := abs_le.mp hq
    have b2 : |F.rndR q ^ 2 - R| ≤ (g ^ 2 - 1) * R := by
      rw [← hqq, abs_le]
      constructor <;> nlinarith
    have b3 := abs_sub_le (F.rndR q ^ 2) R X
    have b4 : (g ^ 2 - 1) * R ≤ (g ^ 2 - 1) * (g ^ (n + k) * X + g ^ n * (n * F.η)) :=
      mul_le_mul_of_nonneg_left hRle (by linarith [hpow 2])
    have b5 : g ^ (n + 2) * (n * F.η) ≤ g ^ (n + k + 2) * (n * F.η) := mul_le_mul_of_nonneg_right (pow_le_pow_right₀ hg1 (by omega)) hn0
    have b6 : (g ^ 2 - 1) * (g ^ (n + k) * X + g ^ n * (n * F.η)) + ((g ^ (n + k) - 1) * X + g ^ n * (n * F.η)) =
        (g ^ (n + k + 2) - 1) * X + g ^ (n + 2) * (n * F.η) := by ring
    linarith

/-- The computed value of a sphere. -/
theorem sphereFl_bound (hF : F.emin + 2 * F.p ≤ 2) {n : ℕ} (Z : Fin n → ℝ) {X r : ℝ} {k : ℕ} (hX : 0 ≤ X) (hr : 0 < r) (hrep : F.Rep r)
    (hZ : |(∑ i, Z i ^ 2) - X| ≤ ((1 + F.u) ^ k - 1) * X) (hr2 : 2 * r ≤ 2 ^ F.emax)
    (hov : (1 + F.u) ^ (n + k + 5) * (r ^ 2 + X + (n + 2) * F.η) ≤ min 1 (2 * r) * 2 ^ F.emax) {v : XR}
    (hv : SphereFl F (fin r) (fun i => fin (Z i)) v) :
    ∃ V : ℝ, v = fin V ∧ F.Rep V ∧ |V - (r ^ 2 - X) / (2 * r)| ≤
      (((1 + F.u) ^ (n + k + 5) - 1) * (r ^ 2 + X) + (1 + F.u) ^ (n + k + 5) * ((n + 2) * F.η)) / (2 * r) + F.η := by
  obtain ⟨w, hw, rfl⟩ := hv
  have hu := F.u_pos
  have hη := F.η_pos
  have hn0 : (0 : ℝ) ≤ n * F.η := by positivity
  have hE0 : (0 : ℝ) < 2 ^ F.emax := by positivity
  have hov1 : (1 + F.u) ^ (n + k + 5) * (r ^ 2 + X + (n + 2) * F.η) ≤ 2 ^ F.emax := by
    have := mul_le_mul_of_nonneg_right (min_le_left 1 (2 * r)) hE0.le
    linarith
  have hov2 : (1 + F.u) ^ (n + k + 5) * (r ^ 2 + X + (n + 2) * F.η) ≤ 2 * r * 2 ^ F.emax := by
    have := mul_le_mul_of_nonneg_right (min_le_right 1 (2 * r)) hE0.le
    linarith
  have hg1 : 1 ≤ 1 + F.u := by linarith
  have hpow : ∀ m : ℕ, 1 ≤ (1 + F.u) ^ m := fun m => one_le_pow₀ hg1
  have hle : ∀ m m' : ℕ, m ≤ m' → (1 + F.u) ^ m ≤ (1 + F.u) ^ m' := fun m m' h => pow_le_pow_right₀ hg1 h
  have hX' : 0 ≤ r ^ 2 + X + (n + 2) * F.η := by positivity
  obtain ⟨W, rfl, hWr, hW0, hW⟩ := normFl_bound F hF Z hX hZ (by
    refine le_trans ?_ hov1
    refine mul_le_mul (hle _ _ (by omega)) ?_ (by positivity) (by positivity)
    nlinarith [sq_nonneg r]) hw
  set g := 1 + F.u with hg
  set G := g ^ (n + k + 2) with hG
  have hG1 : 1 ≤ G := hpow _
  have eG : g ^ (n + k + 5) = G * g ^ 3 := by rw [hG, ← pow_add]
  rw [eG] at hov1 hov2 ⊢
  have hgg : g = 1 + F.u := hg
  have hg3 : g ^ 3 = 1 + 3 * F.u + 3 * F.u ^ 2 + F.u ^ 3 := by rw [hgg]; ring
  clear_value G g
  have hWX : W ^ 2 ≤ G * X + G * (n * F.η) := by have := (abs_le.mp hW).2; linarith
  have hmono : ∀ j : ℕ, j ≤ 3 → G * g ^ j * (r ^ 2 + X + (n + 2) * F.η) ≤ G * g ^ 3 * (r ^ 2 + X + (n + 2) * F.η) := fun j hj => by
    refine mul_le_mul_of_nonneg_right (mul_le_mul_of_nonneg_left (pow_le_pow_right₀ hg1 hj) (by linarith)) hX'
  have hp := F.hp
  -- the products
  have hr2' : |r * r| ≤ 2 ^ F.emax := by
    rw [abs_of_nonneg (by positivity), ← sq]
    have a1 := hmono 0 (by omega)
    rw [pow_zero, mul_one] at a1
    have a2 := mul_le_mul_of_nonneg_right hG1 hX'
    linarith
  have hWW : |W * W| ≤ 2 ^ F.emax := by
    rw [abs_of_nonneg (by positivity), ← sq]
    have a1 := hmono 0 (by omega)
    rw [pow_zero, mul_one] at a1
    have a2 : G * (X + n * F.η) ≤ G * (r ^ 2 + X + (n + 2) * F.η) :=
      mul_le_mul_of_nonneg_left (by have := sq_nonneg r; linarith) (by linarith)
    linarith
  rw [twoE F hrep (by rw [abs_of_pos (by linarith)]; exact hr2), Fmt.mul, fin_mul, F.rnd_fin hr2', Fmt.mul, fin_mul, F.rnd_fin hWW]
  have e1 := rndR_mixed F (r * r)
  have e2 := rndR_mixed F (W * W)
  rw [abs_of_nonneg (by positivity : 0 ≤ r * r)] at e1
  rw [abs_of_nonneg (by positivity : 0 ≤ W * W)] at e2
  have ra := F.rep_rndR (r * r)
  have rb := F.rep_rndR (W * W)
  set A := F.rndR (r * r) with hA
  set B := F.rndR (W * W) with hB
  clear_value A B
  have hu1 : F.u = g - 1 := by linarith
  change |A - r * r| ≤ r * r * F.u + F.η at e1
  change |B - W * W| ≤ W * W * F.u + F.η at e2
  set u := F.u with hud
  set η := F.η with hηd
  clear_value u η
  have hGg : 0 ≤ (G - 1) * g ^ 2 := mul_nonneg (by linarith) (by positivity)
  obtain ⟨E, hE⟩ : ∃ E, E = u * r ^ 2 + (G * g - 1) * X + G * g * (n * η) + 2 * η := ⟨_, rfl⟩
  have e3 : |(A - B) - (r ^ 2 - X)| ≤ E := by
    have a1 : W * W * u ≤ (G * X + G * (n * η)) * u := mul_le_mul_of_nonneg_right (by rw [← sq]; exact hWX) hu.le
    have a2 : |(A - B) - (r ^ 2 - X)| ≤ |A - r * r| + |B - W * W| + |W ^ 2 - X| := by
      rw [show (A - B) - (r ^ 2 - X) = (A - r * r) + -(B - W * W) + -(W ^ 2 - X) by ring]
      refine (abs_add_le _ _).trans ?_
      rw [abs_neg]
      refine add_le_add_left ((abs_add_le _ _).trans ?_) _
      rw [abs_neg]
    have a3 : E = r * r * u + η + ((G * X + G * (n * η)) * u + η) + ((G - 1) * X + G * (n * η)) := by rw [hE, hu1]; ring
    rw [a3]; linarith
  have hrX : |r ^ 2 - X| ≤ r ^ 2 + X := by have := sq_nonneg r; rw [abs_le]; constructor <;> linarith
  have e4 : |A - B| ≤ r ^ 2 + X + E := by
    have := abs_sub_abs_le_abs_sub (A - B) (r ^ 2 - X)
    linarith
  obtain ⟨K, hK⟩ : ∃ K, K = (G * g ^ 2 - 1) * (r ^ 2 + X) + G * g ^ 2 * ((n + 2) * η) := ⟨_, rfl⟩
  have hEK : u * (r ^ 2 + X + E) + E ≤ K := by
    have a1 : K - (u * (r ^ 2 + X + E) + E) = (G - 1) * g ^ 2 * r ^ 2 + 2 * η * ((G - 1) * g ^ 2) + 2 * η * (g ^ 2 - g) := by
      rw [hK, hE, hu1]; ring
    have a2 : 0 ≤ g ^ 2 - g := by nlinarith
    have a3 : 0 ≤ (G - 1) * g ^ 2 * r ^ 2 := mul_nonneg hGg (sq_nonneg r)
    have a4 : 0 ≤ 2 * η * ((G - 1) * g ^ 2) := mul_nonneg (by linarith) hGg
    have a5 : 0 ≤ 2 * η * (g ^ 2 - g) := mul_nonneg (by linarith) a2
    linarith
  have hKb : r ^ 2 + X + K = G * g ^ 2 * (r ^ 2 + X + (n + 2) * η) := by rw [hK]; ring
  have hE0' : 0 ≤ E := (abs_nonneg _).trans e3
  have hK0 : r ^ 2 + X + K ≤ G * g ^ 3 * (r ^ 2 + X + (n + 2) * η) := by rw [hKb]; exact hmono 2 (by omega)
  have hAB : |A - B| ≤ 2 ^ F.emax := by
    have := mul_nonneg hu.le (show 0 ≤ r ^ 2 + X + E by positivity)
    linarith
  rw [Fmt.sub, fin_sub, F.rnd_fin hAB]
  have e5 := F.rndR_add ra rb.neg
  rw [← sub_eq_add_neg] at e5
  change _ ≤ |A - B| * F.u at e5
  rw [← hud] at e5
  set D := F.rndR (A - B) with hD
  clear_value D
  have e6 : |D - (r ^ 2 - X)| ≤ K := by
    have a1 := abs_sub_le D (A - B) (r ^ 2 - X)
    have a2 : |A - B| * u ≤ (r ^ 2 + X + E) * u := mul_le_mul_of_nonneg_right e4 hu.le
    linarith
  have e7 : |D| ≤ r ^ 2 + X + K := by
    have := abs_sub_abs_le_abs_sub D (r ^ 2 - X)
    linarith
  have h2r : 0 < 2 * r := by linarith
  have e8 : |D / (2 * r)| ≤ (r ^ 2 + X + K) / (2 * r) := by
    rw [abs_div, abs_of_pos h2r]
    exact div_le_div_of_nonneg_right e7 h2r.le
  have hDov : |D / (2 * r)| ≤ 2 ^ F.emax := by
    refine e8.trans ?_
    rw [div_le_iff₀ h2r]
    linarith
  rw [Fmt.div, fin_div _ h2r.ne', F.rnd_fin hDov]
  refine ⟨_, rfl, F.rep_rndR _, ?_⟩
  have e9 := rndR_mixed F (D / (2 * r))
  change _ ≤ |D / (2 * r)| * F.u + F.η at e9
  rw [← hud, ← hηd] at e9
  have e10 : |D / (2 * r) - (r ^ 2 - X) / (2 * r)| ≤ K / (2 * r) := by
    rw [← sub_div, abs_div, abs_of_pos h2r]
    exact div_le_div_of_nonneg_right e6 h2r.le
  have e11 : |D / (2 * r)| * u ≤ (r ^ 2 + X + K) / (2 * r) * u := mul_le_mul_of_nonneg_right e8 hu.le
  have e12 : (r ^ 2 + X + K) / (2 * r) * u + K / (2 * r) =
      ((G * g ^ 3 - 1) * (r ^ 2 + X) + G * g ^ 3 * ((n + 2) * η)) / (2 * r) := by
    rw [div_mul_eq_mul_div, ← add_div, hK, hu1]
    congr 1
    ring
  have e13 := abs_sub_le (F.rndR (D / (2 * r))) (D / (2 * r)) ((r ^ 2 - X) / (2 * r))
  linarith
end


/-- The bound of the error of a sphere with `m` roundings: `((1 + u)^m - 1) (r² + X) / (2 r)` and a term for underflow. -/
noncomputable def sphereErr (F : Fmt) (m n : ℕ) (r X : ℝ) : ℝ :=
  (((1 + 2 ^ (-(F.p : ℤ))) ^ m - 1) * (r ^ 2 + X) + (1 + 2 ^ (-(F.p : ℤ))) ^ m * ((n + 2) * 2 ^ (F.emin - 1))) / (2 * r) + 2 ^ (F.emin - 1)

/-- No overflow in a sphere with `m` roundings. -/
def SphereRange (F : Fmt) (m n : ℕ) (r X : ℝ) : Prop :=
  0 < r ∧ F.Rep r ∧ 2 * r ≤ 2 ^ F.emax ∧
    (1 + 2 ^ (-(F.p : ℤ))) ^ m * (r ^ 2 + X + (n + 2) * 2 ^ (F.emin - 1)) ≤ min 1 (2 * r) * (2 : ℝ) ^ F.emax

theorem sign_of_close {d r V ε : ℝ} (hd : 0 ≤ d) (hr : 0 < r) (h : |V - (r ^ 2 - d ^ 2) / (2 * r)| ≤ ε)
    (hε : ε < |r ^ 2 - d ^ 2| / (2 * r)) : (d < r → 0 < V) ∧ (r < d → V < 0) := by
  have h2r : 0 < 2 * r := by linarith
  have h1 := lt_of_le_of_lt h hε
  refine ⟨fun hlt => ?_, fun hlt => ?_⟩
  · have h2 : 0 < r ^ 2 - d ^ 2 := by nlinarith
    rw [abs_of_pos h2] at h1
    have := (abs_lt.mp h1).1
    linarith
  · have h2 : r ^ 2 - d ^ 2 < 0 := by nlinarith
    rw [abs_of_neg h2, neg_div] at h1
    have := (abs_lt.mp h1).2
    linarith

/-- The computed value of `sphere` is close to the exact one, and it has the right sign where the exact value is larger than the bound of
the error: outside of a thin shell around the boundary. -/
theorem C156_sphere {F : Fmt} (hF : F.emin + 2 * F.p ≤ 2) {n : ℕ} (x : Pt n) {r : ℝ} (hr : SphereRange F (n + 5) n r (‖x‖ ^ 2)) {v : XR}
    (hv : SphereFl F (fin r) (efin x) v) :
    ∃ V : ℝ, v = fin V ∧ |V - (r ^ 2 - ‖x‖ ^ 2) / (2 * r)| ≤ sphereErr F (n + 5) n r (‖x‖ ^ 2) ∧
      (sphereErr F (n + 5) n r (‖x‖ ^ 2) < |r ^ 2 - ‖x‖ ^ 2| / (2 * r) → (‖x‖ < r → 0 < V) ∧ (r < ‖x‖ → V < 0)) := by
  obtain ⟨hr0, hrep, hr2, hov⟩ := hr
  have hx : ∑ i, x i ^ 2 = ‖x‖ ^ 2 := (EuclideanSpace.real_norm_sq_eq x).symm
  obtain ⟨V, h1, -, h2⟩ := sphereFl_bound F hF (fun i => x i) (X := ‖x‖ ^ 2) (k := 0) (sq_nonneg _) hr0 hrep (by rw [hx]; simp) hr2 hov hv
  exact ⟨V, h1, h2, sign_of_close (norm_nonneg x) hr0 h2⟩

/-- The same for `cylinder`, with the distance from the axis. -/
theorem C156_cylinder {F : Fmt} (hF : F.emin + 2 * F.p ≤ 2) {n : ℕ} (x : Pt (n + 2)) {r d : ℝ} (hd : d = Real.sqrt (x 0 ^ 2 + x 1 ^ 2))
    (hr : SphereRange F 7 2 r (d ^ 2)) {v : XR} (hv : CylinderFl F (fin r) (efin x) v) :
    ∃ V : ℝ, v = fin V ∧ |V - (r ^ 2 - d ^ 2) / (2 * r)| ≤ sphereErr F 7 2 r (d ^ 2) ∧
      (sphereErr F 7 2 r (d ^ 2) < |r ^ 2 - d ^ 2| / (2 * r) → (d < r → 0 < V) ∧ (r < d → V < 0)) := by
  obtain ⟨hr0, hrep, hr2, hov⟩ := hr
  have hx : ∑ i : Fin 2, x (Fin.castLE (by omega) i) ^ 2 = d ^ 2 := by
    rw [hd, Real.sq_sqrt (by positivity), Fin.sum_univ_two]
    rfl
  obtain ⟨V, h1, -, h2⟩ := sphereFl_bound F hF (fun i : Fin 2 => x (Fin.castLE (by omega) i)) (X := d ^ 2) (k := 0) (sq_nonneg _) hr0 hrep
    (by rw [hx]; simp) hr2 (by exact_mod_cast hov) hv
  have h3 : |V - (r ^ 2 - d ^ 2) / (2 * r)| ≤ sphereErr F 7 2 r (d ^ 2) := h2
  exact ⟨V, h1, h3, sign_of_close (by rw [hd]; exact Real.sqrt_nonneg _) hr0 h3⟩

/-- A translated sphere: the differences of the coordinates are rounded, which counts as two more roundings; the distance of the point
from the centre matters, not their size. -/
theorem C156_translated {F : Fmt} (hF : F.emin + 2 * F.p ≤ 2) {n : ℕ} (x c : Pt n) (hx : ∀ i, F.Rep (x i)) (hc : ∀ i, F.Rep (c i))
    (hxc : ∀ i, |x i - c i| ≤ 2 ^ F.emax) {r : ℝ} (hr : SphereRange F (n + 7) n r (‖x - c‖ ^ 2)) {v : XR}
    (hv : TranslateFl F (SphereFl F (fin r)) (efin c) (efin x) v) :
    ∃ V : ℝ, v = fin V ∧ F.Rep V ∧ |V - (r ^ 2 - ‖x - c‖ ^ 2) / (2 * r)| ≤ sphereErr F (n + 7) n r (‖x - c‖ ^ 2) ∧
      (sphereErr F (n + 7) n r (‖x - c‖ ^ 2) < |r ^ 2 - ‖x - c‖ ^ 2| / (2 * r) → (‖x - c‖ < r → 0 < V) ∧ (r < ‖x - c‖ → V < 0)) := by
  obtain ⟨hr0, hrep, hr2, hov⟩ := hr
  have hn : ∑ i, (x - c) i ^ 2 = ‖x - c‖ ^ 2 := (EuclideanSpace.real_norm_sq_eq _).symm
  have hZ : ∀ i, F.sub (efin x i) (efin c i) = fin (F.rndR (x i - c i)) := fun i => by
    change F.sub (fin (x i)) (fin (c i)) = _
    rw [Fmt.sub, fin_sub, F.rnd_fin (hxc i)]
  rw [TranslateFl, funext hZ] at hv
  have hk : |(∑ i, F.rndR (x i - c i) ^ 2) - ‖x - c‖ ^ 2| ≤ ((1 + F.u) ^ 2 - 1) * ‖x - c‖ ^ 2 := by
    rw [← hn, ← Finset.sum_sub_distrib, Finset.mul_sum]
    refine (Finset.abs_sum_le_sum_abs _ _).trans (Finset.sum_le_sum fun i _ => ?_)
    have h1 := F.rndR_add (hx i) (hc i).neg
    rw [← sub_eq_add_neg] at h1
    change _ ≤ _ * F.u at h1
    have hu := F.u_pos
    rw [PiLp.sub_apply]
    set d := x i - c i
    set z := F.rndR d
    have h2 : |z + d| ≤ (2 + F.u) * |d| := by
      have := abs_add_le (z - d) (2 * d)
      rw [show z - d + 2 * d = z + d by ring, abs_mul, abs_of_pos (by norm_num : (0 : ℝ) < 2)] at this
      linarith
    rw [show z ^ 2 - d ^ 2 = (z - d) * (z + d) by ring, abs_mul]
    calc |z - d| * |z + d| ≤ |d| * F.u * ((2 + F.u) * |d|) := mul_le_mul h1 h2 (abs_nonneg _) (by positivity)
      _ = ((1 + F.u) ^ 2 - 1) * |d| ^ 2 := by ring
      _ = _ := by rw [sq_abs]
  obtain ⟨V, h1, h3, h2⟩ := sphereFl_bound F hF (fun i => F.rndR (x i - c i)) (X := ‖x - c‖ ^ 2) (k := 2) (sq_nonneg _) hr0 hrep hk hr2 hov hv
  exact ⟨V, h1, h3, h2, sign_of_close (norm_nonneg _) hr0 h2⟩

/-- The roundings of a sphere in single precision in at most three dimensions. -/
theorem single_pow {n : ℕ} (hn : n ≤ 3) : 1 ≤ (1 + (2 : ℝ) ^ (-(Fmt.single.p : ℤ))) ^ (n + 5) ∧
    (1 + (2 : ℝ) ^ (-(Fmt.single.p : ℤ))) ^ (n + 5) ≤ 1 + 3 / 4 * 2 ^ (-20 : ℤ) := by
  have h1 : (1 : ℝ) ≤ 1 + 2 ^ (-(Fmt.single.p : ℤ)) := by
    have : (0 : ℝ) < 2 ^ (-(Fmt.single.p : ℤ)) := by positivity
    linarith
  refine ⟨one_le_pow₀ h1, (pow_le_pow_right₀ h1 (show n + 5 ≤ 8 by omega)).trans ?_⟩
  simp only [Fmt.single]
  norm_num

/-- Single precision, at most three dimensions, a radius between `2^(-30)` and `2^30`: the computed sign of `sphere` is right at all
points whose distance from the centre differs from the radius by at least the fraction `2^(-20)` of it. -/
theorem C156_single {n : ℕ} (hn : n ≤ 3) (x : Pt n) {r : ℝ} (hrep : Fmt.single.Rep r) (h1 : 2 ^ (-30 : ℤ) ≤ r) (h2 : r ≤ 2 ^ (30 : ℤ))
    (hx : ‖x‖ ≤ 2 ^ (40 : ℤ)) {v : XR} (hv : SphereFl Fmt.single (fin r) (efin x) v) :
    (‖x‖ ≤ (1 - 2 ^ (-20 : ℤ)) * r → 0 < v) ∧ ((1 + 2 ^ (-20 : ℤ)) * r ≤ ‖x‖ → v < 0) := by
  have hr0 : 0 < r := lt_of_lt_of_le (by positivity) h1
  have h2r : 0 < 2 * r := by linarith
  have hd := norm_nonneg x
  obtain ⟨g1, g2⟩ := single_pow hn
  have hn' : ((n : ℝ) + 2) ≤ 5 := by
    have : (n : ℝ) ≤ 3 := by exact_mod_cast hn
    linarith
  have hn0 : (0 : ℝ) ≤ (n : ℝ) + 2 := by positivity
  have hη : (2 : ℝ) ^ (Fmt.single.emin - 1) = 2 ^ (-150 : ℤ) := by simp only [Fmt.single]; norm_num
  have hE : (2 : ℝ) ^ Fmt.single.emax = 2 ^ (127 : ℤ) := by simp only [Fmt.single]
  have hrr : (2 : ℝ) ^ (-60 : ℤ) ≤ r ^ 2 := by
    calc (2 : ℝ) ^ (-60 : ℤ) = (2 ^ (-30 : ℤ)) ^ 2 := by norm_num
      _ ≤ r ^ 2 := pow_le_pow_left₀ (by positivity) h1 2
  have hrr2 : r ^ 2 ≤ 2 ^ (60 : ℤ) := by
    calc r ^ 2 ≤ (2 ^ (30 : ℤ)) ^ 2 := pow_le_pow_left₀ hr0.le h2 2
      _ = _ := by norm_num
  have hxx : ‖x‖ ^ 2 ≤ 2 ^ (80 : ℤ) := by
    calc ‖x‖ ^ 2 ≤ (2 ^ (40 : ℤ)) ^ 2 := pow_le_pow_left₀ hd hx 2
      _ = _ := by norm_num
  have hSR : SphereRange Fmt.single (n + 5) n r (‖x‖ ^ 2) := by
    refine ⟨hr0, hrep, ?_, ?_⟩
    · rw [hE]
      norm_num at h2 ⊢
      linarith
    · rw [hη, hE]
      have a1 : (1 + (2 : ℝ) ^ (-(Fmt.single.p : ℤ))) ^ (n + 5) * (r ^ 2 + ‖x‖ ^ 2 + (n + 2) * 2 ^ (-150 : ℤ)) ≤ 2 * (2 ^ (60 : ℤ) + 2 ^ (80 : ℤ) + 5 * 2 ^ (-150 : ℤ)) := by
        refine mul_le_mul (g2.trans (by norm_num)) ?_ (by positivity) (by norm_num)
        have := mul_le_mul_of_nonneg_right hn' (by positivity : (0 : ℝ) ≤ 2 ^ (-150 : ℤ))
        linarith
      have a2 : (2 : ℝ) ^ (-30 : ℤ) ≤ min 1 (2 * r) := le_min (by norm_num) (by linarith)
      have a3 := mul_le_mul_of_nonneg_right a2 (by positivity : (0 : ℝ) ≤ 2 ^ (127 : ℤ))
      refine a1.trans (le_trans ?_ a3)
      norm_num
  obtain ⟨V, rfl, -, hV⟩ := C156_sphere (by decide) x hSR hv
  have key : ∀ δ : ℝ, 3 / 4 * 2 ^ (-20 : ℤ) * (r ^ 2 + ‖x‖ ^ 2) + 2 ^ (-80 : ℤ) * r ^ 2 < δ → sphereErr Fmt.single (n + 5) n r (‖x‖ ^ 2) < δ / (2 * r) := fun δ hδ => by
    rw [sphereErr, hη, lt_div_iff₀ h2r, add_mul, div_mul_cancel₀ _ h2r.ne']
    refine lt_of_le_of_lt ?_ hδ
    have b1 := mul_le_mul_of_nonneg_right (show (1 + (2 : ℝ) ^ (-(Fmt.single.p : ℤ))) ^ (n + 5) - 1 ≤ 3 / 4 * 2 ^ (-20 : ℤ) by linarith)
      (show 0 ≤ r ^ 2 + ‖x‖ ^ 2 by positivity)
    have b2 : (1 + (2 : ℝ) ^ (-(Fmt.single.p : ℤ))) ^ (n + 5) * ((n + 2) * 2 ^ (-150 : ℤ)) ≤ 2 * (5 * 2 ^ (-150 : ℤ)) :=
      mul_le_mul (g2.trans (by norm_num)) (mul_le_mul_of_nonneg_right hn' (by positivity)) (by positivity) (by norm_num)
    have b3 : r ≤ 2 ^ (30 : ℤ) * r ^ 2 := by
      have := mul_le_mul_of_nonneg_right h1 hr0.le
      norm_num at this ⊢
      linarith
    norm_num at b1 b2 b3 hrr ⊢
    linarith
  rw [zero_eq, fin_lt, fin_lt]
  refine ⟨fun h => ?_, fun h => ?_⟩
  · have hlt : ‖x‖ < r := by norm_num at h ⊢; linarith
    have c1 : ‖x‖ ^ 2 ≤ ((1 - 2 ^ (-20 : ℤ)) * r) ^ 2 := pow_le_pow_left₀ hd h 2
    refine (hV (key _ ?_)).1 hlt
    rw [abs_of_pos (by nlinarith)]
    rw [mul_pow] at c1
    norm_num at c1 hrr ⊢
    linarith
  · have hlt : r < ‖x‖ := by norm_num at h ⊢; linarith
    have c1 : ((1 + 2 ^ (-20 : ℤ)) * r) ^ 2 ≤ ‖x‖ ^ 2 := pow_le_pow_left₀ (by positivity) h 2
    refine (hV (key _ ?_)).2 hlt
    rw [abs_of_neg (by nlinarith)]
    rw [mul_pow] at c1
    norm_num at c1 hrr ⊢
    linarith

/-- The point `(1, 2, 2)` has distance `3` from the origin; it lies inside of a sphere of radius `4` and outside of a sphere of radius `2`. -/
example {v w : XR} (hv : SphereFl Fmt.single (fin 4) (efin (!₂[1, 2, 2] : Pt 3)) v) (hw : SphereFl Fmt.single (fin 2) (efin (!₂[1, 2, 2] : Pt 3)) w) :
    0 < v ∧ w < 0 := by
  have hx : ‖(!₂[1, 2, 2] : Pt 3)‖ = 3 := by
    rw [EuclideanSpace.norm_eq, Fin.sum_univ_three, Real.sqrt_eq_iff_mul_self_eq (by positivity) (by norm_num)]
    show ‖(1 : ℝ)‖ ^ 2 + ‖(2 : ℝ)‖ ^ 2 + ‖(2 : ℝ)‖ ^ 2 = 3 * 3
    norm_num
  exact ⟨(C156_single (by norm_num) _ ⟨1, 2, by norm_num [Fmt.single], by decide, by norm_num⟩ (by norm_num) (by norm_num) (by rw [hx]; norm_num) hv).1
      (by rw [hx]; norm_num),
    (C156_single (by norm_num) _ ⟨1, 1, by norm_num [Fmt.single], by decide, by norm_num⟩ (by norm_num) (by norm_num) (by rw [hx]; norm_num) hw).2
      (by rw [hx]; norm_num)⟩

/-- A sphere of radius `2` around `(8, 8)` in single precision, at the point `(9, 8)`. -/
example {v : XR} (hv : TranslateFl Fmt.single (SphereFl Fmt.single (fin 2)) (efin (!₂[8, 8] : Pt 2)) (efin (!₂[9, 8] : Pt 2)) v) :
    ∃ V : ℝ, v = fin V ∧ 0 < V := by
  have hx : ‖(!₂[9, 8] : Pt 2) - !₂[8, 8]‖ = 1 := by
    rw [EuclideanSpace.norm_eq, Fin.sum_univ_two, Real.sqrt_eq_iff_mul_self_eq (by positivity) (by norm_num)]
    show ‖(9 - 8 : ℝ)‖ ^ 2 + ‖(8 - 8 : ℝ)‖ ^ 2 = 1 * 1
    norm_num
  have h8 : Fmt.single.Rep 8 := ⟨1, 3, by norm_num [Fmt.single], by decide, by norm_num⟩
  have h9 : Fmt.single.Rep 9 := ⟨9, 0, by norm_num [Fmt.single], by decide, by norm_num⟩
  obtain ⟨V, h1, -, -, h2⟩ := C156_translated (F := Fmt.single) (by decide) (!₂[9, 8] : Pt 2) !₂[8, 8] (fun i => by fin_cases i <;> [exact h9; exact h8])
    (fun i => by fin_cases i <;> exact h8) (fun i => by
      refine le_trans (b := (1 : ℝ)) (by fin_cases i <;> norm_num) (one_le_zpow₀ (by norm_num) (by decide))) (r := 2) (by
      refine ⟨by norm_num, ⟨1, 1, by norm_num [Fmt.single], by decide, by norm_num⟩, ?_, ?_⟩ <;> simp only [hx, Fmt.single] <;> norm_num) hv
  refine ⟨V, h1, (h2 ?_).1 (by rw [hx]; norm_num)⟩
  simp only [hx, sphereErr, Fmt.single]
  norm_num [abs_of_pos]

/-- A cylinder of radius `2` in single precision; the point `(1, 0, 50)` lies inside. -/
example {v : XR} (hv : CylinderFl Fmt.single (fin 2) (efin (!₂[1, 0, 50] : Pt 3)) v) : ∃ V : ℝ, v = fin V ∧ 0 < V := by
  have hd : (1 : ℝ) = Real.sqrt ((!₂[1, 0, 50] : Pt 3) 0 ^ 2 + (!₂[1, 0, 50] : Pt 3) 1 ^ 2) := by
    show (1 : ℝ) = Real.sqrt ((1 : ℝ) ^ 2 + (0 : ℝ) ^ 2)
    norm_num
  obtain ⟨V, h1, -, h2⟩ := C156_cylinder (F := Fmt.single) (by decide) (n := 1) (!₂[1, 0, 50] : Pt 3) (r := 2) hd (by
      refine ⟨by norm_num, ⟨1, 1, by norm_num [Fmt.single], by decide, by norm_num⟩, ?_, ?_⟩ <;> simp only [Fmt.single] <;> norm_num) hv
  refine ⟨V, h1, (h2 ?_).1 (by norm_num)⟩
  simp only [sphereErr, Fmt.single]
  norm_num [abs_of_pos]

/-- Rounding to single precision. -/
theorem single_eq {x : ℝ} (k m : ℤ) (h1 : (2 : ℝ) ^ k ≤ x) (h2 : x < (2 : ℝ) ^ (k + 1)) (he : -126 ≤ k)
    (hm1 : m * (2 : ℝ) ^ (k - 23) - (2 : ℝ) ^ (k - 23) / 2 < x) (hm2 : x < m * (2 : ℝ) ^ (k - 23) + (2 : ℝ) ^ (k - 23) / 2) :
    Fmt.single.rndR x = m * (2 : ℝ) ^ (k - 23) := by
  have h0 : 0 ≤ x := le_trans (by positivity) h1
  have := Fmt.single.rndR_eq (x := x) (k := k) (m := m) (by rwa [abs_of_nonneg h0]) (by rwa [abs_of_nonneg h0])
    (by show (-149 : ℤ) ≤ k - ((24 : ℕ) - 1); push_cast; omega) (by
      show |m * (2 : ℝ) ^ (k - (((24 : ℕ) : ℤ) - 1)) - x| < (2 : ℝ) ^ (k - (((24 : ℕ) : ℤ) - 1)) / 2
      rw [show k - (((24 : ℕ) : ℤ) - 1) = k - 23 by norm_num, abs_lt]
      constructor <;> linarith)
  rw [this]
  show m * (2 : ℝ) ^ (k - (((24 : ℕ) : ℤ) - 1)) = _
  rw [show k - (((24 : ℕ) : ℤ) - 1) = k - 23 by norm_num]

theorem sphere_ce1 : Fmt.single.rndR (11973 / 8192 * (11973 / 8192)) = 4479773 / 2097152 := by
  rw [single_eq 1 8959546 (by norm_num) (by norm_num) (by norm_num) (by norm_num) (by norm_num)]
  norm_num

theorem sphere_ce2 : Fmt.single.rndR (15129 / 67108864 + 4479773 / 2097152) = 2240123 / 1048576 := by
  rw [single_eq 1 8960492 (by norm_num) (by norm_num) (by norm_num) (by norm_num) (by norm_num)]
  norm_num

theorem sphere_ce3 : Fmt.single.rndR (Real.sqrt (2240123 / 1048576)) = 1532625 / 1048576 := by
  rw [single_eq 0 12261000 (Real.le_sqrt_of_sq_le (by norm_num)) ((Real.sqrt_lt' (by norm_num)).mpr (by norm_num)) (by norm_num)
    (Real.lt_sqrt_of_sq_lt (by norm_num)) ((Real.sqrt_lt' (by norm_num)).mpr (by norm_num))]
  norm_num

theorem sphere_ce4 : Fmt.single.rndR (1532625 / 1048576 * (1532625 / 1048576)) = 8960493 / 4194304 := by
  rw [single_eq 1 8960493 (by norm_num) (by norm_num) (by norm_num) (by norm_num) (by norm_num)]
  norm_num

theorem sphere_ce5 : Fmt.single.rndR (12260999 / 8388608 * (12260999 / 8388608)) = 8960491 / 4194304 := by
  rw [single_eq 1 8960491 (by norm_num) (by norm_num) (by norm_num) (by norm_num) (by norm_num)]
  norm_num

theorem sphere_ce6 : Fmt.single.rndR (123 / 8192 * (123 / 8192)) = 15129 / 67108864 := by
  rw [Fmt.single.rndR_rep ⟨15129, -26, by norm_num [Fmt.single], by decide, by norm_num⟩]
  norm_num

/-- Near the boundary the sign can be wrong: in single precision the point `(123, 11973) / 8192` lies inside of the circle of radius
`12260999 / 8388608`, but the computed value is negative. -/
theorem C156_sign_counterexample :
    ‖(!₂[123 / 8192, 11973 / 8192] : Pt 2)‖ < 12260999 / 8388608 ∧
    ∃ v : ℝ, SphereFl Fmt.single (fin (12260999 / 8388608)) (efin (!₂[123 / 8192, 11973 / 8192] : Pt 2)) (fin v) ∧ v < 0 := by
  have hbig : ∀ y : ℝ, |y| ≤ 4 → Fmt.single.rnd (fin y) = fin (Fmt.single.rndR y) := fun y hy => by
    refine Fmt.single.rnd_fin (hy.trans ?_)
    calc (4 : ℝ) = 2 ^ (2 : ℤ) := by norm_num
      _ ≤ 2 ^ (127 : ℤ) := zpow_le_zpow_right₀ (by norm_num) (by norm_num)
  refine ⟨?_, Fmt.single.rndR (-(1 / 2097152) / (2 * (12260999 / 8388608))), ⟨fin (1532625 / 1048576), ⟨fin (2240123 / 1048576), ?_, ?_⟩, ?_⟩, ?_⟩
  · rw [EuclideanSpace.norm_eq, Real.sqrt_lt' (by norm_num), Fin.sum_univ_two]
    norm_num
  · have h := FlDot.add (F := Fmt.single) (FlDot.mul (fin (123 / 8192)) (fin (123 / 8192))) (FlDot.mul (fin (11973 / 8192)) (fin (11973 / 8192)))
    rw [Fmt.mul, Fmt.mul, fin_mul, fin_mul, hbig _ (by norm_num [abs_of_pos]), hbig _ (by norm_num [abs_of_pos]), sphere_ce1, sphere_ce6,
      Fmt.add, fin_add, hbig _ (by norm_num [abs_of_pos]), sphere_ce2] at h
    have e : squaresFl (efin (!₂[123 / 8192, 11973 / 8192] : Pt 2)) =
        {(fin (123 / 8192), fin (123 / 8192))} + {(fin (11973 / 8192), fin (11973 / 8192))} := by
      rw [squaresFl, Fin.univ_val_map]
      rfl
    rw [e]
    exact h
  · rw [Fmt.sqrt, fin_sqrt (by norm_num), hbig, sphere_ce3]
    rw [abs_of_nonneg (Real.sqrt_nonneg _), Real.sqrt_le_left (by norm_num)]
    norm_num
  · have hrep : Fmt.single.Rep (12260999 / 8388608) := ⟨12260999, -23, by norm_num [Fmt.single], by decide, by norm_num⟩
    have hrep2 : Fmt.single.Rep (-(1 / 2097152)) := ⟨-1, -21, by norm_num [Fmt.single], by decide, by norm_num⟩
    rw [twoE Fmt.single hrep (by
      calc |2 * (12260999 / 8388608 : ℝ)| ≤ 2 ^ (2 : ℤ) := by norm_num [abs_of_pos]
        _ ≤ 2 ^ (127 : ℤ) := zpow_le_zpow_right₀ (by norm_num) (by norm_num)),
      Fmt.mul, Fmt.mul, fin_mul, fin_mul, hbig _ (by norm_num [abs_of_pos]), hbig _ (by norm_num [abs_of_pos]), sphere_ce4, sphere_ce5,
      Fmt.sub, fin_sub, hbig _ (by norm_num [abs_of_pos, abs_of_neg]), show (8960491 / 4194304 : ℝ) - 8960493 / 4194304 = -(1 / 2097152) by norm_num,
      Fmt.single.rndR_rep hrep2, Fmt.div, fin_div _ (by norm_num), hbig _ (by norm_num [abs_of_pos, abs_of_neg])]
  · have h1 : Fmt.single.Rep (-2 ^ (-30 : ℤ)) := (Fmt.single.rep_two_zpow (by decide)).neg
    have h2 := Fmt.single.rndR_le (x := -(1 / 2097152) / (2 * (12260999 / 8388608))) h1 (by norm_num)
    exact lt_of_le_of_lt h2 (by norm_num)

end Verif
