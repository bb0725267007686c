import Verif.Model.Domain
import Verif.Spec.Region
import Mathlib.Analysis.SpecialFunctions.Complex.Arg
import Mathlib.Algebra.BigOperators.Field

/-! # Properties C34, C35, C36, C38: disk, annulus, sphere -/

namespace Verif

open XR Real

theorem cos_fract (t : ℝ) : Real.cos (2 * π * Int.fract t) = Real.cos (2 * π * t) := by
  rw [← Int.self_sub_floor, mul_sub, mul_comm (2 * π) ((⌊t⌋ : ℤ) : ℝ), Real.cos_sub_int_mul_two_pi]

theorem sin_fract (t : ℝ) : Real.sin (2 * π * Int.fract t) = Real.sin (2 * π * t) := by
  rw [← Int.self_sub_floor, mul_sub, mul_comm (2 * π) ((⌊t⌋ : ℤ) : ℝ), Real.sin_sub_int_mul_two_pi]

/-- Polar coordinates: every point of the plane is `(ρ cos 2πt, ρ sin 2πt)`. -/
theorem exists_polar (a b : ℝ) : ∃ t, a = √(a ^ 2 + b ^ 2) * Real.cos (2 * π * t) ∧
    b = √(a ^ 2 + b ^ 2) * Real.sin (2 * π * t) := by
  refine ⟨Complex.arg ⟨a, b⟩ / (2 * π), ?_⟩
  have h : ‖(⟨a, b⟩ : ℂ)‖ = √(a ^ 2 + b ^ 2) := by
    rw [Complex.norm_eq_sqrt_sq_add_sq]
  rw [mul_div_cancel₀ _ (by positivity : 2 * π ≠ 0), ← h, Complex.norm_mul_cos_arg,
    Complex.norm_mul_sin_arg]
  exact ⟨rfl, rfl⟩

theorem annulus_fin {r1 r2 : ℝ} (h1 : 0 ≤ r1) (h2 : r1 ≤ r2) (o x : Fin 2 → ℝ) :
    transformAnnulus (vfin x) (fin r1) (fin r2) (vfin o) = vfin ![
      √(Int.fract (x 1) * (r2 ^ 2 - r1 ^ 2) + r1 ^ 2) * Real.cos (2 * π * x 0) + o 0,
      √(Int.fract (x 1) * (r2 ^ 2 - r1 ^ 2) + r1 ^ 2) * Real.sin (2 * π * x 0) + o 1] := by
  have h : 0 ≤ Int.fract (x 1) * (r2 ^ 2 - r1 ^ 2) + r1 ^ 2 := by
    have := Int.fract_nonneg (x 1)
    have : 0 ≤ r2 ^ 2 - r1 ^ 2 := by nlinarith
    positivity
  funext i
  fin_cases i <;>
    simp [transformAnnulus, fin_sqrt h, cos_fract, sin_fract]

theorem edist2_two (p o : Fin 2 → ℝ) : edist2 p o = √((p 0 - o 0) ^ 2 + (p 1 - o 1) ^ 2) := by
  simp [edist2, Fin.sum_univ_two]

theorem edist2_three (p o : Fin 3 → ℝ) :
    edist2 p o = √((p 0 - o 0) ^ 2 + (p 1 - o 1) ^ 2 + (p 2 - o 2) ^ 2) := by
  simp [edist2, Fin.sum_univ_three]

theorem edist2_annulus (s ρ : ℝ) (hρ : 0 ≤ ρ) (o : Fin 2 → ℝ) :
    edist2 ![√ρ * Real.cos s + o 0, √ρ * Real.sin s + o 1] o = √ρ := by
  rw [edist2_two]
  congr 1
  simp only [Matrix.cons_val_zero, Matrix.cons_val_one, add_sub_cancel_right, mul_pow, Real.sq_sqrt hρ]
  rw [← mul_add, Real.cos_sq_add_sin_sq, mul_one]

theorem includes_fin {n : ℕ} (r : ℝ) (o p : Fin n → ℝ) :
    spherical.includes (fin r) (vfin o) (vfin p) ↔ edist2 p o < r := by
  have e : (fun i => vfin p i - vfin o i) = vfin fun i => p i - o i := by funext i; simp
  rw [spherical.includes, e, vnorm_fin, fin_lt, edist2]
  simp only [sq]

/-- C34. For `0 ≤ r1 ≤ r2` the annulus transform sends every finite sample to a point at distance in
`[r1, r2)` from the origin (exactly `r1` if the radii agree), attains every such point, and `Disk.includes`
accepts every transformed sample of a disk with positive radius. -/
theorem C34_annulus_transform {r1 r2 : ℝ} (h1 : 0 ≤ r1) (h2 : r1 ≤ r2) (o : Fin 2 → ℝ) :
    (∀ x : Fin 2 → ℝ, ∃ p : Fin 2 → ℝ,
      transformAnnulus (vfin x) (fin r1) (fin r2) (vfin o) = vfin p ∧
      r1 ≤ edist2 p o ∧ (r1 < r2 → edist2 p o < r2) ∧ (r1 = r2 → edist2 p o = r1)) ∧
    (∀ p : Fin 2 → ℝ, r1 ≤ edist2 p o → (edist2 p o < r2 ∨ edist2 p o = r1) →
      ∃ x : Fin 2 → ℝ, (∀ i, 0 ≤ x i ∧ x i < 1) ∧
        transformAnnulus (vfin x) (fin r1) (fin r2) (vfin o) = vfin p) ∧
    (0 < r2 → ∀ x : Fin 2 → ℝ,
      spherical.includes (fin r2) (vfin o) (transformCircle (vfin x) (fin r2) (vfin o))) := by
  have hsq : 0 ≤ r2 ^ 2 - r1 ^ 2 := by nlinarith
  have main : ∀ (r1 : ℝ), 0 ≤ r1 → r1 ≤ r2 → ∀ x : Fin 2 → ℝ, ∃ p : Fin 2 → ℝ,
      transformAnnulus (vfin x) (fin r1) (fin r2) (vfin o) = vfin p ∧
      r1 ≤ edist2 p o ∧ (r1 < r2 → edist2 p o < r2) ∧ (r1 = r2 → edist2 p o = r1) := by
    intro r1 h1 h2 x
    have hsq : 0 ≤ r2 ^ 2 - r1 ^ 2 := by nlinarith
    have f0 := Int.fract_nonneg (x 1)
    have f1 := Int.fract_lt_one (x 1)
    have hρ : 0 ≤ Int.fract (x 1) * (r2 ^ 2 - r1 ^ 2) + r1 ^ 2 := by positivity
    refine ⟨_, annulus_fin h1 h2 o x, ?_⟩
    rw [edist2_annulus _ _ hρ]
    refine ⟨?_, fun h => ?_, fun h => ?_⟩
    · apply Real.le_sqrt_of_sq_le
      nlinarith [mul_nonneg f0 hsq]
    · rw [Real.sqrt_lt' (by linarith)]
      have : 0 < r2 ^ 2 - r1 ^ 2 := by nlinarith
      nlinarith
    · rw [h, sub_self, mul_zero, zero_add, Real.sqrt_sq (by linarith)]
  refine ⟨main r1 h1 h2, fun p hp1 hp2 => ?_, fun hr x => ?_⟩
  · obtain ⟨t, ht1, ht2⟩ := exists_polar (p 0 - o 0) (p 1 - o 1)
    rw [← edist2_two] at ht1 ht2
    set d := edist2 p o with hd
    have key : ∃ w, 0 ≤ w ∧ w < 1 ∧ w * (r2 ^ 2 - r1 ^ 2) + r1 ^ 2 = d ^ 2 := by
      by_cases hdr : d = r1
      · exact ⟨0, le_rfl, one_pos, by rw [hdr]; ring⟩
      · have hlt : d < r2 := hp2.resolve_right hdr
        have : r1 < d := lt_of_le_of_ne hp1 (Ne.symm hdr)
        have h3 : 0 < r2 ^ 2 - r1 ^ 2 := by nlinarith
        refine ⟨(d ^ 2 - r1 ^ 2) / (r2 ^ 2 - r1 ^ 2), div_nonneg (by nlinarith) hsq, ?_, ?_⟩
        · rw [div_lt_one h3]; nlinarith
        · field_simp; ring
    obtain ⟨w, w0, w1, hw⟩ := key
    refine ⟨![Int.fract t, w], fun i => ?_, ?_⟩
    · fin_cases i
      · exact ⟨Int.fract_nonneg t, Int.fract_lt_one t⟩
      · exact ⟨w0, w1⟩
    · rw [annulus_fin h1 h2]
      simp only [Matrix.cons_val_zero, Matrix.cons_val_one, Int.fract_eq_self.mpr ⟨w0, w1⟩, hw]
      rw [Real.sqrt_sq (le_trans h1 hp1), cos_fract, sin_fract, ← ht1, ← ht2]
      funext i
      fin_cases i <;> simp
  · obtain ⟨p, hp, -, hlt, -⟩ := main 0 le_rfl (by linarith) x
    rw [transformCircle, zero_eq, hp, includes_fin]
    exact hlt hr

example : (0 : ℝ) ≤ 1 ∧ (1 : ℝ) ≤ 2 ∧ 1 ≤ edist2 ![1, 1] ![0, 0] ∧ edist2 ![1, 1] ![0, 0] < 2 := by
  have h : edist2 ![1, 1] ![0, 0] = √2 := by rw [edist2_two]; norm_num
  refine ⟨by norm_num, by norm_num, ?_, ?_⟩ <;> rw [h]
  · exact Real.one_le_sqrt.mpr (by norm_num)
  · rw [Real.sqrt_lt' (by norm_num)]; norm_num

theorem u_sq (x : ℝ) : 0 ≤ 1 - (2 * Int.fract x - 1) ^ 2 := by
  nlinarith [Int.fract_nonneg x, Int.fract_lt_one x]

theorem sphere_transform_fin (r : ℝ) (o x : Fin 3 → ℝ) :
    transformSphere (vfin x) (fin r) (vfin o) = vfin fun i => ![
      (Int.fract (x 2)) ^ (1 / 3 : ℝ) * Real.cos (2 * π * x 1) * √(1 - (2 * Int.fract (x 0) - 1) ^ 2),
      (Int.fract (x 2)) ^ (1 / 3 : ℝ) * Real.sin (2 * π * x 1) * √(1 - (2 * Int.fract (x 0) - 1) ^ 2),
      (Int.fract (x 2)) ^ (1 / 3 : ℝ) * (2 * Int.fract (x 0) - 1)] i * r + o i := by
  have h := u_sq (x 0)
  funext i
  fin_cases i <;>
    simp [transformSphere, fin_sqrt h, cos_fract, sin_fract, fin_rpow' (Int.fract_nonneg (x 2))]

theorem sphere_bnd_fin (r : ℝ) (o : Fin 3 → ℝ) (x : Fin 2 → ℝ) :
    transformSphereBnd (vfin x) (fin r) (vfin o) = vfin fun i => ![
      Real.cos (2 * π * x 1) * √(1 - (2 * Int.fract (x 0) - 1) ^ 2),
      Real.sin (2 * π * x 1) * √(1 - (2 * Int.fract (x 0) - 1) ^ 2),
      2 * Int.fract (x 0) - 1] i * r + o i := by
  have h := u_sq (x 0)
  funext i
  fin_cases i <;>
    simp [transformSphereBnd, fin_rpow' h, cos_fract, sin_fract, Real.sqrt_eq_rpow]

theorem cos_fract4 (t : ℝ) : Real.cos (4 * π * Int.fract t) = Real.cos (4 * π * t) := by
  have h : 4 * π * Int.fract t = 4 * π * t - ((2 * ⌊t⌋ : ℤ) : ℝ) * (2 * π) := by
    rw [← Int.self_sub_floor]; push_cast; ring
  rw [h, Real.cos_sub_int_mul_two_pi]

theorem sin_fract4 (t : ℝ) : Real.sin (4 * π * Int.fract t) = Real.sin (4 * π * t) := by
  have h : 4 * π * Int.fract t = 4 * π * t - ((2 * ⌊t⌋ : ℤ) : ℝ) * (2 * π) := by
    rw [← Int.self_sub_floor]; push_cast; ring
  rw [h, Real.sin_sub_int_mul_two_pi]

theorem circle_bnd_fin (r s : ℝ) (o : Fin 2 → ℝ) :
    transformCircleBnd (fin s) (fin r) (vfin o) =
      vfin fun i => ![Real.cos (4 * π * s), Real.sin (4 * π * s)] i * r + o i := by
  funext i
  fin_cases i <;> simp [transformCircleBnd, cos_fract4, sin_fract4]

theorem edist2_ball (r a s u : ℝ) (hr : 0 ≤ r) (ha : 0 ≤ a) (hu : 0 ≤ 1 - u ^ 2) (o : Fin 3 → ℝ) :
    edist2 (fun i => ![a * Real.cos s * √(1 - u ^ 2), a * Real.sin s * √(1 - u ^ 2), a * u] i * r + o i) o =
      a * r := by
  rw [edist2_three]
  simp only [Matrix.cons_val_zero, Matrix.cons_val_one, Matrix.cons_val, add_sub_cancel_right, mul_pow,
    Real.sq_sqrt hu]
  have : a ^ 2 * Real.cos s ^ 2 * (1 - u ^ 2) * r ^ 2 + a ^ 2 * Real.sin s ^ 2 * (1 - u ^ 2) * r ^ 2 +
      a ^ 2 * u ^ 2 * r ^ 2 = (a * r) ^ 2 := by
    have := Real.cos_sq_add_sin_sq s
    linear_combination a ^ 2 * (1 - u ^ 2) * r ^ 2 * this
  rw [this, Real.sqrt_sq (by positivity)]

/-- Spherical coordinates of a point that is not on the ray from the origin in direction `(0,0,1)`. -/
theorem exists_spherical (a b c ρ : ℝ) (hρ : ρ = √(a ^ 2 + b ^ 2 + c ^ 2)) (h : c < ρ) :
    ∃ s t, 0 ≤ s ∧ s < 1 ∧ 0 ≤ t ∧ t < 1 ∧ c = ρ * (2 * s - 1) ∧
      a = ρ * (Real.cos (2 * π * t) * √(1 - (2 * s - 1) ^ 2)) ∧
      b = ρ * (Real.sin (2 * π * t) * √(1 - (2 * s - 1) ^ 2)) := by
  obtain ⟨t, h1, h2⟩ := exists_polar a b
  have hρ2 : ρ ^ 2 = a ^ 2 + b ^ 2 + c ^ 2 := by rw [hρ, Real.sq_sqrt (by positivity)]
  have hρ0 : 0 ≤ ρ := hρ ▸ Real.sqrt_nonneg _
  have hpos : 0 < ρ := by
    rcases hρ0.lt_or_eq with h3 | h3
    · exact h3
    · rw [← h3] at hρ2 h; nlinarith [sq_nonneg a, sq_nonneg b]
  have hc : -ρ ≤ c := by
    by_contra hcon
    nlinarith [sq_nonneg a, sq_nonneg b]
  have hw : ρ * √(1 - (2 * ((c / ρ + 1) / 2) - 1) ^ 2) = √(a ^ 2 + b ^ 2) := by
    have e (X : ℝ) : ρ * √X = √(ρ ^ 2 * X) := by
      rw [Real.sqrt_mul (sq_nonneg _), Real.sqrt_sq hρ0]
    rw [e]
    congr 1
    field_simp
    linarith
  refine ⟨(c / ρ + 1) / 2, Int.fract t, ?_, ?_, Int.fract_nonneg t, Int.fract_lt_one t, ?_, ?_, ?_⟩
  · have : -1 ≤ c / ρ := by rw [le_div_iff₀ hpos]; linarith
    linarith
  · have : c / ρ < 1 := by rw [div_lt_one hpos]; exact h
    linarith
  · field_simp; ring
  · rw [cos_fract, mul_left_comm, hw, mul_comm]; exact h1
  · rw [sin_fract, mul_left_comm, hw, mul_comm]; exact h2

/-- C35. Sphere and circle with radius `r > 0`: `transform` lands strictly inside the ball (and `includes`
agrees), `transform_bnd` exactly on the sphere resp. circle; the points of the open ball attained are
exactly those that are the origin or not straight above it, the points of the sphere attained are all but
the north pole, all points of the circle are attained. -/
theorem C35_sphere_circle_transform {r : ℝ} (hr : 0 < r) :
    (∀ o : Fin 3 → ℝ,
      (∀ x : Fin 3 → ℝ, ∃ p, transformSphere (vfin x) (fin r) (vfin o) = vfin p ∧ edist2 p o < r ∧
        spherical.includes (fin r) (vfin o) (vfin p)) ∧
      (∀ p : Fin 3 → ℝ, edist2 p o < r →
        ((∃ x : Fin 3 → ℝ, (∀ i, 0 ≤ x i ∧ x i < 1) ∧
          transformSphere (vfin x) (fin r) (vfin o) = vfin p) ↔ p = o ∨ p 2 - o 2 < edist2 p o)) ∧
      (∀ x : Fin 2 → ℝ, ∃ p, transformSphereBnd (vfin x) (fin r) (vfin o) = vfin p ∧ edist2 p o = r) ∧
      (∀ p : Fin 3 → ℝ, edist2 p o = r →
        ((∃ x : Fin 2 → ℝ, (∀ i, 0 ≤ x i ∧ x i < 1) ∧
          transformSphereBnd (vfin x) (fin r) (vfin o) = vfin p) ↔ p 2 - o 2 < r))) ∧
    (∀ o : Fin 2 → ℝ,
      (∀ s : ℝ, ∃ p, transformCircleBnd (fin s) (fin r) (vfin o) = vfin p ∧ edist2 p o = r) ∧
      (∀ p : Fin 2 → ℝ, edist2 p o = r → ∃ s, 0 ≤ s ∧ s < 1 ∧
        transformCircleBnd (fin s) (fin r) (vfin o) = vfin p)) := by
  have vinj {n : ℕ} {p q : Fin n → ℝ} (h : vfin p = vfin q) : p = q := by
    funext i; simpa using congrFun h i
  refine ⟨fun o => ⟨fun x => ?_, fun p hp => ⟨?_, ?_⟩, fun x => ?_, fun p hp => ⟨?_, ?_⟩⟩,
    fun o => ⟨fun s => ?_, fun p hp => ?_⟩⟩
  · have h0 := Int.fract_nonneg (x 2)
    have h1 := Int.fract_lt_one (x 2)
    have hd := edist2_ball r _ (2 * π * x 1) _ hr.le (Real.rpow_nonneg h0 (1 / 3)) (u_sq (x 0)) o
    have hlt : Int.fract (x 2) ^ (1 / 3 : ℝ) * r < r := by
      have := Real.rpow_lt_one h0 h1 (by norm_num : (0 : ℝ) < 1 / 3)
      nlinarith
    rw [← hd] at hlt
    exact ⟨_, sphere_transform_fin r o x, hlt, (includes_fin _ _ _).mpr hlt⟩
  · rintro ⟨x, -, hx⟩
    rw [sphere_transform_fin] at hx
    have hx := vinj hx
    have h0 := Int.fract_nonneg (x 2)
    have hd := edist2_ball r _ (2 * π * x 1) _ hr.le (Real.rpow_nonneg h0 (1 / 3)) (u_sq (x 0)) o
    rw [hx] at hd
    have h2 : p 2 = Int.fract (x 2) ^ (1 / 3 : ℝ) * (2 * Int.fract (x 0) - 1) * r + o 2 := by
      rw [← hx]; simp
    rcases h0.eq_or_lt with h3 | h3
    · left
      rw [← hx, ← h3, Real.zero_rpow (by norm_num)]
      funext i; fin_cases i <;> simp
    · right
      rw [hd, h2]
      have h4 := Int.fract_lt_one (x 0)
      have h5 : 0 < Int.fract (x 2) ^ (1 / 3 : ℝ) * r := by
        have := Real.rpow_pos_of_pos h3 (1 / 3); positivity
      nlinarith
  · intro h
    have main : ∃ s t, 0 ≤ s ∧ s < 1 ∧ 0 ≤ t ∧ t < 1 ∧ p 2 - o 2 = edist2 p o * (2 * s - 1) ∧
        p 0 - o 0 = edist2 p o * (Real.cos (2 * π * t) * √(1 - (2 * s - 1) ^ 2)) ∧
        p 1 - o 1 = edist2 p o * (Real.sin (2 * π * t) * √(1 - (2 * s - 1) ^ 2)) := by
      rcases h with rfl | h
      · have : edist2 p p = 0 := by simp [edist2]
        exact ⟨0, 0, by simp [this]⟩
      · exact exists_spherical _ _ _ _ (edist2_three p o) h
    obtain ⟨s, t, s0, s1, t0, t1, hc, ha, hb⟩ := main
    have hd0 : 0 ≤ edist2 p o := Real.sqrt_nonneg _
    have hw1 : (edist2 p o / r) ^ 3 < 1 :=
      pow_lt_one₀ (by positivity) ((div_lt_one hr).mpr hp) (by norm_num)
    have hw : ((edist2 p o / r) ^ 3) ^ (1 / 3 : ℝ) = edist2 p o / r := by
      rw [← Real.rpow_natCast, ← Real.rpow_mul (by positivity)]; norm_num
    refine ⟨![s, t, (edist2 p o / r) ^ 3], fun i => ?_, ?_⟩
    · fin_cases i
      · exact ⟨s0, s1⟩
      · exact ⟨t0, t1⟩
      · exact ⟨by simp only [Fin.reduceFinMk, Matrix.cons_val]; positivity, hw1⟩
    · rw [sphere_transform_fin]
      congr 1
      simp only [Matrix.cons_val_zero, Matrix.cons_val_one, Matrix.cons_val, Int.fract_eq_self.mpr ⟨s0, s1⟩,
        Int.fract_eq_self.mpr ⟨by positivity, hw1⟩, hw]
      funext i
      fin_cases i
      · simp only [Fin.zero_eta, Matrix.cons_val_zero]
        field_simp
        linarith
      · simp only [Fin.mk_one, Matrix.cons_val_one, Matrix.cons_val_zero]
        field_simp
        linarith
      · simp only [Fin.reduceFinMk, Matrix.cons_val]
        field_simp
        linarith
  · have hd := edist2_ball r 1 (2 * π * x 1) _ hr.le zero_le_one (u_sq (x 0)) o
    simp only [one_mul] at hd
    exact ⟨_, sphere_bnd_fin r o x, hd⟩
  · rintro ⟨x, -, hx⟩
    rw [sphere_bnd_fin] at hx
    have hx := vinj hx
    have h2 : p 2 = (2 * Int.fract (x 0) - 1) * r + o 2 := by
      rw [← hx]; simp
    have h4 := Int.fract_lt_one (x 0)
    rw [h2]; nlinarith
  · intro h
    obtain ⟨s, t, s0, s1, t0, t1, hc, ha, hb⟩ :=
      exists_spherical _ _ _ _ (edist2_three p o) (hp ▸ h)
    rw [hp] at hc ha hb
    refine ⟨![s, t], fun i => ?_, ?_⟩
    · fin_cases i
      · exact ⟨s0, s1⟩
      · exact ⟨t0, t1⟩
    · rw [sphere_bnd_fin]
      congr 1
      simp only [Matrix.cons_val_zero, Matrix.cons_val_one, Int.fract_eq_self.mpr ⟨s0, s1⟩]
      funext i
      fin_cases i
      · simp only [Fin.zero_eta, Matrix.cons_val_zero]; linarith
      · simp only [Fin.mk_one, Matrix.cons_val_one, Matrix.cons_val_zero]; linarith
      · simp only [Fin.reduceFinMk, Matrix.cons_val]; linarith
  · refine ⟨_, circle_bnd_fin r s o, ?_⟩
    rw [edist2_two]
    simp only [Matrix.cons_val_zero, Matrix.cons_val_one, add_sub_cancel_right, mul_pow]
    rw [← add_mul, Real.cos_sq_add_sin_sq, one_mul, Real.sqrt_sq hr.le]
  · obtain ⟨t, ht1, ht2⟩ := exists_polar (p 0 - o 0) (p 1 - o 1)
    rw [← edist2_two, hp] at ht1 ht2
    refine ⟨Int.fract t / 2, by linarith [Int.fract_nonneg t], by linarith [Int.fract_lt_one t], ?_⟩
    rw [circle_bnd_fin]
    have e : 4 * π * (Int.fract t / 2) = 2 * π * Int.fract t := by ring
    rw [e, cos_fract, sin_fract]
    congr 1
    funext i
    fin_cases i
    · simp only [Fin.zero_eta, Matrix.cons_val_zero]; linarith
    · simp only [Fin.mk_one, Matrix.cons_val_one, Matrix.cons_val_zero]; linarith

/-- Non-vacuity: an interior point and a boundary point of the unit ball. -/
example : edist2 ![0, 0, -1 / 2] ![0, 0, 0] < 1 ∧ edist2 ![1, 0, 0] ![0, 0, 0] = 1 := by
  constructor <;> rw [edist2_three]
  · show √(((0 : ℝ) - 0) ^ 2 + (0 - 0) ^ 2 + (-1 / 2 - 0) ^ 2) < 1
    rw [Real.sqrt_lt' one_pos]; norm_num
  · show √(((1 : ℝ) - 0) ^ 2 + (0 - 0) ^ 2 + (0 - 0) ^ 2) = 1
    norm_num

/-- C36 is false: `transform_circle_bnd` runs around the circle twice, so `s` and `s + 1/2` (both in `[0,1)`
for `s < 1/2`) are sent to the same point. -/
theorem C36_circle_bnd_counterexample (r s : ℝ) (o : Fin 2 → ℝ) :
    transformCircleBnd (fin s) (fin r) (vfin o) = transformCircleBnd (fin (s + 1 / 2)) (fin r) (vfin o) := by
  rw [circle_bnd_fin, circle_bnd_fin]
  have e : 4 * π * (s + 1 / 2) = 4 * π * s + 2 * π := by ring
  rw [e, Real.cos_add_two_pi, Real.sin_add_two_pi]

/-- C36 (partial): different parameters are sent to different points as long as they do not differ by a
multiple of one half (the statement wants: as long as they do not differ by an integer). -/
theorem C36_circle_bnd_partial {r : ℝ} (hr : 0 < r) (o : Fin 2 → ℝ) (s t : ℝ) :
    transformCircleBnd (fin s) (fin r) (vfin o) = transformCircleBnd (fin t) (fin r) (vfin o) ↔
      ∃ k : ℤ, t = s + k / 2 := by
  rw [circle_bnd_fin, circle_bnd_fin]
  constructor
  · intro h
    have h0 := congrFun h 0
    have h1 := congrFun h 1
    simp only [vfin_apply, Matrix.cons_val_zero, Matrix.cons_val_one, fin_inj, add_left_inj,
      mul_eq_mul_right_iff, hr.ne', or_false] at h0 h1
    have h2 : ((4 * π * s : ℝ) : Real.Angle) = ((4 * π * t : ℝ) : Real.Angle) :=
      Real.Angle.cos_sin_inj h0 h1
    rw [Real.Angle.angle_eq_iff_two_pi_dvd_sub] at h2
    obtain ⟨k, hk⟩ := h2
    refine ⟨-k, ?_⟩
    have hpi := Real.pi_pos
    have : 4 * π * (s - t - k / 2) = 0 := by linear_combination hk
    have := (mul_eq_zero.mp this).resolve_left (by positivity)
    push_cast; linarith
  · rintro ⟨k, rfl⟩
    have e : 4 * π * (s + k / 2) = 4 * π * s + k * (2 * π) := by ring
    rw [e, Real.cos_add_int_mul_two_pi, Real.sin_add_int_mul_two_pi]

example : ¬ ∃ k : ℤ, (1 / 3 : ℝ) = 0 + k / 2 := by
  rintro ⟨k, hk⟩
  have h : (3 * k : ℝ) = 2 := by linarith
  have h' : 3 * k = 2 := by exact_mod_cast h
  omega

/-- `isclose` of the distance and the radius (spec). -/
def OnSphere {n : ℕ} (rtol atol r : ℝ) (o x : Fin n → ℝ) : Prop := |edist2 x o - r| ≤ atol + rtol * |r|

/-- Outward unit normal at `x` of the sphere around `o` through `x`: the unit vector `v` with
`x - o = dist(x, o) v`. -/
def IsRadialNormal {n : ℕ} (o x v : Fin n → ℝ) : Prop :=
  edist2 v 0 = 1 ∧ ∀ i, x i - o i = edist2 x o * v i

theorem vnorm_sub_fin {n : ℕ} (o x : Fin n → ℝ) :
    vnorm (fun i => vfin x i - vfin o i) = fin (edist2 x o) := by
  have e : (fun i => vfin x i - vfin o i) = vfin fun i => x i - o i := by funext i; simp
  rw [e, vnorm_fin, edist2]
  simp only [sq]

theorem isRadialNormal_div {n : ℕ} {o x : Fin n → ℝ} (h : 0 < edist2 x o) :
    IsRadialNormal o x fun i => (x i - o i) / edist2 x o := by
  refine ⟨?_, fun i => by field_simp⟩
  have e : ∑ i, (x i - o i) ^ 2 = edist2 x o ^ 2 := by
    rw [edist2, Real.sq_sqrt (Finset.sum_nonneg fun i _ => sq_nonneg _)]
  rw [edist2]
  simp only [Pi.zero_apply, sub_zero, div_pow]
  rw [← Finset.sum_div, e, div_self (by positivity), Real.sqrt_one]

/-- C38 (partial). For radius `r > 0` and tolerances smaller than the radius: for a single sample (and for a
batch of one) `normal_vec` returns the outward unit normal when the sample is on the sphere within tolerance,
and `None` otherwise; a batch of any size containing a sample off the sphere gives `None`; a batch of
`N = d` samples exactly on the sphere gets the right normals.
Missing: batches of any other size, which raise an error instead of giving the normals (second theorem
below), and batches of size `N = d` whose samples are only approximately on the sphere, where sample `k`
is divided componentwise by the norms of the other samples. -/
theorem C38_spherical_normal_partial {d : ℕ} {r rtol atol : ℝ} (htol : atol + rtol * |r| < r)
    (o : Fin d → ℝ) :
    (∀ x, OnSphere rtol atol r o x → ∃ v, spherical.normalVec (fin r) (vfin o) rtol atol (vfin x) =
      some (vfin v) ∧ IsRadialNormal o x v) ∧
    (∀ x, ¬ OnSphere rtol atol r o x →
      spherical.normalVec (fin r) (vfin o) rtol atol (vfin x) = none) ∧
    (∀ x, OnSphere rtol atol r o x → d ≠ 1 → ∃ v,
      spherical.normalVecBatch (N := 1) (fin r) (vfin o) rtol atol (fun _ => vfin x) =
        .ok (some fun _ => vfin v) ∧ IsRadialNormal o x v) ∧
    (∀ (N : ℕ) (x : Fin N → Fin d → ℝ), (∃ k, ¬ OnSphere rtol atol r o (x k)) →
      spherical.normalVecBatch (fin r) (vfin o) rtol atol (fun k => vfin (x k)) = .ok none) ∧
    (0 ≤ atol + rtol * |r| → ∀ x : Fin d → Fin d → ℝ, (∀ k, edist2 (x k) o = r) →
      ∃ v : Fin d → Fin d → ℝ,
        spherical.normalVecBatch (fin r) (vfin o) rtol atol (fun k => vfin (x k)) =
          .ok (some fun k => vfin (v k)) ∧ ∀ k, IsRadialNormal o (x k) (v k)) := by
  have hclose (x : Fin d → ℝ) :
      isclose rtol atol (vnorm fun i => vfin x i - vfin o i) (fin r) ↔ OnSphere rtol atol r o x := by
    rw [vnorm_sub_fin]
    simp [isclose, OnSphere]
  have hpos (x : Fin d → ℝ) (h : OnSphere rtol atol r o x) : 0 < edist2 x o := by
    have := (abs_le.mp h).1; linarith
  refine ⟨fun x hx => ?_, fun x hx => ?_, fun x hx hd => ?_, fun N x ⟨k, hk⟩ => ?_, fun h0 x hx => ?_⟩
  · refine ⟨_, ?_, isRadialNormal_div (hpos x hx)⟩
    rw [spherical.normalVec, if_pos ((hclose x).mpr hx), vnorm_sub_fin]
    congr 1; funext i
    simp [fin_div _ (hpos x hx).ne']
  · rw [spherical.normalVec, if_neg fun h => hx ((hclose x).mp h)]
  · refine ⟨_, ?_, isRadialNormal_div (hpos x hx)⟩
    rw [spherical.normalVecBatch, if_neg (not_not.mpr fun _ => (hclose x).mpr hx), dif_neg (Ne.symm hd),
      dif_pos rfl]
    simp only [vnorm_sub_fin]
    congr 2; funext k i
    simp [fin_div _ (hpos x hx).ne']
  · rw [spherical.normalVecBatch, if_pos fun h => hk ((hclose _).mp (h k))]
  · have hr : 0 < r := by linarith
    have hon (k) : OnSphere rtol atol r o (x k) := by rw [OnSphere, hx k, sub_self, abs_zero]; exact h0
    refine ⟨_, ?_, fun k => isRadialNormal_div (hpos _ (hon k))⟩
    rw [spherical.normalVecBatch, if_neg (not_not.mpr fun k => (hclose _).mpr (hon k)), dif_pos rfl]
    simp only [vnorm_sub_fin, hx]
    congr 2; funext k i
    simp [fin_div _ hr.ne']

/-- Non-vacuity: the point `(0, 2)` of the circle of radius 2 with the default tolerances. -/
example : (1 / 10 ^ 8 : ℝ) + 1 / 10 ^ 5 * |2| < 2 ∧ OnSphere (1 / 10 ^ 5) (1 / 10 ^ 8) 2 ![0, 0] ![0, 2] := by
  have h : edist2 ![0, 2] ![0, 0] = 2 := by
    rw [edist2_two]
    show √(((0 : ℝ) - 0) ^ 2 + (2 - 0) ^ 2) = 2
    rw [Real.sqrt_eq_iff_mul_self_eq_of_pos (by norm_num)]; norm_num
  constructor
  · norm_num
  · rw [OnSphere, h]; norm_num

/-- C38 is false for batches: in dimension `d ≥ 2` any batch of `N` samples on the sphere with `N ≠ d`,
`N ≠ 1` raises an error (shapes `(N, d)` and `(N,)` do not broadcast). -/
theorem C38_batch_counterexample {d N : ℕ} {r rtol atol : ℝ} (h0 : 0 ≤ atol + rtol * |r|) (_hd : 2 ≤ d)
    (hN : N ≠ d) (hN1 : N ≠ 1) (o : Fin d → ℝ) (x : Fin N → Fin d → ℝ) (hx : ∀ k, edist2 (x k) o = r) :
    spherical.normalVecBatch (fin r) (vfin o) rtol atol (fun k => vfin (x k)) = .error .typeError := by
  rw [spherical.normalVecBatch, if_neg, dif_neg hN, dif_neg hN1]
  simp only [vnorm_sub_fin, hx]
  simp [isclose, h0]

/-- Non-vacuity: three points of the unit circle. -/
example : ∃ x : Fin 3 → Fin 2 → ℝ, ∀ k, edist2 (x k) ![0, 0] = 1 := by
  refine ⟨fun _ => ![1, 0], fun _ => ?_⟩
  rw [edist2_two]
  show √(((1 : ℝ) - 0) ^ 2 + (0 - 0) ^ 2) = 1
  norm_num

end Verif
