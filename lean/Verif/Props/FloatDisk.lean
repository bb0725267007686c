import Verif.Model.FloatDisk
import Verif.Props.FloatDomain
import Verif.Props.FloatQuat
import Verif.Props.Shapes
import Mathlib.Analysis.Real.Pi.Bounds

/-! # Property C181: samples of disks, annuli, circles and spheres in floating point arithmetic (`/repo/magpi/domain.py`) -/

namespace Verif

open XR

section
variable (F : Fmt)

/-- One coordinate of a point in polar coordinates. -/
theorem polarE (hp : 8 ≤ F.p) {c C ρ o A ε : ℝ} (hε : ε ≤ 1 / 64) (hc : |c - C| ≤ ε) (hC : |C| ≤ 1) (hρ : 0 ≤ ρ)
    (ho : F.Rep o) (hA : |o| ≤ A) (hov : 2 * (ρ + A + 1) ≤ 2 ^ F.emax) :
    ∃ V, F.add (F.mul (fin c) (fin ρ)) (fin o) = fin V ∧ F.Rep V ∧ |V - (o + ρ * C)| ≤ (ε + 2.05 * F.u) * ρ + F.u * A + 1.01 * F.η := by
  obtain ⟨hu1, -, -, -⟩ := pow_u F hp
  have hu := F.u_pos
  have hη0 := F.η_pos
  have hη := F.η_le
  have hc1 : |c| ≤ 1.016 := by
    have := abs_sub_abs_le_abs_sub c C
    linarith
  have hA0 : 0 ≤ A := (abs_nonneg _).trans hA
  have hb : |c * ρ| ≤ 1.016 * ρ := by
    rw [abs_mul, abs_of_nonneg hρ]
    exact mul_le_mul_of_nonneg_right hc1 hρ
  obtain ⟨z, hz, hzr, hze, hzb⟩ := mulE F hb (by linarith)
  have huρ : F.u * ρ ≤ 1 / 256 * ρ := mul_le_mul_of_nonneg_right hu1 hρ
  have huη : F.u * F.η ≤ 1 / 256 * F.η := mul_le_mul_of_nonneg_right hu1 hη0.le
  have hz1 : |z| ≤ 1.02 * ρ + F.η := by linarith
  have hs : |z + o| ≤ 1.02 * ρ + F.η + A := (abs_add_le _ _).trans (by linarith)
  obtain ⟨V, hV, hVr, hVe, -⟩ := addE F hzr ho hs (by linarith)
  refine ⟨V, by rw [hz, hV], hVr, ?_⟩
  have h1 : |c * ρ - ρ * C| ≤ ε * ρ := by
    rw [show c * ρ - ρ * C = (c - C) * ρ by ring, abs_mul, abs_of_nonneg hρ]
    exact mul_le_mul_of_nonneg_right hc hρ
  have e : V - (o + ρ * C) = (V - (z + o)) + (z - c * ρ) + (c * ρ - ρ * C) := by ring
  rw [e]
  refine (abs_add_three _ _ _).trans ?_
  have hur : 0 ≤ F.u * ρ := by positivity
  linarith

/-- The computed angle. -/
theorem angleE (hp : 8 ≤ F.p) (hm : 5 ≤ F.emax) (hη' : 128 * F.η ≤ F.u) {c C t : ℝ} (hC0 : 0 ≤ C) (hC : C ≤ 12.6) (hc : |c - C| ≤ 13 * F.u)
    (h0 : 0 ≤ t) (h1 : t < 1) : ∃ φ, F.mul (fin c) (fin t) = fin φ ∧ F.Rep φ ∧ |φ - C * t| ≤ 26 * F.u := by
  obtain ⟨hu1, -, -, -⟩ := pow_u F hp
  have hu := F.u_pos
  have hc1 : |c| ≤ 12.6 + 13 * F.u := by
    have := abs_sub_abs_le_abs_sub c C
    rw [abs_of_nonneg hC0] at this
    linarith
  have h32 : (32 : ℝ) ≤ 2 ^ F.emax := by
    calc (32 : ℝ) = 2 ^ (5 : ℤ) := by norm_num
      _ ≤ _ := zpow_le_zpow_right₀ (by norm_num) hm
  have hb : |c * t| ≤ 12.6 + 13 * F.u := by
    rw [abs_mul, abs_of_nonneg h0]
    exact (mul_le_of_le_one_right (abs_nonneg _) h1.le).trans hc1
  obtain ⟨φ, hφ, hr, he, -⟩ := mulE F hb (by linarith)
  refine ⟨φ, hφ, hr, ?_⟩
  have h2 : |c * t - C * t| ≤ 13 * F.u := by
    rw [← sub_mul, abs_mul, abs_of_nonneg h0]
    exact (mul_le_of_le_one_right (abs_nonneg _) h1.le).trans hc
  have h3 := abs_sub_le φ (c * t) (C * t)
  nlinarith

theorem norm_le_two {v : Pt 2} {δ : ℝ} (h0 : 0 ≤ δ) (h : ∀ i, |v i| ≤ δ) : ‖v‖ ≤ 3 / 2 * δ := by
  refine abs_le_of_sq_le_sq' ?_ (by linarith) |>.2
  rw [EuclideanSpace.real_norm_sq_eq, Fin.sum_univ_two]
  have h1 := sq_le_sq' (abs_le.mp (h 0)).1 (abs_le.mp (h 0)).2
  have h2 := sq_le_sq' (abs_le.mp (h 1)).1 (abs_le.mp (h 1)).2
  nlinarith [sq_nonneg δ]

/-- The direction with the angle `φ`. -/
noncomputable def dir (φ : ℝ) : Pt 2 := !₂[Real.cos φ, Real.sin φ]

theorem dir_norm (φ : ℝ) : ‖dir φ‖ = 1 := by
  rw [← sq_eq_sq₀ (norm_nonneg _) zero_le_one, EuclideanSpace.real_norm_sq_eq, Fin.sum_univ_two]
  simp [dir]

theorem dir_le (φ : ℝ) (i : Fin 2) : |dir φ i| ≤ 1 := by
  have := PiLp.norm_apply_le (dir φ) i
  rwa [dir_norm] at this

theorem dir_sub_le (φ ψ : ℝ) (i : Fin 2) : |dir φ i - dir ψ i| ≤ |φ - ψ| := by
  fin_cases i
  · exact Real.abs_cos_sub_cos_le φ ψ
  · exact Real.abs_sin_sub_sin_le φ ψ

/-- The functions of the library are accurate up to `ε` on `[-T, T]`. -/
def TrigAcc (cosL sinL : XR → XR) (T ε : ℝ) : Prop :=
  (∀ t, F.Rep t → |t| ≤ T → ∃ c, cosL (fin t) = fin c ∧ |c - Real.cos t| ≤ ε) ∧
    ∀ t, F.Rep t → |t| ≤ T → ∃ s, sinL (fin t) = fin s ∧ |s - Real.sin t| ≤ ε

variable {F}

theorem TrigAcc.vec {cosL sinL : XR → XR} {T ε : ℝ} (h : TrigAcc F cosL sinL T ε) {t : ℝ} (ht : F.Rep t) (hT : |t| ≤ T) :
    ∃ c : Fin 2 → ℝ, (∀ i, (![cosL (fin t), sinL (fin t)] : Vec 2) i = fin (c i)) ∧ ∀ i, |c i - dir t i| ≤ ε := by
  obtain ⟨c, hc, hce⟩ := h.1 t ht hT
  obtain ⟨s, hs, hse⟩ := h.2 t ht hT
  refine ⟨![c, s], fun i => ?_, fun i => ?_⟩
  · fin_cases i
    · exact hc
    · exact hs
  · fin_cases i
    · exact hce
    · exact hse

theorem eta_le (hm : F.emin + F.p + 8 ≤ 0) : 128 * F.η ≤ F.u := by
  have e : 128 * F.η = 2 ^ (7 + (F.emin - 1)) := by
    rw [zpow_add₀ (by norm_num)]
    have : (2 : ℝ) ^ (7 : ℤ) = 128 := by norm_num
    rw [this]
  rw [e]
  exact zpow_le_zpow_right₀ (by norm_num) (by omega)

/-- The computed sample of a circle, coordinate by coordinate. -/
theorem circleFl_coord (hp : 8 ≤ F.p) (hm : F.emin + F.p + 8 ≤ 0) (hm' : 5 ≤ F.emax) {cosL sinL : XR → XR} {ε : ℝ} (hε : ε ≤ 1 / 64)
    (htrig : TrigAcc F cosL sinL 13 ε) {c : ℝ} (hc : |c - 4 * Real.pi| ≤ 13 * F.u) {s : ℝ} (h0 : 0 ≤ s) {r A : ℝ} (hr : 0 ≤ r)
    (o : Pt 2) (ho : ∀ i, F.Rep (o i)) (hA : ∀ i, |o i| ≤ A) (hov : 2 * (r + A + 1) ≤ 2 ^ F.emax) :
    ∃ (V : Pt 2) (φ : ℝ), transformCircleBndFl F cosL sinL (fin c) (fin s) (fin r) (efin o) = efin V ∧ (∀ i, F.Rep (V i)) ∧
      |φ - 4 * Real.pi * Int.fract s| ≤ 26 * F.u ∧ 0 ≤ ε ∧
      ∀ i, |V i - (o i + r * dir φ i)| ≤ (ε + 2.05 * F.u) * r + F.u * A + 1.01 * F.η := by
  obtain ⟨hu1, -, -, -⟩ := pow_u F hp
  have hu := F.u_pos
  have hpi := Real.pi_lt_d2
  have hpi0 := Real.pi_pos
  obtain ⟨φ, hφ, hφr, hφe⟩ := angleE F hp hm' (eta_le hm) (by positivity) (by linarith) hc (Int.fract_nonneg s) (Int.fract_lt_one s)
  have hφT : |φ| ≤ 13 := by
    have h1 := abs_sub_abs_le_abs_sub φ (4 * Real.pi * Int.fract s)
    have h2 : 4 * Real.pi * Int.fract s ≤ 4 * Real.pi := mul_le_of_le_one_right (by positivity) (Int.fract_lt_one s).le
    rw [abs_of_nonneg (mul_nonneg (by positivity) (Int.fract_nonneg s))] at h1
    linarith
  obtain ⟨d, hd, hde⟩ := htrig.vec hφr hφT
  have hε0 : 0 ≤ ε := (abs_nonneg _).trans (hde 0)
  choose V hV hVr hVe using fun i => polarE F hp hε (hde i) (dir_le φ i) hr (ho i) (hA i) hov
  refine ⟨WithLp.toLp 2 V, φ, ?_, hVr, hφe, hε0, hVe⟩
  funext i
  rw [transformCircleBndFl, mod1_of_nonneg F h0]
  show F.add (F.mul ((![cosL (F.mul (fin c) (fin (Int.fract s))), sinL (F.mul (fin c) (fin (Int.fract s)))] : Vec 2) i) (fin r)) (fin (o i)) = fin (V i)
  rw [hφ, hd, hV]

/-- **C181, circles**. If the library computes cosines and sines with errors of at most `ε`, the computed sample of the boundary of a disk
is close to the exact one and to the circle. The error consists of one part relative to the radius and one relative to the centre. -/
theorem C181_circle (hp : 8 ≤ F.p) (hm : F.emin + F.p + 8 ≤ 0) (hm' : 5 ≤ F.emax) {cosL sinL : XR → XR} {ε : ℝ} (hε : ε ≤ 1 / 64)
    (htrig : TrigAcc F cosL sinL 13 ε) {c : ℝ} (hc : |c - 4 * Real.pi| ≤ 13 * F.u) {s : ℝ} (h0 : 0 ≤ s) {r A : ℝ} (hr : 0 ≤ r)
    (o : Pt 2) (ho : ∀ i, F.Rep (o i)) (hA : ∀ i, |o i| ≤ A) (hov : 2 * (r + A + 1) ≤ 2 ^ F.emax) :
    ∃ V Y : Pt 2, transformCircleBndFl F cosL sinL (fin c) (fin s) (fin r) (efin o) = efin V ∧
      transformCircleBnd (fin s) (fin r) (efin o) = efin Y ∧ ‖Y - o‖ = r ∧
      |‖V - o‖ - r| ≤ 2 * ((ε + 2 * F.u) * r + F.u * A + F.η) ∧ ‖V - Y‖ ≤ 2 * ((ε + 22 * F.u) * r + F.u * A + F.η) := by
  have hu := F.u_pos
  have hη0 := F.η_pos
  have hA0 : 0 ≤ A := (abs_nonneg _).trans (hA 0)
  obtain ⟨V, φ, hV, -, hφ, hε0, hVe⟩ := circleFl_coord hp hm hm' hε htrig hc h0 hr o ho hA hov
  have hY : transformCircleBnd (fin s) (fin r) (efin o) = efin (o + r • dir (4 * Real.pi * Int.fract s)) := by
    funext i
    rw [transformCircleBnd]
    fin_cases i
    · show cos (4 * fin Real.pi * fin (Int.fract s)) * fin r + fin (o 0) = fin (o 0 + r * Real.cos (4 * Real.pi * Int.fract s))
      rw [show (4 : XR) = fin 4 from rfl, fin_mul, fin_mul, fin_cos, fin_mul, fin_add]
      congr 1; ring
    · show sin (4 * fin Real.pi * fin (Int.fract s)) * fin r + fin (o 1) = fin (o 1 + r * Real.sin (4 * Real.pi * Int.fract s))
      rw [show (4 : XR) = fin 4 from rfl, fin_mul, fin_mul, fin_sin, fin_mul, fin_add]
      congr 1; ring
  set ψ := 4 * Real.pi * Int.fract s with hψ
  have hnorm : ∀ t, ‖r • dir t‖ = r := fun t => by rw [norm_smul, dir_norm, mul_one, Real.norm_of_nonneg hr]
  have hur : 0 ≤ F.u * r := by positivity
  have huA : 0 ≤ F.u * A := by positivity
  have hεr : 0 ≤ ε * r := by positivity
  refine ⟨V, _, hV, hY, by rw [add_sub_cancel_left, hnorm], ?_, ?_⟩
  · have h1 : ‖(V - o) - r • dir φ‖ ≤ 3 / 2 * ((ε + 2.05 * F.u) * r + F.u * A + 1.01 * F.η) := by
      refine norm_le_two (by positivity) fun i => ?_
      have := hVe i
      rwa [show ((V - o) - r • dir φ) i = V i - (o i + r * dir φ i) by simp; ring]
    have h2 := abs_norm_sub_norm_le (V - o) (r • dir φ)
    rw [hnorm] at h2
    linarith
  · have h1 : ‖V - (o + r • dir ψ)‖ ≤ 3 / 2 * ((ε + 2.05 * F.u) * r + F.u * A + 1.01 * F.η + 26 * F.u * r) := by
      refine norm_le_two (by positivity) fun i => ?_
      have h3 := hVe i
      have h4 : |r * dir φ i - r * dir ψ i| ≤ 26 * F.u * r := by
        rw [← mul_sub, abs_mul, abs_of_nonneg hr, mul_comm]
        exact mul_le_mul_of_nonneg_right ((dir_sub_le φ ψ i).trans hφ) hr
      have h5 : (V - (o + r • dir ψ)) i = (V i - (o i + r * dir φ i)) + (r * dir φ i - r * dir ψ i) := by
        simp only [PiLp.sub_apply, PiLp.add_apply, PiLp.smul_apply, smul_eq_mul]; ring
      rw [h5]
      exact (abs_add_le _ _).trans (by linarith)
    linarith

/-- **C181, radii**. The computed radius of a sample of an annulus lies between the radii of the annulus, in spite of rounding. -/
theorem C181_radius {x r1 r2 : ℝ} (hx : F.Rep x) (h0 : 0 ≤ x) (h1 : x < 1) (hr1 : F.Rep r1) (hr2 : F.Rep r2) (h12 : r1 ≤ r2) {k : ℤ}
    (hk : F.emin + (F.p - 1) ≤ 2 * k) (hk1 : r1 = 0 ∨ 2 ^ k ≤ r1) (hk2 : 2 ^ k ≤ r2) (hov : r2 ^ 2 ≤ 2 ^ (F.emax - 1)) :
    ∃ ρ : ℝ, annulusRadiusFl F (fin x) (fin r1) (fin r2) = fin ρ ∧ F.Rep ρ ∧ r1 ≤ ρ ∧ ρ ≤ r2 := by
  have hmax := F.hmax
  have hmin := F.hmin
  have hr10 : 0 ≤ r1 := by
    rcases hk1 with rfl | h
    · exact le_rfl
    · exact le_trans (by positivity) h
  have hr20 : 0 ≤ r2 := hr10.trans h12
  have hsq : r1 ^ 2 ≤ r2 ^ 2 := pow_le_pow_left₀ hr10 h12 2
  have hemax : (2 : ℝ) ^ (F.emax - 1) ≤ 2 ^ F.emax := zpow_le_zpow_right₀ (by norm_num) (by omega)
  have hrepm : F.Rep (2 ^ (F.emax - 1)) := F.rep_two_zpow (by have := F.emin_le; omega)
  have hs : ∀ r : ℝ, 0 ≤ r → r ^ 2 ≤ 2 ^ (F.emax - 1) → F.mul (fin r) (fin r) = fin (F.rndR (r ^ 2)) := fun r hr h => by
    rw [Fmt.mul, fin_mul, ← sq, F.rnd_fin (by rw [abs_of_nonneg (sq_nonneg r)]; linarith)]
  have ha0 := F.rndR_nonneg (sq_nonneg r1)
  have hb0 := F.rndR_nonneg (sq_nonneg r2)
  have hab : F.rndR (r1 ^ 2) ≤ F.rndR (r2 ^ 2) := F.rndR_mono hsq
  have hb1 : F.rndR (r2 ^ 2) ≤ 2 ^ (F.emax - 1) := F.rndR_le hrepm hov
  have e := hypercubeFl_eq F (t := x) hab (by rw [abs_of_nonneg ha0]; linarith) (by rw [abs_of_nonneg hb0]; exact hb1) h0 h1.le
  set q := F.rndR (F.rndR (x * F.rndR (F.rndR (r2 ^ 2) - F.rndR (r1 ^ 2))) + F.rndR (r1 ^ 2)) with hq
  have hq1 : F.rndR (r1 ^ 2) ≤ q := by
    refine F.le_rndR (F.rep_rndR _) ?_
    have := F.rndR_nonneg (mul_nonneg h0 (F.rndR_nonneg (by linarith : 0 ≤ F.rndR (r2 ^ 2) - F.rndR (r1 ^ 2))))
    linarith
  have hq2 : q ≤ F.rndR (r2 ^ 2) := by
    refine F.rndR_le (F.rep_rndR _) ?_
    have := scale_le F (F.rep_rndR (r1 ^ 2)) (F.rep_rndR (r2 ^ 2)) hab hx h0 h1
    linarith
  have hq0 : 0 ≤ q := ha0.trans hq1
  have h2 := F.sqrt_sq hr2 hk (by rwa [abs_of_nonneg hr20])
  rw [abs_of_nonneg hr20] at h2
  have h1m : (1 : ℝ) ≤ 2 ^ (F.emax - 1) := by
    calc (1 : ℝ) = 2 ^ (0 : ℤ) := by norm_num
      _ ≤ _ := zpow_le_zpow_right₀ (by norm_num) (by omega)
  refine ⟨F.rndR (Real.sqrt q), ?_, F.rep_rndR _, ?_, ?_⟩
  · rw [annulusRadiusFl, hs r1 hr10 (hsq.trans hov), hs r2 hr20 hov, e, Fmt.sqrt, fin_sqrt hq0, F.rnd_fin]
    rw [abs_of_nonneg (Real.sqrt_nonneg _), Real.sqrt_le_left (by positivity)]
    nlinarith
  · rcases hk1 with rfl | hk1
    · exact F.rndR_nonneg (Real.sqrt_nonneg _)
    · have h3 := F.sqrt_sq hr1 hk (by rwa [abs_of_nonneg hr10])
      rw [abs_of_nonneg hr10] at h3
      rw [← h3]
      exact F.rndR_mono (Real.sqrt_le_sqrt hq1)
  · rw [← h2]
    exact F.rndR_mono (Real.sqrt_le_sqrt hq2)

/-- The computed sample of an annulus whose radius is `ρ`, coordinate by coordinate. -/
theorem annulusFl_coord (hp : 8 ≤ F.p) (hm : F.emin + F.p + 8 ≤ 0) (hm' : 5 ≤ F.emax) {cosL sinL : XR → XR} {ε : ℝ} (hε : ε ≤ 1 / 64)
    (htrig : TrigAcc F cosL sinL 13 ε) {c : ℝ} (hc : |c - 2 * Real.pi| ≤ 13 * F.u) (x : Pt 2) (hx0 : ∀ i, 0 ≤ x i)
    {r1 r2 A ρ : ℝ} (hρ : annulusRadiusFl F (fin (Int.fract (x 1))) (fin r1) (fin r2) = fin ρ) (hρ0 : 0 ≤ ρ)
    (o : Pt 2) (ho : ∀ i, F.Rep (o i)) (hA : ∀ i, |o i| ≤ A) (hov : 2 * (ρ + A + 1) ≤ 2 ^ F.emax) :
    ∃ (V : Pt 2) (φ : ℝ), transformAnnulusFl F cosL sinL (fin c) (efin x) (fin r1) (fin r2) (efin o) = efin V ∧ (∀ i, F.Rep (V i)) ∧ 0 ≤ ε ∧
      ∀ i, |V i - (o i + ρ * dir φ i)| ≤ (ε + 2.05 * F.u) * ρ + F.u * A + 1.01 * F.η := by
  obtain ⟨hu1, -, -, -⟩ := pow_u F hp
  have hu := F.u_pos
  have hpi := Real.pi_lt_d2
  have hpi0 := Real.pi_pos
  obtain ⟨φ, hφ, hφr, hφe⟩ := angleE F hp hm' (eta_le hm) (by positivity) (by linarith) hc (Int.fract_nonneg (x 0)) (Int.fract_lt_one (x 0))
  have hφT : |φ| ≤ 13 := by
    have h1 := abs_sub_abs_le_abs_sub φ (2 * Real.pi * Int.fract (x 0))
    have h2 : 2 * Real.pi * Int.fract (x 0) ≤ 2 * Real.pi := mul_le_of_le_one_right (by positivity) (Int.fract_lt_one (x 0)).le
    rw [abs_of_nonneg (mul_nonneg (by positivity) (Int.fract_nonneg (x 0)))] at h1
    linarith
  obtain ⟨d, hd, hde⟩ := htrig.vec hφr hφT
  have hε0 : 0 ≤ ε := (abs_nonneg _).trans (hde 0)
  choose V hV hVr hVe using fun i => polarE F hp hε (hde i) (dir_le φ i) hρ0 (ho i) (hA i) hov
  refine ⟨WithLp.toLp 2 V, φ, ?_, hVr, hε0, hVe⟩
  funext i
  rw [transformAnnulusFl]
  show F.add (F.mul (annulusRadiusFl F (F.mod1 (fin (x 1))) (fin r1) (fin r2))
    ((![cosL (F.mul (fin c) (F.mod1 (fin (x 0)))), sinL (F.mul (fin c) (F.mod1 (fin (x 0))))] : Vec 2) i)) (fin (o i)) = fin (V i)
  rw [mod1_of_nonneg F (hx0 0), mod1_of_nonneg F (hx0 1), hφ, hρ, hd, ← hV, Fmt.mul, Fmt.mul, fin_mul, fin_mul, mul_comm]

theorem annulus_dist {V o : Pt 2} {ρ φ δ : ℝ} (hρ : 0 ≤ ρ) (hδ : 0 ≤ δ) (h : ∀ i, |V i - (o i + ρ * dir φ i)| ≤ δ) : |‖V - o‖ - ρ| ≤ 3 / 2 * δ := by
  have hVn : ‖(V - o) - ρ • dir φ‖ ≤ 3 / 2 * δ := by
    refine norm_le_two hδ fun i => ?_
    have := h i
    rwa [show ((V - o) - ρ • dir φ) i = V i - (o i + ρ * dir φ i) by simp; ring]
  have h2 := abs_norm_sub_norm_le (V - o) (ρ • dir φ)
  rw [norm_smul, dir_norm, mul_one, Real.norm_of_nonneg hρ] at h2
  exact h2.trans hVn

/-- **C181, disks and annuli**. The distance of a computed sample from the centre lies between the radii up to an error, of which one part is
relative to the outer radius and one to the centre. -/
theorem C181_annulus (hp : 8 ≤ F.p) (hm : F.emin + F.p + 8 ≤ 0) (hm' : 5 ≤ F.emax) {cosL sinL : XR → XR} {ε : ℝ} (hε : ε ≤ 1 / 64)
    (htrig : TrigAcc F cosL sinL 13 ε) {c : ℝ} (hc : |c - 2 * Real.pi| ≤ 13 * F.u) (x : Pt 2) (hx : ∀ i, F.Rep (x i)) (hx0 : ∀ i, 0 ≤ x i)
    {r1 r2 A : ℝ} (hr1 : F.Rep r1) (hr2 : F.Rep r2) (h12 : r1 ≤ r2) {k : ℤ}
    (hk : F.emin + (F.p - 1) ≤ 2 * k) (hk1 : r1 = 0 ∨ 2 ^ k ≤ r1) (hk2 : 2 ^ k ≤ r2) (hov : r2 ^ 2 ≤ 2 ^ (F.emax - 1))
    (o : Pt 2) (ho : ∀ i, F.Rep (o i)) (hA : ∀ i, |o i| ≤ A) (hov' : 2 * (r2 + A + 1) ≤ 2 ^ F.emax) :
    ∃ V : Pt 2, transformAnnulusFl F cosL sinL (fin c) (efin x) (fin r1) (fin r2) (efin o) = efin V ∧
      r1 - 2 * ((ε + 2 * F.u) * r2 + F.u * A + F.η) ≤ ‖V - o‖ ∧ ‖V - o‖ ≤ r2 + 2 * ((ε + 2 * F.u) * r2 + F.u * A + F.η) := by
  have hu := F.u_pos
  have hη0 := F.η_pos
  have hA0 : 0 ≤ A := (abs_nonneg _).trans (hA 0)
  have hr10 : 0 ≤ r1 := by
    rcases hk1 with rfl | h
    · exact le_rfl
    · exact le_trans (by positivity) h
  obtain ⟨ρ, hρ, -, hρ1, hρ2⟩ := C181_radius (rep_fract F (hx 1) (hx0 1)) (Int.fract_nonneg _) (Int.fract_lt_one _) hr1 hr2 h12 hk hk1 hk2 hov
  have hρ0 : 0 ≤ ρ := hr10.trans hρ1
  obtain ⟨V, φ, hV, -, hε0, hVe⟩ := annulusFl_coord hp hm hm' hε htrig hc x hx0 hρ hρ0 o ho hA (by linarith)
  have h3 := abs_le.mp (annulus_dist hρ0 (by positivity) hVe)
  have h4 : (ε + 2.05 * F.u) * ρ ≤ (ε + 2.05 * F.u) * r2 := mul_le_mul_of_nonneg_left hρ2 (by positivity)
  have hur : 0 ≤ F.u * r2 := mul_nonneg hu.le (hρ0.trans hρ2)
  have hεr : 0 ≤ ε * r2 := mul_nonneg hε0 (hρ0.trans hρ2)
  have huA : 0 ≤ F.u * A := by positivity
  exact ⟨V, hV, by linarith, by linarith⟩

/-! ### Spheres -/

theorem norm_le_three {v : Pt 3} {δ : ℝ} (h0 : 0 ≤ δ) (h : ∀ i, |v i| ≤ δ) : ‖v‖ ≤ 7 / 4 * δ := by
  refine abs_le_of_sq_le_sq' ?_ (by linarith) |>.2
  rw [EuclideanSpace.real_norm_sq_eq, Fin.sum_univ_three]
  have h1 := sq_le_sq' (abs_le.mp (h 0)).1 (abs_le.mp (h 0)).2
  have h2 := sq_le_sq' (abs_le.mp (h 1)).1 (abs_le.mp (h 1)).2
  have h3 := sq_le_sq' (abs_le.mp (h 2)).1 (abs_le.mp (h 2)).2
  nlinarith [sq_nonneg δ]

/-- The height of a sample of a sphere and the square of its distance from the axis. -/
theorem heightE (hp : 8 ≤ F.p) (hm : F.emin + F.p + 8 ≤ 0) (hm' : 5 ≤ F.emax) {t : ℝ} (ht : F.Rep t) (h0 : 0 ≤ t) (h1 : t < 1) :
    ∃ z Q : ℝ, F.sub (F.mul (fin 2) (fin t)) (fin 1) = fin z ∧ F.sub (fin 1) (F.mul (fin z) (fin z)) = fin Q ∧ F.Rep Q ∧ |z| ≤ 1 ∧
      0 ≤ Q ∧ Q ≤ 1 ∧ |Q + z ^ 2 - 1| ≤ 2.1 * F.u := by
  obtain ⟨hu1, -, -, -⟩ := pow_u F hp
  have hu := F.u_pos
  have hη := eta_le hm
  have h4 : (4 : ℝ) ≤ 2 ^ F.emax := by
    calc (4 : ℝ) = 2 ^ (2 : ℤ) := by norm_num
      _ ≤ _ := zpow_le_zpow_right₀ (by norm_num) (by omega)
  have hone : F.Rep 1 := by
    have := F.rep_two_zpow (k := 0) (by omega)
    simpa using this
  have e1 : F.sub (F.mul (fin 2) (fin t)) (fin 1) = fin (F.rndR (2 * t - 1)) := by
    rw [twoE F ht (by rw [abs_of_nonneg (by linarith)]; linarith), Fmt.sub, fin_sub, F.rnd_fin (by rw [abs_le]; constructor <;> linarith)]
  set z := F.rndR (2 * t - 1) with hz
  have hz1 : z ≤ 1 := F.rndR_le hone (by linarith)
  have hz2 : -1 ≤ z := F.le_rndR hone.neg (by linarith)
  have hzz : z ^ 2 ≤ 1 := by nlinarith
  have e2 : F.mul (fin z) (fin z) = fin (F.rndR (z ^ 2)) := by
    rw [Fmt.mul, fin_mul, ← sq, F.rnd_fin (by rw [abs_of_nonneg (sq_nonneg z)]; linarith)]
  have hs0 := F.rndR_nonneg (sq_nonneg z)
  have hs1 : F.rndR (z ^ 2) ≤ 1 := F.rndR_le hone hzz
  have hs2 := rndR_mixed F (z ^ 2)
  rw [abs_of_nonneg (sq_nonneg z)] at hs2
  have hs3 : z ^ 2 * F.u ≤ 1 * F.u := mul_le_mul_of_nonneg_right hzz hu.le
  have hq := F.rndR_add hone (F.rep_rndR (z ^ 2)).neg
  rw [← sub_eq_add_neg, abs_of_nonneg (by linarith : 0 ≤ 1 - F.rndR (z ^ 2))] at hq
  have hq1 : (1 - F.rndR (z ^ 2)) * F.u ≤ 1 * F.u := mul_le_mul_of_nonneg_right (by linarith) hu.le
  refine ⟨z, F.rndR (1 - F.rndR (z ^ 2)), e1, ?_, F.rep_rndR _, abs_le.mpr ⟨hz2, hz1⟩, F.rndR_nonneg (by linarith), F.rndR_le hone (by linarith), ?_⟩
  · rw [e2, Fmt.sub, fin_sub, F.rnd_fin (by rw [abs_le]; constructor <;> linarith)]
  · have e : F.rndR (1 - F.rndR (z ^ 2)) + z ^ 2 - 1 = (F.rndR (1 - F.rndR (z ^ 2)) - (1 - F.rndR (z ^ 2))) - (F.rndR (z ^ 2) - z ^ 2) := by ring
    rw [e]
    refine (abs_sub _ _).trans ?_
    linarith

/-- **C181, spheres**. If the library computes cosines, sines and square roots of numbers between zero and one with errors of at most `ε`, the computed sample of the boundary of
a sphere has the distance `r` from the centre, up to an error of which one part is relative to the radius and one to the centre. -/
theorem C181_sphere (hp : 8 ≤ F.p) (hm : F.emin + F.p + 8 ≤ 0) (hm' : 5 ≤ F.emax) {cosL sinL powL : XR → XR} {ε : ℝ} (hε : ε ≤ 1 / 256)
    (htrig : TrigAcc F cosL sinL 13 ε) (hpow : ∀ t, F.Rep t → 0 ≤ t → t ≤ 1 → ∃ s, powL (fin t) = fin s ∧ |s - Real.sqrt t| ≤ ε)
    {c : ℝ} (hc : |c - 2 * Real.pi| ≤ 13 * F.u) (x : Pt 2) (hx : F.Rep (x 0)) (hx0 : ∀ i, 0 ≤ x i) {r A : ℝ} (hr : 0 ≤ r)
    (o : Pt 3) (ho : ∀ i, F.Rep (o i)) (hA : ∀ i, |o i| ≤ A) (hov : 2 * (r + A + 1) ≤ 2 ^ F.emax) :
    ∃ V : Pt 3, transformSphereBndFl F cosL sinL powL (fin c) (efin x) (fin r) (efin o) = efin V ∧
      |‖V - o‖ - r| ≤ 4 * ((ε + 2 * F.u) * r + F.u * A + F.η) := by
  obtain ⟨hu1, -, -, -⟩ := pow_u F hp
  have hu := F.u_pos
  have hη0 := F.η_pos
  have hη := eta_le hm
  have hA0 : 0 ≤ A := (abs_nonneg _).trans (hA 0)
  have hpi := Real.pi_lt_d2
  have hpi0 := Real.pi_pos
  have h4 : (4 : ℝ) ≤ 2 ^ F.emax := by
    calc (4 : ℝ) = 2 ^ (2 : ℤ) := by norm_num
      _ ≤ _ := zpow_le_zpow_right₀ (by norm_num) (by omega)
  obtain ⟨z, Q, hz, hQ, hQr, hz1, hQ0, hQ1, hQz⟩ := heightE hp hm hm' (rep_fract F hx (hx0 0)) (Int.fract_nonneg _) (Int.fract_lt_one _)
  obtain ⟨S, hS, hSe⟩ := hpow Q hQr hQ0 hQ1
  obtain ⟨φ, hφ, hφr, hφe⟩ := angleE F hp hm' hη (by positivity) (by linarith) hc (Int.fract_nonneg (x 1)) (Int.fract_lt_one (x 1))
  have hφT : |φ| ≤ 13 := by
    have h1 := abs_sub_abs_le_abs_sub φ (2 * Real.pi * Int.fract (x 1))
    have h2 : 2 * Real.pi * Int.fract (x 1) ≤ 2 * Real.pi := mul_le_of_le_one_right (by positivity) (Int.fract_lt_one (x 1)).le
    rw [abs_of_nonneg (mul_nonneg (by positivity) (Int.fract_nonneg (x 1)))] at h1
    linarith
  obtain ⟨d, hd, hde⟩ := htrig.vec hφr hφT
  have hε0 : 0 ≤ ε := (abs_nonneg _).trans (hde 0)
  have hsq1 : Real.sqrt Q ≤ 1 := Real.sqrt_le_one.mpr hQ1
  have hsq0 := Real.sqrt_nonneg Q
  have hS1 : |S| ≤ 1.004 := by
    have := abs_sub_abs_le_abs_sub S (Real.sqrt Q)
    rw [abs_of_nonneg hsq0] at this
    linarith
  -- the horizontal coordinates
  have hhor : ∀ i, ∃ y, F.mul (fin (d i)) (fin S) = fin y ∧ |y - dir φ i * Real.sqrt Q| ≤ 2.01 * ε + 1.05 * F.u := by
    intro i
    have hd1 : |d i| ≤ 1.004 := by
      have h1 := abs_sub_abs_le_abs_sub (d i) (dir φ i)
      have h2 := dir_le φ i
      linarith [hde i]
    have hb : |d i * S| ≤ 1.01 := by
      rw [abs_mul]
      calc |d i| * |S| ≤ 1.004 * 1.004 := mul_le_mul hd1 hS1 (abs_nonneg _) (by norm_num)
        _ ≤ _ := by norm_num
    obtain ⟨y, hy, -, hye, -⟩ := mulE F hb (by linarith)
    refine ⟨y, hy, ?_⟩
    have h1 : |(d i - dir φ i) * S| ≤ ε * 1.004 := by
      rw [abs_mul]
      exact mul_le_mul (hde i) hS1 (abs_nonneg _) hε0
    have h2 : |dir φ i * (S - Real.sqrt Q)| ≤ ε := by
      rw [abs_mul]
      exact (mul_le_of_le_one_left (abs_nonneg _) (dir_le φ i)).trans hSe
    have e : y - dir φ i * Real.sqrt Q = (y - d i * S) + (d i - dir φ i) * S + dir φ i * (S - Real.sqrt Q) := by ring
    rw [e]
    refine (abs_add_three _ _ _).trans ?_
    linarith
  choose y hy hye using hhor
  -- the point of the unit sphere
  set n : Pt 3 := !₂[dir φ 0 * Real.sqrt Q, dir φ 1 * Real.sqrt Q, z] with hn
  have hnsq : ‖n‖ ^ 2 = Q + z ^ 2 := by
    have h1 : dir φ 0 ^ 2 + dir φ 1 ^ 2 = 1 := by
      have := dir_norm φ
      rw [← sq_eq_sq₀ (norm_nonneg _) zero_le_one, EuclideanSpace.real_norm_sq_eq, Fin.sum_univ_two] at this
      linarith
    rw [EuclideanSpace.real_norm_sq_eq, Fin.sum_univ_three]
    show (dir φ 0 * Real.sqrt Q) ^ 2 + (dir φ 1 * Real.sqrt Q) ^ 2 + z ^ 2 = _
    rw [mul_pow, mul_pow, Real.sq_sqrt hQ0]
    linear_combination Q * h1
  have hnn : |‖n‖ - 1| ≤ 2.1 * F.u := by
    have h1 : |‖n‖ - 1| * 1 ≤ |‖n‖ - 1| * (‖n‖ + 1) := mul_le_mul_of_nonneg_left (by linarith [norm_nonneg n]) (abs_nonneg _)
    have h2 : |‖n‖ - 1| * (‖n‖ + 1) = |Q + z ^ 2 - 1| := by
      rw [← hnsq, ← abs_of_nonneg (by linarith [norm_nonneg n] : 0 ≤ ‖n‖ + 1), ← abs_mul]
      congr 1; ring
    linarith
  have hvec : ∀ i, ∃ v, (![F.mul (fin (d 0)) (fin S), F.mul (fin (d 1)) (fin S), fin z] : Vec 3) i = fin v ∧
      |v - n i| ≤ 2.01 * ε + 1.05 * F.u ∧ |n i| ≤ 1 := by
    have hdir : ∀ i, |dir φ i * Real.sqrt Q| ≤ 1 := fun i => by
      rw [abs_mul, abs_of_nonneg hsq0]
      exact mul_le_one₀ (dir_le φ i) hsq0 hsq1
    intro i
    fin_cases i
    · exact ⟨y 0, hy 0, hye 0, hdir 0⟩
    · exact ⟨y 1, hy 1, hye 1, hdir 1⟩
    · refine ⟨z, rfl, ?_, hz1⟩
      show |z - z| ≤ _
      rw [sub_self, abs_zero]
      positivity
  choose v hv hve hn1 using hvec
  choose V hV hVr hVe using fun i => polarE F hp (by linarith) (hve i) (hn1 i) hr (ho i) (hA i) hov
  have hVn : ‖(WithLp.toLp 2 V - o) - r • n‖ ≤ 7 / 4 * ((2.01 * ε + 1.05 * F.u + 2.05 * F.u) * r + F.u * A + 1.01 * F.η) := by
    refine norm_le_three (by positivity) fun i => ?_
    have := hVe i
    rwa [show ((WithLp.toLp 2 V - o) - r • n) i = V i - (o i + r * n i) by
      simp only [PiLp.sub_apply, PiLp.smul_apply, smul_eq_mul]; ring]
  have h2 := abs_norm_sub_norm_le (WithLp.toLp 2 V - o) (r • n)
  rw [norm_smul, Real.norm_of_nonneg hr] at h2
  have h3 : |r * ‖n‖ - r| ≤ 2.1 * F.u * r := by
    rw [show r * ‖n‖ - r = (‖n‖ - 1) * r by ring, abs_mul, abs_of_nonneg hr]
    exact mul_le_mul_of_nonneg_right hnn hr
  have hur : 0 ≤ F.u * r := by positivity
  have hεr : 0 ≤ ε * r := by positivity
  have huA : 0 ≤ F.u * A := by positivity
  refine ⟨WithLp.toLp 2 V, ?_, ?_⟩
  · funext i
    rw [transformSphereBndFl]
    show F.add (F.mul ((![F.mul (cosL (F.mul (fin c) (F.mod1 (fin (x 1)))))
        (powL (F.sub (fin 1) (F.mul (F.sub (F.mul (fin 2) (F.mod1 (fin (x 0)))) (fin 1)) (F.sub (F.mul (fin 2) (F.mod1 (fin (x 0)))) (fin 1))))),
      F.mul (sinL (F.mul (fin c) (F.mod1 (fin (x 1)))))
        (powL (F.sub (fin 1) (F.mul (F.sub (F.mul (fin 2) (F.mod1 (fin (x 0)))) (fin 1)) (F.sub (F.mul (fin 2) (F.mod1 (fin (x 0)))) (fin 1))))),
      F.sub (F.mul (fin 2) (F.mod1 (fin (x 0)))) (fin 1)] : Vec 3) i) (fin r)) (fin (o i)) = fin (V i)
    rw [mod1_of_nonneg F (hx0 0), mod1_of_nonneg F (hx0 1), hφ, hz, hQ, hS, show cosL (fin φ) = fin (d 0) from hd 0,
      show sinL (fin φ) = fin (d 1) from hd 1, hv, hV]
  · have h5 := abs_sub_le ‖WithLp.toLp 2 V - o‖ (r * ‖n‖) r
    linarith

end

/-! ### Normal vectors -/

theorem single_u : Fmt.single.u = 2 ^ (-24 : ℤ) := rfl

/-- The computed norm of a vector whose length is neither tiny nor huge. -/
theorem single_norm (D : Pt 2) (h1 : 2 ^ (-40 : ℤ) ≤ ‖D‖) (h2 : ‖D‖ ≤ 2 ^ (40 : ℤ)) {w : XR} (hw : NormFl Fmt.single (efin D) w) :
    ∃ W : ℝ, w = fin W ∧ Fmt.single.Rep W ∧ 0 ≤ W ∧ |W - ‖D‖| ≤ 6.25 * Fmt.single.u * ‖D‖ := by
  have hD : 0 < ‖D‖ := lt_of_lt_of_le (by positivity) h1
  have hX : ∑ i, D i ^ 2 = ‖D‖ ^ 2 := (EuclideanSpace.real_norm_sq_eq D).symm
  have hu : Fmt.single.u = 2 ^ (-24 : ℤ) := rfl
  have hη : Fmt.single.η = 2 ^ (-150 : ℤ) := rfl
  have hX1 : (2 : ℝ) ^ (-80 : ℤ) ≤ ‖D‖ ^ 2 := by
    calc (2 : ℝ) ^ (-80 : ℤ) = (2 ^ (-40 : ℤ)) ^ 2 := by norm_num
      _ ≤ _ := pow_le_pow_left₀ (by positivity) h1 2
  have hX2 : ‖D‖ ^ 2 ≤ (2 : ℝ) ^ (80 : ℤ) := by
    calc ‖D‖ ^ 2 ≤ (2 ^ (40 : ℤ)) ^ 2 := pow_le_pow_left₀ hD.le h2 2
      _ = _ := by norm_num
  obtain ⟨W, hW, hWr, hW0, hWe⟩ := normFl_bound Fmt.single (by decide) (fun i => D i) (X := ‖D‖ ^ 2) (k := 0) (sq_nonneg _) (by rw [hX]; simp) (by
    rw [hu, hη]
    show _ ≤ (2 : ℝ) ^ (127 : ℤ)
    calc _ ≤ (1 + (2 : ℝ) ^ (-24 : ℤ)) ^ (2 + 0 + 3) * (2 ^ (80 : ℤ) + (2 : ℕ) * 2 ^ (-150 : ℤ)) := by gcongr
      _ ≤ _ := by norm_num) hw
  have h3 := sqnorm_real Fmt.single (by decide) (by norm_num) (by positivity) (by
    rw [hu, hη]
    calc (32 : ℝ) * 2 ^ (-150 : ℤ) ≤ 2 ^ (-24 : ℤ) * 2 ^ (-80 : ℤ) := by norm_num
      _ ≤ _ := by gcongr) hWe
  refine ⟨W, hW, hWr, hW0, ?_⟩
  have h4 : |W - ‖D‖| * ‖D‖ ≤ 6.25 * Fmt.single.u * ‖D‖ * ‖D‖ := by
    calc |W - ‖D‖| * ‖D‖ ≤ |W - ‖D‖| * (W + ‖D‖) := mul_le_mul_of_nonneg_left (by linarith) (abs_nonneg _)
      _ = |W ^ 2 - ‖D‖ ^ 2| := by
        rw [← abs_of_nonneg (by linarith : 0 ≤ W + ‖D‖), ← abs_mul]; congr 1; ring
      _ ≤ _ := by linarith
  exact le_of_mul_le_mul_right h4 hD

/-- **C181, normal vectors**. In single precision, with cosines and sines correct up to `2 ^ (-22)` and a centre whose coordinates are at most
32 times the radius, `normal_vec` with the default tolerances finds a normal at every computed sample of the boundary of a disk, which is the outward normal
at the exact sample up to `2 ^ (-16)`. -/
theorem C181_normal {cosL sinL : XR → XR} (htrig : TrigAcc Fmt.single cosL sinL 13 (2 ^ (-22 : ℤ))) {c : ℝ} (hc : |c - 4 * Real.pi| ≤ 13 * 2 ^ (-24 : ℤ)) {s : ℝ}
    (h0 : 0 ≤ s) {r : ℝ} (hr : Fmt.single.Rep r) (hr1 : 2 ^ (-30 : ℤ) ≤ r) (hr2 : r ≤ 2 ^ (30 : ℤ)) (o : Pt 2) (ho : ∀ i, Fmt.single.Rep (o i))
    (hA : ∀ i, |o i| ≤ 32 * r) {res : Option (Vec 2)}
    (hres : SphericalNormalFl Fmt.single (fin r) (efin o) (Fmt.single.const (1 / 10 ^ 5)) (Fmt.single.const (1 / 10 ^ 8))
      (transformCircleBndFl Fmt.single cosL sinL (fin c) (fin s) (fin r) (efin o)) res) :
    ∃ N : Pt 2, res = some (efin N) ∧ ‖N - !₂[Real.cos (4 * Real.pi * s), Real.sin (4 * Real.pi * s)]‖ ≤ 2 ^ (-16 : ℤ) := by
  have hu : Fmt.single.u = 2 ^ (-24 : ℤ) := rfl
  have hη : Fmt.single.η = 2 ^ (-150 : ℤ) := rfl
  have hr0 : 0 < r := lt_of_lt_of_le (by positivity) hr1
  have hmax : (2 : ℝ) ^ (40 : ℤ) ≤ 2 ^ Fmt.single.emax := zpow_le_zpow_right₀ (by norm_num) (by decide)
  have h30 : (2 : ℝ) ^ (30 : ℤ) = 1073741824 := by norm_num
  have h40 : (2 : ℝ) ^ (40 : ℤ) = 1099511627776 := by norm_num
  have hη2 : (2 : ℝ) ^ (-150 : ℤ) ≤ 1 / 100 * 2 ^ (-24 : ℤ) * r := by
    calc (2 : ℝ) ^ (-150 : ℤ) ≤ 1 / 100 * 2 ^ (-24 : ℤ) * 2 ^ (-30 : ℤ) := by norm_num
      _ ≤ _ := by gcongr
  obtain ⟨V, φ, hV, hVr, hφ, -, hVe⟩ := circleFl_coord (F := Fmt.single) (by decide) (by decide) (by decide) (by norm_num) htrig hc h0 hr0.le o ho hA (by
    rw [h30] at hr2; rw [h40] at hmax; linarith)
  rw [hu, hη] at hVe
  rw [hu] at hφ
  obtain ⟨u, hudef⟩ : ∃ u : ℝ, u = 2 ^ (-24 : ℤ) := ⟨_, rfl⟩
  have hu4 : (2 : ℝ) ^ (-22 : ℤ) = 4 * u := by rw [hudef]; norm_num
  have huv : u = 1 / 16777216 := by rw [hudef]; norm_num
  rw [← hudef] at hVe hη2 hφ
  rw [hu4] at hVe
  have hur : 0 < u * r := by rw [huv]; positivity
  have hVe' : ∀ i, |V i - (o i + r * dir φ i)| ≤ 38.1 * (u * r) := fun i => (hVe i).trans (by linarith)
  -- the difference from the centre
  have hsub : ∀ i, ∃ d, Fmt.single.sub (efin V i) (efin o i) = fin d ∧ Fmt.single.Rep d ∧ |d - r * dir φ i| ≤ 39.2 * (u * r) := by
    intro i
    have h1 := hVe' i
    have h2 := dir_le φ i
    have h3 : |r * dir φ i| ≤ r := by
      rw [abs_mul, abs_of_pos hr0]
      exact mul_le_of_le_one_right hr0.le h2
    have h4 : |V i + -o i| ≤ 1.01 * r := by
      have e : V i + -o i = (V i - (o i + r * dir φ i)) + r * dir φ i := by ring
      rw [e]
      refine (abs_add_le _ _).trans ?_
      have : u * r ≤ 1 / 16777216 * r := by rw [huv]
      linarith
    obtain ⟨d, hd, hdr, hde, -⟩ := addE Fmt.single (hVr i) (ho i).neg h4 (by rw [h30] at hr2; rw [h40] at hmax; linarith)
    refine ⟨d, by rw [sub_eq_add_neg']; exact hd, hdr, ?_⟩
    rw [hu, ← hudef] at hde
    have e : d - r * dir φ i = (d - (V i + -o i)) + (V i - (o i + r * dir φ i)) := by ring
    rw [e]
    refine (abs_add_le _ _).trans ?_
    linarith
  choose D hD hDr hDe using hsub
  set Dp : Pt 2 := WithLp.toLp 2 D with hDp
  have hDn : ‖Dp - r • dir φ‖ ≤ 3 / 2 * (39.2 * (u * r)) := norm_le_two (by positivity) fun i => hDe i
  have hDr' : |‖Dp‖ - r| ≤ 58.8 * (u * r) := by
    have := abs_norm_sub_norm_le Dp (r • dir φ)
    rw [norm_smul, dir_norm, mul_one, Real.norm_of_nonneg hr0.le] at this
    linarith
  have hur' : u * r = 1 / 16777216 * r := by rw [huv]
  have hDb := abs_le.mp hDr'
  obtain ⟨w, hw, hcase⟩ := hres
  rw [hV] at hw hcase
  have hDf : (fun i => Fmt.single.sub (efin V i) (efin o i)) = efin Dp := funext hD
  rw [hDf] at hw
  obtain ⟨W, rfl, hWr, hW0, hWe⟩ := single_norm Dp (by
    have : (2 : ℝ) ^ (-30 : ℤ) = 1024 * 2 ^ (-40 : ℤ) := by norm_num
    linarith) (by rw [h40]; rw [h30] at hr2; linarith) hw
  rw [hu, ← hudef] at hWe
  have hWr' : |W - r| ≤ 66 * (u * r) := by
    have e : W - r = (W - ‖Dp‖) + (‖Dp‖ - r) := by ring
    rw [e]
    refine (abs_add_le _ _).trans ?_
    have : u * ‖Dp‖ ≤ u * (1.01 * r) := mul_le_mul_of_nonneg_left (by linarith) (by rw [huv]; norm_num)
    linarith
  have hWb := abs_le.mp hWr'
  -- the test
  have hconst : ∀ t : ℝ, |t| ≤ 1 → Fmt.single.const t = fin (Fmt.single.rndR t) := fun t ht => by
    rw [Fmt.const, Fmt.single.rnd_fin]
    rw [h40] at hmax
    linarith
  have ht1 : 66 * u ≤ Fmt.single.rndR (1 / 10 ^ 5) := by
    refine Fmt.single.le_rndR ⟨66, -24, by norm_num [Fmt.single], by decide, by rw [hudef]; norm_num⟩ ?_
    rw [huv]; norm_num
  have ht2 : Fmt.single.rndR (1 / 10 ^ 5) ≤ 1 := Fmt.single.rndR_le ⟨1, 0, by norm_num [Fmt.single], by decide, by norm_num⟩ (by norm_num)
  have ht3 : 0 ≤ Fmt.single.rndR (1 / 10 ^ 8) := Fmt.single.rndR_nonneg (by norm_num)
  have ht4 : Fmt.single.rndR (1 / 10 ^ 8) ≤ 1 := Fmt.single.rndR_le ⟨1, 0, by norm_num [Fmt.single], by decide, by norm_num⟩ (by norm_num)
  set τ := Fmt.single.rndR (1 / 10 ^ 5) with hτ
  set α := Fmt.single.rndR (1 / 10 ^ 8) with hα
  have hτ0 : 0 ≤ τ := le_trans (by rw [huv]; norm_num) ht1
  have hτr : τ * r ≤ r := mul_le_of_le_one_left hr0.le ht2
  have hτr0 : 0 ≤ τ * r := by positivity
  have hclose : iscloseTolFl Fmt.single (Fmt.single.const (1 / 10 ^ 5)) (Fmt.single.const (1 / 10 ^ 8)) (fin W) (fin r) := by
    rw [iscloseTolFl, hconst _ (by norm_num), hconst _ (by norm_num), ← hτ, ← hα, fin_abs, abs_of_pos hr0, Fmt.sub, fin_sub, Fmt.mul, fin_mul,
      Fmt.single.rnd_fin (by rw [h40] at hmax; rw [h30] at hr2; linarith), Fmt.single.rnd_fin (by
        rw [abs_of_nonneg hτr0]; rw [h40] at hmax; rw [h30] at hr2; linarith)]
    have hm1 : Fmt.single.rndR (τ * r) ≤ r := Fmt.single.rndR_le hr hτr
    have hm0 : 0 ≤ Fmt.single.rndR (τ * r) := Fmt.single.rndR_nonneg hτr0
    rw [Fmt.add, fin_add, Fmt.single.rnd_fin (by
      rw [abs_of_nonneg (by linarith)]; rw [h40] at hmax; rw [h30] at hr2; linarith), fin_abs, fin_le, ← Fmt.rndR_abs]
    refine (Fmt.single.rndR_mono (?_ : |W - r| ≤ τ * r)).trans (Fmt.single.le_rndR (Fmt.single.rep_rndR _) (by linarith))
    exact hWr'.trans (by rw [← mul_assoc]; exact mul_le_mul_of_nonneg_right ht1 hr0.le)
  rcases hcase with ⟨-, rfl⟩ | ⟨hn, -⟩
  swap
  · exact absurd hclose hn
  -- the quotient
  have hW1 : 0.99 * r ≤ W := by linarith
  have hWpos : 0 < W := by linarith
  have hdiv : ∀ i, ∃ z, Fmt.single.div (efin Dp i) (fin W) = fin z ∧ |z - dir φ i| ≤ 108 * u := by
    intro i
    have h1 : |D i / W - dir φ i| ≤ 106.5 * u := by
      have e : D i / W - dir φ i = ((D i - r * dir φ i) + (r - W) * dir φ i) / W := by field_simp; ring
      rw [e, abs_div, abs_of_pos hWpos, div_le_iff₀ hWpos]
      have h2 : |(r - W) * dir φ i| ≤ 66 * (u * r) := by
        rw [abs_mul, abs_sub_comm]
        exact (mul_le_of_le_one_right (abs_nonneg _) (dir_le φ i)).trans hWr'
      have h3 : u * (0.99 * r) ≤ u * W := mul_le_mul_of_nonneg_left hW1 (by rw [huv]; norm_num)
      refine (abs_add_le _ _).trans ?_
      linarith [hDe i]
    have h2 : |D i / W| ≤ 1.01 := by
      have h3 := abs_sub_abs_le_abs_sub (D i / W) (dir φ i)
      have h4 := dir_le φ i
      have : 106.5 * u ≤ 0.01 := by rw [huv]; norm_num
      linarith
    refine ⟨Fmt.single.rndR (D i / W), ?_, ?_⟩
    · show Fmt.single.div (fin (D i)) (fin W) = _
      rw [Fmt.div, fin_div _ hWpos.ne', Fmt.single.rnd_fin]
      rw [h40] at hmax
      linarith
    · have h3 := rndR_mixed Fmt.single (D i / W)
      have h4 : |D i / W| * Fmt.single.u ≤ 1.01 * u := by
        rw [hu, ← hudef]
        exact mul_le_mul_of_nonneg_right h2 (by rw [huv]; norm_num)
      have h5 : Fmt.single.η ≤ 0.1 * u := by rw [hη, hudef]; norm_num
      have h6 := abs_sub_le (Fmt.single.rndR (D i / W)) (D i / W) (dir φ i)
      linarith
  choose z hz hze using hdiv
  refine ⟨WithLp.toLp 2 z, ?_, ?_⟩
  · congr 1
    funext i
    rw [show Fmt.single.sub (efin V i) (efin o i) = efin Dp i from hD i, hz]
    rfl
  · have hdir : (!₂[Real.cos (4 * Real.pi * s), Real.sin (4 * Real.pi * s)] : Pt 2) = dir (4 * Real.pi * Int.fract s) := by
      have e : 4 * Real.pi * s = 4 * Real.pi * Int.fract s + (2 * ⌊s⌋ : ℤ) * (2 * Real.pi) := by
        rw [Int.fract]; push_cast; ring
      rw [e, Real.cos_add_int_mul_two_pi, Real.sin_add_int_mul_two_pi]
      rfl
    rw [hdir]
    refine (norm_le_two (δ := 134 * u) (by rw [huv]; norm_num) fun i => ?_).trans (by rw [huv]; norm_num)
    show |z i - dir (4 * Real.pi * Int.fract s) i| ≤ _
    have h1 := abs_sub_le (z i) (dir φ i) (dir (4 * Real.pi * Int.fract s) i)
    have h2 := (dir_sub_le φ (4 * Real.pi * Int.fract s) i).trans hφ
    linarith [hze i]

/-- **C181, far centres**. Without the bound on the centre no normal need be found: for the disk of radius `1 + 7 / 2 ^ 19` about `(256, 0)`,
`normal_vec` gives `None` at the sample `s = 0` of its own boundary, although the exact sample has a normal. -/
theorem C181_none {cosL sinL : XR → XR} (hcos : cosL (fin 0) = fin 1) (hsin : sinL (fin 0) = fin 0) (c : ℝ) {res : Option (Vec 2)}
    (hres : SphericalNormalFl Fmt.single (fin (524295 / 524288)) (efin (!₂[256, 0] : Pt 2)) (Fmt.single.const (1 / 10 ^ 5)) (Fmt.single.const (1 / 10 ^ 8))
      (transformCircleBndFl Fmt.single cosL sinL (fin c) (fin 0) (fin (524295 / 524288)) (efin (!₂[256, 0] : Pt 2))) res) :
    res = none ∧ spherical.normalVec (fin (524295 / 524288)) (efin (!₂[256, 0] : Pt 2)) (1 / 10 ^ 5) (1 / 10 ^ 8)
      (transformCircleBnd (fin 0) (fin (524295 / 524288)) (efin (!₂[256, 0] : Pt 2))) = some (efin !₂[1, 0]) := by
  constructor
  swap
  · have hY : transformCircleBnd (fin 0) (fin (524295 / 524288)) (efin (!₂[256, 0] : Pt 2)) = efin (!₂[524295 / 524288 + 256, 0] : Pt 2) := by
      funext i
      fin_cases i <;> simp [transformCircleBnd, efin, mod1]
    have hS : (fun i => efin (!₂[524295 / 524288 + 256, 0] : Pt 2) i - efin (!₂[256, 0] : Pt 2) i) = efin (!₂[524295 / 524288, 0] : Pt 2) := by
      funext i
      fin_cases i <;> simp [efin]
    have hn : vnorm (efin (!₂[524295 / 524288, 0] : Pt 2)) = fin (524295 / 524288) := by
      rw [vnorm_efin, EuclideanSpace.norm_eq]
      congr 1
      simp only [Real.norm_eq_abs, sq_abs, Fin.sum_univ_two]
      simpa using Real.sqrt_sq (by norm_num : (0 : ℝ) ≤ 524295 / 524288)
    have hn' : vnorm (fun i => efin (!₂[524295 / 524288 + 256, 0] : Pt 2) i - efin (!₂[256, 0] : Pt 2) i) = fin (524295 / 524288) := by
      rw [hS, hn]
    rw [hY, spherical.normalVec]
    dsimp only
    rw [hn', if_pos]
    · congr 1
      funext i
      rw [show efin (!₂[524295 / 524288 + 256, 0] : Pt 2) i - efin (!₂[256, 0] : Pt 2) i = efin (!₂[524295 / 524288, 0] : Pt 2) i from congrFun hS i]
      fin_cases i
      · show fin (524295 / 524288) / fin (524295 / 524288) = fin 1
        rw [fin_div _ (by norm_num), div_self (by norm_num)]
      · show fin 0 / fin (524295 / 524288) = fin 0
        rw [fin_div _ (by norm_num), zero_div]
    · rw [isclose, fin_sub, sub_self, fin_abs, fin_abs, fin_mul, fin_add, fin_le, abs_zero]
      positivity
  have hsm : ∀ y : ℝ, |y| ≤ 1024 → Fmt.single.rnd (fin y) = fin (Fmt.single.rndR y) := fun y hy => by
    refine Fmt.single.rnd_fin (hy.trans ?_)
    calc (1024 : ℝ) = 2 ^ (10 : ℤ) := by norm_num
      _ ≤ 2 ^ (127 : ℤ) := zpow_le_zpow_right₀ (by norm_num) (by norm_num)
  have r0 : Fmt.single.rndR 0 = 0 := Fmt.rndR_zero _
  have rr : Fmt.single.rndR (524295 / 524288) = 524295 / 524288 :=
    Fmt.single.rndR_rep ⟨524295, -19, by norm_num [Fmt.single], by decide, by norm_num⟩
  have r257 : Fmt.single.rndR (524295 / 524288 + 256) = 257 := by
    rw [single_eq 8 8421376 (by norm_num) (by norm_num) (by norm_num) (by norm_num) (by norm_num)]
    norm_num
  have hV : transformCircleBndFl Fmt.single cosL sinL (fin c) (fin 0) (fin (524295 / 524288)) (efin (!₂[256, 0] : Pt 2)) = efin (!₂[257, 0] : Pt 2) := by
    have hphi : Fmt.single.mul (fin c) (fin 0) = fin 0 := by
      rw [Fmt.mul, fin_mul, mul_zero, hsm _ (by norm_num), r0]
    funext i
    rw [transformCircleBndFl, mod1_of_nonneg _ le_rfl, Int.fract_zero, hphi, hcos, hsin]
    fin_cases i
    · show Fmt.single.add (Fmt.single.mul (fin 1) (fin (524295 / 524288))) (fin 256) = fin 257
      rw [Fmt.mul, fin_mul, one_mul, hsm _ (by norm_num [abs_of_pos]), rr, Fmt.add, fin_add, hsm _ (by rw [abs_of_pos] <;> norm_num), r257]
    · show Fmt.single.add (Fmt.single.mul (fin 0) (fin (524295 / 524288))) (fin 0) = fin 0
      rw [Fmt.mul, fin_mul, zero_mul, hsm _ (by norm_num), r0, Fmt.add, fin_add, add_zero, hsm _ (by norm_num), r0]
  rw [hV] at hres
  have hD : (fun i => Fmt.single.sub (efin (!₂[257, 0] : Pt 2) i) (efin (!₂[256, 0] : Pt 2) i)) = efin (!₂[1, 0] : Pt 2) := by
    funext i
    fin_cases i
    · show Fmt.single.sub (fin 257) (fin 256) = fin 1
      rw [Fmt.sub, fin_sub, show (257 : ℝ) - 256 = 1 by norm_num, hsm _ (by norm_num),
        Fmt.single.rndR_rep ⟨1, 0, by norm_num [Fmt.single], by decide, by norm_num⟩]
    · show Fmt.single.sub (fin 0) (fin 0) = fin 0
      rw [Fmt.sub, fin_sub, sub_zero, hsm _ (by norm_num), r0]
  obtain ⟨w, hw, hcase⟩ := hres
  rw [hD] at hw
  have hn1 : ‖(!₂[1, 0] : Pt 2)‖ = 1 := by
    rw [EuclideanSpace.norm_eq]; simp
  obtain ⟨W, rfl, -, hW0, hWe⟩ := single_norm _ (by rw [hn1]; norm_num) (by rw [hn1]; norm_num) hw
  rw [hn1, mul_one, single_u] at hWe
  have hWb := abs_le.mp hWe
  norm_num at hWb
  rcases hcase with ⟨hcl, -⟩ | ⟨-, h⟩
  swap
  · exact h
  exfalso
  rw [iscloseTolFl, Fmt.const, Fmt.const, hsm _ (by rw [abs_of_pos] <;> norm_num), hsm _ (by rw [abs_of_pos] <;> norm_num), fin_abs,
    abs_of_pos (by norm_num), Fmt.sub, fin_sub, hsm _ (by rw [abs_le]; constructor <;> linarith), Fmt.mul, fin_mul] at hcl
  have t1 : Fmt.single.rndR (1 / 10 ^ 5) ≤ 11 / 2 ^ 20 := Fmt.single.rndR_le ⟨11, -20, by norm_num [Fmt.single], by decide, by norm_num⟩ (by norm_num)
  have t0 : 0 ≤ Fmt.single.rndR (1 / 10 ^ 5) := Fmt.single.rndR_nonneg (by norm_num)
  have a1 : Fmt.single.rndR (1 / 10 ^ 8) ≤ 1 / 2 ^ 26 := Fmt.single.rndR_le ⟨1, -26, by norm_num [Fmt.single], by decide, by norm_num⟩ (by norm_num)
  have a0 : 0 ≤ Fmt.single.rndR (1 / 10 ^ 8) := Fmt.single.rndR_nonneg (by norm_num)
  set τ := Fmt.single.rndR (1 / 10 ^ 5)
  set α := Fmt.single.rndR (1 / 10 ^ 8)
  have m0 : 0 ≤ τ * (524295 / 524288) := by positivity
  rw [hsm _ (by rw [abs_of_nonneg m0]; linarith)] at hcl
  have m1 : Fmt.single.rndR (τ * (524295 / 524288)) ≤ 23 / 2 ^ 21 :=
    Fmt.single.rndR_le ⟨23, -21, by norm_num [Fmt.single], by decide, by norm_num⟩ (by linarith)
  have m2 := Fmt.single.rndR_nonneg m0
  rw [Fmt.add, fin_add, hsm _ (by rw [abs_of_nonneg (by linarith)]; linarith), fin_abs, fin_le, ← Fmt.rndR_abs] at hcl
  have b1 : Fmt.single.rndR (α + Fmt.single.rndR (τ * (524295 / 524288))) ≤ 737 / 2 ^ 26 :=
    Fmt.single.rndR_le ⟨737, -26, by norm_num [Fmt.single], by decide, by norm_num⟩ (by linarith)
  have b2 : 54 / 2 ^ 22 ≤ Fmt.single.rndR |W - 524295 / 524288| :=
    Fmt.single.le_rndR ⟨54, -22, by norm_num [Fmt.single], by decide, by norm_num⟩ (by
      rw [abs_of_nonpos (by linarith)]; linarith)
  linarith

/-! ### The test for points of a disk -/

/-- The computed radius of a sample of a disk which is not too close to the boundary. -/
theorem disk_radius_single {x r : ℝ} (h0 : 0 ≤ x) (h1 : x ≤ 1 - 2 ^ (-18 : ℤ)) (hr1 : 2 ^ (-30 : ℤ) ≤ r) (hr2 : r ≤ 2 ^ (30 : ℤ)) :
    ∃ ρ, annulusRadiusFl Fmt.single (fin x) (fin 0) (fin r) = fin ρ ∧ 0 ≤ ρ ∧ ρ ≤ (1 - 29 * 2 ^ (-24 : ℤ)) * r := by
  have hr0 : 0 < r := lt_of_lt_of_le (by positivity) hr1
  have hmax : (2 : ℝ) ^ (70 : ℤ) ≤ 2 ^ Fmt.single.emax := zpow_le_zpow_right₀ (by norm_num) (by decide)
  have hsq2 : r ^ 2 ≤ 2 ^ (60 : ℤ) := by
    calc r ^ 2 ≤ (2 ^ (30 : ℤ)) ^ 2 := pow_le_pow_left₀ hr0.le hr2 2
      _ = _ := by norm_num
  have hsq1 : 2 ^ (-60 : ℤ) ≤ r ^ 2 := by
    calc (2 : ℝ) ^ (-60 : ℤ) = (2 ^ (-30 : ℤ)) ^ 2 := by norm_num
      _ ≤ _ := pow_le_pow_left₀ (by positivity) hr1 2
  have h60 : (2 : ℝ) ^ (60 : ℤ) = 1152921504606846976 := by norm_num
  have h70 : (2 : ℝ) ^ (70 : ℤ) = 1180591620717411303424 := by norm_num
  have hηs : (2 : ℝ) ^ (-150 : ℤ) ≤ 1 / 100 * 2 ^ (-24 : ℤ) * r ^ 2 := by
    calc (2 : ℝ) ^ (-150 : ℤ) ≤ 1 / 100 * 2 ^ (-24 : ℤ) * 2 ^ (-60 : ℤ) := by norm_num
      _ ≤ _ := by gcongr
  have hηr : (2 : ℝ) ^ (-150 : ℤ) ≤ 1 / 100 * 2 ^ (-24 : ℤ) * r := by
    calc (2 : ℝ) ^ (-150 : ℤ) ≤ 1 / 100 * 2 ^ (-24 : ℤ) * 2 ^ (-30 : ℤ) := by norm_num
      _ ≤ _ := by gcongr
  have e18 : (2 : ℝ) ^ (-18 : ℤ) = 64 * 2 ^ (-24 : ℤ) := by norm_num
  rw [e18] at h1
  have mix : ∀ y : ℝ, |Fmt.single.rndR y - y| ≤ |y| * 2 ^ (-24 : ℤ) + 2 ^ (-150 : ℤ) := fun y => rndR_mixed Fmt.single y
  have huv : (2 : ℝ) ^ (-24 : ℤ) = 1 / 16777216 := by norm_num
  rw [huv] at h1 hηs hηr mix ⊢
  obtain ⟨η, hη⟩ : ∃ η : ℝ, η = 2 ^ (-150 : ℤ) := ⟨_, rfl⟩
  rw [← hη] at hηs hηr mix
  have r0 : Fmt.single.rndR 0 = 0 := Fmt.rndR_zero _
  have rsq := mix (r ^ 2)
  rw [abs_of_nonneg (sq_nonneg r)] at rsq
  have rsq' := abs_le.mp rsq
  have hs0 := Fmt.single.rndR_nonneg (sq_nonneg r)
  set s := Fmt.single.rndR (r ^ 2) with hs
  have hsle : s ≤ 2 * r ^ 2 := by linarith
  have m1 := mix (x * s)
  have hxs0 : 0 ≤ x * s := mul_nonneg h0 hs0
  have hxs : x * s ≤ (1 - 64 * (1 / 16777216)) * s := mul_le_mul_of_nonneg_right h1 hs0
  rw [abs_of_nonneg hxs0] at m1
  have m1' := abs_le.mp m1
  have hq0 := Fmt.single.rndR_nonneg hxs0
  set q := Fmt.single.rndR (x * s) with hq
  have hqle : q ≤ (1 - 30.5 * (1 / 16777216)) ^ 2 * r ^ 2 := by
    have : 0 < r ^ 2 := by positivity
    linarith
  have hrt : Real.sqrt q ≤ (1 - 30.5 * (1 / 16777216)) * r := by
    rw [Real.sqrt_le_left (by positivity), mul_pow]
    exact hqle
  have hrt0 := Real.sqrt_nonneg q
  have m2 := mix (Real.sqrt q)
  rw [abs_of_nonneg hrt0] at m2
  have m2' := abs_le.mp m2
  refine ⟨Fmt.single.rndR (Real.sqrt q), ?_, Fmt.single.rndR_nonneg hrt0, by linarith⟩
  have z0 : Fmt.single.mul (fin 0) (fin 0) = fin 0 := by
    rw [Fmt.mul, fin_mul, mul_zero, Fmt.single.rnd_fin (by rw [abs_zero]; positivity), r0]
  have e1 : Fmt.single.mul (fin r) (fin r) = fin s := by
    rw [Fmt.mul, fin_mul, ← sq, Fmt.single.rnd_fin (by rw [abs_of_nonneg (sq_nonneg r)]; rw [h60] at hsq2; rw [h70] at hmax; linarith)]
  have e2 : Fmt.single.sub (fin s) (fin 0) = fin s := by
    rw [Fmt.sub, fin_sub, sub_zero, Fmt.single.rnd_fin (by rw [abs_of_nonneg hs0]; rw [h60] at hsq2; rw [h70] at hmax; linarith),
      Fmt.single.rndR_rep (Fmt.single.rep_rndR _)]
  have e3 : Fmt.single.mul (fin x) (fin s) = fin q := by
    rw [Fmt.mul, fin_mul, Fmt.single.rnd_fin (by rw [abs_of_nonneg hxs0]; rw [h60] at hsq2; rw [h70] at hmax; linarith)]
  have e4 : Fmt.single.add (fin q) (fin 0) = fin q := by
    rw [Fmt.add, fin_add, add_zero, Fmt.single.rnd_fin (by
      rw [abs_of_nonneg hq0]; rw [h60] at hsq2; rw [h70] at hmax; linarith), Fmt.single.rndR_rep (Fmt.single.rep_rndR _)]
  have hr2' : r ≤ 1073741824 := hr2.trans (by norm_num)
  rw [annulusRadiusFl, z0, e1, e2, e3, e4, Fmt.sqrt, fin_sqrt hq0, Fmt.single.rnd_fin (by
    rw [abs_of_nonneg hrt0]; rw [h70] at hmax; linarith)]

/-- **C181, points of a disk**. In single precision, with cosines and sines correct up to `2 ^ (-22)` and a centre whose coordinates are at most
four times the radius, `includes` is true of every computed sample of the disk with a second coordinate of at most `1 - 2 ^ (-18)`. -/
theorem C181_included {cosL sinL : XR → XR} (htrig : TrigAcc Fmt.single cosL sinL 13 (2 ^ (-22 : ℤ))) {c : ℝ}
    (hc : |c - 2 * Real.pi| ≤ 13 * 2 ^ (-24 : ℤ)) (x : Pt 2) (hx0 : ∀ i, 0 ≤ x i) (hx1 : Int.fract (x 1) ≤ 1 - 2 ^ (-18 : ℤ)) {r : ℝ}
    (hr1 : 2 ^ (-30 : ℤ) ≤ r) (hr2 : r ≤ 2 ^ (30 : ℤ)) (o : Pt 2) (ho : ∀ i, Fmt.single.Rep (o i)) (hA : ∀ i, |o i| ≤ 4 * r) {b : Prop}
    (hb : SphericalIncludesFl Fmt.single (fin r) (efin o) (transformCircleFl Fmt.single cosL sinL (fin c) (efin x) (fin r) (efin o)) b) : b := by
  have hu : Fmt.single.u = 2 ^ (-24 : ℤ) := rfl
  have hη : Fmt.single.η = 2 ^ (-150 : ℤ) := rfl
  have hr0 : 0 < r := lt_of_lt_of_le (by positivity) hr1
  have hmax : (2 : ℝ) ^ (70 : ℤ) ≤ 2 ^ Fmt.single.emax := zpow_le_zpow_right₀ (by norm_num) (by decide)
  have h70 : (2 : ℝ) ^ (70 : ℤ) = 1180591620717411303424 := by norm_num
  rw [h70] at hmax
  have hr2' : r ≤ 1073741824 := hr2.trans (by norm_num)
  obtain ⟨ρ, hρ, hρ0, hρ1⟩ := disk_radius_single (Int.fract_nonneg _) hx1 hr1 hr2
  have huv : (2 : ℝ) ^ (-24 : ℤ) = 1 / 16777216 := by norm_num
  have hρr : ρ ≤ r := hρ1.trans (by rw [huv]; linarith)
  obtain ⟨V, φ, hV, hVr, -, hVe⟩ := annulusFl_coord (F := Fmt.single) (by decide) (by decide) (by decide) (by norm_num) htrig hc x hx0 hρ hρ0 o ho hA
    (by linarith)
  have hηr : (2 : ℝ) ^ (-150 : ℤ) ≤ 1 / 100 * 2 ^ (-24 : ℤ) * r := by
    calc (2 : ℝ) ^ (-150 : ℤ) ≤ 1 / 100 * 2 ^ (-24 : ℤ) * 2 ^ (-30 : ℤ) := by norm_num
      _ ≤ _ := by gcongr
  have hηs : (2 : ℝ) ^ (-150 : ℤ) ≤ 1 / 100 * 2 ^ (-24 : ℤ) * r ^ 2 := by
    calc (2 : ℝ) ^ (-150 : ℤ) ≤ 1 / 100 * 2 ^ (-24 : ℤ) * (2 ^ (-30 : ℤ)) ^ 2 := by norm_num
      _ ≤ _ := by gcongr
  have hd := annulus_dist hρ0 (by positivity) hVe
  have e22 : (2 : ℝ) ^ (-22 : ℤ) = 4 * (1 / 16777216) := by norm_num
  rw [hu, hη, e22, huv] at hd
  rw [huv] at hρ1 hηr hηs
  obtain ⟨η, hηd⟩ : ∃ η : ℝ, η = 2 ^ (-150 : ℤ) := ⟨_, rfl⟩
  rw [← hηd] at hd hηr hηs
  have hVo : ‖V - o‖ ≤ (1 - 13 * (1 / 16777216)) * r := by
    have := (abs_le.mp hd).2
    linarith
  -- the computed difference
  have hsub : ∀ i, ∃ d, Fmt.single.sub (efin V i) (efin o i) = fin d ∧ |d| ≤ (1 + 1 / 16777216) * |V i - o i| := by
    intro i
    have h1 := Fmt.single.rndR_add (hVr i) (ho i).neg
    have h2 : |V i - o i| ≤ r := by
      refine ((PiLp.norm_apply_le (V - o) i).trans hVo).trans ?_
      linarith
    refine ⟨Fmt.single.rndR (V i - o i), ?_, ?_⟩
    · show Fmt.single.sub (fin (V i)) (fin (o i)) = _
      rw [Fmt.sub, fin_sub, Fmt.single.rnd_fin (by linarith)]
    · rw [← sub_eq_add_neg] at h1
      have h3 := abs_sub_abs_le_abs_sub (Fmt.single.rndR (V i - o i)) (V i - o i)
      have h4 : |V i - o i| * 2 ^ (-(Fmt.single.p : ℤ)) = |V i - o i| * (1 / 16777216) := by rw [← huv]; rfl
      rw [h4] at h1
      linarith
  choose D hD hDe using hsub
  set Dp : Pt 2 := WithLp.toLp 2 D with hDp
  have hDn : ‖Dp‖ ^ 2 ≤ ((1 + 1 / 16777216) * ((1 - 13 * (1 / 16777216)) * r)) ^ 2 := by
    have h1 : ‖Dp‖ ^ 2 ≤ ((1 + 1 / 16777216) * ‖V - o‖) ^ 2 := by
      rw [mul_pow, EuclideanSpace.real_norm_sq_eq, EuclideanSpace.real_norm_sq_eq, Finset.mul_sum]
      refine Finset.sum_le_sum fun i _ => ?_
      show D i ^ 2 ≤ (1 + 1 / 16777216) ^ 2 * (V i - o i) ^ 2
      rw [← sq_abs (D i), ← sq_abs (V i - o i), ← mul_pow]
      exact pow_le_pow_left₀ (abs_nonneg _) (hDe i) 2
    refine h1.trans (pow_le_pow_left₀ (by positivity) ?_ 2)
    exact mul_le_mul_of_nonneg_left hVo (by norm_num)
  have hr2s : r ^ 2 ≤ 1152921504606846976 := by nlinarith
  have hr2p : 0 < r ^ 2 := by positivity
  have hX : ∑ i, Dp i ^ 2 = ‖Dp‖ ^ 2 := (EuclideanSpace.real_norm_sq_eq Dp).symm
  have hDn' : ‖Dp‖ ^ 2 ≤ (1 - 23 * (1 / 16777216)) * r ^ 2 := hDn.trans (by
    rw [← mul_assoc, mul_pow]
    exact mul_le_mul_of_nonneg_right (by norm_num) hr2p.le)
  obtain ⟨w, hw, hbw⟩ := hb
  rw [transformCircleFl, hV, show (fun i => Fmt.single.sub (efin V i) (efin o i)) = efin Dp from funext hD] at hw
  have hg : ∀ k ≤ 5, (1 + Fmt.single.u) ^ k ≤ 1 + 5.1 * (1 / 16777216) := fun k hk => by
    rw [hu, huv]
    calc (1 + 1 / 16777216 : ℝ) ^ k ≤ (1 + 1 / 16777216) ^ 5 := pow_le_pow_right₀ (by norm_num) hk
      _ ≤ _ := by norm_num
  have hX0 : 0 ≤ ‖Dp‖ ^ 2 := sq_nonneg _
  have hη1 : 0 ≤ η := by rw [hηd]; positivity
  obtain ⟨W, rfl, -, hW0, hWe⟩ := normFl_bound Fmt.single (by decide) (fun i => Dp i) (X := ‖Dp‖ ^ 2) (k := 0) hX0 (by rw [hX]; simp) (by
    rw [hη, ← hηd]
    refine le_trans (mul_le_mul_of_nonneg_right (hg _ (by norm_num)) (by positivity)) ?_
    push_cast
    linarith) hw
  rw [hη, ← hηd] at hWe
  have hg4 : (1 + Fmt.single.u) ^ (2 + 0 + 2) ≤ 1 + 5.1 * (1 / 16777216) := hg _ (by norm_num)
  have h5 : ((1 + Fmt.single.u) ^ (2 + 0 + 2) - 1) * ‖Dp‖ ^ 2 ≤ 5.1 * (1 / 16777216) * ‖Dp‖ ^ 2 := mul_le_mul_of_nonneg_right (by linarith) hX0
  have h6 : (1 + Fmt.single.u) ^ (2 + 0 + 2) * (((2 : ℕ) : ℝ) * η) ≤ 2 * (2 * η) := by
    push_cast
    exact mul_le_mul_of_nonneg_right (by linarith) (by positivity)
  have h7 := (abs_le.mp (hWe.trans (add_le_add h5 h6))).2
  rw [hbw, fin_lt]
  refine lt_of_pow_lt_pow_left₀ 2 hr0.le ?_
  linarith

/-- A dot product is exact if all partial sums are numbers of the format. -/
theorem flDot_exact (F : Fmt) {l : Multiset (XR × XR)} {s : XR} (h : FlDot F l s) (hl : ∀ q ∈ l, ∃ a b : ℝ, q = (fin a, fin b))
    (hs : ∀ m ≤ l, F.Rep (dotSum m) ∧ |dotSum m| < 2 ^ (F.emax + 1)) : s = fin (dotSum l) := by
  have hadd : ∀ l m : Multiset (XR × XR), dotSum (l + m) = dotSum l + dotSum m := fun l m => by simp [dotSum]
  have hone : ∀ a b : ℝ, dotSum {(fin a, fin b)} = a * b := fun a b => by simp [dotSum, rePart]
  induction h with
  | zero => simp [dotSum]
  | mul w y =>
    obtain ⟨a, b, hq⟩ := hl _ (Multiset.mem_singleton_self _)
    rw [Prod.mk.injEq] at hq
    obtain ⟨rfl, rfl⟩ := hq
    have h1 := hs _ le_rfl
    rw [hone] at h1 ⊢
    rw [Fmt.mul, fin_mul, F.rnd_rep h1.1 h1.2]
  | @add l m a b _ _ ih1 ih2 =>
    have h1 := hs _ le_rfl
    rw [ih1 (fun q hq => hl q (Multiset.mem_add.mpr (.inl hq))) fun m' hm' => hs m' (hm'.trans (Multiset.le_add_right _ _)),
      ih2 (fun q hq => hl q (Multiset.mem_add.mpr (.inr hq))) fun m' hm' => hs m' (hm'.trans (Multiset.le_add_left _ _)), hadd]
    rw [hadd] at h1
    rw [Fmt.add, fin_add, F.rnd_rep h1.1 h1.2]
  | fma w y _ ih =>
    obtain ⟨a, b, hq⟩ := hl (w, y) (Multiset.mem_add.mpr (.inr (Multiset.mem_singleton_self _)))
    rw [Prod.mk.injEq] at hq
    obtain ⟨rfl, rfl⟩ := hq
    have h1 := hs _ le_rfl
    rw [ih (fun q hq => hl q (Multiset.mem_add.mpr (.inl hq))) fun m' hm' => hs m' (hm'.trans (Multiset.le_add_right _ _)), hadd, hone]
    rw [hadd, hone] at h1
    rw [fin_mul, fin_add, F.rnd_rep h1.1 h1.2]

/-- **C181, points of a disk, near the boundary**. For the last number below one as second coordinate, `includes` is false of the computed sample of
the disk of radius `5 / 4` about the origin; it is true of the exact sample. -/
theorem C181_not_included {cosL sinL : XR → XR} (hcos : cosL (fin 0) = fin 1) (hsin : sinL (fin 0) = fin 0) (c : ℝ) :
    Fmt.single.Rep (1 - 2 ^ (-24 : ℤ)) ∧
    (∀ b : Prop, SphericalIncludesFl Fmt.single (fin (5 / 4)) (efin (0 : Pt 2))
      (transformCircleFl Fmt.single cosL sinL (fin c) (efin (!₂[0, 1 - 2 ^ (-24 : ℤ)] : Pt 2)) (fin (5 / 4)) (efin (0 : Pt 2))) b → ¬ b) ∧
    spherical.includes (fin (5 / 4)) (efin (0 : Pt 2)) (transformCircle (efin (!₂[0, 1 - 2 ^ (-24 : ℤ)] : Pt 2)) (fin (5 / 4)) (efin (0 : Pt 2))) := by
  have h24 : (1 : ℝ) - 2 ^ (-24 : ℤ) = 16777215 / 16777216 := by norm_num
  rw [h24]
  have hfr : Int.fract (16777215 / 16777216 : ℝ) = 16777215 / 16777216 := Int.fract_eq_self.mpr ⟨by norm_num, by norm_num⟩
  have hsm : ∀ y : ℝ, |y| ≤ 1024 → Fmt.single.rnd (fin y) = fin (Fmt.single.rndR y) := fun y hy => by
    refine Fmt.single.rnd_fin (hy.trans ?_)
    calc (1024 : ℝ) = 2 ^ (10 : ℤ) := by norm_num
      _ ≤ 2 ^ (127 : ℤ) := zpow_le_zpow_right₀ (by norm_num) (by norm_num)
  have r0 : Fmt.single.rndR 0 = 0 := Fmt.rndR_zero _
  have rep54 : Fmt.single.Rep (5 / 4) := ⟨5, -2, by norm_num [Fmt.single], by decide, by norm_num⟩
  have rep2516 : Fmt.single.Rep (25 / 16) := ⟨25, -4, by norm_num [Fmt.single], by decide, by norm_num⟩
  have r54 := Fmt.single.rndR_rep rep54
  have r2516 := Fmt.single.rndR_rep rep2516
  have q1 : Fmt.single.rndR (16777215 / 16777216 * (25 / 16)) = 13107199 / 8388608 := by
    rw [single_eq 0 13107199 (by norm_num) (by norm_num) (by norm_num) (by norm_num) (by norm_num)]
    norm_num
  have q2 : Fmt.single.rndR (13107199 / 8388608) = 13107199 / 8388608 :=
    Fmt.single.rndR_rep ⟨13107199, -23, by norm_num [Fmt.single], by decide, by norm_num⟩
  have q3 : Fmt.single.rndR (Real.sqrt (13107199 / 8388608)) = 5 / 4 := by
    rw [single_eq 0 10485760 (Real.le_sqrt_of_sq_le (by norm_num)) ((Real.sqrt_lt' (by norm_num)).mpr (by norm_num)) (by norm_num)
      (Real.lt_sqrt_of_sq_lt (by norm_num)) ((Real.sqrt_lt' (by norm_num)).mpr (by norm_num))]
    norm_num
  refine ⟨⟨16777215, -24, by norm_num [Fmt.single], by decide, by norm_num⟩, fun b hb hbt => ?_, ?_⟩
  · have z0 : Fmt.single.mul (fin 0) (fin 0) = fin 0 := by rw [Fmt.mul, fin_mul, mul_zero, hsm _ (by norm_num), r0]
    have hrad : annulusRadiusFl Fmt.single (fin (16777215 / 16777216)) (fin 0) (fin (5 / 4)) = fin (5 / 4) := by
      rw [annulusRadiusFl, z0, Fmt.mul, Fmt.mul, fin_mul, show (5 / 4 : ℝ) * (5 / 4) = 25 / 16 by norm_num, hsm (25 / 16) (by norm_num [abs_of_pos]), r2516,
        Fmt.sub, fin_sub, sub_zero, hsm (25 / 16) (by norm_num [abs_of_pos]), r2516, fin_mul, hsm _ (by norm_num [abs_of_pos]), q1,
        Fmt.add, fin_add, add_zero, hsm _ (by norm_num [abs_of_pos]), q2, Fmt.sqrt, fin_sqrt (by norm_num), hsm _ (by
          rw [abs_of_nonneg (Real.sqrt_nonneg _), Real.sqrt_le_left (by norm_num)]; norm_num), q3]
    have hV : transformCircleFl Fmt.single cosL sinL (fin c) (efin (!₂[0, 16777215 / 16777216] : Pt 2)) (fin (5 / 4)) (efin (0 : Pt 2)) =
        efin (!₂[5 / 4, 0] : Pt 2) := by
      have hphi : Fmt.single.mul (fin c) (fin 0) = fin 0 := by
        rw [Fmt.mul, fin_mul, mul_zero, hsm _ (by norm_num), r0]
      funext i
      show Fmt.single.add (Fmt.single.mul (annulusRadiusFl Fmt.single (Fmt.single.mod1 (fin (16777215 / 16777216))) (fin 0) (fin (5 / 4)))
        ((![cosL (Fmt.single.mul (fin c) (Fmt.single.mod1 (fin 0))), sinL (Fmt.single.mul (fin c) (Fmt.single.mod1 (fin 0)))] : Vec 2) i)) (fin 0) = _
      rw [mod1_of_nonneg _ (by norm_num), hfr, mod1_of_nonneg _ le_rfl, Int.fract_zero, hphi, hcos, hsin, hrad]
      fin_cases i
      · show Fmt.single.add (Fmt.single.mul (fin (5 / 4)) (fin 1)) (fin 0) = fin (5 / 4)
        rw [Fmt.mul, fin_mul, mul_one, hsm _ (by norm_num [abs_of_pos]), r54, Fmt.add, fin_add, add_zero, hsm _ (by norm_num [abs_of_pos]), r54]
      · show Fmt.single.add (Fmt.single.mul (fin (5 / 4)) (fin 0)) (fin 0) = fin 0
        rw [Fmt.mul, fin_mul, mul_zero, hsm _ (by norm_num), r0, Fmt.add, fin_add, add_zero, hsm _ (by norm_num), r0]
    obtain ⟨w, hw, hbw⟩ := hb
    have hD : (fun i => Fmt.single.sub (efin (!₂[5 / 4, 0] : Pt 2) i) (efin (0 : Pt 2) i)) = efin (!₂[5 / 4, 0] : Pt 2) := by
      funext i
      fin_cases i
      · show Fmt.single.sub (fin (5 / 4)) (fin 0) = fin (5 / 4)
        rw [Fmt.sub, fin_sub, sub_zero, hsm _ (by norm_num [abs_of_pos]), r54]
      · show Fmt.single.sub (fin 0) (fin 0) = fin 0
        rw [Fmt.sub, fin_sub, sub_zero, hsm _ (by norm_num), r0]
    rw [hV, hD] at hw
    obtain ⟨s, hs, rfl⟩ := hw
    have e : squaresFl (efin (!₂[5 / 4, 0] : Pt 2)) = {(fin (5 / 4), fin (5 / 4)), (fin 0, fin 0)} := by
      rw [squaresFl, Fin.univ_val_map]
      rfl
    rw [e] at hs
    have hbig : (25 / 16 : ℝ) < 2 ^ (Fmt.single.emax + 1) := by
      calc (25 / 16 : ℝ) < 2 ^ (1 : ℤ) := by norm_num
        _ ≤ _ := zpow_le_zpow_right₀ (by norm_num) (by decide)
    have key := flDot_exact Fmt.single hs (fun q hq => by
      simp only [Multiset.insert_eq_cons, Multiset.mem_cons, Multiset.mem_singleton] at hq
      rcases hq with rfl | rfl <;> exact ⟨_, _, rfl⟩) (fun m hm => by
        have hcase : dotSum m = 0 ∨ dotSum m = 25 / 16 := by
          have : m ∈ Multiset.powerset {(fin (5 / 4 : ℝ), fin (5 / 4 : ℝ)), (fin (0 : ℝ), fin (0 : ℝ))} := Multiset.mem_powerset.mpr hm
          simp only [Multiset.insert_eq_cons, Multiset.powerset_cons, Multiset.mem_add, Multiset.mem_map] at this
          rw [← Multiset.cons_zero, Multiset.powerset_cons, Multiset.powerset_zero] at this
          simp only [Multiset.mem_add, Multiset.mem_map, Multiset.mem_singleton] at this
          rcases this with (rfl | ⟨_, rfl, rfl⟩) | ⟨_, (rfl | ⟨_, rfl, rfl⟩), rfl⟩
          · left; simp [dotSum]
          · left; simp [dotSum, rePart]
          · right; simp [dotSum, rePart]; norm_num
          · right; simp [dotSum, rePart]; norm_num
        rcases hcase with h | h
        · rw [h, abs_zero]; exact ⟨Fmt.single.rep_zero, by positivity⟩
        · rw [h, abs_of_pos (by norm_num)]; exact ⟨rep2516, hbig⟩)
    have hsum : dotSum {(fin (5 / 4 : ℝ), fin (5 / 4 : ℝ)), (fin (0 : ℝ), fin (0 : ℝ))} = 25 / 16 := by
      simp [dotSum, rePart]; norm_num
    rw [hsum] at key
    have hsq : Real.sqrt (25 / 16) = 5 / 4 := by
      rw [show (25 / 16 : ℝ) = (5 / 4) ^ 2 by norm_num, Real.sqrt_sq (by norm_num)]
    rw [hbw, key, Fmt.sqrt, fin_sqrt (by norm_num), hsq, hsm _ (by norm_num [abs_of_pos]), r54, fin_lt] at hbt
    exact lt_irrefl _ hbt
  · have hY : transformCircle (efin (!₂[0, 16777215 / 16777216] : Pt 2)) (fin (5 / 4)) (efin (0 : Pt 2)) =
        efin (!₂[Real.sqrt (16777215 / 16777216 * (25 / 16)), 0] : Pt 2) := by
      have e1 : sqrt (mod1 (fin (16777215 / 16777216)) * (fin (5 / 4) ^ 2 - 0 ^ 2) + 0 ^ 2) = fin (Real.sqrt (16777215 / 16777216 * (25 / 16))) := by
        rw [show mod1 (fin (16777215 / 16777216)) = fin (Int.fract (16777215 / 16777216)) from rfl, hfr, zero_eq, fin_npow, fin_npow,
          fin_sub, fin_mul, fin_add, fin_sqrt (by norm_num)]
        norm_num
      have e2 : 2 * fin Real.pi * mod1 (fin 0) = fin 0 := by
        rw [show mod1 (fin 0) = fin (Int.fract 0) from rfl, Int.fract_zero, show (2 : XR) = fin 2 from ofNat_eq 2, fin_mul, fin_mul, mul_zero]
      funext i
      rw [transformCircle, transformAnnulus]
      show (![sqrt (mod1 (fin (16777215 / 16777216)) * (fin (5 / 4) ^ 2 - 0 ^ 2) + 0 ^ 2) * cos (2 * fin Real.pi * mod1 (fin 0)) + fin 0,
        sqrt (mod1 (fin (16777215 / 16777216)) * (fin (5 / 4) ^ 2 - 0 ^ 2) + 0 ^ 2) * sin (2 * fin Real.pi * mod1 (fin 0)) + fin 0] : Vec 2) i = _
      rw [e1, e2, fin_cos, fin_sin, Real.cos_zero, Real.sin_zero, fin_mul, fin_mul, fin_add, fin_add, mul_one, mul_zero, add_zero, add_zero]
      fin_cases i <;> rfl
    rw [hY, spherical.includes]
    have hS : (fun i => efin (!₂[Real.sqrt (16777215 / 16777216 * (25 / 16)), 0] : Pt 2) i - efin (0 : Pt 2) i) =
        efin (!₂[Real.sqrt (16777215 / 16777216 * (25 / 16)), 0] : Pt 2) := by
      funext i
      fin_cases i <;> simp [efin]
    rw [hS, vnorm_efin, fin_lt, EuclideanSpace.norm_eq, Real.sqrt_lt' (by norm_num), Fin.sum_univ_two]
    show ‖Real.sqrt (16777215 / 16777216 * (25 / 16))‖ ^ 2 + ‖(0 : ℝ)‖ ^ 2 < _
    rw [Real.norm_of_nonneg (Real.sqrt_nonneg _), Real.sq_sqrt (by norm_num)]
    norm_num

/-! ### Concrete cases -/

/-- Correctly rounded cosines and sines in single precision. -/
theorem trig_single : TrigAcc Fmt.single (fun t => Fmt.single.rnd (cos t)) (fun t => Fmt.single.rnd (sin t)) 13 (2 ^ (-22 : ℤ)) := by
  have key : ∀ y : ℝ, |y| ≤ 1 → ∃ c, Fmt.single.rnd (fin y) = fin c ∧ |c - y| ≤ 2 ^ (-22 : ℤ) := fun y hy => by
    refine ⟨_, Fmt.single.rnd_fin (hy.trans ?_), ?_⟩
    · calc (1 : ℝ) = 2 ^ (0 : ℤ) := by norm_num
        _ ≤ 2 ^ (127 : ℤ) := zpow_le_zpow_right₀ (by norm_num) (by norm_num)
    · have h1 := rndR_mixed Fmt.single y
      have h2 : |y| * Fmt.single.u ≤ 1 * 2 ^ (-24 : ℤ) := mul_le_mul_of_nonneg_right hy (by positivity)
      have h3 : Fmt.single.η ≤ 2 ^ (-24 : ℤ) := zpow_le_zpow_right₀ (by norm_num) (by decide)
      have h4 : (2 : ℝ) ^ (-22 : ℤ) = 4 * 2 ^ (-24 : ℤ) := by norm_num
      have h5 : (0 : ℝ) < 2 ^ (-24 : ℤ) := by positivity
      linarith
  exact ⟨fun t _ _ => key _ (Real.abs_cos_le_one t), fun t _ _ => key _ (Real.abs_sin_le_one t)⟩

/-- The constant `4 * pi` rounded to single precision. -/
theorem four_pi_single : |Fmt.single.rndR (4 * Real.pi) - 4 * Real.pi| ≤ 13 * 2 ^ (-24 : ℤ) := by
  have h1 : _ ≤ _ * Fmt.single.u + Fmt.single.η := rndR_mixed Fmt.single (4 * Real.pi)
  have h2 := Real.pi_lt_d2
  have h3 := Real.pi_pos
  rw [abs_of_pos (by positivity : 0 < 4 * Real.pi)] at h1
  have h4 : Fmt.single.η ≤ 1 / 100 * 2 ^ (-24 : ℤ) := by rw [single_η]; norm_num
  have h5 : 4 * Real.pi * Fmt.single.u ≤ 12.6 * 2 ^ (-24 : ℤ) := mul_le_mul_of_nonneg_right (by linarith) (by positivity)
  exact (h1.trans (add_le_add h5 h4)).trans (by norm_num)

theorem two_pi_single : |Fmt.single.rndR (2 * Real.pi) - 2 * Real.pi| ≤ 13 * Fmt.single.u := by
  have h1 : _ ≤ _ * Fmt.single.u + Fmt.single.η := rndR_mixed Fmt.single (2 * Real.pi)
  have h2 := Real.pi_lt_d2
  have h3 := Real.pi_pos
  rw [abs_of_pos (by positivity : 0 < 2 * Real.pi)] at h1
  have h4 : Fmt.single.η ≤ 1 / 100 * 2 ^ (-24 : ℤ) := by rw [single_η]; norm_num
  have h5 : 2 * Real.pi * Fmt.single.u ≤ 6.3 * 2 ^ (-24 : ℤ) := mul_le_mul_of_nonneg_right (by linarith) (by positivity)
  rw [single_u]
  exact (h1.trans (add_le_add h5 h4)).trans (by norm_num)

theorem rep_int (n : ℤ) (h : |n| < 2 ^ 24) : Fmt.single.Rep n := ⟨n, 0, by simpa [Fmt.single] using h, by decide, by simp⟩

theorem rep_centre : ∀ i, Fmt.single.Rep ((!₂[3, -1] : Pt 2) i) := fun i => by
  fin_cases i
  · simpa using rep_int 3 (by norm_num)
  · simpa using rep_int (-1) (by norm_num)

theorem centre_le : ∀ i, |(!₂[3, -1] : Pt 2) i| ≤ 3 := fun i => by fin_cases i <;> simp

theorem big_single : (1000 : ℝ) ≤ 2 ^ (Fmt.single.emax - 1) ∧ (1000 : ℝ) ≤ 2 ^ Fmt.single.emax := by
  constructor
  · calc (1000 : ℝ) ≤ 2 ^ (10 : ℤ) := by norm_num
      _ ≤ _ := zpow_le_zpow_right₀ (by norm_num) (by decide)
  · calc (1000 : ℝ) ≤ 2 ^ (10 : ℤ) := by norm_num
      _ ≤ _ := zpow_le_zpow_right₀ (by norm_num) (by decide)

/-- A circle of radius two about `(3, -1)` in single precision: every sample is at the distance two up to `2 ^ (-19)`. -/
example (s : ℝ) (h0 : 0 ≤ s) : ∃ V : Pt 2, transformCircleBndFl Fmt.single (fun t => Fmt.single.rnd (cos t)) (fun t => Fmt.single.rnd (sin t))
    (fin (Fmt.single.rndR (4 * Real.pi))) (fin s) (fin 2) (efin (!₂[3, -1] : Pt 2)) = efin V ∧ |‖V - !₂[3, -1]‖ - 2| ≤ 2 ^ (-19 : ℤ) := by
  obtain ⟨V, -, h1, -, -, h2, -⟩ := C181_circle (F := Fmt.single) (by decide) (by decide) (by decide) (by norm_num) trig_single four_pi_single
    h0 (r := 2) (by norm_num) !₂[3, -1] rep_centre centre_le (by linarith [big_single.2])
  refine ⟨V, h1, h2.trans ?_⟩
  rw [single_η, single_u]
  norm_num

/-- The radius of a sample of the annulus with radii one and three. -/
example : ∃ ρ : ℝ, annulusRadiusFl Fmt.single (fin (3 / 4)) (fin 1) (fin 3) = fin ρ ∧ 1 ≤ ρ ∧ ρ ≤ 3 := by
  obtain ⟨ρ, h1, -, h2, h3⟩ := C181_radius (F := Fmt.single) (x := 3 / 4) (r1 := 1) (r2 := 3) ⟨3, -2, by norm_num [Fmt.single], by decide, by norm_num⟩
    (by norm_num) (by norm_num) (by simpa using rep_int 1 (by norm_num)) (by simpa using rep_int 3 (by norm_num)) (by norm_num) (k := 0) (by decide)
    (.inr (by norm_num)) (by norm_num) (by linarith [big_single.1])
  exact ⟨ρ, h1, h2, h3⟩

/-- A disk of radius two about `(3, -1)` in single precision: no sample is outside by more than `2 ^ (-19)`. -/
example (x : Pt 2) (hx : ∀ i, Fmt.single.Rep (x i)) (hx0 : ∀ i, 0 ≤ x i) :
    ∃ V : Pt 2, transformCircleFl Fmt.single (fun t => Fmt.single.rnd (cos t)) (fun t => Fmt.single.rnd (sin t))
      (fin (Fmt.single.rndR (2 * Real.pi))) (efin x) (fin 2) (efin (!₂[3, -1] : Pt 2)) = efin V ∧ ‖V - !₂[3, -1]‖ ≤ 2 + 2 ^ (-19 : ℤ) := by
  obtain ⟨V, h1, -, h2⟩ := C181_annulus (F := Fmt.single) (by decide) (by decide) (by decide) (by norm_num) trig_single two_pi_single x hx hx0
    (r1 := 0) (r2 := 2) Fmt.single.rep_zero (by simpa using rep_int 2 (by norm_num)) (by norm_num) (k := 0) (by decide) (.inl rfl) (by norm_num)
    (by linarith [big_single.1]) !₂[3, -1] rep_centre centre_le (by linarith [big_single.2])
  refine ⟨V, h1, h2.trans ?_⟩
  rw [single_η, single_u]
  norm_num

/-- The sample `(0, 1 / 2)` of this disk is recognised as a point of the disk. -/
example (b : Prop) (hb : SphericalIncludesFl Fmt.single (fin 2) (efin (!₂[3, -1] : Pt 2)) (transformCircleFl Fmt.single (fun t => Fmt.single.rnd (cos t))
    (fun t => Fmt.single.rnd (sin t)) (fin (Fmt.single.rndR (2 * Real.pi))) (efin (!₂[0, 1 / 2] : Pt 2)) (fin 2) (efin (!₂[3, -1] : Pt 2))) b) : b :=
  C181_included trig_single two_pi_single !₂[0, 1 / 2] (fun i => by fin_cases i <;> simp) (by
    show Int.fract (1 / 2 : ℝ) ≤ _
    rw [Int.fract_eq_self.mpr ⟨by norm_num, by norm_num⟩]
    norm_num) (by norm_num) (by norm_num) _ rep_centre (fun i => (centre_le i).trans (by norm_num)) hb

/-- A sphere of radius two about `(3, -1, 2)` in single precision. -/
example (x : Pt 2) (hx : Fmt.single.Rep (x 0)) (hx0 : ∀ i, 0 ≤ x i) :
    ∃ V : Pt 3, transformSphereBndFl Fmt.single (fun t => Fmt.single.rnd (cos t)) (fun t => Fmt.single.rnd (sin t)) (fun t => Fmt.single.rnd (sqrt t))
      (fin (Fmt.single.rndR (2 * Real.pi))) (efin x) (fin 2) (efin (!₂[3, -1, 2] : Pt 3)) = efin V ∧ |‖V - !₂[3, -1, 2]‖ - 2| ≤ 2 ^ (-17 : ℤ) := by
  obtain ⟨V, h1, h2⟩ := C181_sphere (F := Fmt.single) (by decide) (by decide) (by decide) (by norm_num) trig_single
    (powL := fun t => Fmt.single.rnd (sqrt t)) (fun t _ h0 h1 => by
      have hs0 := Real.sqrt_nonneg t
      have hs1 : Real.sqrt t ≤ 1 := Real.sqrt_le_one.mpr h1
      refine ⟨Fmt.single.rndR (Real.sqrt t), ?_, ?_⟩
      · show Fmt.single.rnd (XR.sqrt (fin t)) = _
        rw [fin_sqrt h0, Fmt.single.rnd_fin (by rw [abs_of_nonneg hs0]; linarith [big_single.2])]
      · have h3 : _ ≤ _ * Fmt.single.u + Fmt.single.η := rndR_mixed Fmt.single (Real.sqrt t)
        have h4 : |Real.sqrt t| * Fmt.single.u ≤ 1 * 2 ^ (-24 : ℤ) := by
          rw [abs_of_nonneg hs0]; exact mul_le_mul_of_nonneg_right hs1 (by positivity)
        have h5 : Fmt.single.η ≤ 2 ^ (-24 : ℤ) := zpow_le_zpow_right₀ (by norm_num) (by decide)
        exact (h3.trans (add_le_add h4 h5)).trans (by norm_num)) two_pi_single x hx hx0
    (r := 2) (A := 3) (by norm_num) !₂[3, -1, 2] (fun i => by
      fin_cases i
      · simpa using rep_int 3 (by norm_num)
      · simpa using rep_int (-1) (by norm_num)
      · simpa using rep_int 2 (by norm_num)) (fun i => by fin_cases i <;> norm_num) (by linarith [big_single.2])
  refine ⟨V, h1, h2.trans ?_⟩
  rw [single_η, single_u]
  norm_num

/-- The normal at the sample `s = 1 / 8`, at which the exact sample is the top of the circle. -/
example : ∃ (res : Option (Vec 2)) (N : Pt 2), SphericalNormalFl Fmt.single (fin 2) (efin (!₂[3, -1] : Pt 2)) (Fmt.single.const (1 / 10 ^ 5))
    (Fmt.single.const (1 / 10 ^ 8)) (transformCircleBndFl Fmt.single (fun t => Fmt.single.rnd (cos t)) (fun t => Fmt.single.rnd (sin t))
      (fin (Fmt.single.rndR (4 * Real.pi))) (fin (1 / 8)) (fin 2) (efin (!₂[3, -1] : Pt 2))) res ∧ res = some (efin N) ∧
    ‖N - !₂[0, 1]‖ ≤ 2 ^ (-16 : ℤ) := by
  obtain ⟨res, hres⟩ : ∃ res, SphericalNormalFl Fmt.single (fin 2) (efin (!₂[3, -1] : Pt 2)) (Fmt.single.const (1 / 10 ^ 5))
    (Fmt.single.const (1 / 10 ^ 8)) (transformCircleBndFl Fmt.single (fun t => Fmt.single.rnd (cos t)) (fun t => Fmt.single.rnd (sin t))
      (fin (Fmt.single.rndR (4 * Real.pi))) (fin (1 / 8)) (fin 2) (efin (!₂[3, -1] : Pt 2))) res := by
    obtain ⟨s, hs⟩ := exists_flDot Fmt.single (squaresFl fun i => Fmt.single.sub (transformCircleBndFl Fmt.single (fun t => Fmt.single.rnd (cos t))
      (fun t => Fmt.single.rnd (sin t)) (fin (Fmt.single.rndR (4 * Real.pi))) (fin (1 / 8)) (fin 2) (efin (!₂[3, -1] : Pt 2)) i) (efin (!₂[3, -1] : Pt 2) i))
    by_cases h : iscloseTolFl Fmt.single (Fmt.single.const (1 / 10 ^ 5)) (Fmt.single.const (1 / 10 ^ 8)) (Fmt.single.sqrt s) (fin 2)
    · exact ⟨_, _, ⟨s, hs, rfl⟩, .inl ⟨h, rfl⟩⟩
    · exact ⟨_, _, ⟨s, hs, rfl⟩, .inr ⟨h, rfl⟩⟩
  obtain ⟨N, h1, h2⟩ := C181_normal trig_single four_pi_single (by norm_num) (by simpa using rep_int 2 (by norm_num)) (by norm_num) (by norm_num)
    _ rep_centre (fun i => (centre_le i).trans (by norm_num)) hres
  refine ⟨res, N, hres, h1, ?_⟩
  rwa [show 4 * Real.pi * (1 / 8) = Real.pi / 2 by ring, Real.cos_pi_div_two, Real.sin_pi_div_two] at h2

end Verif
