import Mathlib.MeasureTheory.Function.Jacobian
import Mathlib.Analysis.SpecialFunctions.Trigonometric.Deriv
import Mathlib.Analysis.SpecialFunctions.Complex.Arg
import Mathlib.Tactic
import Verif.Props.QuadConv

/-!
# C110: `integrate_disk` and `integrate_sphere` converge to the integrals over disk and ball
-/

namespace Verif

open MeasureTheory Set

variable {E : Type*} [NormedAddCommGroup E] [NormedSpace ℝ E]

/-- Change of variables on a box for a map which is injective in its interior. -/
theorem box_change_of_variables {k : ℕ} {lo hi : Fin k → ℝ} {G : (Fin k → ℝ) → Fin k → ℝ}
    {G' : (Fin k → ℝ) → (Fin k → ℝ) →L[ℝ] Fin k → ℝ} (hG : ∀ p, HasFDerivAt G (G' p) p)
    (hinj : InjOn G (univ.pi fun i => Ioo (lo i) (hi i))) (f : (Fin k → ℝ) → E) :
    ∫ p in G '' Icc lo hi, f p = ∫ p in Icc lo hi, |(G' p).det| • f (G p) := by
  set s := univ.pi fun i => Ioo (lo i) (hi i) with hs
  have hae : s =ᵐ[volume] Icc lo hi := Measure.univ_pi_Ioo_ae_eq_Icc
  have hsub : s ⊆ Icc lo hi := fun p hp => ⟨fun i => (hp i trivial).1.le, fun i => (hp i trivial).2.le⟩
  have himg : G '' s =ᵐ[volume] G '' Icc lo hi := by
    refine (image_mono hsub).eventuallyLE.antisymm ?_
    rw [ae_le_set]
    have h0 : volume (G '' (Icc lo hi \ s)) = 0 := by
      refine addHaar_image_eq_zero_of_differentiableOn_of_addHaar_eq_zero _
        (fun p _ => (hG p).differentiableAt.differentiableWithinAt) ?_
      exact ae_le_set.mp hae.symm.le
    exact measure_mono_null (by rintro _ ⟨⟨p, hp, rfl⟩, h⟩; exact ⟨p, ⟨hp, fun hps => h ⟨p, hps, rfl⟩⟩, rfl⟩) h0
  rw [← setIntegral_congr_set himg, ← setIntegral_congr_set hae]
  exact integral_image_eq_integral_abs_det_fderiv_smul volume (MeasurableSet.univ_pi fun i => measurableSet_Ioo)
    (fun p _ => (hG p).hasFDerivWithinAt) hinj f

/-- Two angles in an interval of length at most `2π` with the same cosine and sine are equal. -/
theorem angle_unique {a b s t : ℝ} (hab : b - a ≤ 2 * Real.pi) (hs : s ∈ Ioo a b) (ht : t ∈ Ioo a b)
    (hc : Real.cos s = Real.cos t) (hsn : Real.sin s = Real.sin t) : s = t := by
  have : (s : Real.Angle) = (t : Real.Angle) := Real.Angle.cos_sin_inj hc hsn
  rw [Real.Angle.angle_eq_iff_two_pi_dvd_sub] at this
  obtain ⟨k, hk⟩ := this
  have hlt : |2 * Real.pi * k| < 2 * Real.pi := by
    rw [← hk, abs_lt]
    constructor <;> linarith [hs.1, hs.2, ht.1, ht.2]
  rw [abs_mul, abs_of_pos Real.two_pi_pos, ← Int.cast_abs] at hlt
  have h1 : ((|k| : ℤ) : ℝ) < 1 := by
    by_contra h
    push Not at h
    nlinarith [Real.two_pi_pos]
  have h2 : |k| < 1 := by exact_mod_cast h1
  rw [Int.abs_lt_one_iff] at h2
  rw [h2] at hk
  simp at hk
  linarith

/-! ## Grids -/

theorem linspace_fine {a b δ : ℝ} (hab : a < b) (hδ : 0 < δ) : ∃ N : ℕ, ∀ n, N ≤ n → FineGrid (linspace a b n) a b δ := by
  obtain ⟨N, hN⟩ := exists_nat_gt ((b - a) / δ)
  refine ⟨N + 2, fun n hn => ?_⟩
  have h2 : 2 ≤ n := by omega
  have hn1 : (N : ℝ) + 1 ≤ (n : ℝ) - 1 := by
    have : ((N + 2 : ℕ) : ℝ) ≤ n := by exact_mod_cast hn
    push_cast at this
    linarith
  have hpos : (0 : ℝ) < (n : ℝ) - 1 := by
    have : (0 : ℝ) ≤ N := Nat.cast_nonneg N
    linarith
  refine ⟨linspace_ne_nil a b h2, by rw [linspace_length]; exact h2, linspace_head a b h2, linspace_getLast a b h2, ?_⟩
  have hne : n ≠ 1 := by omega
  rw [linspace, List.isChain_iff_getElem]
  intro i hi
  simp only [List.length_map, List.length_range] at hi
  simp only [List.getElem_map, List.getElem_range, if_neg hne]
  have hstep : 0 < (b - a) / ((n : ℝ) - 1) := div_pos (by linarith) hpos
  push_cast
  refine ⟨by nlinarith, ?_⟩
  have : (b - a) / ((n : ℝ) - 1) ≤ δ := by
    rw [div_le_iff₀ hpos]
    rw [div_lt_iff₀ hδ] at hN
    nlinarith
  linarith

/-! ## Disk -/

/-- Spec: the points of the annular sector with centre `o`, radii in `[r₁, r₂]` and polar angles in `[φ₁, φ₂]`. -/
def annularSector (o : ℝ × ℝ) (r₁ r₂ φ₁ φ₂ : ℝ) : Set (Fin 2 → ℝ) :=
  {p | ∃ ρ ∈ Icc r₁ r₂, ∃ φ ∈ Icc φ₁ φ₂, p = ![o.1 + ρ * Real.cos φ, o.2 + ρ * Real.sin φ]}

/-- Spec: the disk with centre `o` and radius `r`. -/
def closedDisk (o : ℝ × ℝ) (r : ℝ) : Set (Fin 2 → ℝ) := {p | (p 0 - o.1) ^ 2 + (p 1 - o.2) ^ 2 ≤ r ^ 2}

/-- The default arguments `r_inner = 0`, `phi1 = 0`, `phi2 = 2 pi` give the whole disk. -/
theorem annularSector_full (o : ℝ × ℝ) {r : ℝ} (hr : 0 ≤ r) :
    annularSector o 0 r 0 (2 * Real.pi) = closedDisk o r := by
  ext p
  constructor
  · rintro ⟨ρ, hρ, φ, -, rfl⟩
    simp only [closedDisk, mem_ofPred_eq, Matrix.cons_val_zero, Matrix.cons_val_one, Matrix.cons_val_fin_one]
    have := Real.sin_sq_add_cos_sq φ
    have e : (o.1 + ρ * Real.cos φ - o.1) ^ 2 + (o.2 + ρ * Real.sin φ - o.2) ^ 2 = ρ ^ 2 := by
      linear_combination ρ ^ 2 * this
    rw [e]
    exact pow_le_pow_left₀ hρ.1 hρ.2 2
  · intro hp
    simp only [closedDisk, mem_ofPred_eq] at hp
    set z : ℂ := ⟨p 0 - o.1, p 1 - o.2⟩ with hz
    have hn : ‖z‖ ^ 2 = (p 0 - o.1) ^ 2 + (p 1 - o.2) ^ 2 := by
      rw [← Complex.normSq_eq_norm_sq, Complex.normSq_apply]; ring
    have hnr : ‖z‖ ≤ r := by
      rw [← abs_of_nonneg hr, ← abs_of_nonneg (norm_nonneg z), ← sq_le_sq, hn]; exact hp
    have hre : ‖z‖ * Real.cos z.arg = p 0 - o.1 := Complex.norm_mul_cos_arg z
    have him : ‖z‖ * Real.sin z.arg = p 1 - o.2 := Complex.norm_mul_sin_arg z
    have hp2 : p = ![p 0, p 1] := by funext i; fin_cases i <;> rfl
    rcases le_or_gt 0 z.arg with h0 | h0
    · refine ⟨‖z‖, ⟨norm_nonneg z, hnr⟩, z.arg, ⟨h0, ?_⟩, ?_⟩
      · linarith [Complex.arg_le_pi z, Real.pi_pos]
      · rw [hre, him, hp2]; simp
    · refine ⟨‖z‖, ⟨norm_nonneg z, hnr⟩, z.arg + 2 * Real.pi, ⟨?_, by linarith⟩, ?_⟩
      · linarith [Complex.neg_pi_lt_arg z, Real.pi_pos]
      · rw [Real.cos_add_two_pi, Real.sin_add_two_pi, hre, him, hp2]; simp

theorem ofPair_continuousOn {o : ℝ × ℝ} {r₁ r₂ φ₁ φ₂ : ℝ} {f : (Fin 2 → ℝ) → E}
    (hf : ContinuousOn f (annularSector o r₁ r₂ φ₁ φ₂)) :
    ContinuousOn (fun u : Fin 2 → ℝ => u 0 • f ![o.1 + u 0 * Real.cos (u 1), o.2 + u 0 * Real.sin (u 1)])
      (Icc ![r₁, φ₁] ![r₂, φ₂]) := by
  refine ContinuousOn.smul (continuous_apply 0).continuousOn ?_
  refine hf.comp (Continuous.continuousOn ?_) ?_
  · refine continuous_pi fun i => ?_
    fin_cases i <;> simp <;> fun_prop
  · intro u hu
    exact ⟨u 0, ⟨hu.1 0, hu.2 0⟩, u 1, ⟨hu.1 1, hu.2 1⟩, rfl⟩

/-- Polar coordinates. -/
theorem polar_integral (o : ℝ × ℝ) {r₁ r₂ φ₁ φ₂ : ℝ} (h0 : 0 ≤ r₁) (h2 : φ₂ - φ₁ ≤ 2 * Real.pi) (f : (Fin 2 → ℝ) → E) :
    ∫ p in annularSector o r₁ r₂ φ₁ φ₂, f p =
      ∫ u in Icc ![r₁, φ₁] ![r₂, φ₂], u 0 • f ![o.1 + u 0 * Real.cos (u 1), o.2 + u 0 * Real.sin (u 1)] := by
  set G : (Fin 2 → ℝ) → Fin 2 → ℝ := fun u => ![o.1 + u 0 * Real.cos (u 1), o.2 + u 0 * Real.sin (u 1)] with hGdef
  set M : (Fin 2 → ℝ) → Matrix (Fin 2) (Fin 2) ℝ := fun u =>
    !![Real.cos (u 1), -(u 0 * Real.sin (u 1)); Real.sin (u 1), u 0 * Real.cos (u 1)] with hM
  have himg : annularSector o r₁ r₂ φ₁ φ₂ = G '' Icc ![r₁, φ₁] ![r₂, φ₂] := by
    ext p
    constructor
    · rintro ⟨ρ, hρ, φ, hφ, rfl⟩
      refine ⟨![ρ, φ], ⟨?_, ?_⟩, by simp [hGdef]⟩ <;> (intro i; fin_cases i)
      exacts [hρ.1, hφ.1, hρ.2, hφ.2]
    · rintro ⟨u, hu, rfl⟩
      exact ⟨u 0, ⟨hu.1 0, hu.2 0⟩, u 1, ⟨hu.1 1, hu.2 1⟩, rfl⟩
  have hG : ∀ u, HasFDerivAt G (LinearMap.toContinuousLinearMap (Matrix.toLin' (M u))) u := by
    intro u
    have p0 : HasFDerivAt (fun u : Fin 2 → ℝ => u 0) (ContinuousLinearMap.proj 0 : (Fin 2 → ℝ) →L[ℝ] ℝ) u := hasFDerivAt_apply 0 u
    have p1 : HasFDerivAt (fun u : Fin 2 → ℝ => u 1) (ContinuousLinearMap.proj 1 : (Fin 2 → ℝ) →L[ℝ] ℝ) u := hasFDerivAt_apply 1 u
    rw [hasFDerivAt_pi']
    intro i
    fin_cases i
    · refine ((p0.mul p1.cos).const_add o.1).congr_fderiv ?_
      ext v
      simp [hM, Matrix.toLin'_apply, dotProduct, Fin.sum_univ_two]
      ring
    · refine ((p0.mul p1.sin).const_add o.2).congr_fderiv ?_
      ext v
      simp [hM, Matrix.toLin'_apply, dotProduct, Fin.sum_univ_two]
      ring
  have hdet : ∀ u, (LinearMap.toContinuousLinearMap (Matrix.toLin' (M u))).det = u 0 := by
    intro u
    rw [ContinuousLinearMap.det, LinearMap.coe_toContinuousLinearMap, LinearMap.det_toLin', hM, Matrix.det_fin_two_of]
    linear_combination u 0 * Real.sin_sq_add_cos_sq (u 1)
  rw [himg, box_change_of_variables hG]
  · refine setIntegral_congr_fun measurableSet_Icc fun u hu => ?_
    simp only [hdet]
    rw [abs_of_nonneg (h0.trans (hu.1 0))]
  · intro u hu v hv huv
    have hu0 : 0 < u 0 := h0.trans_lt (hu 0 trivial).1
    have hv0 : 0 < v 0 := h0.trans_lt (hv 0 trivial).1
    have e0 : u 0 * Real.cos (u 1) = v 0 * Real.cos (v 1) := by simpa [hGdef] using congrFun huv 0
    have e1 : u 0 * Real.sin (u 1) = v 0 * Real.sin (v 1) := by simpa [hGdef] using congrFun huv 1
    have hsq : u 0 ^ 2 = v 0 ^ 2 := by
      have a := Real.sin_sq_add_cos_sq (u 1)
      have b := Real.sin_sq_add_cos_sq (v 1)
      have c : (u 0 * Real.cos (u 1)) ^ 2 + (u 0 * Real.sin (u 1)) ^ 2 =
        (v 0 * Real.cos (v 1)) ^ 2 + (v 0 * Real.sin (v 1)) ^ 2 := by rw [e0, e1]
      linear_combination c - u 0 ^ 2 * a + v 0 ^ 2 * b
    have h01 : u 0 = v 0 := by
      rwa [sq_eq_sq₀ hu0.le hv0.le] at hsq
    rw [h01] at e0 e1
    have h11 : u 1 = v 1 := angle_unique h2 (hu 1 trivial) (hv 1 trivial) (mul_left_cancel₀ hv0.ne' e0)
      (mul_left_cancel₀ hv0.ne' e1)
    funext i
    fin_cases i
    exacts [h01, h11]

variable [CompleteSpace E]

/-- Spec: with the rule and more and more nodes in both directions, `integrate_disk` converges to the integral over
the annular sector. -/
def DiskConverges (rule : QuadRule) (f : (Fin 2 → ℝ) → E) (o : ℝ × ℝ) (r₁ r₂ φ₁ φ₂ : ℝ) : Prop :=
  ∀ ε > 0, ∃ N : ℕ, ∀ n₁ n₂, N ≤ n₁ → N ≤ n₂ →
    ‖(∫ p in annularSector o r₁ r₂ φ₁ φ₂, f p) -
      integrateDisk (fun x y => f ![x, y]) r₂ o (n₁, n₂) r₁ φ₁ φ₂ rule‖ ≤ ε

theorem diskConverges_of {rule : QuadRule} (hq : CellRule rule E) {f : (Fin 2 → ℝ) → E} {o : ℝ × ℝ} {r₁ r₂ φ₁ φ₂ : ℝ}
    (h0 : 0 ≤ r₁) (hr : r₁ < r₂) (hφ : φ₁ < φ₂) (h2 : φ₂ - φ₁ ≤ 2 * Real.pi)
    (hf : ContinuousOn f (annularSector o r₁ r₂ φ₁ φ₂)) : DiskConverges rule f o r₁ r₂ φ₁ φ₂ := by
  intro ε hε
  have hle : (![r₁, φ₁] : Fin 2 → ℝ) ≤ ![r₂, φ₂] := by
    intro i; fin_cases i
    exacts [hr.le, hφ.le]
  obtain ⟨δ, hδ, h⟩ := convergesN_of hq hle (ofPair_continuousOn hf) ε hε
  obtain ⟨N₁, hN₁⟩ := linspace_fine hr hδ
  obtain ⟨N₂, hN₂⟩ := linspace_fine hφ hδ
  refine ⟨max N₁ N₂, fun n₁ n₂ h₁ h₂ => ?_⟩
  have := h ![linspace r₁ r₂ n₁, linspace φ₁ φ₂ n₂] (by
    intro i; fin_cases i
    exacts [hN₁ n₁ (le_of_max_le_left h₁), hN₂ n₂ (le_of_max_le_right h₂)])
  rw [polar_integral o h0 h2, integrateDisk]
  convert this using 4
  · funext u
    simp only [integrateDisk.g]
    rw [add_comm o.1, add_comm o.2]
    rfl
  · simp [List.ofFn_succ]

/-- **C110** (disk). `integrate_disk` converges to the integral over the annular sector (area measure of the plane) for
every integrand which is continuous there, with each of the rules. -/
theorem C110_disk {f : (Fin 2 → ℝ) → E} {o : ℝ × ℝ} {r₁ r₂ φ₁ φ₂ : ℝ} (h0 : 0 ≤ r₁) (hr : r₁ < r₂) (hφ : φ₁ < φ₂)
    (h2 : φ₂ - φ₁ ≤ 2 * Real.pi) (hf : ContinuousOn f (annularSector o r₁ r₂ φ₁ φ₂)) :
    DiskConverges midpoint f o r₁ r₂ φ₁ φ₂ ∧ DiskConverges trap f o r₁ r₂ φ₁ φ₂ ∧
    DiskConverges simpson f o r₁ r₂ φ₁ φ₂ ∧
    ∀ xs ws : List ℝ, WellFormed (ws, xs) (-1) 1 → DiskConverges (gauss xs ws) f o r₁ r₂ φ₁ φ₂ :=
  ⟨diskConverges_of cellRule_midpoint h0 hr hφ h2 hf, diskConverges_of cellRule_trap h0 hr hφ h2 hf,
    diskConverges_of cellRule_simpson h0 hr hφ h2 hf, fun _ _ hw => diskConverges_of (cellRule_gauss hw) h0 hr hφ h2 hf⟩

example : DiskConverges trap (fun p : Fin 2 → ℝ => √(p 0 ^ 2 + p 1 ^ 2)) (1, -2) 1 3 0 Real.pi :=
  (C110_disk zero_le_one (by norm_num) Real.pi_pos (by linarith [Real.pi_pos])
    (Continuous.continuousOn (by fun_prop))).2.1

/-- **C110** (default arguments). The limit is the integral over the whole disk. -/
theorem C110_whole_disk {f : (Fin 2 → ℝ) → E} {o : ℝ × ℝ} {r : ℝ} (hr : 0 < r) (hf : ContinuousOn f (closedDisk o r)) :
    ∀ ε > 0, ∃ N : ℕ, ∀ n, N ≤ n →
      ‖(∫ p in closedDisk o r, f p) - integrateDisk (fun x y => f ![x, y]) r o (n, n) 0 0 (2 * Real.pi) simpson‖ ≤ ε := by
  intro ε hε
  have h := (C110_disk (f := f) (o := o) le_rfl hr Real.two_pi_pos (by simp) (by
    rwa [annularSector_full o hr.le])).2.2.1
  obtain ⟨N, hN⟩ := h ε hε
  refine ⟨N, fun n hn => ?_⟩
  have := hN n n hn hn
  rwa [annularSector_full o hr.le] at this

/-- The norm of the position in a disk about another point. -/
example : ∀ ε > 0, ∃ N : ℕ, ∀ n, N ≤ n →
    ‖(∫ p in closedDisk (1, -2) 3, √(p 0 ^ 2 + p 1 ^ 2)) -
      integrateDisk (fun x y => √((![x, y] : Fin 2 → ℝ) 0 ^ 2 + (![x, y] : Fin 2 → ℝ) 1 ^ 2)) 3 (1, -2) (n, n) 0 0
        (2 * Real.pi) simpson‖ ≤ ε :=
  C110_whole_disk (f := fun p => √(p 0 ^ 2 + p 1 ^ 2)) (by norm_num) (by
    apply Continuous.continuousOn
    fun_prop)

/-! ## Ball -/

/-- Spec: the points with distance `ρ ∈ [r₁, r₂]` to `o`, polar angle `φ ∈ [φ₁, φ₂]` (from the third axis) and azimuth
`θ ∈ [θ₁, θ₂]`. -/
def ballSector (o : ℝ × ℝ × ℝ) (r₁ r₂ φ₁ φ₂ θ₁ θ₂ : ℝ) : Set (Fin 3 → ℝ) :=
  {p | ∃ ρ ∈ Icc r₁ r₂, ∃ φ ∈ Icc φ₁ φ₂, ∃ θ ∈ Icc θ₁ θ₂,
    p = ![o.1 + ρ * Real.sin φ * Real.cos θ, o.2.1 + ρ * Real.sin φ * Real.sin θ, o.2.2 + ρ * Real.cos φ]}

/-- Spec: the ball with centre `o` and radius `r`. -/
def closedBall3 (o : ℝ × ℝ × ℝ) (r : ℝ) : Set (Fin 3 → ℝ) :=
  {p | (p 0 - o.1) ^ 2 + (p 1 - o.2.1) ^ 2 + (p 2 - o.2.2) ^ 2 ≤ r ^ 2}

/-- Every point of the plane has polar coordinates with an angle in `[0, 2π]`. -/
theorem exists_polar_angle (x y : ℝ) : ∃ θ ∈ Icc 0 (2 * Real.pi), x = √(x ^ 2 + y ^ 2) * Real.cos θ ∧
    y = √(x ^ 2 + y ^ 2) * Real.sin θ := by
  set r := √(x ^ 2 + y ^ 2) with hr
  have hr2 : r ^ 2 = x ^ 2 + y ^ 2 := Real.sq_sqrt (by positivity)
  have : (![x, y] : Fin 2 → ℝ) ∈ closedDisk (0, 0) r := by
    simp [closedDisk, hr2]
  rw [← annularSector_full _ (Real.sqrt_nonneg _)] at this
  obtain ⟨ρ, hρ, θ, hθ, h⟩ := this
  have h0 : x = ρ * Real.cos θ := by simpa using congrFun h 0
  have h1 : y = ρ * Real.sin θ := by simpa using congrFun h 1
  have hρr : ρ = r := by
    have e : r ^ 2 = ρ ^ 2 := by
      rw [hr2, h0, h1]
      linear_combination ρ ^ 2 * Real.sin_sq_add_cos_sq θ
    exact ((sq_eq_sq₀ (Real.sqrt_nonneg _) hρ.1).mp e).symm
  exact ⟨θ, hθ, hρr ▸ h0, hρr ▸ h1⟩

/-- The default arguments give the whole ball. -/
theorem ballSector_full (o : ℝ × ℝ × ℝ) {r : ℝ} (hr : 0 ≤ r) :
    ballSector o 0 r 0 Real.pi 0 (2 * Real.pi) = closedBall3 o r := by
  ext p
  constructor
  · rintro ⟨ρ, hρ, φ, -, θ, -, rfl⟩
    simp only [closedBall3, mem_ofPred_eq, Matrix.cons_val_zero, Matrix.cons_val_one, Matrix.cons_val]
    have e : (o.1 + ρ * Real.sin φ * Real.cos θ - o.1) ^ 2 + (o.2.1 + ρ * Real.sin φ * Real.sin θ - o.2.1) ^ 2 +
        (o.2.2 + ρ * Real.cos φ - o.2.2) ^ 2 = ρ ^ 2 := by
      linear_combination ρ ^ 2 * Real.sin φ ^ 2 * Real.sin_sq_add_cos_sq θ + ρ ^ 2 * Real.sin_sq_add_cos_sq φ
    rw [e]
    exact pow_le_pow_left₀ hρ.1 hρ.2 2
  · intro hp
    simp only [closedBall3, mem_ofPred_eq] at hp
    obtain ⟨θ, hθ, hx, hy⟩ := exists_polar_angle (p 0 - o.1) (p 1 - o.2.1)
    set s := √((p 0 - o.1) ^ 2 + (p 1 - o.2.1) ^ 2) with hs
    have hs0 : 0 ≤ s := Real.sqrt_nonneg _
    have hs2 : s ^ 2 = (p 0 - o.1) ^ 2 + (p 1 - o.2.1) ^ 2 := Real.sq_sqrt (by positivity)
    set z := p 2 - o.2.2 with hz
    set ρ := √(z ^ 2 + s ^ 2) with hρ
    have hρ0 : 0 ≤ ρ := Real.sqrt_nonneg _
    have hρ2 : ρ ^ 2 = z ^ 2 + s ^ 2 := Real.sq_sqrt (by positivity)
    have hρr : ρ ≤ r := by
      rw [← abs_of_nonneg hr, ← abs_of_nonneg hρ0, ← sq_le_sq, hρ2, hs2]
      linarith
    have hzl : z ≤ ρ := Real.le_sqrt_of_sq_le (by nlinarith)
    have hzg : -ρ ≤ z := by
      have : -z ≤ ρ := Real.le_sqrt_of_sq_le (by nlinarith)
      linarith
    have hcos : ρ * Real.cos (Real.arccos (z / ρ)) = z := by
      rcases hρ0.eq_or_lt with h | h
      · rw [← h] at hzl hzg ⊢
        linarith
      · rw [Real.cos_arccos, mul_div_cancel₀ _ h.ne']
        · rw [le_div_iff₀ h]; linarith
        · rw [div_le_one h]; exact hzl
    have hsin : ρ * Real.sin (Real.arccos (z / ρ)) = s := by
      refine (sq_eq_sq₀ (mul_nonneg hρ0 (Real.sin_nonneg_of_mem_Icc ⟨Real.arccos_nonneg _, Real.arccos_le_pi _⟩)) hs0).mp ?_
      have := Real.sin_sq_add_cos_sq (Real.arccos (z / ρ))
      have h2 : (ρ * Real.cos (Real.arccos (z / ρ))) ^ 2 = z ^ 2 := by rw [hcos]
      linear_combination ρ ^ 2 * this - h2 + hρ2
    refine ⟨ρ, ⟨hρ0, hρr⟩, Real.arccos (z / ρ), ⟨Real.arccos_nonneg _, Real.arccos_le_pi _⟩, θ, hθ, ?_⟩
    rw [hsin, hcos]
    funext i
    fin_cases i <;> simp
    · linarith
    · linarith
    · rw [hz]; ring

omit [CompleteSpace E] in
theorem ofTriple_continuousOn {o : ℝ × ℝ × ℝ} {r₁ r₂ φ₁ φ₂ θ₁ θ₂ : ℝ} {f : (Fin 3 → ℝ) → E}
    (hf : ContinuousOn f (ballSector o r₁ r₂ φ₁ φ₂ θ₁ θ₂)) :
    ContinuousOn (fun u : Fin 3 → ℝ => (u 0 ^ 2 * Real.sin (u 1)) • f ![o.1 + u 0 * Real.sin (u 1) * Real.cos (u 2),
      o.2.1 + u 0 * Real.sin (u 1) * Real.sin (u 2), o.2.2 + u 0 * Real.cos (u 1)])
      (Icc ![r₁, φ₁, θ₁] ![r₂, φ₂, θ₂]) := by
  refine ContinuousOn.smul (Continuous.continuousOn (by fun_prop)) ?_
  refine hf.comp (Continuous.continuousOn ?_) ?_
  · refine continuous_pi fun i => ?_
    fin_cases i <;> simp <;> fun_prop
  · intro u hu
    exact ⟨u 0, ⟨hu.1 0, hu.2 0⟩, u 1, ⟨hu.1 1, hu.2 1⟩, u 2, ⟨hu.1 2, hu.2 2⟩, rfl⟩

omit [CompleteSpace E] in
/-- Spherical coordinates. -/
theorem spherical_integral (o : ℝ × ℝ × ℝ) {r₁ r₂ φ₁ φ₂ θ₁ θ₂ : ℝ} (h0 : 0 ≤ r₁) (hφ0 : 0 ≤ φ₁) (hφ : φ₂ ≤ Real.pi)
    (h2 : θ₂ - θ₁ ≤ 2 * Real.pi) (f : (Fin 3 → ℝ) → E) :
    ∫ p in ballSector o r₁ r₂ φ₁ φ₂ θ₁ θ₂, f p =
      ∫ u in Icc ![r₁, φ₁, θ₁] ![r₂, φ₂, θ₂], (u 0 ^ 2 * Real.sin (u 1)) • f ![o.1 + u 0 * Real.sin (u 1) * Real.cos (u 2),
        o.2.1 + u 0 * Real.sin (u 1) * Real.sin (u 2), o.2.2 + u 0 * Real.cos (u 1)] := by
  set G : (Fin 3 → ℝ) → Fin 3 → ℝ := fun u => ![o.1 + u 0 * Real.sin (u 1) * Real.cos (u 2),
    o.2.1 + u 0 * Real.sin (u 1) * Real.sin (u 2), o.2.2 + u 0 * Real.cos (u 1)] with hGdef
  set M : (Fin 3 → ℝ) → Matrix (Fin 3) (Fin 3) ℝ := fun u =>
    !![Real.sin (u 1) * Real.cos (u 2), u 0 * Real.cos (u 1) * Real.cos (u 2), -(u 0 * Real.sin (u 1) * Real.sin (u 2));
      Real.sin (u 1) * Real.sin (u 2), u 0 * Real.cos (u 1) * Real.sin (u 2), u 0 * Real.sin (u 1) * Real.cos (u 2);
      Real.cos (u 1), -(u 0 * Real.sin (u 1)), 0] with hM
  have himg : ballSector o r₁ r₂ φ₁ φ₂ θ₁ θ₂ = G '' Icc ![r₁, φ₁, θ₁] ![r₂, φ₂, θ₂] := by
    ext p
    constructor
    · rintro ⟨ρ, hρ, φ, hφ, θ, hθ, rfl⟩
      refine ⟨![ρ, φ, θ], ⟨?_, ?_⟩, by simp [hGdef]⟩ <;> (intro i; fin_cases i)
      exacts [hρ.1, hφ.1, hθ.1, hρ.2, hφ.2, hθ.2]
    · rintro ⟨u, hu, rfl⟩
      exact ⟨u 0, ⟨hu.1 0, hu.2 0⟩, u 1, ⟨hu.1 1, hu.2 1⟩, u 2, ⟨hu.1 2, hu.2 2⟩, rfl⟩
  have hG : ∀ u, HasFDerivAt G (LinearMap.toContinuousLinearMap (Matrix.toLin' (M u))) u := by
    intro u
    have p0 : HasFDerivAt (fun u : Fin 3 → ℝ => u 0) (ContinuousLinearMap.proj 0 : (Fin 3 → ℝ) →L[ℝ] ℝ) u :=
      hasFDerivAt_apply 0 u
    have p1 : HasFDerivAt (fun u : Fin 3 → ℝ => u 1) (ContinuousLinearMap.proj 1 : (Fin 3 → ℝ) →L[ℝ] ℝ) u :=
      hasFDerivAt_apply 1 u
    have p2 : HasFDerivAt (fun u : Fin 3 → ℝ => u 2) (ContinuousLinearMap.proj 2 : (Fin 3 → ℝ) →L[ℝ] ℝ) u :=
      hasFDerivAt_apply 2 u
    rw [hasFDerivAt_pi']
    intro i
    fin_cases i
    · refine (((p0.mul p1.sin).mul p2.cos).const_add o.1).congr_fderiv ?_
      ext v
      simp [hM, Matrix.toLin'_apply, dotProduct, Fin.sum_univ_three]
      ring
    · refine (((p0.mul p1.sin).mul p2.sin).const_add o.2.1).congr_fderiv ?_
      ext v
      simp [hM, Matrix.toLin'_apply, dotProduct, Fin.sum_univ_three]
      ring
    · refine ((p0.mul p1.cos).const_add o.2.2).congr_fderiv ?_
      ext v
      simp [hM, Matrix.toLin'_apply, dotProduct, Fin.sum_univ_three]
      ring
  have hdet : ∀ u, (LinearMap.toContinuousLinearMap (Matrix.toLin' (M u))).det = u 0 ^ 2 * Real.sin (u 1) := by
    intro u
    rw [ContinuousLinearMap.det, LinearMap.coe_toContinuousLinearMap, LinearMap.det_toLin', hM, Matrix.det_fin_three]
    simp only [Matrix.of_apply, Matrix.cons_val_zero, Matrix.cons_val_one, Matrix.cons_val]
    linear_combination (u 0 ^ 2 * Real.sin (u 1) ^ 3 + u 0 ^ 2 * Real.sin (u 1) * Real.cos (u 1) ^ 2) *
      Real.sin_sq_add_cos_sq (u 2) + u 0 ^ 2 * Real.sin (u 1) * Real.sin_sq_add_cos_sq (u 1)
  rw [himg, box_change_of_variables hG]
  · refine setIntegral_congr_fun measurableSet_Icc fun u hu => ?_
    simp only [hdet]
    rw [abs_of_nonneg]
    exact mul_nonneg (sq_nonneg _) (Real.sin_nonneg_of_mem_Icc ⟨hφ0.trans (hu.1 1), (hu.2 1).trans hφ⟩)
  · intro u hu v hv huv
    have hu0 : 0 < u 0 := h0.trans_lt (hu 0 trivial).1
    have hv0 : 0 < v 0 := h0.trans_lt (hv 0 trivial).1
    have hu1 : 0 < u 1 ∧ u 1 < Real.pi := ⟨hφ0.trans_lt (hu 1 trivial).1, (hu 1 trivial).2.trans_le hφ⟩
    have hv1 : 0 < v 1 ∧ v 1 < Real.pi := ⟨hφ0.trans_lt (hv 1 trivial).1, (hv 1 trivial).2.trans_le hφ⟩
    have e0 : u 0 * Real.sin (u 1) * Real.cos (u 2) = v 0 * Real.sin (v 1) * Real.cos (v 2) := by
      simpa [hGdef] using congrFun huv 0
    have e1 : u 0 * Real.sin (u 1) * Real.sin (u 2) = v 0 * Real.sin (v 1) * Real.sin (v 2) := by
      simpa [hGdef] using congrFun huv 1
    have e2 : u 0 * Real.cos (u 1) = v 0 * Real.cos (v 1) := by
      simpa [hGdef] using congrFun huv 2
    have hsu := Real.sin_pos_of_pos_of_lt_pi hu1.1 hu1.2
    have hsv := Real.sin_pos_of_pos_of_lt_pi hv1.1 hv1.2
    have hs : u 0 * Real.sin (u 1) = v 0 * Real.sin (v 1) := by
      refine (sq_eq_sq₀ (by positivity) (by positivity)).mp ?_
      have c : (u 0 * Real.sin (u 1) * Real.cos (u 2)) ^ 2 + (u 0 * Real.sin (u 1) * Real.sin (u 2)) ^ 2 =
        (v 0 * Real.sin (v 1) * Real.cos (v 2)) ^ 2 + (v 0 * Real.sin (v 1) * Real.sin (v 2)) ^ 2 := by rw [e0, e1]
      linear_combination c - (u 0 * Real.sin (u 1)) ^ 2 * Real.sin_sq_add_cos_sq (u 2) +
        (v 0 * Real.sin (v 1)) ^ 2 * Real.sin_sq_add_cos_sq (v 2)
    have h01 : u 0 = v 0 := by
      refine (sq_eq_sq₀ hu0.le hv0.le).mp ?_
      have c : (u 0 * Real.sin (u 1)) ^ 2 + (u 0 * Real.cos (u 1)) ^ 2 =
        (v 0 * Real.sin (v 1)) ^ 2 + (v 0 * Real.cos (v 1)) ^ 2 := by rw [hs, e2]
      linear_combination c - u 0 ^ 2 * Real.sin_sq_add_cos_sq (u 1) + v 0 ^ 2 * Real.sin_sq_add_cos_sq (v 1)
    rw [h01] at e2
    have h11 : u 1 = v 1 := Real.injOn_cos ⟨hu1.1.le, hu1.2.le⟩ ⟨hv1.1.le, hv1.2.le⟩ (mul_left_cancel₀ hv0.ne' e2)
    have hne : v 0 * Real.sin (v 1) ≠ 0 := (mul_pos hv0 hsv).ne'
    rw [hs] at e0 e1
    have h21 : u 2 = v 2 := angle_unique h2 (hu 2 trivial) (hv 2 trivial) (mul_left_cancel₀ hne e0)
      (mul_left_cancel₀ hne e1)
    funext i
    fin_cases i
    exacts [h01, h11, h21]

/-- Spec: with the rule and more and more nodes in the three directions, `integrate_sphere` converges to the integral
over the part of the ball. -/
def BallConverges (rule : QuadRule) (f : (Fin 3 → ℝ) → E) (o : ℝ × ℝ × ℝ) (r₁ r₂ φ₁ φ₂ θ₁ θ₂ : ℝ) : Prop :=
  ∀ ε > 0, ∃ N : ℕ, ∀ n₁ n₂ n₃, N ≤ n₁ → N ≤ n₂ → N ≤ n₃ →
    ‖(∫ p in ballSector o r₁ r₂ φ₁ φ₂ θ₁ θ₂, f p) -
      integrateSphere (fun x y z => f ![x, y, z]) r₂ o (n₁, n₂, n₃) r₁ φ₁ φ₂ θ₁ θ₂ rule‖ ≤ ε

theorem ballConverges_of {rule : QuadRule} (hq : CellRule rule E) {f : (Fin 3 → ℝ) → E} {o : ℝ × ℝ × ℝ}
    {r₁ r₂ φ₁ φ₂ θ₁ θ₂ : ℝ} (h0 : 0 ≤ r₁) (hr : r₁ < r₂) (hφ0 : 0 ≤ φ₁) (hφ : φ₁ < φ₂) (hφπ : φ₂ ≤ Real.pi) (hθ : θ₁ < θ₂)
    (h2 : θ₂ - θ₁ ≤ 2 * Real.pi) (hf : ContinuousOn f (ballSector o r₁ r₂ φ₁ φ₂ θ₁ θ₂)) :
    BallConverges rule f o r₁ r₂ φ₁ φ₂ θ₁ θ₂ := by
  intro ε hε
  have hle : (![r₁, φ₁, θ₁] : Fin 3 → ℝ) ≤ ![r₂, φ₂, θ₂] := by
    intro i; fin_cases i
    exacts [hr.le, hφ.le, hθ.le]
  obtain ⟨δ, hδ, h⟩ := convergesN_of hq hle (ofTriple_continuousOn hf) ε hε
  obtain ⟨N₁, hN₁⟩ := linspace_fine hr hδ
  obtain ⟨N₂, hN₂⟩ := linspace_fine hφ hδ
  obtain ⟨N₃, hN₃⟩ := linspace_fine hθ hδ
  refine ⟨max N₁ (max N₂ N₃), fun n₁ n₂ n₃ h₁ h₂ h₃ => ?_⟩
  simp only [max_le_iff] at h₁ h₂ h₃
  have := h ![linspace r₁ r₂ n₁, linspace φ₁ φ₂ n₂, linspace θ₁ θ₂ n₃] (by
    intro i; fin_cases i
    exacts [hN₁ n₁ h₁.1, hN₂ n₂ h₂.2.1, hN₃ n₃ h₃.2.2])
  rw [spherical_integral o h0 hφ0 hφπ h2, integrateSphere]
  convert this using 4
  · funext u
    simp only [integrateSphere.g]
    rw [add_comm o.1, add_comm o.2.1, add_comm o.2.2]
    rfl
  · simp [List.ofFn_succ]

/-- **C110** (ball). `integrate_sphere` converges to the integral over the part of the ball (volume measure) for every
integrand which is continuous there, with each of the rules. -/
theorem C110_ball {f : (Fin 3 → ℝ) → E} {o : ℝ × ℝ × ℝ}
    {r₁ r₂ φ₁ φ₂ θ₁ θ₂ : ℝ} (h0 : 0 ≤ r₁) (hr : r₁ < r₂) (hφ0 : 0 ≤ φ₁) (hφ : φ₁ < φ₂) (hφπ : φ₂ ≤ Real.pi) (hθ : θ₁ < θ₂)
    (h2 : θ₂ - θ₁ ≤ 2 * Real.pi) (hf : ContinuousOn f (ballSector o r₁ r₂ φ₁ φ₂ θ₁ θ₂)) :
    BallConverges midpoint f o r₁ r₂ φ₁ φ₂ θ₁ θ₂ ∧ BallConverges trap f o r₁ r₂ φ₁ φ₂ θ₁ θ₂ ∧
    BallConverges simpson f o r₁ r₂ φ₁ φ₂ θ₁ θ₂ ∧
    ∀ xs ws : List ℝ, WellFormed (ws, xs) (-1) 1 → BallConverges (gauss xs ws) f o r₁ r₂ φ₁ φ₂ θ₁ θ₂ :=
  ⟨ballConverges_of cellRule_midpoint h0 hr hφ0 hφ hφπ hθ h2 hf, ballConverges_of cellRule_trap h0 hr hφ0 hφ hφπ hθ h2 hf,
    ballConverges_of cellRule_simpson h0 hr hφ0 hφ hφπ hθ h2 hf,
    fun _ _ hw => ballConverges_of (cellRule_gauss hw) h0 hr hφ0 hφ hφπ hθ h2 hf⟩

example : BallConverges trap (fun p : Fin 3 → ℝ => p 0 * Real.exp (p 2)) (1, 0, -2) 1 3 0 (Real.pi / 2) 0 Real.pi :=
  (C110_ball zero_le_one (by norm_num) le_rfl (by linarith [Real.pi_pos]) (by linarith [Real.pi_pos]) Real.pi_pos
    (by linarith [Real.pi_pos]) (Continuous.continuousOn (by fun_prop))).2.1

/-- **C110** (default arguments). The limit is the integral over the whole ball. -/
theorem C110_whole_ball {f : (Fin 3 → ℝ) → E} {o : ℝ × ℝ × ℝ} {r : ℝ} (hr : 0 < r)
    (hf : ContinuousOn f (closedBall3 o r)) :
    ∀ ε > 0, ∃ N : ℕ, ∀ n, N ≤ n →
      ‖(∫ p in closedBall3 o r, f p) - integrateSphere (fun x y z => f ![x, y, z]) r o (n, n, n) 0 0 Real.pi 0
        (2 * Real.pi) simpson‖ ≤ ε := by
  intro ε hε
  have h := (C110_ball (f := f) (o := o) le_rfl hr le_rfl Real.pi_pos le_rfl Real.two_pi_pos (by simp) (by
    rwa [ballSector_full o hr.le])).2.2.1
  obtain ⟨N, hN⟩ := h ε hε
  refine ⟨N, fun n hn => ?_⟩
  have := hN n n n hn hn hn
  rwa [ballSector_full o hr.le] at this

/-- A polynomial times an exponential in a ball about another point. -/
example : ∀ ε > 0, ∃ N : ℕ, ∀ n, N ≤ n →
    ‖(∫ p in closedBall3 (1, 0, -2) 3, p 0 * Real.exp (p 2)) -
      integrateSphere (fun x y z => (![x, y, z] : Fin 3 → ℝ) 0 * Real.exp ((![x, y, z] : Fin 3 → ℝ) 2)) 3 (1, 0, -2)
        (n, n, n) 0 0 Real.pi 0 (2 * Real.pi) simpson‖ ≤ ε :=
  C110_whole_ball (f := fun p => p 0 * Real.exp (p 2)) (by norm_num) (by
    apply Continuous.continuousOn
    fun_prop)

end Verif
