import Verif.Props.Cuboid
import Mathlib.Analysis.Calculus.FDeriv.Norm

/-! # Properties C12, C13, C14: sphere, cylinder, first order normalisation, ellipsoid -/

namespace Verif

open XR Topology Asymptotics

/-- Gradient of a diagonal quadratic function. -/
theorem hasGradientAt_diag {n : ℕ} (w : Fin n → ℝ) (c : ℝ) (x : Pt n) :
    HasGradientAt (fun y : Pt n => c - ∑ i, w i * y i ^ 2)
      (WithLp.toLp 2 fun i => -(2 * w i * x i)) x := by
  rw [hasGradientAt_iff_hasFDerivAt]
  have h1 (i : Fin n) : HasFDerivAt (fun y : Pt n => w i * y i ^ 2)
      (w i • ((2 * x i) • EuclideanSpace.proj (𝕜 := ℝ) (ι := Fin n) i)) x := by
    have h := ((EuclideanSpace.proj (𝕜 := ℝ) (ι := Fin n) i).hasFDerivAt (x := x)).pow 2
    have := h.const_mul (w i)
    simpa using this
  have h2 := (HasFDerivAt.fun_sum (u := Finset.univ) fun i _ => h1 i).const_sub c
  have e : InnerProductSpace.toDual ℝ (Pt n) (WithLp.toLp 2 fun i => -(2 * w i * x i)) =
      -∑ i, w i • ((2 * x i) • EuclideanSpace.proj (𝕜 := ℝ) (ι := Fin n) i) := by
    ext v
    simp only [InnerProductSpace.toDual_apply_apply, PiLp.inner_apply, neg_apply, sum_apply,
      smul_apply, smul_eq_mul, RCLike.inner_apply, conj_trivial]
    rw [← Finset.sum_neg_distrib]
    refine Finset.sum_congr rfl fun i _ => ?_
    show v i * _ = -(w i * (2 * x i * v i))
    ring
  rw [e]
  exact h2

theorem vnorm_efin {n : ℕ} (x : Pt n) : vnorm (efin x) = fin ‖x‖ := by
  rw [efin, vnorm_fin, EuclideanSpace.norm_eq]
  simp [sq]

theorem norm_sq_pt {n : ℕ} (x : Pt n) : ‖x‖ ^ 2 = ∑ i, x i ^ 2 := by
  rw [EuclideanSpace.norm_sq_eq]; simp

theorem sphere_fin {n : ℕ} {r : ℝ} (hr : 0 < r) (x : Pt n) :
    sphere (fin r) (efin x) = fin ((r ^ 2 - ‖x‖ ^ 2) / (2 * r)) := by
  rw [sphere, vnorm_efin]
  simp only [fin_npow, fin_sub, lit_eq, fin_mul]
  rw [fin_div _ (by positivity)]

theorem sign_sq_sub {r d : ℝ} (hr : 0 < r) (hd : 0 ≤ d) :
    SignType.sign ((r ^ 2 - d ^ 2) / (2 * r)) = SignType.sign (r - d) := by
  have : (r ^ 2 - d ^ 2) / (2 * r) = (r - d) * ((r + d) / (2 * r)) := by field_simp; ring
  rw [this, sign_mul, sign_pos (a := (r + d) / (2 * r)) (by positivity), mul_one]

/-! ## C12 -/

/-- C12. For `r > 0`: the sphere ADF classifies by the distance from the origin and has the inward unit
normal as gradient on the sphere; the cylinder ADF does so with the distance from the axis and does not
look at the other coordinates. -/
theorem C12_sphere_cylinder (n : ℕ) (r : ℝ) (hr : 0 < r) :
    (∀ x : Pt n, ∃ c : ℝ, sphere (fin r) (efin x) = fin c ∧ SignType.sign c = SignType.sign (r - ‖x‖)) ∧
    (∀ x : Pt n, ‖x‖ = r → HasGrad (sphere (fin r)) (-(r⁻¹ • x)) x ∧ ‖-(r⁻¹ • x)‖ = 1) ∧
    (∀ x : Pt (n + 2), ∃ c : ℝ, cylinder (fin r) (efin x) = fin c ∧
      SignType.sign c = SignType.sign (r - Real.sqrt (x 0 ^ 2 + x 1 ^ 2))) ∧
    (∀ x : Pt (n + 2), Real.sqrt (x 0 ^ 2 + x 1 ^ 2) = r →
      ∃ g : Pt (n + 2), HasGrad (cylinder (fin r)) g x ∧ ‖g‖ = 1 ∧
        g 0 = -(r⁻¹ * x 0) ∧ g 1 = -(r⁻¹ * x 1) ∧ ∀ i, i ≠ 0 → i ≠ 1 → g i = 0) ∧
    (∀ x y : Vec (n + 2), x 0 = y 0 → x 1 = y 1 → cylinder (fin r) x = cylinder (fin r) y) := by
  have hcyl (x : Pt (n + 2)) : cylinder (fin r) (efin x) =
      fin ((r ^ 2 - Real.sqrt (x 0 ^ 2 + x 1 ^ 2) ^ 2) / (2 * r)) := by
    set z : Pt 2 := WithLp.toLp 2 ![x 0, x 1] with hz
    have h1 : (fun i : Fin 2 => efin x (Fin.castLE (by omega) i)) = efin z := by
      funext i; fin_cases i <;> rfl
    rw [cylinder, h1, sphere_fin hr]
    congr 4
    rw [EuclideanSpace.norm_eq]
    simp [hz]
  refine ⟨fun x => ⟨_, sphere_fin hr x, sign_sq_sub hr (norm_nonneg x)⟩, fun x hx => ⟨?_, ?_⟩,
    fun x => ⟨_, hcyl x, sign_sq_sub hr (Real.sqrt_nonneg _)⟩, fun x hx => ?_, fun x y h0 h1 => ?_⟩
  · refine ⟨fun y => r / 2 - ∑ i, 1 / (2 * r) * y i ^ 2, .of_forall fun y => ?_, ?_⟩
    · beta_reduce
      rw [sphere_fin hr, fin_inj, norm_sq_pt, ← Finset.mul_sum]
      field_simp
    · convert hasGradientAt_diag (fun _ : Fin n => 1 / (2 * r)) (r / 2) x using 1
      ext i
      show -(r⁻¹ * x i) = -(2 * (1 / (2 * r)) * x i)
      field_simp
  · rw [norm_neg, norm_smul, norm_inv, Real.norm_eq_abs, abs_of_pos hr, hx, inv_mul_cancel₀ hr.ne']
  · set w : Fin (n + 2) → ℝ := fun i => if i = 0 ∨ i = 1 then 1 / (2 * r) else 0 with hw
    have hsum (y : Fin (n + 2) → ℝ) : ∑ i, w i * y i = 1 / (2 * r) * (y 0 + y 1) := by
      rw [Fin.sum_univ_succ, Fin.sum_univ_succ]
      have h3 (i : Fin n) : w i.succ.succ = 0 := by
        have : ¬ (i.succ.succ = 0 ∨ i.succ.succ = (1 : Fin (n + 2))) := by
          simp [Fin.ext_iff]
        simp only [hw, this, if_false]
      simp only [h3, zero_mul, Finset.sum_const_zero, add_zero]
      have h4 : w 0 = 1 / (2 * r) := by simp [hw]
      have h5 : w (Fin.succ 0) = 1 / (2 * r) := by simp [hw]
      rw [h4, h5, mul_add]; rfl
    refine ⟨_, ⟨fun y => r / 2 - ∑ i, w i * y i ^ 2, .of_forall fun y => ?_, hasGradientAt_diag w _ x⟩, ?_,
      ?_, ?_, ?_⟩
    · beta_reduce
      rw [hcyl, fin_inj, hsum fun i => y i ^ 2, Real.sq_sqrt (by positivity)]
      field_simp
    · have h3 : ‖(WithLp.toLp 2 fun i => -(2 * w i * x i) : Pt (n + 2))‖ ^ 2 = 1 := by
        rw [norm_sq_pt]
        have h4 (i : Fin (n + 2)) : (-(2 * w i * x i)) ^ 2 = w i * (2 / r * x i ^ 2) := by
          simp only [hw]
          split
          · field_simp
          · ring
        simp only [h4]
        rw [hsum fun i => 2 / r * x i ^ 2]
        have h5 : x 0 ^ 2 + x 1 ^ 2 = r ^ 2 := by rw [← hx, Real.sq_sqrt (by positivity)]
        field_simp
        linarith
      have := norm_nonneg (WithLp.toLp 2 fun i => -(2 * w i * x i) : Pt (n + 2))
      nlinarith
    · show -(2 * w 0 * x 0) = _
      simp only [hw, true_or, if_true]; field_simp
    · show -(2 * w 1 * x 1) = _
      simp only [hw, or_true, if_true]; field_simp
    · intro i h0 h1
      simp [hw, h0, h1]
  · unfold cylinder
    congr 1
    funext i
    fin_cases i
    · exact h0
    · exact h1

/-- Non-vacuity: a point of the sphere of radius `5` in the plane. -/
example : ‖(WithLp.toLp 2 ![3, 4] : Pt 2)‖ = 5 := by
  rw [EuclideanSpace.norm_eq]
  simp [Fin.sum_univ_two]
  rw [show (3 : ℝ) ^ 2 + 4 ^ 2 = 5 ^ 2 by norm_num]
  exact Real.sqrt_sq (by norm_num)

/-! ## C13 -/

/-- A function vanishing at `x`, multiplied by a function which is merely continuous at `x`. -/
theorem hasFDerivAt_mul_of_zero {E : Type*} [NormedAddCommGroup E] [NormedSpace ℝ E]
    {f w : E → ℝ} {f' : E →L[ℝ] ℝ} {x : E} (hf : HasFDerivAt f f' x) (h0 : f x = 0)
    (hw : ContinuousAt w x) : HasFDerivAt (fun y => f y * w y) (w x • f') x := by
  have h1 : (fun y => f y * (w y - w x)) =o[𝓝 x] fun y => y - x := by
    have hO : f =O[𝓝 x] fun y => y - x := by
      have := hf.isBigO_sub
      simpa [h0] using this
    have ho : (fun y => w y - w x) =o[𝓝 x] fun _ => (1 : ℝ) := by
      rw [isLittleO_one_iff]
      have := hw.tendsto.sub_const (w x)
      simpa using this
    have h2 : (fun y => f y * (w y - w x)) =o[𝓝 x] fun y => ‖y - x‖ := by
      have hO' : f =O[𝓝 x] fun y => ‖y - x‖ := hO.norm_right
      simpa using hO'.mul_isLittleO ho
    exact h2.of_norm_right
  have h2 := hf.const_mul (w x)
  rw [hasFDerivAt_iff_isLittleO] at h2 ⊢
  have h3 := h1.add h2
  refine h3.congr_left fun y => ?_
  simp [h0]
  ring

/-- C13. `F` has the real form `f` with gradient field `g` near `x`, and `dF = jacfwd(F)` returns it.
(a) Unless value and gradient both vanish the normalised value is finite, has the sign of `f x`, and is at
most one in magnitude. (b) At a zero of `f` with non-vanishing continuous gradient the gradient of the
normalised function is the unit vector in direction of the gradient. (c) Where both vanish: `nan`. -/
theorem C13_normalize {n : ℕ} (F : ADF n) (dF : Vec n → Vec n) (f : Pt n → ℝ) (g : Pt n → Pt n) (x : Pt n)
    (hF : RealFormAt F f x) (hf : ∀ᶠ y in 𝓝 x, HasGradientAt f (g y) y)
    (hdF : ∀ᶠ y in 𝓝 x, dF (efin y) = efin (g y)) :
    (f x ≠ 0 ∨ g x ≠ 0 → ∃ c : ℝ, normalize1stOrder F dF (efin x) = fin c ∧
      SignType.sign c = SignType.sign (f x) ∧ |c| ≤ 1) ∧
    (f x = 0 → g x ≠ 0 → ContinuousAt g x →
      HasGrad (normalize1stOrder F dF) (‖g x‖⁻¹ • g x) x ∧ ‖‖g x‖⁻¹ • g x‖ = 1) ∧
    (f x = 0 → g x = 0 → normalize1stOrder F dF (efin x) = nan) := by
  have key (y : Pt n) (h1 : F (efin y) = fin (f y)) (h2 : dF (efin y) = efin (g y)) :
      normalize1stOrder F dF (efin y) = fin (f y) / fin (Real.sqrt (f y ^ 2 + ‖g y‖ ^ 2)) := by
    simp only [normalize1stOrder, h1, h2, vnorm_efin, fin_npow, fin_add]
    rw [fin_sqrt (by positivity)]
  have hpos (y : Pt n) (h : f y ≠ 0 ∨ g y ≠ 0) : 0 < Real.sqrt (f y ^ 2 + ‖g y‖ ^ 2) := by
    apply Real.sqrt_pos.mpr
    rcases h with h | h
    · positivity
    · have := norm_pos_iff.mpr h
      positivity
  refine ⟨fun h => ?_, fun h0 hg hc => ⟨?_, ?_⟩, fun h0 hg => ?_⟩
  · have hp := hpos x h
    refine ⟨f x / Real.sqrt (f x ^ 2 + ‖g x‖ ^ 2), ?_, ?_, ?_⟩
    · rw [key x hF.self_of_nhds hdF.self_of_nhds, fin_div _ hp.ne']
    · rw [div_eq_mul_inv, sign_mul, sign_pos (inv_pos.mpr hp), mul_one]
    · rw [abs_div, abs_of_pos hp, div_le_one hp]
      apply Real.abs_le_sqrt
      nlinarith [sq_nonneg ‖g x‖]
  · have hfc : ContinuousAt f x := hf.self_of_nhds.continuousAt
    have hne : ∀ᶠ y in 𝓝 x, g y ≠ 0 := hc.eventually_ne hg
    refine ⟨fun y => f y * (Real.sqrt (f y ^ 2 + ‖g y‖ ^ 2))⁻¹, ?_, ?_⟩
    · filter_upwards [hF, hdF, hne] with y h1 h2 h3
      rw [key y h1 h2, fin_div _ (hpos y (.inr h3)).ne', div_eq_mul_inv]
    · have hfx := hf.self_of_nhds
      rw [hasGradientAt_iff_hasFDerivAt] at hfx ⊢
      have hw : ContinuousAt (fun y => (Real.sqrt (f y ^ 2 + ‖g y‖ ^ 2))⁻¹) x := by
        have h5 : ContinuousAt (fun y => Real.sqrt (f y ^ 2 + ‖g y‖ ^ 2)) x :=
          ((hfc.pow 2).add (hc.norm.pow 2)).sqrt
        exact h5.inv₀ (hpos x (.inr hg)).ne'
      have := hasFDerivAt_mul_of_zero hfx h0 hw
      have e : (Real.sqrt (f x ^ 2 + ‖g x‖ ^ 2))⁻¹ = ‖g x‖⁻¹ := by
        rw [h0]; simp
      rw [e] at this
      rw [map_smul]
      exact this
  · rw [norm_smul, norm_inv, norm_norm, inv_mul_cancel₀ (norm_ne_zero_iff.mpr hg)]
  · rw [key x hF.self_of_nhds hdF.self_of_nhds, h0, hg]
    simp

/-- Non-vacuity: the half plane `x₀ > 0` scaled by 3. -/
example : ∃ (F : ADF 2) (dF : Vec 2 → Vec 2) (f : Pt 2 → ℝ) (g : Pt 2 → Pt 2) (x : Pt 2),
    RealFormAt F f x ∧ (∀ᶠ y in 𝓝 x, HasGradientAt f (g y) y) ∧
    (∀ᶠ y in 𝓝 x, dF (efin y) = efin (g y)) ∧ f x = 0 ∧ g x ≠ 0 ∧ ContinuousAt g x := by
  refine ⟨fun y => y 0, fun _ => efin (EuclideanSpace.single 0 1), fun y => y 0,
    fun _ => EuclideanSpace.single 0 1, 0, .of_forall fun y => rfl,
    .of_forall fun y => hasGradientAt_coord 0 y, .of_forall fun y => rfl, by simp, ?_, continuousAt_const⟩
  intro h
  have := congrArg norm h
  simp at this

/-! ## C14 -/

theorem ellipsoid_base_fin {n : ℕ} {a : Fin n → ℝ} (ha : ∀ i, a i ≠ 0) (y : Pt n) :
    scaleWithoutNormalization (sphere 1) (vfin a) (efin y) =
      fin (1 / 2 - ∑ i, 1 / (2 * a i ^ 2) * y i ^ 2) := by
  have h1 : (fun i => efin y i / vfin a i) = efin (WithLp.toLp 2 fun i => y i / a i : Pt n) := by
    funext i; simp [fin_div _ (ha i)]
  rw [scaleWithoutNormalization, h1, one_eq, sphere_fin one_pos, norm_sq_pt, fin_inj]
  simp only [one_pow, mul_one, sub_div, Finset.sum_div]
  congr 1
  refine Finset.sum_congr rfl fun i _ => ?_
  have := ha i
  field_simp

theorem ellipsoid_jac_eq {n : ℕ} {a : Fin n → ℝ} (ha : ∀ i, a i ≠ 0) (y : Pt n) (k : Fin n) {m : ℝ}
    (h : m = ‖(WithLp.toLp 2 fun i => y i / a i : Pt n)‖) :
    ellipsoid.jac (vfin a) (efin y) k =
      -(fin (2 * y k / a k ^ 2) * (fin (1 / 2) / fin m) * (fin 2 * fin m)) / fin 2 := by
  have hm : vnorm (fun i => fin (y i / a i)) = fin m := by
    rw [h]; exact vnorm_efin (WithLp.toLp 2 fun i => y i / a i : Pt n)
  have h2 (i : Fin n) : (if i = k then fin 1 else fin 0) / fin (a i) =
      fin ((if i = k then 1 else 0) / a i) := by
    rw [← fin_div _ (ha i)]; split <;> rfl
  have h3 : ∑ i, ((if i = k then (1 : ℝ) else 0) / a i * (y i / a i) +
      y i / a i * ((if i = k then 1 else 0) / a i)) = 2 * y k / a k ^ 2 := by
    rw [Finset.sum_eq_single k]
    · have := ha k
      simp; field_simp; ring
    · intro i _ hi; simp [hi]
    · simp
  have h4 (i : Fin n) : fin (y i) / fin (a i) = fin (y i / a i) := fin_div _ (ha i)
  simp only [ellipsoid.jac, efin_apply, vfin_apply, one_eq, zero_eq, h2, h4, hm, fin_mul, fin_add, fin_sum,
    h3, lit_eq, fin_div 1 (two_ne_zero (α := ℝ)), mul_one]

theorem ellipsoid_jac_fin {n : ℕ} {a : Fin n → ℝ} (ha : ∀ i, a i ≠ 0) {y : Pt n} (hy : y ≠ 0) :
    ellipsoid.jac (vfin a) (efin y) =
      efin (WithLp.toLp 2 fun i => -(2 * (1 / (2 * a i ^ 2)) * y i) : Pt n) := by
  set z : Pt n := WithLp.toLp 2 fun i => y i / a i with hz
  have hz0 : z ≠ 0 := by
    intro h
    apply hy
    ext i
    have : z i = 0 := by rw [h]; rfl
    simp only [hz] at this
    simpa [ha i] using this
  have hm : ‖z‖ ≠ 0 := norm_ne_zero_iff.mpr hz0
  funext k
  rw [ellipsoid_jac_eq ha y k rfl, ← hz]
  rw [fin_div _ hm, fin_mul, fin_mul, fin_mul, fin_neg, fin_div _ (by norm_num), efin_apply, fin_inj]
  have := ha k
  field_simp

theorem ellipsoid_level {n : ℕ} (a : Fin n → ℝ) (x : Pt n) :
    1 / 2 - ∑ i, 1 / (2 * a i ^ 2) * x i ^ 2 = (1 - ∑ i, (x i / a i) ^ 2) * (1 / 2) := by
  rw [sub_mul, Finset.sum_mul, one_mul]
  congr 1
  refine Finset.sum_congr rfl fun i _ => ?_
  rw [div_pow]
  rcases eq_or_ne (a i) 0 with h | h
  · simp [h]
  · field_simp

/-- C14 (partial). For non-zero axis lengths and every point other than the origin the ellipsoid ADF is
finite, has the sign of `1 - Σ (xᵢ/aᵢ)²`, and a unit gradient pointing inwards on the surface. Missing:
the centre of the ellipsoid, where the statement fails (next theorem). -/
theorem C14_ellipsoid_partial {n : ℕ} (a : Fin n → ℝ) (ha : ∀ i, a i ≠ 0) (x : Pt n) (hx : x ≠ 0) :
    (∃ c : ℝ, ellipsoid (vfin a) (efin x) = fin c ∧
      SignType.sign c = SignType.sign (1 - ∑ i, (x i / a i) ^ 2)) ∧
    (∑ i, (x i / a i) ^ 2 = 1 → ∃ (g : Pt n) (l : ℝ), HasGrad (ellipsoid (vfin a)) g x ∧ ‖g‖ = 1 ∧ 0 < l ∧
      ∀ i, g i = -(l * (x i / a i ^ 2))) := by
  set g : Pt n → Pt n := fun y => WithLp.toLp 2 fun i => -(2 * (1 / (2 * a i ^ 2)) * y i) with hg
  have hg0 : g x ≠ 0 := by
    intro h
    apply hx
    ext i
    have h1 : g x i = 0 := by rw [h]; rfl
    simp only [hg] at h1
    have := ha i
    have h2 : x i = 0 := by simpa [this] using h1
    simpa using h2
  have h := C13_normalize (scaleWithoutNormalization (sphere 1) (vfin a)) (ellipsoid.jac (vfin a))
    (fun y => 1 / 2 - ∑ i, 1 / (2 * a i ^ 2) * y i ^ 2) g x
    (.of_forall fun y => ellipsoid_base_fin ha y)
    (.of_forall fun y => hasGradientAt_diag _ _ y)
    ((eventually_ne_nhds hx).mono fun y hy => ellipsoid_jac_fin ha hy)
  refine ⟨?_, fun h1 => ?_⟩
  · obtain ⟨c, h1, h2, -⟩ := h.1 (.inr hg0)
    refine ⟨c, h1, ?_⟩
    rw [h2, ellipsoid_level, sign_mul, sign_pos (a := (1 / 2 : ℝ)) (by norm_num), mul_one]
  · have hcont : ContinuousAt g x := by
      apply Continuous.continuousAt
      simp only [hg]
      fun_prop
    have h0 : 1 / 2 - ∑ i, 1 / (2 * a i ^ 2) * x i ^ 2 = 0 := by rw [ellipsoid_level, h1]; norm_num
    have h2 := h.2.1 h0 hg0 hcont
    refine ⟨_, ‖g x‖⁻¹, h2.1, h2.2, inv_pos.mpr (norm_pos_iff.mpr hg0), fun i => ?_⟩
    have := ha i
    simp [hg]
    left; field_simp

/-- Non-vacuity: a surface point of the ellipse with half axes 2 and 3. -/
example : (∀ i, (![2, 3] : Fin 2 → ℝ) i ≠ 0) ∧
    ∑ i, ((WithLp.toLp 2 ![2, 0] : Pt 2) i / (![2, 3] : Fin 2 → ℝ) i) ^ 2 = 1 := by
  refine ⟨fun i => by fin_cases i <;> simp, by simp [Fin.sum_univ_two]⟩

/-- C14 fails at the centre: for every ellipsoid of positive dimension the value at the origin, an
interior point, is not a number (forward differentiation of the norm at zero gives `0 * inf`). -/
theorem C14_centre_counterexample {n : ℕ} (a : Fin (n + 1) → ℝ) (ha : ∀ i, a i ≠ 0) :
    ellipsoid (vfin a) (fun _ => 0) = nan := by
  have h0 : (fun _ => 0 : Vec (n + 1)) = efin (0 : Pt (n + 1)) := by
    funext i; simp
  have hj : ellipsoid.jac (vfin a) (fun _ => 0) = fun _ => nan := by
    funext k
    have hm : ‖(WithLp.toLp 2 fun i => (0 : Pt (n + 1)) i / a i : Pt (n + 1))‖ = 0 := by
      rw [norm_eq_zero]; ext i; simp
    have hi : fin (1 / 2) / fin 0 = pinf := by rw [fin_div_zero, infSign, if_pos (by norm_num)]
    have h1 : fin 0 * pinf = nan := by
      show infSign 0 = nan
      simp [infSign]
    rw [h0, ellipsoid_jac_eq ha 0 k hm.symm]
    simp only [hi, PiLp.zero_apply, mul_zero, zero_div, h1, nan_mul, neg_nan, nan_div]
  rw [ellipsoid, normalize1stOrder]
  have hv : vnorm (fun _ : Fin (n + 1) => nan) = nan := by
    rw [vnorm, Fin.sum_univ_succ]; simp
  have h3 : nan ^ 2 = nan := by
    show npow nan 2 = nan
    simp [npow]
  simp only [hj, hv, h3, add_nan, sqrt_nan, div_nan]

example : ellipsoid (vfin ![1, 2, 3]) (fun _ => 0) = nan :=
  C14_centre_counterexample ![1, 2, 3] fun i => by fin_cases i <;> simp

end Verif
