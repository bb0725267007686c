import Verif.Spec.QuatAD
import Verif.Lemmas.FwdAD
import Verif.Props.QuatPow
import Mathlib.Analysis.Quaternion
import Mathlib.Analysis.SpecialFunctions.Trigonometric.InverseDeriv
import Mathlib.Analysis.SpecialFunctions.Trigonometric.Deriv
import Mathlib.Analysis.SpecialFunctions.Log.Deriv
import Mathlib.Analysis.SpecialFunctions.ExpDeriv

/-! # Lemmas about forward differentiation of quaternions -/

namespace Verif

open XR Quat

open scoped Quaternion

section
variable {E : Type*} [NormedAddCommGroup E] [NormedSpace ℝ E]

variable {d e : E → Dual} {f g : E → ℝ} {x : E}

theorem IsAD.recip (hd : IsAD d f x) (h0 : f x ≠ 0) : IsAD (fun v => (d v).recip) (fun y => 1 / f y) x := by
  obtain ⟨f', h1, h2⟩ := hd
  refine ⟨-((f x ^ 2)⁻¹ • f'), ?_, fun v => ?_⟩
  · have := (hasDerivAt_inv h0).comp_hasFDerivAt x h1
    simpa [Function.comp_def, neg_smul] using this
  · beta_reduce
    rw [h2]
    simp only [Dual.recip, one_eq, fin_npow, fin_neg, fin_div _ h0, fin_div _ (pow_ne_zero 2 h0), fin_mul]
    congr 2
    simp
    ring

theorem IsAD.div (hd : IsAD d f x) (he : IsAD e g x) (h0 : g x ≠ 0) :
    IsAD (fun v => (d v).div (e v)) (fun y => f y / g y) x := by
  have h := hd.mul (he.recip h0)
  refine ⟨h.choose, ?_, fun v => ?_⟩
  · simpa [div_eq_mul_inv] using h.choose_spec.1
  · have := h.choose_spec.2 v
    obtain ⟨f', h1, h2⟩ := hd
    obtain ⟨g', h3, h4⟩ := he
    beta_reduce at this ⊢
    rw [h2, h4] at this ⊢
    simp only [Dual.recip, Dual.div, Dual.mul_def, one_eq, fin_npow, fin_neg, fin_div _ h0, fin_div _ (pow_ne_zero 2 h0), fin_mul,
      fin_add, Dual.mk.injEq, fin_inj] at this ⊢
    rw [← this.2]
    refine ⟨trivial, ?_⟩
    field_simp

theorem IsAD.sin (hd : IsAD d f x) : IsAD (fun v => (d v).sin) (fun y => Real.sin (f y)) x := by
  obtain ⟨f', h1, h2⟩ := hd
  refine ⟨_, h1.sin, fun v => ?_⟩
  beta_reduce
  rw [h2]
  simp [Dual.sin, XR.sin, XR.cos, mul_comm]

theorem IsAD.cos (hd : IsAD d f x) : IsAD (fun v => (d v).cos) (fun y => Real.cos (f y)) x := by
  obtain ⟨f', h1, h2⟩ := hd
  refine ⟨_, h1.cos, fun v => ?_⟩
  beta_reduce
  rw [h2]
  simp [Dual.cos, XR.sin, XR.cos, mul_comm]

theorem IsAD.exp (hd : IsAD d f x) : IsAD (fun v => (d v).exp) (fun y => Real.exp (f y)) x := by
  obtain ⟨f', h1, h2⟩ := hd
  refine ⟨_, h1.exp, fun v => ?_⟩
  beta_reduce
  rw [h2]
  simp [Dual.exp, XR.exp, mul_comm]

theorem IsAD.log (hd : IsAD d f x) (h0 : 0 < f x) : IsAD (fun v => (d v).log) (fun y => Real.log (f y)) x := by
  obtain ⟨f', h1, h2⟩ := hd
  refine ⟨_, h1.log h0.ne', fun v => ?_⟩
  beta_reduce
  rw [h2]
  simp [Dual.log, fin_log h0, fin_div _ h0.ne', div_eq_inv_mul]

theorem IsAD.arccos (hd : IsAD d f x) (h1 : -1 < f x) (h2 : f x < 1) :
    IsAD (fun v => (d v).arccos) (fun y => Real.arccos (f y)) x := by
  obtain ⟨f', h3, h4⟩ := hd
  refine ⟨_, (Real.hasDerivAt_arccos h1.ne' h2.ne).comp_hasFDerivAt x h3, fun v => ?_⟩
  have hp : 0 < 1 - f x ^ 2 := by nlinarith
  have hs : Real.sqrt (1 - f x ^ 2) ≠ 0 := (Real.sqrt_pos.mpr hp).ne'
  beta_reduce
  rw [h4]
  simp only [Dual.arccos, fin_arccos h1.le h2.le, one_eq, fin_npow, fin_sub, fin_sqrt hp.le, fin_div _ hs, fin_neg, fin_mul,
    _root_.smul_apply, smul_eq_mul, mul_comm]

theorem IsAD.const (c : ℝ) : IsAD (fun _ : E => Dual.const (fin c)) (fun _ => c) x :=
  ⟨0, hasFDerivAt_const c x, fun v => by simp [Dual.const, zero_eq]⟩

theorem IsAD.dot {n : ℕ} {z w : E → Fin n → Dual} {a b : E → Fin n → ℝ} (hz : ∀ i, IsAD (fun v => z v i) (fun y => a y i) x)
    (hw : ∀ i, IsAD (fun v => w v i) (fun y => b y i) x) :
    IsAD (fun v => dotD (z v) (w v)) (fun y => ∑ i, a y i * b y i) x := by
  choose t ht using fun i => (hz i).mul (hw i)
  refine ⟨∑ i, t i, ?_, fun v => ?_⟩
  · have := HasFDerivAt.fun_sum (u := Finset.univ) fun i _ => (ht i).1
    simpa using this
  · have h : ∀ i, z v i * w v i = ⟨fin (a x i * b x i), fin (t i v)⟩ := fun i => (ht i).2 v
    simp only [dotD, h, fin_sum]
    simp

theorem IsAD.norm {n : ℕ} {z : E → Fin n → Dual} {a : E → Fin n → ℝ} (hz : ∀ i, IsAD (fun v => z v i) (fun y => a y i) x)
    (h0 : 0 < ∑ i, a x i * a x i) : IsAD (fun v => vnormD (z v)) (fun y => Real.sqrt (∑ i, a y i * a y i)) x :=
  (IsAD.dot hz hz).sqrt h0

/-! ## Quaternions by components -/

theorem imv_eq (q : ℍ[ℝ]) : imv q 0 = q.imI ∧ imv q 1 = q.imJ ∧ imv q 2 = q.imK := ⟨rfl, rfl, rfl⟩

/-- The components as continuous linear maps. -/
noncomputable def reL : ℍ[ℝ] →L[ℝ] ℝ := ⟨{ toFun := fun q => q.re, map_add' := fun _ _ => rfl, map_smul' := fun _ _ => rfl }, Quaternion.continuous_re⟩

noncomputable def imL (i : Fin 3) : ℍ[ℝ] →L[ℝ] ℝ :=
  ⟨{ toFun := fun q => imv q i
     map_add' := fun _ _ => by fin_cases i <;> simp [imv]
     map_smul' := fun _ _ => by fin_cases i <;> simp [imv] },
   by fin_cases i
      exacts [Quaternion.continuous_imI, Quaternion.continuous_imJ, Quaternion.continuous_imK]⟩

theorem isADQ_iff {d : E → QuatD} {f : E → ℍ[ℝ]} : IsADQ d f x ↔
    IsAD (fun v => (d v).re) (fun y => (f y).re) x ∧ ∀ i, IsAD (fun v => (d v).im i) (fun y => imv (f y) i) x := by
  constructor
  · rintro ⟨f', h1, h2⟩
    refine ⟨⟨reL.comp f', reL.hasFDerivAt.comp x h1, fun v => ?_⟩, fun i => ⟨(imL i).comp f', (imL i).hasFDerivAt.comp x h1, fun v => ?_⟩⟩
    · beta_reduce; rw [h2]; rfl
    · beta_reduce; rw [h2]; rfl
  · rintro ⟨⟨a, h1, h2⟩, h3⟩
    choose t ht using h3
    let L : E →L[ℝ] ℍ[ℝ] := a.smulRight (1 : ℍ[ℝ]) + (t 0).smulRight (pureH ![1, 0, 0]) + (t 1).smulRight (pureH ![0, 1, 0]) +
      (t 2).smulRight (pureH ![0, 0, 1])
    have hL : ∀ v, L v = ⟨a v, t 0 v, t 1 v, t 2 v⟩ := fun v => by
      ext <;> simp [L]
    refine ⟨L, ?_, fun v => ?_⟩
    · have h4 : f = fun y => (f y).re • (1 : ℍ[ℝ]) + imv (f y) 0 • (pureH ![1, 0, 0]) + imv (f y) 1 • (pureH ![0, 1, 0]) +
          imv (f y) 2 • (pureH ![0, 0, 1]) := by
        funext y
        ext <;> simp [imv]
      rw [h4]
      exact (((h1.smul_const _).add ((ht 0).1.smul_const _)).add ((ht 1).1.smul_const _)).add ((ht 2).1.smul_const _)
    · rw [hL]
      have e1 := h2 v
      have e2 := fun i => (ht i).2 v
      beta_reduce at e1 e2
      cases hd : d v with
      | mk r i =>
        rw [hd] at e1 e2
        simp only [dualH, QuatD.mk.injEq]
        refine ⟨e1, ?_⟩
        funext j
        rw [show i j = _ from e2 j]
        fin_cases j <;> rfl

variable {p q : E → QuatD} {F G : E → ℍ[ℝ]}

theorem IsADQ.congr {p' : E → QuatD} {F' : E → ℍ[ℝ]} (h : IsADQ p F x) (hp : ∀ v, p' v = p v) (hF : ∀ y, F' y = F y) : IsADQ p' F' x := by
  rw [funext hp, funext hF]; exact h

theorem IsADQ.congr_nhds {F' : E → ℍ[ℝ]} (h : IsADQ p F x) (hF : F' =ᶠ[nhds x] F) : IsADQ p F' x := by
  obtain ⟨f', h1, h2⟩ := h
  exact ⟨f', h1.congr_of_eventuallyEq hF, fun v => by rw [h2, hF.eq_of_nhds]⟩

theorem IsADQ.neg (hp : IsADQ p F x) : IsADQ (fun v => (p v).neg) (fun y => -F y) x := by
  rw [isADQ_iff] at *
  exact ⟨hp.1.neg, fun i => (hp.2 i).neg.congr (fun _ => rfl) fun y => by fin_cases i <;> simp [imv]⟩

theorem IsADQ.conj (hp : IsADQ p F x) : IsADQ (fun v => (p v).conj) (fun y => star (F y)) x := by
  rw [isADQ_iff] at *
  exact ⟨hp.1.congr (fun _ => rfl) fun y => by simp, fun i => (hp.2 i).neg.congr (fun _ => rfl) fun y => by fin_cases i <;> simp [imv]⟩

theorem IsADQ.add (hp : IsADQ p F x) (hq : IsADQ q G x) : IsADQ (fun v => (p v).add (q v)) (fun y => F y + G y) x := by
  rw [isADQ_iff] at *
  exact ⟨hp.1.add hq.1, fun i => ((hp.2 i).add (hq.2 i)).congr (fun _ => rfl) fun y => by fin_cases i <;> simp [imv]⟩

theorem IsADQ.sub (hp : IsADQ p F x) (hq : IsADQ q G x) : IsADQ (fun v => (p v).sub (q v)) (fun y => F y - G y) x := by
  rw [isADQ_iff] at *
  exact ⟨hp.1.sub hq.1, fun i => ((hp.2 i).sub (hq.2 i)).congr (fun _ => rfl) fun y => by fin_cases i <;> simp [imv]⟩

theorem IsADQ.mulScalar (hp : IsADQ p F x) (hd : IsAD d f x) : IsADQ (fun v => (p v).mulScalar (d v)) (fun y => f y • F y) x := by
  rw [isADQ_iff] at *
  exact ⟨(hp.1.mul hd).congr (fun _ => rfl) fun y => by simp [mul_comm],
    fun i => ((hp.2 i).mul hd).congr (fun _ => rfl) fun y => by fin_cases i <;> simp [imv, mul_comm]⟩

theorem IsADQ.mulc (hp : IsADQ p F x) (s : ℝ) :
    IsADQ (fun v => ⟨(p v).re.mulc (fin s), fun i => ((p v).im i).mulc (fin s)⟩) (fun y => s • F y) x := by
  rw [isADQ_iff] at *
  exact ⟨(hp.1.mulc s).congr (fun _ => rfl) fun y => by simp [mul_comm],
    fun i => ((hp.2 i).mulc s).congr (fun _ => rfl) fun y => by fin_cases i <;> simp [imv, mul_comm]⟩

theorem IsAD.cross {z w : E → Fin 3 → Dual} {a b : E → Fin 3 → ℝ} (hz : ∀ i, IsAD (fun v => z v i) (fun y => a y i) x)
    (hw : ∀ i, IsAD (fun v => w v i) (fun y => b y i) x) (i : Fin 3) :
    IsAD (fun v => QuatD.cross (z v) (w v) i)
      (fun y => ![a y 1 * b y 2 - a y 2 * b y 1, a y 2 * b y 0 - a y 0 * b y 2, a y 0 * b y 1 - a y 1 * b y 0] i) x := by
  fin_cases i
  · exact ((hz 1).mul (hw 2)).sub ((hz 2).mul (hw 1))
  · exact ((hz 2).mul (hw 0)).sub ((hz 0).mul (hw 2))
  · exact ((hz 0).mul (hw 1)).sub ((hz 1).mul (hw 0))

theorem IsADQ.mul (hp : IsADQ p F x) (hq : IsADQ q G x) : IsADQ (fun v => (p v).mul (q v)) (fun y => F y * G y) x := by
  rw [isADQ_iff] at *
  refine ⟨((hp.1.mul hq.1).sub (IsAD.dot hp.2 hq.2)).congr (fun _ => rfl) fun y => ?_, fun i =>
    (((hp.1.mul (hq.2 i)).add (hq.1.mul (hp.2 i))).add (IsAD.cross hp.2 hq.2 i)).congr (fun _ => rfl) fun y => ?_⟩
  · simp [imv, Fin.sum_univ_three]; ring
  · fin_cases i <;> simp [imv] <;> ring

theorem IsADQ.const (c : ℍ[ℝ]) : IsADQ (fun _ : E => QuatD.const (ofH c)) (fun _ => c) x := by
  rw [isADQ_iff]
  exact ⟨IsAD.const c.re, fun i => IsAD.const (imv c i)⟩

theorem IsADQ.pure {z : E → Fin 3 → Dual} {a : E → Fin 3 → ℝ} (hz : ∀ i, IsAD (fun v => z v i) (fun y => a y i) x) :
    IsADQ (fun v => ⟨Dual.const 0, z v⟩) (fun y => pureH (a y)) x := by
  rw [isADQ_iff]
  exact ⟨(IsAD.const 0).congr (fun _ => by rw [zero_eq]) fun _ => rfl, fun i => (hz i).congr (fun _ => rfl) fun y => by rw [imv_pureH]⟩

theorem IsADQ.im (hp : IsADQ p F x) (i : Fin 3) : IsAD (fun v => (p v).im i) (fun y => imv (F y) i) x := (isADQ_iff.mp hp).2 i

theorem sum_imv (q : ℍ[ℝ]) : ∑ i, imv q i * imv q i = ‖q.im‖ ^ 2 := by
  rw [norm_sq_H]; simp [imv, Fin.sum_univ_three]; ring

theorem IsADQ.abs (hp : IsADQ p F x) (h0 : F x ≠ 0) : IsAD (fun v => (p v).abs) (fun y => ‖F y‖) x := by
  rw [isADQ_iff] at hp
  have e : ∀ y, ‖F y‖ = Real.sqrt ((F y).re ^ 2 + ∑ i, imv (F y) i * imv (F y) i) := fun y => by
    rw [sum_imv, ← norm_im_sq, Real.sqrt_sq (norm_nonneg _)]
  refine ((hp.1.sq.add (IsAD.dot hp.2 hp.2)).sqrt ?_).congr (fun _ => rfl) e
  rw [sum_imv, ← norm_im_sq]
  have := norm_pos_iff.mpr h0
  positivity

theorem IsADQ.reciprocal (hp : IsADQ p F x) (h0 : F x ≠ 0) : IsADQ (fun v => (p v).reciprocal) (fun y => (F y)⁻¹) x := by
  have h1 := (hp.abs h0).sq.recip (pow_ne_zero 2 (norm_ne_zero_iff.mpr h0))
  refine (hp.conj.mulScalar h1).congr (fun _ => rfl) fun y => ?_
  rw [Quaternion.inv_def, Quaternion.normSq_eq_norm_mul_self, one_div, sq]

theorem IsADQ.norm_im (hp : IsADQ p F x) (h0 : (F x).im ≠ 0) : IsAD (fun v => vnormD (p v).im) (fun y => ‖(F y).im‖) x := by
  rw [isADQ_iff] at hp
  have h1 := norm_pos_iff.mpr h0
  refine (IsAD.norm hp.2 (by rw [sum_imv]; positivity)).congr (fun _ => rfl) fun y => ?_
  rw [sum_imv, Real.sqrt_sq (norm_nonneg _)]

theorem IsADQ.sgn {eps : ℝ} (he : 0 < eps) (hp : IsADQ p F x) (h0 : eps < ‖(F x).im‖) (i : Fin 3) :
    IsAD (fun v => QuatD.sgn eps (p v).im i) (fun y => imv (F y) i / ‖(F y).im‖) x := by
  have h1 : (F x).im ≠ 0 := norm_pos_iff.mp (he.trans h0)
  have h2 := hp.norm_im h1
  refine ((hp.im i).div h2 (norm_ne_zero_iff.mpr h1)).congr (fun v => ?_) fun _ => rfl
  rw [QuatD.sgn, h2.val, fin_le, if_neg (not_le.mpr h0)]

theorem exp_parts (q : ℍ[ℝ]) : (NormedSpace.exp q).re = Real.exp q.re * Real.cos ‖q.im‖ ∧
    ∀ i, imv (NormedSpace.exp q) i = Real.exp q.re * (imv q i / ‖q.im‖) * Real.sin ‖q.im‖ := by
  rw [Quaternion.exp_eq, ← Real.exp_eq_exp_ℝ]
  refine ⟨by simp, fun i => ?_⟩
  fin_cases i <;> simp [imv] <;> ring

theorem IsADQ.exp {eps : ℝ} (he : 0 < eps) (hp : IsADQ p F x) (h0 : eps < ‖(F x).im‖) :
    IsADQ (fun v => (p v).exp eps) (fun y => NormedSpace.exp (F y)) x := by
  have h1 : (F x).im ≠ 0 := norm_pos_iff.mp (he.trans h0)
  have h2 := hp.norm_im h1
  have hr := (isADQ_iff.mp hp).1.exp
  rw [isADQ_iff]
  exact ⟨(hr.mul h2.cos).congr (fun _ => rfl) fun y => (exp_parts _).1,
    fun i => ((hr.mul (hp.sgn he h0 i)).mul h2.sin).congr (fun _ => rfl) fun y => (exp_parts _).2 i⟩

/-- The logarithm away from the real numbers. -/
noncomputable def logH (q : ℍ[ℝ]) : ℍ[ℝ] := (Real.log ‖q‖ : ℝ) + pureH fun i => imv q i / ‖q.im‖ * angleH q

theorem logH_axial {q : ℍ[ℝ]} (h : q.im ≠ 0) : ∃ u : Fin 3 → ℝ, dotProduct u u = 1 ∧ imv q = ‖q.im‖ • u ∧
    logH q = axial (Real.log ‖q‖) (angleH q) u := by
  have hn := norm_pos_iff.mpr h
  obtain ⟨u, hu, hu'⟩ := exists_direction hn
  refine ⟨u, hu, hu', ?_⟩
  rw [logH, axial]
  congr 2
  funext i
  rw [hu']
  simp only [Pi.smul_apply, smul_eq_mul]
  field_simp

theorem exp_logH {q : ℍ[ℝ]} (h : q.im ≠ 0) : NormedSpace.exp (logH q) = q := by
  have hq : q ≠ 0 := by rintro rfl; simp at h
  obtain ⟨u, hu, hu', e⟩ := logH_axial h
  rw [e, exp_polar hu _ _ (show 0 ≤ angleH q from Real.arccos_nonneg _), Real.exp_log (norm_pos_iff.mpr hq), ← eq_polar hq hu']

theorem log_ofH {eps : ℝ} (he : 0 < eps) {q : ℍ[ℝ]} (h : eps < ‖q.im‖) : Quat.log eps (ofH q) = ofH (logH q) := by
  obtain ⟨u, hu, hu', e⟩ := logH_axial (norm_pos_iff.mp (he.trans h))
  rw [e, log_big he h hu']

theorem ratio_strict {q : ℍ[ℝ]} (h : q.im ≠ 0) : -1 < q.re / ‖q‖ ∧ q.re / ‖q‖ < 1 := by
  have hq : q ≠ 0 := by rintro rfl; simp at h
  have hr : 0 < ‖q‖ := norm_pos_iff.mpr hq
  have hi : 0 < ‖q.im‖ := norm_pos_iff.mpr h
  have h1 : |q.re| < ‖q‖ := abs_lt_of_sq_lt_sq (by nlinarith [norm_im_sq q]) hr.le
  rw [abs_lt] at h1
  rw [lt_div_iff₀ hr, div_lt_one hr]
  exact ⟨by linarith [h1.1], h1.2⟩

theorem IsADQ.arg (hp : IsADQ p F x) (h0 : (F x).im ≠ 0) : IsAD (fun v => (p v).arg) (fun y => angleH (F y)) x := by
  have hq : F x ≠ 0 := by intro h; rw [h] at h0; simp at h0
  have h1 := (isADQ_iff.mp hp).1.mul ((hp.abs hq).recip (norm_ne_zero_iff.mpr hq))
  obtain ⟨h2, h3⟩ := ratio_strict h0
  refine (h1.arccos (by rwa [mul_one_div]) (by rwa [mul_one_div])).congr (fun _ => rfl) fun y => ?_
  rw [angleH, mul_one_div]

theorem IsADQ.log {eps : ℝ} (he : 0 < eps) (hp : IsADQ p F x) (h0 : eps < ‖(F x).im‖) :
    IsADQ (fun v => (p v).log eps) (fun y => logH (F y)) x := by
  have h1 : (F x).im ≠ 0 := norm_pos_iff.mp (he.trans h0)
  have hq : F x ≠ 0 := by intro h; rw [h] at h1; simp at h1
  rw [isADQ_iff]
  refine ⟨((hp.abs hq).log (norm_pos_iff.mpr hq)).congr (fun _ => rfl) fun y => by simp [logH],
    fun i => ((hp.sgn he h0 i).mul (hp.arg h1)).congr (fun _ => rfl) fun y => ?_⟩
  fin_cases i <;> simp [logH, imv]

end

end Verif
