import Verif.Lemmas.NestedCalls
import Verif.Props.MumagAD
import Verif.Props.Shapes
import Verif.Props.Transforms
import Verif.Props.MLP
import Verif.Props.QuatAD

/-! # C170: differentiating functions which differentiate: `normalize_1st_order`, `ellipsoid` and constrained models -/

namespace Verif

open XR
open scoped ContDiff Topology Quaternion Matrix
open InnerProductSpace Laplacian

/-- Spec: the program `F`, called with numbers which stand for smooth functions with values `x₀`, returns `nan` in every entry, also as
value. -/
def NestNan {m : ℕ} (F : (k : ℕ) → GADF (Nested k) m) (x₀ : Pt m) : Prop :=
  ∀ (n k : ℕ) (x : Pt n) (vs : ℕ → Pt n) (a : Fin m → Nested k) (T : Pt n → Pt m), T x = x₀ →
    (∀ i, Rep x vs k (a i) (fun y => T y i) ∧ Tracked k (a i)) → ∀ b, comp b k (F k a) = nan

/-- Spec: the program `F` computes `f` for every kind of numbers which stand for functions and whose operations respect this. -/
def ParamSound {m : ℕ} (F : (α : Type) → [ADNum α] → GADF α m) (f : Pt m → ℝ) (x₀ : Pt m) : Prop :=
  ∀ (α : Type) [ADNum α] (n : ℕ) (x : Pt n) (R : α → (Pt n → ℝ) → Prop), Sound x R → ∀ (a : Fin m → α) (T : Pt n → Pt m),
    T x = x₀ → (∀ i, R (a i) fun y => T y i) → R (F α a) fun y => f (T y)

theorem Sound.zero {E : Type*} [NormedAddCommGroup E] [NormedSpace ℝ E] {α : Type} [ADNum α] {x : E} {R : α → (E → ℝ) → Prop}
    (S : Sound x R) : R (ADNum.const 0) fun _ => 0 := zero_eq ▸ S.const 0

theorem Sound.one {E : Type*} [NormedAddCommGroup E] [NormedSpace ℝ E] {α : Type} [ADNum α] {x : E} {R : α → (E → ℝ) → Prop}
    (S : Sound x R) : R (ADNum.const 1) fun _ => 1 := one_eq ▸ S.const 1

theorem ParamSound.right {m : ℕ} {F : (α : Type) → [ADNum α] → GADF α m} {f : Pt m → ℝ} {x : Pt m} (h : ParamSound F f x) :
    NestRight (fun k => F (Nested k)) f x := fun n k y vs a T hT ha =>
  h (Nested k) n y _ (rep_sound y vs k) a T hT fun i => (ha i).1

theorem ParamSound.smooth {m : ℕ} {F : (α : Type) → [ADNum α] → GADF α m} {f : Pt m → ℝ} {x : Pt m} (h : ParamSound F f x) :
    ContDiffAt ℝ ∞ f x :=
  (sound_base x).smooth (h XR m x _ (sound_base x) (fun i => fin (x i)) (fun y => y) rfl fun i =>
    ⟨(EuclideanSpace.proj (𝕜 := ℝ) i).contDiff.contDiffAt, rfl⟩)

/-! ## `jacfwd` -/

/-- `jacfwd` below further `jvp`s: where the derivatives of `F` are right, so are those of its gradient; where they are not, all
entries of the gradient are `nan`, its value too. -/
theorem C170_gradient {m : ℕ} (p : Prop) (F : (k : ℕ) → GADF (Nested k) m) (f : Pt m → ℝ) (x : Pt m) (h : NestOutcome p F f x)
    (j : Fin m) :
    (p → NestRight (fun k a => jacG (F (k + 1)) a j) (fun y => fderiv ℝ f y (EuclideanSpace.single j 1)) x) ∧
    (¬ p → NestNan (fun k a => jacG (F (k + 1)) a j) x) :=
  ⟨fun hp _ _ _ _ _ _ hT ha => (jacG_rep h hT ha j).1 hp, fun hp _ _ _ _ _ _ hT ha => (jacG_rep h hT ha j).2 hp⟩

theorem norm_sq_gradient {m : ℕ} {f : Pt m → ℝ} {y : Pt m} (hf : DifferentiableAt ℝ f y) :
    ‖gradient f y‖ ^ 2 = ∑ i, fderiv ℝ f y (EuclideanSpace.single i 1) * fderiv ℝ f y (EuclideanSpace.single i 1) := by
  rw [← jacVec_eq_gradient hf, norm_sq_pt]
  exact Finset.sum_congr rfl fun i _ => sq _

/-! ## `normalize_1st_order` and `ellipsoid` -/

/-- `normalize_1st_order`: at a point where the derivatives of the ADF are right and its gradient is not zero, all derivatives of the
normalised function are right; where those of the ADF are not right, even the value of the normalised function is `nan`. -/
theorem C170_normalize {m : ℕ} (hm : 0 < m) (p : Prop) (F : (k : ℕ) → GADF (Nested k) m) (f : Pt m → ℝ) (x : Pt m)
    (h : NestOutcome p F f x) :
    (p → gradient f x ≠ 0 → NestOutcome True (fun k => normalize1stOrderG (F k) (F (k + 1)))
      (fun y => f y / Real.sqrt (f y ^ 2 + ‖gradient f y‖ ^ 2)) x) ∧
    (¬ p → NestNan (fun k => normalize1stOrderG (F k) (F (k + 1))) x) := by
  refine ⟨fun hp hg => ?_, fun hp => ?_⟩
  · have hfx := ((C167_derivatives p F f x h).1 hp).1
    rintro n k x vs a T rfl ha
    have S := rep_sound x vs k
    have hF := (h n k x vs a T rfl ha).1 hp
    have hJ := fun j => (jacG_rep h rfl ha j).1 hp
    have hTc : Filter.Tendsto T (𝓝 x) (𝓝 (T x)) :=
      (contDiffAt_euclidean.mpr fun i => S.smooth (ha i).1).continuousAt
    have hpos : 0 < ∑ i, fderiv ℝ f (T x) (EuclideanSpace.single i 1) * fderiv ℝ f (T x) (EuclideanSpace.single i 1) := by
      rw [← norm_sq_gradient (hfx.differentiableAt (by simp))]
      have := norm_pos_iff.mpr hg
      positivity
    have h1 : Rep x vs k (vnormG (jacG (F (k + 1)) a)) fun y => Real.sqrt
        (∑ i, fderiv ℝ f (T y) (EuclideanSpace.single i 1) * fderiv ℝ f (T y) (EuclideanSpace.single i 1)) :=
      S.sqrt (rep_sum _ _ fun i => S.mul (hJ i) (hJ i)) hpos
    have h2 := S.add (S.ipow 2 hF.1 (Or.inl (by norm_num))) (S.ipow 2 h1 (Or.inl (by norm_num)))
    have hp2 : 0 < f (T x) ^ (2 : ℤ) + Real.sqrt
        (∑ i, fderiv ℝ f (T x) (EuclideanSpace.single i 1) * fderiv ℝ f (T x) (EuclideanSpace.single i 1)) ^ (2 : ℤ) := by
      have := Real.sqrt_pos.mpr hpos
      positivity
    refine ⟨fun _ => ⟨?_, tracked_div hF.2⟩, fun h => absurd trivial h⟩
    refine S.congr (S.div hF.1 (S.sqrt h2 hp2) (Real.sqrt_pos.mpr hp2).ne') ?_
    filter_upwards [hTc.eventually (ev_diff hfx)] with y hy
    have e : ∀ z : ℝ, z ^ (2 : ℤ) = z ^ 2 := fun z => by norm_cast
    rw [e, e, Real.sq_sqrt (Finset.sum_nonneg fun i _ => mul_self_nonneg _), norm_sq_gradient hy]
  · rintro n k x vs a T rfl ha b
    have hJ := fun j => (jacG_rep h rfl ha j).2 hp b
    exact div_nan _ _ _ _ (Or.inr (sqrt_nan _ _ _ (add_nan (Or.inr (ipow_nan _ _ 2 (by norm_num) _
      (vnorm_strict _ ⟨⟨0, hm⟩, hJ _⟩))))))

theorem scaleWithoutNormalization_nestOutcome {n : ℕ} {p : Prop} {F : (k : ℕ) → GADF (Nested k) n} {f : Pt n → ℝ} {s : Fin n → ℝ}
    (hs : ∀ i, s i ≠ 0) (x : Pt n) (h : NestOutcome p F f (WithLp.toLp 2 fun i => x i / s i)) :
    NestOutcome p (fun k => scaleWithoutNormalizationG (F k) (vfin s)) (fun z => f (WithLp.toLp 2 fun i => z i / s i)) x := by
  refine NestOutcome.coords (T₀ := fun z => WithLp.toLp 2 fun i => z i / s i) h (fun k a i => a i /ₐ ADNum.const (fin (s i)))
    fun i => ?_
  rintro l k x vs a T rfl ha
  have S := rep_sound x vs k
  exact ⟨fun _ => ⟨S.div (ha i).1 (S.const _) (hs i), tracked_div (ha i).2⟩, fun h => absurd trivial h⟩

/-- `ellipsoid`: all derivatives of all orders are right everywhere but at the centre, where every entry is `nan`. -/
theorem C170_ellipsoid {n : ℕ} (hn : 0 < n) (s : Fin n → ℝ) (hs : ∀ i, s i ≠ 0) :
    ∃ h : Pt n → ℝ, (∀ y, y ≠ 0 → ellipsoid (vfin s) (efin y) = fin (h y)) ∧
      (∀ x, x ≠ 0 → NestOutcome True (fun _ => ellipsoidG (vfin s)) h x) ∧ NestNan (fun _ => ellipsoidG (vfin s)) (0 : Pt n) := by
  set f : Pt n → ℝ := fun y => 1 / 2 - ∑ i, 1 / (2 * s i ^ 2) * y i ^ 2 with hf
  set g : Pt n → Pt n := fun y => WithLp.toLp 2 fun i => -(2 * (1 / (2 * s i ^ 2)) * y i) with hg
  have hgr : ∀ y, HasGradientAt f (g y) y := fun y => hasGradientAt_diag _ _ y
  have hg0 : ∀ y, y ≠ 0 → g y ≠ 0 := by
    intro y hy h
    apply hy
    ext i
    have h1 : g y i = 0 := by rw [h]; rfl
    simp only [hg] at h1
    have := hs i
    have h2 : y i = 0 := by simpa [this] using h1
    simpa using h2
  have h0 : ∀ x : Pt n, NestOutcome (x ≠ 0) (fun k => scaleWithoutNormalizationG (α := Nested k) (sphereG 1) (vfin s)) f x := by
    intro x
    have h1 := scaleWithoutNormalization_nestOutcome hs x
      (sphere_nestOutcome hn (r := 1) one_ne_zero (WithLp.toLp 2 fun i => x i / s i : Pt n))
    have e1 : ((WithLp.toLp 2 fun i => x i / s i : Pt n) ≠ 0) = (x ≠ 0) := by
      rw [eq_iff_iff, not_iff_not]
      constructor
      · intro h
        ext i
        have : (WithLp.toLp 2 fun i => x i / s i : Pt n) i = 0 := by rw [h]; rfl
        simpa [hs i] using this
      · rintro rfl
        ext i
        simp
    have e2 : (fun z : Pt n => (1 ^ 2 - ‖(WithLp.toLp 2 fun i => z i / s i : Pt n)‖ ^ 2) / (2 * 1)) = f := by
      funext y
      have h2 := ellipsoid_base_fin hs y
      have h3 : (fun i => efin y i / vfin s i) = efin (WithLp.toLp 2 fun i => y i / s i : Pt n) := by
        funext i; simp [fin_div _ (hs i)]
      rw [scaleWithoutNormalization, h3, one_eq, sphere_real one_ne_zero, fin_inj] at h2
      exact h2
    rw [e1, e2] at h1
    rw [one_eq]
    exact h1
  refine ⟨fun y => f y / Real.sqrt (f y ^ 2 + ‖gradient f y‖ ^ 2), fun y hy => ?_, fun x hx => ?_, ?_⟩
  · have hp : 0 < Real.sqrt (f y ^ 2 + ‖g y‖ ^ 2) := by
      have := norm_pos_iff.mpr (hg0 y hy)
      positivity
    rw [ellipsoid, normalize1stOrder]
    simp only [ellipsoid_base_fin hs y, ellipsoid_jac_fin hs hy]
    rw [vnorm_efin, fin_npow, fin_npow, fin_add, fin_sqrt (by positivity), (hgr y).gradient]
    exact fin_div _ hp.ne'
  · exact (C170_normalize hn _ _ f x (h0 x)).1 hx (by rw [(hgr x).gradient]; exact hg0 x hx)
  · exact (C170_normalize hn _ _ f 0 (h0 0)).2 (by simp)

/-- The Laplacian of an ellipsoid is right on and off its surface, and its value and Laplacian at the centre are `nan`. -/
example : ∃ h : Pt 3 → ℝ, (∀ y, y ≠ 0 → ellipsoid (vfin ![1, 2, 3]) (efin y) = fin (h y)) ∧
    (∀ x, x ≠ 0 → laplaceG (ellipsoidG (vfin ![1, 2, 3])) (efin x) = fin ((Δ h) x)) ∧
    ellipsoidG (α := XR) (vfin ![1, 2, 3]) (efin (0 : Pt 3)) = nan := by
  obtain ⟨h, h1, h2, h3⟩ := C170_ellipsoid (n := 3) (by norm_num) ![1, 2, 3] (by intro i; fin_cases i <;> simp)
  exact ⟨h, h1, fun x hx => ((C167_laplace (by norm_num) _ (fun _ => ellipsoidG (vfin ![1, 2, 3])) h x (h2 x hx)).1 trivial).2,
    h3 3 0 0 0 _ (fun y => y) rfl (seedK_ok 0 0 0) fun _ => false⟩

/-! ## the remaining transformations -/

/-- `scale_without_normalization`, `rotate2d`, `reflect` and `project` move the points where the derivatives are right with the
solid. -/
theorem C170_transforms {n : ℕ} (F : (k : ℕ) → GADF (Nested k) n) (f : Pt n → ℝ) (p : Prop) (x o : Pt n) :
    (∀ s : Fin n → ℝ, (∀ i, s i ≠ 0) → NestOutcome p F f (WithLp.toLp 2 fun i => x i / s i) →
      NestOutcome p (fun k => scaleWithoutNormalizationG (F k) (vfin s)) (fun z => f (WithLp.toLp 2 fun i => z i / s i)) x) ∧
    (∀ v : Pt n, v ≠ 0 → NestOutcome p F f (x - (2 * inner ℝ (x - o) v / ‖v‖ ^ 2) • v) →
      NestOutcome p (fun k => reflectG (F k) (efin v) (efin o)) (fun z => f (z - (2 * inner ℝ (z - o) v / ‖v‖ ^ 2) • v)) x) ∧
    (∀ v : Pt n, v ≠ 0 → NestOutcome p F f (x - (inner ℝ (x - o) v / ‖v‖ ^ 2) • v) →
      NestOutcome p (fun k => projectG (F k) (efin v) (efin o)) (fun z => f (z - (inner ℝ (z - o) v / ‖v‖ ^ 2) • v)) x) := by
  have hin : ∀ y v : Pt n, inner ℝ (y - o) v = ∑ i, (y i - o i) * v i := fun y v => by
    simp only [PiLp.inner_apply, RCLike.inner_apply, conj_trivial, PiLp.sub_apply]
    exact Finset.sum_congr rfl fun i _ => mul_comm _ _
  refine ⟨fun s hs h => scaleWithoutNormalization_nestOutcome hs x h, fun v hv h => ?_, fun v hv h => ?_⟩
  · have hv2 : ‖v‖ ^ 2 ≠ 0 := by have := norm_ne_zero_iff.mpr hv; positivity
    refine NestOutcome.coords (T₀ := fun z => z - (2 * inner ℝ (z - o) v / ‖v‖ ^ 2) • v) h (fun k a i =>
      a i -ₐ ADNum.const (efin o i) -ₐ ADNum.const 2 *ₐ dotCG (fun i => a i -ₐ ADNum.const (efin o i)) (efin v) /ₐ
        ADNum.const (vnorm (efin v) ^ 2) *ₐ ADNum.const (efin v i) -ₐ ADNum.const (-efin o i)) fun i => ?_
    rintro l k x vs a T rfl ha
    have S := rep_sound x vs k
    refine ⟨fun _ => ⟨?_, tracked_sub (tracked_sub (tracked_sub (ha i).2))⟩, fun h => absurd trivial h⟩
    have hd : ∀ i, Rep x vs k (a i -ₐ ADNum.const (efin o i)) fun y => T y i - o i := fun i => S.sub (ha i).1 (S.const (o i))
    have h1 := rep_sum _ _ fun i => S.mul (hd i) (S.const (v i))
    rw [vnorm_efin, fin_npow, lit_eq, efin_apply, fin_neg]
    refine S.congr (S.sub (S.sub (hd i) (S.mul (S.div (S.mul (S.const 2) h1) (S.const _) hv2) (S.const (v i)))) (S.const (-o i)))
      (Filter.Eventually.of_forall fun y => ?_)
    simp only [PiLp.sub_apply, PiLp.smul_apply, smul_eq_mul, hin]
    ring
  · have hv2 : ‖v‖ ^ 2 ≠ 0 := by have := norm_ne_zero_iff.mpr hv; positivity
    refine NestOutcome.coords (T₀ := fun z => z - (inner ℝ (z - o) v / ‖v‖ ^ 2) • v) h (fun k a i =>
      a i -ₐ ADNum.const (efin o i) -ₐ dotCG (fun i => a i -ₐ ADNum.const (efin o i)) (efin v) /ₐ
        ADNum.const (vnorm (efin v) ^ 2) *ₐ ADNum.const (efin v i) -ₐ ADNum.const (-efin o i)) fun i => ?_
    rintro l k x vs a T rfl ha
    have S := rep_sound x vs k
    refine ⟨fun _ => ⟨?_, tracked_sub (tracked_sub (tracked_sub (ha i).2))⟩, fun h => absurd trivial h⟩
    have hd : ∀ i, Rep x vs k (a i -ₐ ADNum.const (efin o i)) fun y => T y i - o i := fun i => S.sub (ha i).1 (S.const (o i))
    have h1 := rep_sum _ _ fun i => S.mul (hd i) (S.const (v i))
    rw [vnorm_efin, fin_npow, efin_apply, fin_neg]
    refine S.congr (S.sub (S.sub (hd i) (S.mul (S.div h1 (S.const _) hv2) (S.const (v i)))) (S.const (-o i)))
      (Filter.Eventually.of_forall fun y => ?_)
    simp only [PiLp.sub_apply, PiLp.smul_apply, smul_eq_mul, hin]
    ring

/-- `rotate2d` by a float angle `t` around `o`. -/
theorem C170_rotate2d (F : (k : ℕ) → GADF (Nested k) 2) (f : Pt 2 → ℝ) (p : Prop) (x o : Pt 2) (t : ℝ)
    (h : NestOutcome p F f (WithLp.toLp 2 (turn2 (-t) fun i => x i - o i) + o)) :
    NestOutcome p (fun k => rotate2dG (F k) (.float (fin t)) (efin o))
      (fun z => f (WithLp.toLp 2 (turn2 (-t) fun i => z i - o i) + o)) x := by
  refine NestOutcome.coords (T₀ := fun z => WithLp.toLp 2 (turn2 (-t) fun i => z i - o i) + o) h (fun k a i =>
      sumG ((List.finRange 2).map fun j => ADNum.const (rotate2d.M (.float (fin t)) i j) *ₐ (a j -ₐ ADNum.const (efin o j))) -ₐ
        ADNum.const (-efin o i)) fun i => ?_
  rintro l k x vs a T rfl ha
  have S := rep_sound x vs k
  have hd : ∀ i, Rep x vs k (a i -ₐ ADNum.const (efin o i)) fun y => T y i - o i := fun i => S.sub (ha i).1 (S.const (o i))
  set M : Fin 2 → Fin 2 → ℝ := ![![Real.cos t, Real.sin t], ![-Real.sin t, Real.cos t]] with hM
  have hM' : ∀ i j, rotate2d.M (.float (fin t)) i j = fin (M i j) := by
    intro i j
    fin_cases i <;> fin_cases j <;> simp [rotate2d.M, NumArg.cast, NumArg.val, hM]
  refine ⟨fun _ => ⟨?_, tracked_sub (tracked_sum (by norm_num) _ fun j => tracked_mul_right (tracked_sub (ha j).2))⟩,
    fun h => absurd trivial h⟩
  simp only [hM']
  rw [efin_apply, fin_neg]
  refine S.congr (S.sub (rep_sum _ _ fun j => S.mul (S.const (M i j)) (hd j)) (S.const (-o i)))
    (Filter.Eventually.of_forall fun y => ?_)
  beta_reduce
  rw [Fin.sum_univ_two]
  fin_cases i
  · simp [hM, turn2]
  · simp [hM, turn2]

/-- The square turned by `π / 4`: its derivatives are right in the middle of an edge. -/
example : ∃ h : Pt 2 → ℝ, (∀ y, cuboid (.scalar (fin 2)) true (RAlpha.sys 0) (efin y) = fin (h y)) ∧
    NestOutcome True (fun k => rotate2dG (cuboidG (.scalar (fin 2)) true (RAlpha.sysG 0 (Nested k))) (.float (fin (Real.pi / 4)))
      (efin 0)) (fun z => h (WithLp.toLp 2 (turn2 (-(Real.pi / 4)) fun i => z i - (0 : Pt 2) i) + 0))
      (!₂[Real.cos (Real.pi / 4), Real.sin (Real.pi / 4)]) := by
  obtain ⟨h, h1, h2, -⟩ := C167_cuboid (n := 2) (by norm_num) _ _ r0_nest (.scalar (fin 2)) (fun _ => 2)
    (fun _ => rfl) (fun _ => by norm_num) true _ _ rfl rfl
  refine ⟨h, h1, C170_rotate2d _ _ _ _ _ _ ?_⟩
  have e : (WithLp.toLp 2 (turn2 (-(Real.pi / 4)) fun i =>
      (!₂[Real.cos (Real.pi / 4), Real.sin (Real.pi / 4)] : Pt 2) i - (0 : Pt 2) i) + 0 : Pt 2) = !₂[1, 0] := by
    ext i
    fin_cases i
    · simp [turn2]
      have := Real.sin_sq_add_cos_sq (Real.pi / 4)
      rw [Real.cos_pi_div_four, Real.sin_pi_div_four] at this
      nlinarith
    · simp [turn2]
  rw [e]
  refine h2 _ fun i j hi hj => ?_
  fin_cases i <;> fin_cases j <;> simp [OnFace] at hi hj ⊢

section

variable {n k : ℕ} {x : Pt n} {vs : ℕ → Pt n}

/-- The pair `p` stands for the quaternion valued function `F`. -/
def RepQ (x : Pt n) (vs : ℕ → Pt n) (k : ℕ) (p : Nested k × (Fin 3 → Nested k)) (F : Pt n → ℍ[ℝ]) : Prop :=
  Rep x vs k p.1 (fun y => (F y).re) ∧ ∀ i, Rep x vs k (p.2 i) fun y => imv (F y) i

theorem RepQ.const (q : ℍ[ℝ]) : RepQ x vs k (qconstG (Quat.ofH q)) fun _ => q :=
  ⟨(rep_sound x vs k).const q.re, fun i => (rep_sound x vs k).const (imv q i)⟩

theorem RepQ.mul {p q : Nested k × (Fin 3 → Nested k)} {F G : Pt n → ℍ[ℝ]} (hp : RepQ x vs k p F) (hq : RepQ x vs k q G) :
    RepQ x vs k (qmulG p q) fun y => F y * G y := by
  have S := rep_sound x vs k
  constructor
  · refine S.congr (S.sub (S.mul hp.1 hq.1) (rep_sum _ _ fun i => S.mul (hp.2 i) (hq.2 i))) (Filter.Eventually.of_forall fun y => ?_)
    simp [Fin.sum_univ_three, imv]
    ring
  · intro i
    have h := S.add (S.mul hp.1 (hq.2 i)) (S.mul hq.1 (hp.2 i))
    have hc : ∀ i j, Rep x vs k (p.2 i *ₐ q.2 j -ₐ p.2 j *ₐ q.2 i) fun y => imv (F y) i * imv (G y) j - imv (F y) j * imv (G y) i :=
      fun i j => S.sub (S.mul (hp.2 i) (hq.2 j)) (S.mul (hp.2 j) (hq.2 i))
    fin_cases i
    · refine S.congr (S.add h (hc 1 2)) (Filter.Eventually.of_forall fun y => ?_)
      simp [imv]; ring
    · refine S.congr (S.add h (hc 2 0)) (Filter.Eventually.of_forall fun y => ?_)
      simp [imv]; ring
    · refine S.congr (S.add h (hc 0 1)) (Filter.Eventually.of_forall fun y => ?_)
      simp [imv]; ring

theorem rotationG_rep {q : ℍ[ℝ]} (hq : q ≠ 0) {a : Fin 3 → Nested k} {A : Pt n → Fin 3 → ℝ}
    (ha : ∀ i, Rep x vs k (a i) (fun y => A y i) ∧ Tracked k (a i)) (i : Fin 3) :
    Rep x vs k (quaternionRotationG a (Quat.ofH q) i) (fun y => rotH q (A y) i) ∧
      Tracked k (quaternionRotationG a (Quat.ofH q) i) := by
  refine ⟨?_, ?_⟩
  · have h0 : RepQ x vs k (ADNum.const 0, a) fun y => pureH (A y) :=
      ⟨(rep_sound x vs k).zero, fun i => by simpa only [imv_pureH] using (ha i).1⟩
    rw [quaternionRotationG, Quat.reciprocal_ofH hq]
    exact (((RepQ.const q⁻¹).mul h0).mul (RepQ.const q)).2 i
  · exact tracked_add (tracked_add_right (tracked_mul_right (tracked_add (tracked_add (tracked_mul_right (ha i).2)))))

end

/-- `rotate3d` about a unit axis and by Euler angles. -/
theorem C170_rotate3d (F : (k : ℕ) → GADF (Nested k) 3) (f : Pt 3 → ℝ) (p : Prop) (x o : Pt 3) (T : Pt 3 → Pt 3)
    (h : NestOutcome p F f (T x)) :
    (∀ (t : ℝ) (u : Fin 3 → ℝ), u ⬝ᵥ u = 1 → (∀ y, (fun i => T y i - o i) = rodrigues u t fun i => y i - o i) →
      ∃ G : (k : ℕ) → GADF (Nested k) 3, (∀ k, rotate3dG (F k) (.scalar (fin t)) (some (vfin u)) (efin o) = .ok (G k)) ∧
        NestOutcome p G (fun y => f (T y)) x) ∧
    (∀ a b c : ℝ, (∀ y, (fun i => T y i - o i) = rodrigues ex a (rodrigues ey b (rodrigues ez c fun i => y i - o i))) →
      ∃ G : (k : ℕ) → GADF (Nested k) 3, (∀ k, rotate3dG (F k) (.euler (vfin ![a, b, c])) none (efin o) = .ok (G k)) ∧
        NestOutcome p G (fun y => f (T y)) x) := by
  have key : ∀ (angle : AngleArg) (axis : Option (Vec 3)) (q : ℍ[ℝ]), rotate3d.quat angle axis = .ok (Quat.ofH q) → q ≠ 0 →
      (∀ (i : Fin 3) (F : ADF 3), rotate3d (fun y => y i) angle axis (efin o) = .ok F → ∀ y : Pt 3, F (efin y) = fin (T y i)) →
      ∃ G : (k : ℕ) → GADF (Nested k) 3, (∀ k, rotate3dG (F k) angle axis (efin o) = .ok (G k)) ∧
        NestOutcome p G (fun y => f (T y)) x := by
    intro angle axis q hq hq0 hF
    refine ⟨fun k => translateG (fun x => translateG (F k) (fun i => -efin o i) (quaternionRotationG x (Quat.ofH q))) (efin o),
      fun k => by rw [rotate3dG, hq]; rfl, ?_⟩
    refine NestOutcome.coords (T₀ := T) h (fun k a i =>
      quaternionRotationG (fun i => a i -ₐ ADNum.const (efin o i)) (Quat.ofH q) i -ₐ ADNum.const (-efin o i)) fun i => ?_
    rintro l k x vs a U rfl ha
    have S := rep_sound x vs k
    have hd := rotationG_rep (A := fun y i => U y i - o i) hq0
      (fun i => ⟨S.sub (ha i).1 (S.const (o i)), tracked_sub (e := ADNum.const (efin o i)) (ha i).2⟩) i
    refine ⟨fun _ => ⟨?_, tracked_sub hd.2⟩, fun h => absurd trivial h⟩
    rw [efin_apply, fin_neg]
    refine S.congr (S.sub hd.1 (S.const (-o i))) (Filter.Eventually.of_forall fun y => ?_)
    have h1 := hF i (translate (fun x => translate (fun y => y i) (fun i => -efin o i) (quaternionRotation x (Quat.ofH q))) (efin o))
      (by rw [rotate3d, hq]; rfl) (U y)
    have h2 : translate (fun x => translate (fun y => y i) (fun i => -efin o i) (quaternionRotation x (Quat.ofH q))) (efin o) (efin (U y)) =
        fin (rotH q (fun i => U y i - o i) i + o i) := by
      show quaternionRotation (vfin fun i => U y i - o i) (Quat.ofH q) i - -fin (o i) = _
      rw [quaternionRotation_ofH hq0]
      simp
    rw [h1, fin_inj] at h2
    beta_reduce
    rw [h2]; ring
  have hne : ∀ q : ℍ[ℝ], (Quat.ofH q).abs = fin 1 → q ≠ 0 := by
    rintro q hq rfl
    rw [Quat.abs_ofH, fin_inj, norm_zero] at hq
    exact zero_ne_one hq
  have hax : ∀ (t : ℝ) (u : Fin 3 → ℝ), ∃ q : ℍ[ℝ], Verif.fromAxisAngle (fin t) (vfin u) = Quat.ofH q := fun t u =>
    ⟨_, fromAxisAngle_fin t u⟩
  refine ⟨fun t u hu hT => ?_, fun a b c hT => ?_⟩
  · have h1 := (C26_axis_angle (-t) u 0 hu).1
    obtain ⟨q, hq⟩ := hax (-t) u
    refine key _ _ q (show rotate3d.quat (.scalar (fin t)) (some (vfin u)) = _ by
      show Except.ok (Verif.fromAxisAngle (-fin t) (vfin u)) = _
      rw [fin_neg, hq]) (hne _ (by rwa [hq] at h1)) fun i F hF y => ?_
    obtain ⟨F', h2, h3⟩ := rotate3d_axis (fun y => y i) t hu (fun i => o i)
    have h4 : F = F' := Except.ok.inj (hF.symm.trans h2)
    rw [h4]
    refine (h3 _).trans ?_
    have := congrFun (hT y) i
    rw [vfin_apply, fin_inj, Pi.add_apply]
    show rodrigues u t (fun i => y i - o i) i + o i = _
    rw [← this]; ring
  · have h1 := (C27_euler (-a) (-b) (-c)).2
    have hneg : (fun i => -vfin ![a, b, c] i) = vfin ![-a, -b, -c] := by
      funext i; fin_cases i <;> simp
    obtain ⟨q, hq⟩ : ∃ q : ℍ[ℝ], Verif.fromEulerAngles (vfin ![-a, -b, -c]) = Quat.ofH q := by
      obtain ⟨q1, h1⟩ := hax (-c) ![0, 0, 1]
      obtain ⟨q2, h2⟩ := hax (-b) ![0, 1, 0]
      obtain ⟨q3, h3⟩ := hax (-a) ![1, 0, 0]
      exact ⟨q1 * q2 * q3, by rw [(C27_euler (-a) (-b) (-c)).1, h1, h2, h3, Quat.mul_ofH, Quat.mul_ofH]⟩
    refine key _ _ q (show rotate3d.quat (.euler (vfin ![a, b, c])) none = _ by
      show Except.ok (Verif.fromEulerAngles fun i => -vfin ![a, b, c] i) = _
      rw [hneg, hq]) (hne _ (by rwa [hq] at h1)) fun i F hF y => ?_
    obtain ⟨F', h2, h3⟩ := rotate3d_euler (fun y => y i) a b c (fun i => o i)
    have h4 : F = F' := Except.ok.inj (hF.symm.trans h2)
    rw [h4]
    refine (h3 _).trans ?_
    have := congrFun (hT y) i
    rw [vfin_apply, fin_inj, Pi.add_apply]
    show rodrigues ex a (rodrigues ey b (rodrigues ez c fun i => y i - o i)) i + o i = _
    rw [← this]; ring

/-! ## models with boundary and initial conditions -/

/-- `impose_dirichlet_bc`: the derivatives of `adf * model + g` are right where those of the ADF and the model are, and `nan` where not. -/
theorem C170_dirichlet {n : ℕ} (p q : Prop) (F M : (k : ℕ) → GADF (Nested k) n) (f m : Pt n → ℝ) (x : Pt n) (hF : NestOutcome p F f x)
    (hM : NestOutcome q M m x) :
    NestOutcome (p ∧ q) (fun k => imposeDirichletBcG (F k) none (M k)) (fun y => f y * m y) x ∧
    ∀ (G : (k : ℕ) → GADF (Nested k) n) (g : Pt n → ℝ), NestRight G g x →
      NestOutcome (p ∧ q) (fun k => imposeDirichletBcG (F k) (some (G k)) (M k)) (fun y => f y * m y + g y) x := by
  have key : ∀ (G : (k : ℕ) → GADF (Nested k) n) (g : Pt n → ℝ), NestRight G g x →
      NestOutcome (p ∧ q) (fun k => imposeDirichletBcG (F k) (some (G k)) (M k)) (fun y => f y * m y + g y) x := by
    rintro G g hG l k x vs a T rfl ha
    have h := hF.mul hM l k x vs a T rfl ha
    exact ⟨fun hp => ⟨(rep_sound x vs k).add (h.1 hp).1 (hG l k x vs a T rfl ha), tracked_add (h.1 hp).2⟩,
      fun hp => poisoned_of_nan (h.2 hp) fun b hb => add_nan (Or.inl hb)⟩
  refine ⟨?_, key⟩
  have h := key (fun _ _ => ADNum.const 0) (fun _ => 0) fun l k x vs a T _ _ => (rep_sound x vs k).zero
  simp only [add_zero] at h
  exact h

/-- `impose_neumann_bc`, whose calls of `value_and_jacfwd` and `jvp` are themselves differentiated. -/
theorem C170_neumann {n : ℕ} (hn : 0 < n) (p : Prop) (F : (k : ℕ) → GADF (Nested k) n) (M : (α : Type) → [ADNum α] → GADF α n)
    (f m : Pt n → ℝ) (x : Pt n) (hF : NestOutcome p F f x) (hM : ParamSound M m x) :
    NestOutcome p (fun k => imposeNeumannBcG (F k) (F (k + 1)) none (M (JVP (Nested k))))
      (fun y => m y - f y * fderiv ℝ m y (gradient f y)) x ∧
    (∀ (H : (k : ℕ) → GADF (Nested k) n) (h : Pt n → ℝ), NestRight H h x →
      NestOutcome p (fun k => imposeNeumannBcG (F k) (F (k + 1)) (some (H k)) (M (JVP (Nested k))))
        (fun y => m y - f y * fderiv ℝ m y (gradient f y) - f y * h y) x) ∧
    (¬ p → NestStrict (fun k => M (Nested k)) → ∀ H : (k : ℕ) → Option (GADF (Nested k) n),
      NestNan (fun k => imposeNeumannBcG (F k) (F (k + 1)) (H k) (M (JVP (Nested k)))) x) := by
  have key : ∀ (H : (k : ℕ) → GADF (Nested k) n) (h : Pt n → ℝ), NestRight H h x →
      NestOutcome p (fun k => imposeNeumannBcG (F k) (F (k + 1)) (some (H k)) (M (JVP (Nested k))))
        (fun y => m y - f y * fderiv ℝ m y (gradient f y) - f y * h y) x := by
    rintro H h hH l k x vs a T rfl ha
    have S := rep_sound x vs k
    have hl := hF l k x vs a T rfl ha
    have hh := hH l k x vs a T rfl ha
    refine ⟨fun hp => ⟨?_, tracked_sub_right (tracked_mul (hl.1 hp).2)⟩,
      fun hp => poisoned_of_nan (hl.2 hp) fun b hb => sub_nan (Or.inr (mul_nan _ _ _ _ (Or.inl hb)))⟩
    have hfx := ((C167_derivatives p F f (T x) hF).1 hp).1
    have hTc : Filter.Tendsto T (𝓝 x) (𝓝 (T x)) := (contDiffAt_euclidean.mpr fun i => S.smooth (ha i).1).continuousAt
    have hJ := fun j => (jacG_rep hF rfl ha j).1 hp
    set N : Pt l → Pt n := fun y => WithLp.toLp 2 fun j => fderiv ℝ f (T y) (EuclideanSpace.single j 1) with hN
    have hA := S.along (T := T) (V := N) hTc
    have hy := hM (JVP (Nested k)) n (T x) _ hA (fun i => ⟨a i, some (jacG (F (k + 1)) a i)⟩) (fun y => y) rfl fun i =>
      ⟨(EuclideanSpace.proj (𝕜 := ℝ) i).contDiff.contDiffAt, (ha i).1, by
        show Rep x vs k (jacG (F (k + 1)) a i) fun y => fderiv ℝ (fun z : Pt n => z i) (T y) (N y)
        have e : (fun y => fderiv ℝ (fun z : Pt n => z i) (T y) (N y)) =
            fun y => fderiv ℝ f (T y) (EuclideanSpace.single i 1) := by
          funext y
          rw [show (fun z : Pt n => z i) = (EuclideanSpace.proj (𝕜 := ℝ) i : Pt n →L[ℝ] ℝ) from rfl,
            ContinuousLinearMap.fderiv]
          rfl
        rw [e]
        exact hJ i⟩
    have ht : ∀ d : JVP (Nested k), RO x (Rep x vs k) d.tan (fun y => fderiv ℝ m (T y) (N y)) →
        Rep x vs k d.tangent fun y => fderiv ℝ m (T y) (N y) := by
      rintro ⟨v, _ | t⟩ hd
      · exact S.congr S.zero (Filter.EventuallyEq.symm hd)
      · exact hd
    refine S.congr (S.sub (S.sub hy.2.1 (S.mul (hl.1 hp).1 (ht _ hy.2.2))) (S.mul (hl.1 hp).1 hh)) ?_
    filter_upwards [hTc.eventually (ev_diff hfx)] with y hy
    rw [← jacVec_eq_gradient hy]
    rfl
  refine ⟨?_, key, fun hp hs H => ?_⟩
  · have h := key (fun _ _ => ADNum.const 0) (fun _ => 0) fun l k x vs a T _ _ => (rep_sound x vs k).zero
    simp only [mul_zero, sub_zero] at h
    exact h
  · rintro l k x vs a T rfl ha b
    have hJ := fun j => (jacG_rep hF rfl ha j).2 hp
    have h1 := hs (Function.update b k true) (k + 1) (fun i => (⟨a i, some (jacG (F (k + 1)) a i)⟩ : JVP (Nested k))) ⟨⟨0, hn⟩, by
      rw [comp_succ, Function.update_self, if_pos rfl]
      exact hJ _ _⟩
    exact sub_nan (Or.inl (sub_nan (Or.inr (mul_nan _ _ _ _ (Or.inr (comp_tangent_nan h1))))))

/-- `impose_ic`: derivatives in space and time. -/
theorem C170_ic {n : ℕ} (p q : Prop) (F : (k : ℕ) → GADF (Nested k) n) (M : (k : ℕ) → GADF (Nested k) (n + 1)) (f : Pt n → ℝ)
    (m : Pt (n + 1) → ℝ) (x : Pt (n + 1)) (t₀ c : ℝ) (hF : NestOutcome p F f (dropLast n x)) (hM : NestOutcome q M m x) :
    NestOutcome (p ∧ q) (fun k => imposeIcG (F k) t₀ c (M k)) (fun y => f (dropLast n y) * Real.exp (-c * (y (Fin.last n) - t₀)) +
      (1 - Real.exp (-c * (y (Fin.last n) - t₀))) * m y) x := by
  have h0 : NestOutcome p (fun k a => F k fun i => a i.castSucc) (fun y => f (dropLast n y)) x :=
    NestOutcome.coords (T₀ := fun y => dropLast n y) hF (fun k a i => a i.castSucc) fun i l k x vs a T _ ha =>
      ⟨fun _ => ha i.castSucc, fun h => absurd trivial h⟩
  rintro l k x vs a T rfl ha
  have S := rep_sound x vs k
  have h1 := h0 l k x vs a T rfl ha
  have h2 := hM l k x vs a T rfl ha
  have hd : Rep x vs k (ADNum.exp (ADNum.const (-(fin c)) *ₐ (a (Fin.last n) -ₐ ADNum.const (fin t₀))))
      fun y => Real.exp (-c * (T y (Fin.last n) - t₀)) := by
    rw [fin_neg]
    exact S.exp (S.mul (S.const (-c)) (S.sub (ha (Fin.last n)).1 (S.const t₀)))
  refine ⟨fun h => ⟨?_, tracked_add (tracked_mul (h1.1 h.1).2)⟩, fun h => ?_⟩
  · exact S.add (S.mul (h1.1 h.1).1 hd) (S.mul (S.sub S.one hd) (h2.1 h.2).1)
  · by_cases hp : p
    · exact poisoned_of_nan (h2.2 fun hq => h ⟨hp, hq⟩) fun b hb => add_nan (Or.inr (mul_nan _ _ _ _ (Or.inr hb)))
    · exact poisoned_of_nan (h1.2 hp) fun b hb => add_nan (Or.inl (mul_nan _ _ _ _ (Or.inl hb)))

/-! ## the network -/

section

variable {α : Type} [ADNum α]

theorem denseG_denseOf {a b : ℕ} (W : Matrix (Fin a) (Fin b) ℝ) (c : Fin b → ℝ) (z : Fin a → α) :
    denseG b (denseOf W c) (List.ofFn z) =
      .ok (List.ofFn fun j => sumG ((List.finRange a).map fun i => z i *ₐ ADNum.const (fin (W i j))) +ₐ ADNum.const (fin (c j))) := by
  rw [denseG, if_pos (by simpa using denseOf_shape W c)]
  congr 1
  refine List.ext_getElem (by simp) fun j hj _ => ?_
  have hjb : j < b := by simpa using hj
  have hz : List.zipWith (fun x row => x *ₐ ADNum.const (row.getD j 0)) (List.ofFn z) (denseOf W c).kernel =
      (List.finRange a).map fun i => z i *ₐ ADNum.const (fin (W i ⟨j, hjb⟩)) := by
    refine List.ext_getElem (by simp [denseOf]) fun i hi _ => ?_
    simp [denseOf, List.getD_eq_getElem?_getD, hjb]
  simp only [List.getElem_map, List.getElem_range, List.getElem_ofFn, hz]
  simp [denseOf, List.getD_eq_getElem?_getD, hjb]

/-- Neurons after `k` hidden layers, as numbers. -/
noncomputable def netStateG (dims : ℕ → ℕ) (W : (i : ℕ) → Matrix (Fin (dims i)) (Fin (dims (i + 1))) ℝ)
    (c : (i : ℕ) → Fin (dims (i + 1)) → ℝ) (x : Fin (dims 0) → α) : (k : ℕ) → Fin (dims k) → α
  | 0 => x
  | k + 1 => fun j => ADNum.tanh (sumG ((List.finRange (dims k)).map fun i => netStateG dims W c x k i *ₐ ADNum.const (fin (W k i j))) +ₐ
      ADNum.const (fin (c k j)))

theorem applyG_eq (dims : ℕ → ℕ) (W : (i : ℕ) → Matrix (Fin (dims i)) (Fin (dims (i + 1))) ℝ)
    (c : (i : ℕ) → Fin (dims (i + 1)) → ℝ) (k : ℕ) (x : Fin (dims 0) → α) (out : Fin (dims (k + 1)) → α)
    (hout : out = fun j => sumG ((List.finRange (dims k)).map fun i => netStateG dims W c x k i *ₐ ADNum.const (fin (W k i j))) +ₐ
      ADNum.const (fin (c k j))) :
    MLP.applyG ((List.range (k + 1)).map fun i => dims (i + 1)) ⟨fun i => denseOf (W i) (c i), denseOf (W k) (c k)⟩ (List.ofFn x) =
      .ok (if h : dims (k + 1) = 1 then .inl (out ⟨0, by omega⟩) else .inr (List.ofFn out)) := by
  have hid : ∀ m, MLP.hiddenG ADNum.tanh ⟨fun i => denseOf (W i) (c i), denseOf (W k) (c k)⟩
      ((List.range m).map fun i => dims (i + 1)) (List.ofFn x) = .ok (List.ofFn fun j => netStateG dims W c x m j) := by
    intro m
    induction m with
    | zero => rfl
    | succ m ih =>
      rw [MLP.hiddenG] at ih ⊢
      rw [List.range_succ, List.map_append, List.zipIdx_append, List.foldlM_append, ih]
      simp only [bind, Except.bind, List.map_cons, List.map_nil, List.zipIdx_singleton, List.length_map, List.length_range,
        Nat.zero_add, List.foldlM_cons, List.foldlM_nil, pure, Except.pure, denseG_denseOf]
      congr 1
      rw [List.map_ofFn]
      rfl
  rw [List.range_succ, List.map_append, MLP.applyG]
  simp only [List.map_cons, List.map_nil, List.dropLast_concat, hid, List.getLast?_concat, bind, Except.bind, denseG_denseOf]
  subst hout
  by_cases h : dims (k + 1) = 1
  · rw [if_pos h, dif_pos h]
    simp [List.getD_eq_getElem?_getD, h]
    rfl
  · rw [if_neg h, dif_neg h]

end

theorem sound_sum {n : ℕ} {α : Type} [ADNum α] {x : Pt n} {R : α → (Pt n → ℝ) → Prop} (S : Sound x R) {m : ℕ} (a : Fin m → α)
    (f : Fin m → Pt n → ℝ) (h : ∀ i, R (a i) (f i)) : R (sumG ((List.finRange m).map a)) fun y => ∑ i, f i y := by
  have key : ∀ (l : List (Fin m)) (d : α) (g : Pt n → ℝ), R d g →
      R ((l.map a).foldl ADNum.add d) fun y => g y + (l.map fun i => f i y).sum := by
    intro l
    induction l with
    | nil => exact fun d g hd => S.congr hd (Filter.Eventually.of_forall fun y => by simp)
    | cons i l ih =>
      intro d g hd
      exact S.congr (ih _ _ (S.add hd (h i))) (Filter.Eventually.of_forall fun y => by simp [add_assoc])
  refine S.congr (key (List.finRange m) _ _ S.zero) (Filter.Eventually.of_forall fun y => ?_)
  beta_reduce
  rw [zero_add, Fin.sum_univ_def]

/-- The program which calls a scalar network with the coordinates. -/
noncomputable def mlpG (n : ℕ) (layers : List ℕ) (params : MLPParams) (α : Type) [ADNum α] : GADF α n := fun a =>
  match MLP.applyG layers params (List.ofFn a) with
  | .ok (.inl d) => d
  | _ => ADNum.const nan

theorem ntanh_nan (b : ℕ → Bool) (k : ℕ) : ∀ d : Nested k, comp b k d = nan → comp b k (ADNum.tanh d) = nan := by
  induction k with
  | zero =>
    have h0 : ∀ d : XR, d = nan → XR.tanh d = nan := by rintro _ rfl; rfl
    exact h0
  | succ k ih =>
    rintro ⟨d, s⟩ h
    rw [comp_succ] at h
    show comp b (k + 1) (⟨ADNum.tanh d, s.map fun g => (g +ₐ g *ₐ ADNum.tanh d) *ₐ (ADNum.const 1 -ₐ ADNum.tanh d)⟩ : JVP (Nested k)) = nan
    rw [comp_succ]
    split_ifs at h ⊢ with hb
    · exact compO_map_nan b h _ fun t ht => mul_nan b _ _ _ (Or.inl (add_nan (Or.inl ht)))
    · exact ih _ h

/-- A `tanh` network with real parameters and one output neuron: for all numbers it computes the same function, so all its derivatives,
also those inside `impose_neumann_bc`, are right everywhere; and it passes on every `nan`. -/
theorem C170_mlp (dims : ℕ → ℕ) (W : (i : ℕ) → Matrix (Fin (dims i)) (Fin (dims (i + 1))) ℝ)
    (c : (i : ℕ) → Fin (dims (i + 1)) → ℝ) (k : ℕ) (hd : dims (k + 1) = 1) :
    ∃ net : Pt (dims 0) → ℝ,
      (∀ x, MLP.apply ((List.range (k + 1)).map fun i => dims (i + 1)) XR.tanh ⟨fun i => denseOf (W i) (c i), denseOf (W k) (c k)⟩
        (List.ofFn fun i => fin (x i)) = .ok (.inl (fin (net x)))) ∧
      (∀ x, ParamSound (mlpG (dims 0) ((List.range (k + 1)).map fun i => dims (i + 1)) ⟨fun i => denseOf (W i) (c i), denseOf (W k) (c k)⟩)
        net x) ∧
      ((∀ i ≤ k, 0 < dims i) →
        (∀ x, NestOutcome True (fun j =>
          mlpG (dims 0) ((List.range (k + 1)).map fun i => dims (i + 1)) ⟨fun i => denseOf (W i) (c i), denseOf (W k) (c k)⟩ (Nested j))
          net x) ∧
        NestStrict fun j =>
          mlpG (dims 0) ((List.range (k + 1)).map fun i => dims (i + 1)) ⟨fun i => denseOf (W i) (c i), denseOf (W k) (c k)⟩ (Nested j)) := by
  set layers := (List.range (k + 1)).map fun i => dims (i + 1) with hl
  set params : MLPParams := ⟨fun i => denseOf (W i) (c i), denseOf (W k) (c k)⟩ with hp
  have he : ∀ (α : Type) [ADNum α] (a : Fin (dims 0) → α), mlpG (dims 0) layers params α a =
      sumG ((List.finRange (dims k)).map fun i => netStateG dims W c a k i *ₐ ADNum.const (fin (W k i ⟨0, by omega⟩))) +ₐ
        ADNum.const (fin (c k ⟨0, by omega⟩)) := by
    intro α _ a
    rw [mlpG, hl, hp, applyG_eq dims W c k a _ rfl, dif_pos hd]
  have hr : ∀ x, ParamSound (mlpG (dims 0) layers params)
      (fun x => (netState Real.tanh dims W c (fun i => x i) k ᵥ* W k + c k) ⟨0, by omega⟩) x := by
    intro x α _ n x R S a T _ ha
    rw [he]
    have hs : ∀ m j, R (netStateG dims W c a m j) fun y => netState Real.tanh dims W c (fun i => T y i) m j := by
      intro m
      induction m with
      | zero => exact ha
      | succ m ih => exact fun j => S.tanh (S.add (sound_sum S _ _ fun i => S.mul (ih i) (S.const (W m i j))) (S.const (c m j)))
    exact S.add (sound_sum S _ _ fun i => S.mul (hs k i) (S.const (W k i ⟨0, by omega⟩))) (S.const _)
  refine ⟨_, fun x => ?_, hr, fun h0 => ⟨fun x n j y vs a T hT ha => ⟨fun _ => ⟨(hr x).right n j y vs a T hT ha, ?_⟩, fun h => absurd trivial h⟩, ?_⟩⟩
  · rw [hl, hp, C100_value Real.tanh XR.tanh (fun _ => rfl) dims W c k (fun i => x i) _ rfl, dif_pos hd]
  · beta_reduce
    rw [he]
    have hs : ∀ m, m ≤ k → ∀ i, Tracked j (netStateG dims W c a m i) := by
      intro m
      induction m with
      | zero => exact fun _ i => (ha i).2
      | succ m ih => exact fun hm i => tracked_tanh (tracked_add (tracked_sum (h0 _ (by omega)) _ fun l => tracked_mul (ih (by omega) l)))
    exact tracked_add (tracked_sum (h0 _ le_rfl) _ fun l => tracked_mul (hs k le_rfl l))
  · intro b j a ha
    beta_reduce
    rw [he]
    have hsum : ∀ (m : ℕ) (z : Fin m → Nested j), (∃ i, comp b j (z i) = nan) → comp b j (sumG ((List.finRange m).map z)) = nan :=
      fun m z ⟨i, hi⟩ => nan_foldl _ _ (Or.inr ⟨_, List.mem_map.mpr ⟨i, List.mem_finRange _, rfl⟩, hi⟩)
    have hs : ∀ m, m ≤ k → ∃ i, comp b j (netStateG dims W c a m i) = nan := by
      intro m
      induction m with
      | zero => exact fun _ => ha
      | succ m ih =>
        intro hm
        obtain ⟨i, hi⟩ := ih (by omega)
        exact ⟨⟨0, h0 _ hm⟩, ntanh_nan _ _ _ (add_nan (Or.inl (hsum _ _ ⟨i, mul_nan _ _ _ _ (Or.inl hi)⟩)))⟩
    obtain ⟨i, hi⟩ := hs k le_rfl
    exact add_nan (Or.inl (hsum _ _ ⟨i, mul_nan _ _ _ _ (Or.inl hi)⟩))

/-- A network with two inputs, two hidden neurons and one output. -/
theorem exists_net : ∃ (net : Pt 2 → ℝ) (params : MLPParams),
    (∀ x y, MLP.apply [2, 1] XR.tanh params [fin x, fin y] = .ok (.inl (fin (Real.tanh (x + y) - Real.tanh (x - y) + 1)))) ∧
    (∀ x y, net !₂[x, y] = Real.tanh (x + y) - Real.tanh (x - y) + 1) ∧
    (∀ x, ParamSound (mlpG 2 [2, 1] params) net x) ∧ (∀ x, NestOutcome True (fun j => mlpG 2 [2, 1] params (Nested j)) net x) ∧
    NestStrict fun j => mlpG 2 [2, 1] params (Nested j) := by
  obtain ⟨net, h1, h2, h3⟩ := C170_mlp (fun i => match i with | 0 => 2 | 1 => 2 | _ => 1)
    (fun i => match i with | 0 => !![1, 1; 1, -1] | 1 => !![1; -1] | (_ + 2) => fun _ _ => 0)
    (fun i => match i with | 0 => ![0, 0] | 1 => ![1] | (_ + 2) => fun _ => 0) 1 rfl
  have hv : ∀ x y, MLP.apply [2, 1] XR.tanh ⟨fun i => denseOf ((fun i => match i with | 0 => !![1, 1; 1, -1] | 1 => !![1; -1] | (_ + 2) => fun _ _ => 0 :
      (i : ℕ) → Matrix (Fin (match i with | 0 => 2 | 1 => 2 | _ => 1)) (Fin (match i + 1 with | 0 => 2 | 1 => 2 | _ => 1)) ℝ) i)
      ((fun i => match i with | 0 => ![0, 0] | 1 => ![1] | (_ + 2) => fun _ => 0 : (i : ℕ) → Fin (match i + 1 with | 0 => 2 | 1 => 2 | _ => 1) → ℝ) i),
      denseOf !![1; -1] ![1]⟩ [fin x, fin y] = .ok (.inl (fin (Real.tanh (x + y) - Real.tanh (x - y) + 1))) := by
    intro x y
    have h := C100_value Real.tanh XR.tanh (fun _ => rfl) (fun i => match i with | 0 => 2 | 1 => 2 | _ => 1)
      (fun i => match i with | 0 => !![1, 1; 1, -1] | 1 => !![1; -1] | (_ + 2) => fun _ _ => 0)
      (fun i => match i with | 0 => ![0, 0] | 1 => ![1] | (_ + 2) => fun _ => 0) 1 ![x, y]
      ![Real.tanh (x + y) - Real.tanh (x - y) + 1] (by
        funext j
        fin_cases j
        change Real.tanh (x + y) - Real.tanh (x - y) + 1 = (∑ i : Fin 2, Real.tanh ((∑ l : Fin 2, ![x, y] l * !![1, 1; 1, -1] l i) +
          ![0, 0] i) * !![1; -1] i 0) + 1
        simp [Fin.sum_univ_two]
        ring_nf)
    exact h
  refine ⟨net, _, hv, fun x y => ?_, h2, h3 fun i _ => ?_⟩
  · have h := h1 !₂[x, y]
    exact fin_inj.mp (Sum.inl.inj (Except.ok.inj (h.symm.trans (hv x y))))
  · match i with
    | 0 => exact Nat.two_pos
    | 1 => exact Nat.two_pos
    | (_ + 2) => exact Nat.one_pos

/-- The network with zero boundary values on the unit square: its Laplacian is right at `(1 / 2, 1)` on the boundary and `nan` at the
corner `(0, 1)`. -/
example : ∃ (net : Pt 2 → ℝ) (params : MLPParams), (∀ x y, net !₂[x, y] = Real.tanh (x + y) - Real.tanh (x - y) + 1) ∧
    laplaceG (imposeDirichletBcG (cuboidG (.scalar 1) false (RAlpha.sysG 0 (Nested 2))) none (mlpG 2 [2, 1] params (Nested 2)))
      (efin !₂[1 / 2, 1]) = fin ((Δ fun y => ElmPoisson.adf y * net y) !₂[1 / 2, 1]) ∧
    laplaceG (imposeDirichletBcG (cuboidG (.scalar 1) false (RAlpha.sysG 0 (Nested 2))) none (mlpG 2 [2, 1] params (Nested 2)))
      (efin !₂[0, 1]) = nan := by
  obtain ⟨net, params, -, h1, -, h2, -⟩ := exists_net
  have key := fun x => C167_laplace (by norm_num) _ _ _ _ (C170_dirichlet _ _ _ _ _ _ x (elm_adf_nestOutcome x) (h2 x)).1
  refine ⟨net, params, h1, ((key _).1 ⟨fun h => ?_, trivial⟩).2, ((key _).2 fun h => h.1 fun i => ?_).2⟩
  · have := h 0
    norm_num at this
  · fin_cases i <;> simp

/-- The same network with Neumann conditions: right derivatives on the sides, but at the corner even the value is `nan`. -/
example : ∃ (net : Pt 2 → ℝ) (params : MLPParams), (∀ x y, net !₂[x, y] = Real.tanh (x + y) - Real.tanh (x - y) + 1) ∧
    NestOutcome True (fun k => imposeNeumannBcG (cuboidG (.scalar 1) false (RAlpha.sysG 0 (Nested k)))
      (cuboidG (.scalar 1) false (RAlpha.sysG 0 (Nested (k + 1)))) none (mlpG 2 [2, 1] params (JVP (Nested k))))
      (fun y => net y - ElmPoisson.adf y * fderiv ℝ net y (gradient ElmPoisson.adf y)) !₂[1 / 2, 1] ∧
    imposeNeumannBcG (α := XR) (cuboidG (.scalar 1) false (RAlpha.sysG 0 XR)) (cuboidG (.scalar 1) false (RAlpha.sysG 0 (JVP XR))) none
      (mlpG 2 [2, 1] params (JVP XR)) (efin !₂[0, 1]) = nan := by
  obtain ⟨net, params, -, h1, h2, -, h3⟩ := exists_net
  refine ⟨net, params, h1, ?_, ?_⟩
  · have h := (C170_neumann (by norm_num) _ _ _ _ _ _ (elm_adf_nestOutcome !₂[1 / 2, 1]) (h2 _)).1
    have ht : ¬ ∀ i, (!₂[1 / 2, 1] : Pt 2) i = 0 ∨ (!₂[1 / 2, 1] : Pt 2) i = 1 := fun h => by
      have := h 0
      norm_num at this
    rwa [eq_true ht] at h
  · exact (C170_neumann (by norm_num) _ _ _ _ _ _ (elm_adf_nestOutcome !₂[0, 1]) (h2 _)).2.2
      (fun h => h fun i => by fin_cases i <;> simp) h3 (fun _ => none) 2 0 !₂[0, 1] 0 _ (fun y => y) rfl (seedK_ok _ 0 0) fun _ => false

/-- The network as a model of one space variable and time, with the initial value `x ^ 2` at the time 1. -/
example : ∃ (net : Pt 2 → ℝ) (params : MLPParams), (∀ x y, net !₂[x, y] = Real.tanh (x + y) - Real.tanh (x - y) + 1) ∧
    ∀ x, NestOutcome True (fun k => imposeIcG (n := 1) (fun a => a 0 *ₐ a 0) 1 3 (mlpG 2 [2, 1] params (Nested k)))
      (fun y => y 0 * y 0 * Real.exp (-3 * (y 1 - 1)) + (1 - Real.exp (-3 * (y 1 - 1))) * net y) x := by
  obtain ⟨net, params, -, h1, -, h2, -⟩ := exists_net
  refine ⟨net, params, h1, fun x => ?_⟩
  have h0 : NestOutcome True (fun k (a : Fin 1 → Nested k) => a 0 *ₐ a 0) (fun y => y 0 * y 0) (dropLast 1 x) :=
    fun l k x vs a T _ ha => ⟨fun _ => ⟨(rep_sound x vs k).mul (ha 0).1 (ha 0).1, tracked_mul (ha 0).2⟩, fun h => absurd trivial h⟩
  have h := C170_ic _ _ _ _ _ _ x 1 3 h0 (h2 x)
  rw [and_self] at h
  exact h

/-- The gradient of a ball below further `jvp`s. -/
example (x : Pt 3) (j : Fin 3) : (x ≠ 0 → NestRight (fun k a => jacG (sphereG (α := Nested (k + 1)) (fin 2)) a j)
      (fun y => fderiv ℝ (fun y : Pt 3 => (2 ^ 2 - ‖y‖ ^ 2) / (2 * 2)) y (EuclideanSpace.single j 1)) x) ∧
    (¬ x ≠ 0 → NestNan (fun k a => jacG (sphereG (α := Nested (k + 1)) (fin 2)) a j) x) :=
  C170_gradient _ (fun _ => sphereG (fin 2)) _ x (sphere_nestOutcome (by norm_num) two_ne_zero x) j

/-- A normalised ball: right away from the centre, `nan` there. -/
example (x : Pt 3) : (x ≠ 0 → gradient (fun y : Pt 3 => (2 ^ 2 - ‖y‖ ^ 2) / (2 * 2)) x ≠ 0 →
      NestOutcome True (fun k => normalize1stOrderG (sphereG (α := Nested k) (fin 2)) (sphereG (fin 2))) (fun y => (2 ^ 2 - ‖y‖ ^ 2) / (2 * 2) /
        Real.sqrt (((2 ^ 2 - ‖y‖ ^ 2) / (2 * 2)) ^ 2 + ‖gradient (fun y : Pt 3 => (2 ^ 2 - ‖y‖ ^ 2) / (2 * 2)) y‖ ^ 2)) x) ∧
    (¬ x ≠ 0 → NestNan (fun k => normalize1stOrderG (sphereG (α := Nested k) (fin 2)) (sphereG (fin 2))) x) :=
  C170_normalize (by norm_num) _ _ _ x (sphere_nestOutcome (by norm_num) two_ne_zero x)

/-- A ball reflected at the plane `x₀ = 1`: the wrong derivatives are at the image `(2, 0, 0)` of the centre. -/
example (x : Pt 3) : NestOutcome (x ≠ !₂[2, 0, 0]) (fun k => reflectG (sphereG (α := Nested k) (fin 2)) (efin !₂[1, 0, 0]) (efin !₂[1, 0, 0]))
    (fun z => (2 ^ 2 - ‖z - (2 * inner ℝ (z - !₂[1, 0, 0]) (!₂[1, 0, 0] : Pt 3) / ‖(!₂[1, 0, 0] : Pt 3)‖ ^ 2) • (!₂[1, 0, 0] : Pt 3)‖ ^ 2) / (2 * 2)) x := by
  have h1 : (!₂[1, 0, 0] : Pt 3) ≠ 0 := fun h => by
    have := congrArg (fun v : Pt 3 => v 0) h
    simp at this
  have h := (C170_transforms (fun k => sphereG (α := Nested k) (fin 2)) _ _ x !₂[1, 0, 0]).2.1 _ h1
    (sphere_nestOutcome (by norm_num) two_ne_zero _)
  have e : (x - (2 * inner ℝ (x - !₂[1, 0, 0]) (!₂[1, 0, 0] : Pt 3) / ‖(!₂[1, 0, 0] : Pt 3)‖ ^ 2) • (!₂[1, 0, 0] : Pt 3) ≠ 0) =
      (x ≠ !₂[2, 0, 0]) := by
    have hn : ‖(!₂[1, 0, 0] : Pt 3)‖ ^ 2 = 1 := by rw [norm_sq_pt, Fin.sum_univ_three]; simp
    rw [hn, eq_iff_iff, not_iff_not]
    have hi : inner ℝ (x - !₂[1, 0, 0]) (!₂[1, 0, 0] : Pt 3) = x 0 - 1 := by
      simp [PiLp.inner_apply, Fin.sum_univ_three]
    rw [hi, PiLp.ext_iff, PiLp.ext_iff, Fin.forall_fin_succ, Fin.forall_fin_two, Fin.forall_fin_succ, Fin.forall_fin_two]
    simp
    intro _ _
    constructor <;> intro h <;> linarith
  rwa [e] at h

/-- A quarter turn of the cube about the last axis: its derivatives are right in the middle of a side. -/
example : ∃ h : Pt 3 → ℝ, (∀ y, cuboid (.scalar (fin 2)) true (RAlpha.sys 0) (efin y) = fin (h y)) ∧
    ∃ G : (k : ℕ) → GADF (Nested k) 3, (∀ k, rotate3dG (cuboidG (.scalar (fin 2)) true (RAlpha.sysG 0 (Nested k)))
      (.scalar (fin (Real.pi / 2))) (some (vfin ez)) (efin 0) = .ok (G k)) ∧
      NestOutcome True G (fun y => h (WithLp.toLp 2 (rodrigues ez (Real.pi / 2) fun i => y i))) !₂[0, 1, 0] := by
  obtain ⟨h, h1, h2, -⟩ := C167_cuboid (n := 3) (by norm_num) _ _ r0_nest (.scalar (fin 2)) (fun _ => 2)
    (fun _ => rfl) (fun _ => by norm_num) true _ _ rfl rfl
  refine ⟨h, h1, (C170_rotate3d _ _ _ _ 0 (fun y => WithLp.toLp 2 (rodrigues ez (Real.pi / 2) fun i => y i)) (h2 _ ?_)).1 _ _ unit_ez ?_⟩
  · have e : (rodrigues ez (Real.pi / 2) fun i => (!₂[0, 1, 0] : Pt 3) i) = ![-1, 0, 0] := by
      funext i
      fin_cases i <;> simp [rodrigues, ez, crossProduct]
    intro i j hi hj
    simp only [e] at hi hj
    fin_cases i <;> fin_cases j <;> simp [OnFace] at hi hj ⊢
  · intro y
    simp

end Verif
