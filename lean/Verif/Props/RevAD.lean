import Verif.Lemmas.RevAD
import Verif.Lemmas.NestedShapes
import Verif.Props.Calc
import Verif.Props.TRConv

/-! # C168: reverse differentiation of programs -/

namespace Verif

open XR
open scoped ContDiff Topology

section

variable {n : ℕ}

/-- The real function of a program on points. -/
noncomputable abbrev Prog.onPt (P : Prog n) : Pt n → ℝ := fun y => P.fn y.ofLp

theorem fderiv_onPt {P : Prog n} {y : Pt n} (h : DifferentiableAt ℝ P.fn y.ofLp) (v : Pt n) :
    fderiv ℝ P.onPt y v = fderiv ℝ P.fn y.ofLp v.ofLp := by
  have h1 : HasFDerivAt (fun y : Pt n => y.ofLp) (PiLp.continuousLinearEquiv 2 ℝ fun _ : Fin n => ℝ).toContinuousLinearMap y :=
    (PiLp.continuousLinearEquiv 2 ℝ fun _ : Fin n => ℝ).hasFDerivAt
  have h2 : fderiv ℝ P.onPt y = (fderiv ℝ P.fn y.ofLp).comp _ := (HasFDerivAt.comp y (g := P.fn) h.hasFDerivAt h1).fderiv
  rw [h2]
  rfl

theorem continuous_ofLp' (x : Pt n) : ContinuousAt (fun y : Pt n => y.ofLp) x :=
  (PiLp.continuousLinearEquiv 2 ℝ fun _ : Fin n => ℝ).continuous.continuousAt

theorem onPt_ev {P : Prog n} {x : Pt n} (h : P.Regular x.ofLp) (j : Fin n) :
    (fun y : Pt n => fderiv ℝ P.fn y.ofLp (Pi.single j 1)) =ᶠ[𝓝 x] fun y => fderiv ℝ P.onPt y (unitVec j) := by
  filter_upwards [(continuous_ofLp' x).eventually (ev_diff (P.smooth h))] with y hy
  rw [fderiv_onPt hy]
  rfl

/-- The gradient stands for the partial derivatives, for every kind of numbers. -/
theorem grad_sound {α : Type} [ADNum α] {x : Pt n} {R : α → (Pt n → ℝ) → Prop} (S : Sound x R) (P : Prog n) (h : P.Regular x.ofLp)
    {a : Fin n → α} (ha : ∀ i, R (a i) fun y => y i) (j : Fin n) : R (P.grad a j) fun y => fderiv ℝ P.onPt y (unitVec j) := by
  have h1 := RO.congr S (P.rev_sound S (g := fun y : Pt n => y.ofLp) ha h j) (onPt_ev h j)
  unfold Prog.grad
  cases h2 : P.rev a j with
  | none =>
    rw [h2] at h1
    exact S.congr (zero_eq ▸ S.const 0) (Filter.EventuallyEq.symm h1)
  | some t =>
    rw [h2] at h1
    exact h1

theorem base_seed (x : Pt n) : ∀ i, (fun (d : XR) (f : Pt n → ℝ) => ContDiffAt ℝ ∞ f x ∧ d = fin (f x)) (efin x i) fun y => y i :=
  fun i => ⟨(PiLp.proj 2 (𝕜 := ℝ) (fun _ : Fin n => ℝ) i).contDiff.contDiffAt, rfl⟩

/-- A program whose operations are smooth near their arguments computes the value of a smooth function. -/
theorem C168_value (P : Prog n) (x : Pt n) (h : P.Regular x.ofLp) :
    ContDiffAt ℝ ∞ P.onPt x ∧ P.eval (efin x) = fin (P.onPt x) :=
  P.sound (sound_base x) (g := fun y : Pt n => y.ofLp) (base_seed x) h

/-- `jax.value_and_grad` gives the value and the gradient. -/
theorem C168_grad (P : Prog n) (x : Pt n) (h : P.Regular x.ofLp) :
    P.valueAndGrad (efin x) = (fin (P.onPt x), fun j => fin (fderiv ℝ P.onPt x (unitVec j))) ∧
      (P.valueAndGrad (efin x)).2 = efin (gradient P.onPt x) := by
  have h1 : P.valueAndGrad (efin x) = (fin (P.onPt x), fun j => fin (fderiv ℝ P.onPt x (unitVec j))) :=
    Prod.ext (C168_value P x h).2 (funext fun j => (grad_sound (sound_base x) P h (base_seed x) j).2)
  refine ⟨h1, ?_⟩
  rw [h1, ← jacVec_eq_gradient ((C168_value P x h).1.differentiableAt (by simp))]
  rfl

/-- The gradient, differentiated by any number of nested `jvp`s in any directions, carries all mixed derivatives of the partial
derivatives. -/
theorem C168_nested (P : Prog n) (x : Pt n) (h : P.Regular x.ofLp) (k : ℕ) (vs : ℕ → Pt n) :
    Carries k vs (P.eval (seedK x vs k)) P.onPt x ∧
    ∀ j, Carries k vs (P.grad (seedK x vs k) j) (fun y => fderiv ℝ P.onPt y (unitVec j)) x :=
  ⟨(P.sound (rep_sound x vs k) (g := fun y : Pt n => y.ofLp) (fun i => seedK_rep x vs i k) h).carries,
    fun j => (grad_sound (rep_sound x vs k) P h (fun i => seedK_rep x vs i k) j).carries⟩

theorem sumG_rep {E : Type*} [NormedAddCommGroup E] [NormedSpace ℝ E] {α : Type} [ADNum α] {x : E} {R : α → (E → ℝ) → Prop}
    (S : Sound x R) {ι : Type*} (l : List ι) (a : ι → α) (f : ι → E → ℝ) (h : ∀ i, R (a i) (f i)) :
    R (sumG (l.map a)) fun y => (l.map fun i => f i y).sum := by
  have key : ∀ (l : List ι) (b : α) (g : E → ℝ), R b g → R ((l.map a).foldl ADNum.add b) fun y => g y + (l.map fun i => f i y).sum := by
    intro l
    induction l with
    | nil => intro b g hb; simpa using hb
    | cons i l ih =>
      intro b g hb
      have := ih _ _ (S.add hb (h i))
      simpa [add_assoc] using this
  have := key l _ _ (S.const 0)
  rw [sumG, zero_eq]
  simpa using this

theorem tangent1 (d : Nested 1) : JVP.tangent (α := XR) d = comp (fun _ => true) 1 d := by
  obtain ⟨d, _ | t⟩ := d <;> rfl

/-- The products with the Hessian by forward over forward, forward over reverse and reverse over reverse differentiation. -/
theorem C168_hvp (P : Prog n) (x v : Pt n) (h : P.Regular x.ofLp) :
    (∀ j, P.hvp (efin x) (efin v) j = fin (fderiv ℝ (fun y => fderiv ℝ P.onPt y (unitVec j)) x v)) ∧
    (∀ j, P.hvpForwardOverReverse (efin x) (efin v) j = fin (fderiv ℝ (fun y => fderiv ℝ P.onPt y (unitVec j)) x v)) ∧
    ∀ j, P.hvpReverseOverReverse (efin x) (efin v) j = fin (fderiv ℝ (fun y => fderiv ℝ P.onPt y (unitVec j)) x v) := by
  have hs := (C168_value P x h).1
  refine ⟨fun j => ?_, fun j => ?_, fun j => ?_⟩
  · rw [Prog.hvp, hvpG_eq]
    exact (C168_nested P x h 2 _).1 fun _ => true
  · have h1 := (C168_nested P x h 1 fun _ => v).2 j fun _ => true
    exact (tangent1 _).trans h1
  · have S0 := sound_base x
    have S := S0.liftRev (n := n) (fun j => (unitVec j : Pt n))
    have hseed : ∀ i, liftRev x (fun (d : XR) (f : Pt n → ℝ) => ContDiffAt ℝ ∞ f x ∧ d = fin (f x)) (fun j => (unitVec j : Pt n))
        (RevNum.seed (efin x) i) fun y => y i := fun i => by
      refine ⟨base_seed x i, fun c k hc j => ?_⟩
      have e : ∀ y : Pt n, fderiv ℝ (fun y : Pt n => y i) y (unitVec j) = if j = i then 1 else 0 := fun y => by
        have : fderiv ℝ (fun y : Pt n => y i) y = PiLp.proj 2 (𝕜 := ℝ) (fun _ : Fin n => ℝ) i :=
          (PiLp.proj 2 (𝕜 := ℝ) (fun _ : Fin n => ℝ) i).fderiv
        rw [this]
        simp [eq_comm]
      simp only [e, RevNum.seed]
      by_cases hj : j = i
      · subst hj
        rw [Function.update_self]
        show _ ∧ _
        simpa using hc
      · rw [Function.update_of_ne hj]
        simp only [if_neg hj, mul_zero]
        exact Filter.EventuallyEq.rfl
    have h1 := sumG_rep S (List.finRange n) (fun i => P.grad (RevNum.seed (efin x)) i *ₐ ADNum.const (efin v i))
      (fun i y => fderiv ℝ P.onPt y (unitVec i) * v i) fun i => S.mul (grad_sound S P h hseed i) (S.const (v i))
    have h2 := h1.2 1 (fun _ => 1) ⟨contDiffAt_const, one_eq⟩ j
    have hd : fderiv ℝ (fun y => ((List.finRange n).map fun i => fderiv ℝ P.onPt y (unitVec i) * v i).sum) x (unitVec j) =
        fderiv ℝ (fun y => fderiv ℝ P.onPt y (unitVec j)) x v := by
      have hc : ∀ i : Fin n, DifferentiableAt ℝ (fun y => fderiv ℝ P.onPt y (unitVec i)) x := fun i =>
        (smooth_fderiv hs _).differentiableAt (by simp)
      have e1 : (fun y => ((List.finRange n).map fun i => fderiv ℝ P.onPt y (unitVec i) * v i).sum) =
          fun y => ∑ i, fderiv ℝ P.onPt y (unitVec i) * v i := funext fun y => by
        rw [← List.ofFn_eq_map, List.sum_ofFn]
      have hdd : DifferentiableAt ℝ (fderiv ℝ P.onPt) x := ((hs.fderiv_right (m := 1) (by norm_cast))).differentiableAt (by simp)
      have e2 : ∀ u w : Pt n, fderiv ℝ (fun y => fderiv ℝ P.onPt y u) x w = fderiv ℝ (fderiv ℝ P.onPt) x w u := fun u w => by
        have := (hdd.hasFDerivAt.clm_apply (hasFDerivAt_const u x)).fderiv
        rw [this]
        simp
      have hsym := (hs.of_le (m := 2) (by norm_cast)).isSymmSndFDerivAt (by simp)
      rw [e1, fderiv_fun_sum fun i _ => (hc i).mul_const _, e2, hsym.eq v (unitVec j)]
      have e3 : v = ∑ i, v i • (unitVec i : Pt n) := by
        ext j
        simp [Pi.single_apply]
      conv_rhs => rw [e3]
      rw [map_sum, _root_.sum_apply]
      refine Finset.sum_congr rfl fun i _ => ?_
      rw [fderiv_mul_const (hc i)]
      simp only [_root_.smul_apply, e2, map_smul, smul_eq_mul]
    rw [← hd, Prog.hvpReverseOverReverse]
    revert h2
    simp only [one_mul]
    generalize RevNum.back (sumG ((List.finRange n).map fun i => P.grad (RevNum.seed (efin x)) i *ₐ ADNum.const (efin v i))) 1 j = o
    intro h2
    cases o with
    | none =>
      have h2 : _ =ᶠ[𝓝 x] 0 := h2
      rw [h2.eq_of_nhds]
      exact zero_eq
    | some t => exact h2.2

/-- The results agree with the derivatives which the other properties take for those of JAX (`Verif.Model.Calc`). -/
theorem C168_calc (P : Prog n) (x v : Pt n) (h : P.Regular x.ofLp) :
    P.hvp (efin x) (efin v) = vfin (hvp P.onPt x v) ∧
    P.hvpForwardOverReverse (efin x) (efin v) = efin (hvpForwardOverReverse (A := Unit) (.plain P.onPt) x v none) ∧
    P.hvpReverseOverReverse (efin x) (efin v) = efin (hvpReverseOverReverse (A := Unit) (.plain P.onPt) x v) ∧
    P.valueAndGrad (efin x) = (fin (valueGradHvp (A := Unit) (.plain P.onPt) x).1, efin (valueGradHvp (A := Unit) (.plain P.onPt) x).2.1) ∧
    P.hvpForwardOverReverse (efin x) (efin v) = efin ((valueGradHvp (A := Unit) (.plain P.onPt) x).2.2.1 v) := by
  have hs := (C168_value P x h).1
  have h2 : ContDiffAt ℝ 2 P.onPt x := hs.of_le (by norm_cast)
  have hdd : DifferentiableAt ℝ (fderiv ℝ P.onPt) x := ((hs.fderiv_right (m := 1) (by norm_cast))).differentiableAt (by simp)
  obtain ⟨a, b, c⟩ := C168_hvp P x v h
  have e : ∀ j, fderiv ℝ (fun y => fderiv ℝ P.onPt y (unitVec j)) x v = fderiv ℝ (fderiv ℝ P.onPt) x v (unitVec j) := fun j => by
    have := (hdd.hasFDerivAt.clm_apply (hasFDerivAt_const (unitVec j) x)).fderiv
    rw [this]
    simp
  have hw : ∀ w : Pt n, (∀ z, inner ℝ z w = fderiv ℝ (fderiv ℝ P.onPt) x v z) →
      (fun j => fin (fderiv ℝ (fun y => fderiv ℝ P.onPt y (unitVec j)) x v)) = efin w := fun w hw => by
    funext j
    rw [e, ← hw]
    show fin (inner ℝ (EuclideanSpace.single j 1) w) = fin (w j)
    rw [EuclideanSpace.inner_single_left]
    simp
  have k := fun w => C84_hvp (A := Unit) (.plain P.onPt) P.onPt rfl x h2 v w
  refine ⟨(funext a).trans ?_, (funext b).trans (hw _ fun w => (k w).2.1), (funext c).trans (hw _ fun w => (k w).2.2.1), ?_,
    (funext b).trans (hw _ fun w => (k w).2.2.2)⟩
  · have := hw (WithLp.toLp 2 (hvp P.onPt x v)) fun w => (k w).1
    rw [this]
    rfl
  · rw [(C168_grad P x h).1]
    rfl

/-- The objective of the trust region method for a program. -/
noncomputable def Prog.objective (P : Prog n) : Objective n Unit where
  value := P.eval
  aux _ := ()
  grad x := (P.valueAndGrad x).2
  hvp := P.hvpForwardOverReverse

/-- If the operations of a program are smooth near their arguments for all inputs, the trust region method meets the contract of
exact derivatives: the gradient and the symmetric Hessian of the function of the program. -/
theorem C168_trust_region (P : Prog n) (h : ∀ z, P.Regular z) (c : TRConf) (hc : c.approx_hvp = false) :
    ∃ B : Pt n → Pt n →ₗ[ℝ] Pt n, (∀ x v w, inner ℝ w (B x v) = fderiv ℝ (fderiv ℝ P.onPt) x v w) ∧
      SecondOrder c P.objective (gradient P.onPt) B ∧
      (∀ x, P.objective.value (efin x) = fin (P.onPt x)) ∧ ∀ x, HasGradientAt P.onPt (gradient P.onPt x) x := by
  have hs := fun x => (C168_value P x (h x.ofLp)).1
  have h2 : ∀ x, ContDiffAt ℝ 2 P.onPt x := fun x => (hs x).of_le (by norm_cast)
  let B : Pt n → Pt n →ₗ[ℝ] Pt n := fun x => (fderiv ℝ (gradF (A := Unit) (.plain P.onPt)) x).toLinearMap
  have hB : ∀ x v w, inner ℝ w (B x v) = fderiv ℝ (fderiv ℝ P.onPt) x v w := fun x v w =>
    (C84_hvp (A := Unit) (.plain P.onPt) P.onPt rfl x (h2 x) v w).2.2.2
  refine ⟨B, hB, ⟨fun x => (C168_grad P x (h _)).2, fun x v => ?_, fun x u v => ?_⟩, fun x => (C168_value P x (h _)).2,
    fun x => ((hs x).differentiableAt (by simp)).hasGradientAt⟩
  · rw [TR.hvp, hc]
    exact (C168_calc P x v (h _)).2.2.2.2
  · rw [real_inner_comm, hB, hB]
    exact ((h2 x).isSymmSndFDerivAt (by simp)).eq u v

end

/-! ### cases -/

/-- r_fun.py:102-105 the conjunction of `RAlpha` as a program. -/
noncomputable def conjProg (alpha : ℝ) : Prog 2 :=
  .bind (.add 0 1) <| .bind (.ipow 0 2) <| .bind (.ipow 1 2) <| .bind (.add 3 4) <| .bind (.const (2 * alpha)) <|
  .bind (.mul 6 0) <| .bind (.mul 7 1) <| .bind (.sub 5 8) <| .bind (.sqrt 9) <| .bind (.sub 2 10) <|
  .bind (.const (1 / (1 + alpha))) <| .bind (.mul 12 11) <| .ret 13

theorem conjProg_eval (alpha : ℝ) (h : 1 + alpha ≠ 0) {α : Type} [ADNum α] (a b : α) :
    (conjProg alpha).eval ![a, b] = (RAlpha.sysG alpha α).conj a b := by
  have e1 : (1 / (1 + fin alpha) : XR) = fin (1 / (1 + alpha)) := by rw [one_eq, fin_add, fin_div _ h]
  have e2 : (2 * fin alpha : XR) = fin (2 * alpha) := by rw [lit_eq, fin_mul]
  show _ = ADNum.const (1 / (1 + fin alpha)) *ₐ (a +ₐ b -ₐ
    ADNum.sqrt (ADNum.ipow a 2 +ₐ ADNum.ipow b 2 -ₐ ADNum.const (2 * fin alpha) *ₐ a *ₐ b))
  rw [e1, e2]
  rfl

theorem conjProg_regular (alpha : ℝ) (z : Fin 2 → ℝ) : (conjProg alpha).Regular z ↔ 0 < z 0 ^ 2 + z 1 ^ 2 - 2 * alpha * z 0 * z 1 := by
  have : (conjProg alpha).Regular z ↔ (True ∧ (0 ≤ (2 : ℤ) ∨ z 0 ≠ 0) ∧ (0 ≤ (2 : ℤ) ∨ z 1 ≠ 0) ∧ True ∧ True ∧ True ∧ True ∧ True ∧
    0 < z 0 ^ (2 : ℤ) + z 1 ^ (2 : ℤ) - 2 * alpha * z 0 * z 1 ∧ True ∧ True ∧ True ∧ True) := Iff.rfl
  rw [this]
  norm_cast
  simp

theorem conjProg_rev (alpha : ℝ) {α : Type} [ADNum α] (a b : α) :
    let k : α := ADNum.const (fin (1 / (1 + alpha))) *ₐ ADNum.const 1;
    let r : α := ADNum.ipow a 2 +ₐ ADNum.ipow b 2 -ₐ ADNum.const (fin (2 * alpha)) *ₐ a *ₐ b;
    let t : α := ADNum.neg k *ₐ (ADNum.const (1 / 2) /ₐ ADNum.sqrt r);
    (conjProg alpha).rev ![a, b] 0 = some (ADNum.const (fin (2 * alpha)) *ₐ (ADNum.neg t *ₐ b) +ₐ
      t *ₐ (ADNum.const (fin (2 : ℤ)) *ₐ ADNum.ipow a (2 - 1)) +ₐ k) ∧
    (conjProg alpha).rev ![a, b] 1 = some (ADNum.const (fin (2 * alpha)) *ₐ a *ₐ ADNum.neg t +ₐ
      t *ₐ (ADNum.const (fin (2 : ℤ)) *ₐ ADNum.ipow b (2 - 1)) +ₐ k) := by
  intro k r t
  constructor <;> rfl

/-- The conjunction of `RAlpha`, `-1 < alpha < 1`: the program gives the conjunction; the partial derivatives by reverse
differentiation are right unless both operands are zero, and then both are `nan`. -/
theorem C168_conjunction (alpha : ℝ) (h1 : -1 < alpha) (h2 : alpha < 1) (x : Pt 2) :
    (conjProg alpha).eval (efin x) = (RAlpha.sys alpha).conj (fin (x 0)) (fin (x 1)) ∧
    (¬ (x 0 = 0 ∧ x 1 = 0) → ∃ h : Pt 2 → ℝ, (∀ y : Pt 2, (RAlpha.sys alpha).conj (fin (y 0)) (fin (y 1)) = fin (h y)) ∧
      DifferentiableAt ℝ h x ∧ ∀ j, (conjProg alpha).grad (efin x) j = fin (fderiv ℝ h x (unitVec j))) ∧
    (x 0 = 0 ∧ x 1 = 0 → ∀ j, (conjProg alpha).grad (efin x) j = nan) := by
  have hα : 1 + alpha ≠ 0 := by linarith
  have ev : ∀ y : Pt 2, (conjProg alpha).eval (efin y) = (RAlpha.sys alpha).conj (fin (y 0)) (fin (y 1)) := fun y => by
    have e : efin y = ![fin (y 0), fin (y 1)] := by
      funext i; fin_cases i <;> rfl
    rw [e, conjProg_eval alpha hα]
    rfl
  have hpos : ∀ a b : ℝ, ¬ (a = 0 ∧ b = 0) → 0 < a ^ 2 + b ^ 2 - 2 * alpha * a * b := fun a b hab => by
    have h3 : 0 < a ^ 2 + b ^ 2 := by
      rcases not_and_or.mp hab with h | h <;> positivity
    have h4 : |2 * a * b| ≤ a ^ 2 + b ^ 2 := abs_le.mpr ⟨by nlinarith [sq_nonneg (a + b)], by nlinarith [sq_nonneg (a - b)]⟩
    have h5 : |alpha| < 1 := abs_lt.mpr ⟨h1, h2⟩
    have h6 : alpha * (2 * a * b) ≤ |alpha| * (a ^ 2 + b ^ 2) :=
      (le_abs_self _).trans ((abs_mul _ _).le.trans (mul_le_mul_of_nonneg_left h4 (abs_nonneg _)))
    nlinarith
  refine ⟨ev x, fun hx => ?_, fun hx j => ?_⟩
  · have hr : (conjProg alpha).Regular x.ofLp := (conjProg_regular alpha _).mpr (hpos _ _ hx)
    refine ⟨(conjProg alpha).onPt, fun y => ?_, (C168_value _ x hr).1.differentiableAt (by simp),
      fun j => congrFun (congrArg Prod.snd (C168_grad _ x hr).1) j⟩
    rw [← ev y]
    by_cases hy : y 0 = 0 ∧ y 1 = 0
    · have e : efin y = ![fin 0, fin 0] := by
        funext i; fin_cases i <;> simp [efin, hy.1, hy.2]
      have e0 : (y.ofLp : Fin 2 → ℝ) = ![0, 0] := by
        funext i; fin_cases i <;> simp [hy.1, hy.2]
      have e3 : (conjProg alpha).onPt y = 1 / (1 + alpha) * (0 + 0 - Real.sqrt ((0 : ℝ) ^ (2 : ℤ) + (0 : ℝ) ^ (2 : ℤ) - 2 * alpha * 0 * 0)) := by
        show (conjProg alpha).fn y.ofLp = _
        rw [e0]; rfl
      have e4 : (conjProg alpha).eval ![fin 0, fin 0] = fin (1 / (1 + alpha)) * (fin 0 + fin 0 - XR.sqrt (XR.zpow (fin 0) 2 +
          XR.zpow (fin 0) 2 - fin (2 * alpha) * fin 0 * fin 0)) := rfl
      rw [e, e3, e4, xr_zpow_fin _ _ (Or.inl (by norm_num))]
      simp only [fin_add, fin_mul, fin_sub]
      rw [fin_sqrt (by norm_num)]
      simp only [fin_mul, fin_sub]
    · exact (C168_value _ y ((conjProg_regular alpha _).mpr (hpos _ _ hy))).2
  · have e : efin x = ![fin 0, fin 0] := by
      funext i; fin_cases i <;> simp [efin, hx.1, hx.2]
    have hk : (1 / (1 + alpha)) ≠ 0 := one_div_ne_zero hα
    have ht : -(fin (1 / (1 + alpha)) * 1) * (1 / 2 / XR.sqrt (XR.zpow (fin 0) 2 + XR.zpow (fin 0) 2 - fin (2 * alpha) * fin 0 * fin 0)) *
        (fin (2 : ℤ) * XR.zpow (fin 0) (2 - 1)) = nan := by
      rw [xr_zpow_fin _ _ (Or.inl (by norm_num)), xr_zpow_fin _ _ (Or.inl (by norm_num))]
      simp only [one_eq, lit_eq, fin_add, fin_mul, fin_sub, fin_neg]
      rw [fin_div _ (two_ne_zero), fin_sqrt (by norm_num)]
      have e1 : Real.sqrt ((0 : ℝ) ^ (2 : ℤ) + (0 : ℝ) ^ (2 : ℤ) - 2 * alpha * 0 * 0) = 0 := by norm_num
      have e2 : ((2 : ℤ) : ℝ) * (0 : ℝ) ^ ((2 : ℤ) - 1) = 0 := by norm_num
      have e3 : infSign (1 / 2) = pinf := by norm_num [infSign]
      rw [e1, e2, fin_div_zero, e3]
      show infSign _ * fin 0 = nan
      unfold infSign
      rw [mul_one]
      rcases lt_or_gt_of_ne (neg_ne_zero.mpr hk) with h | h
      · rw [if_neg h.le.not_gt, if_pos h]
        show infSign _ = nan
        simp [infSign]
      · rw [if_pos h]
        show infSign _ = nan
        simp [infSign]
    have nn : ∀ a b c : XR, b = nan → a + b + c = nan := fun a b c hb => by rw [hb, xr_add_nan, xr_nan_add]
    obtain ⟨r0, r1⟩ := conjProg_rev alpha (fin 0 : XR) (fin 0)
    rw [Prog.grad, e]
    fin_cases j
    · show ((conjProg alpha).rev ![fin 0, fin 0] 0).getD _ = _
      rw [r0]
      exact nn _ _ _ ht
    · show ((conjProg alpha).rev ![fin 0, fin 0] 1).getD _ = _
      rw [r1]
      exact nn _ _ _ ht

/-- The derivative of `x + y - sqrt(x ^ 2 + y ^ 2)` at `(3, 4)`. -/
example : ∃ h : Pt 2 → ℝ, (∀ y : Pt 2, (RAlpha.sys 0).conj (fin (y 0)) (fin (y 1)) = fin (h y)) ∧
    DifferentiableAt ℝ h (!₂[3, 4]) ∧ ∀ j, (conjProg 0).grad (efin (!₂[3, 4] : Pt 2)) j = fin (fderiv ℝ h (!₂[3, 4]) (unitVec j)) :=
  (C168_conjunction 0 (by norm_num) (by norm_num) (!₂[3, 4])).2.1 (by simp)

example (j : Fin 2) : (conjProg (1 / 2)).grad (efin (!₂[0, 0] : Pt 2)) j = nan :=
  (C168_conjunction (1 / 2) (by norm_num) (by norm_num) (!₂[0, 0])).2.2 (by simp) j

/-- The squared error of a network with one neuron: `(tanh(2 * w + b) - 1) ^ 2`. -/
noncomputable def neuronLoss : Prog 2 :=
  .bind (.const 2) <| .bind (.mul 2 0) <| .bind (.add 3 1) <| .bind (.tanh 4) <| .bind (.const 1) <| .bind (.sub 5 6) <|
  .bind (.ipow 7 2) <| .ret 8

theorem neuronLoss_regular (z : Fin 2 → ℝ) : neuronLoss.Regular z :=
  ⟨trivial, trivial, trivial, trivial, trivial, trivial, Or.inl (by norm_num), trivial⟩

example (x : Pt 2) : neuronLoss.eval (efin x) = fin ((Real.tanh (2 * x 0 + x 1) - 1) ^ (2 : ℤ)) :=
  (C168_value neuronLoss x (neuronLoss_regular _)).2

example (x : Pt 2) (j : Fin 2) : (neuronLoss.valueAndGrad (efin x)).2 j = fin (fderiv ℝ neuronLoss.onPt x (unitVec j)) :=
  congrFun (congrArg Prod.snd (C168_grad neuronLoss x (neuronLoss_regular _)).1) j

/-- Third derivatives: two `jvp`s of the gradient. -/
example (x : Pt 2) (vs : ℕ → Pt 2) (j : Fin 2) : Carries 2 vs (neuronLoss.grad (seedK x vs 2) j)
    (fun y => fderiv ℝ neuronLoss.onPt y (unitVec j)) x :=
  (C168_nested neuronLoss x (neuronLoss_regular _) 2 vs).2 j

example (x v : Pt 2) : neuronLoss.hvpForwardOverReverse (efin x) (efin v) = neuronLoss.hvpReverseOverReverse (efin x) (efin v) :=
  funext fun j => by
    obtain ⟨-, b, c⟩ := C168_hvp neuronLoss x v (neuronLoss_regular _)
    rw [b, c]

example (x v : Pt 2) : neuronLoss.hvpReverseOverReverse (efin x) (efin v) =
    efin (hvpReverseOverReverse (A := Unit) (.plain neuronLoss.onPt) x v) :=
  (C168_calc neuronLoss x v (neuronLoss_regular _)).2.2.1

example (c : TRConf) (hc : c.approx_hvp = false) : ∃ B, SecondOrder c neuronLoss.objective (gradient neuronLoss.onPt) B :=
  (C168_trust_region neuronLoss neuronLoss_regular c hc).imp fun _ h => h.2.1

/-- A program with a division and a root, `sqrt(x) / y`, at `(4, -2)`: the gradient is `(-1 / 8, -1 / 2)`. -/
example : (Prog.grad (.bind (.sqrt 0) <| .bind (.div 2 1) <| .ret 3) (efin (!₂[4, -2] : Pt 2))) = ![fin (-1 / 8), fin (-1 / 2)] := by
  set P : Prog 2 := .bind (.sqrt 0) <| .bind (.div 2 1) <| .ret 3 with hP
  have hr : P.Regular (!₂[4, -2] : Pt 2).ofLp := ⟨show (0 : ℝ) < 4 by norm_num, show (-2 : ℝ) ≠ 0 by norm_num, trivial⟩
  have h := congrArg Prod.snd (C168_grad P (!₂[4, -2]) hr).1
  rw [show P.grad (efin (!₂[4, -2] : Pt 2)) = _ from h]
  have e : P.onPt = fun y : Pt 2 => Real.sqrt (y 0) / y 1 := rfl
  have h0 := ((PiLp.proj 2 (𝕜 := ℝ) (fun _ : Fin 2 => ℝ) 0).hasFDerivAt (x := (!₂[4, -2] : Pt 2)))
  have h1 := ((PiLp.proj 2 (𝕜 := ℝ) (fun _ : Fin 2 => ℝ) 1).hasFDerivAt (x := (!₂[4, -2] : Pt 2)))
  have s4 : Real.sqrt 4 = 2 := by rw [show (4 : ℝ) = 2 ^ 2 by norm_num, Real.sqrt_sq (by norm_num)]
  have hs := h0.sqrt (by simp)
  have hd := hs.mul ((hasDerivAt_inv (x := (-2 : ℝ)) (by norm_num)).comp_hasFDerivAt (!₂[4, -2] : Pt 2) h1)
  have e2 : (fun y : Pt 2 => Real.sqrt (y 0) / y 1) = (fun y => Real.sqrt ((PiLp.proj 2 (𝕜 := ℝ) (fun _ : Fin 2 => ℝ) 0) y)) *
      ((fun y => y⁻¹) ∘ (PiLp.proj 2 (𝕜 := ℝ) (fun _ : Fin 2 => ℝ) 1)) := funext fun y => div_eq_mul_inv _ _
  rw [e, e2]
  funext j
  simp only
  rw [hd.fderiv]
  fin_cases j
  · simp [s4]; norm_num
  · simp [s4]; norm_num

end Verif
