import Verif.Spec.RevAD
import Verif.Lemmas.NestedAD
import Mathlib.Analysis.Calculus.FDeriv.Pi

/-! # Lemmas about reverse differentiation -/

namespace Verif

open XR
open scoped ContDiff Topology

section

variable {E : Type*} [NormedAddCommGroup E] [NormedSpace ℝ E] {x : E} {α : Type} [ADNum α] {R : α → (E → ℝ) → Prop} {m : ℕ}

theorem Prim.sound (S : Sound x R) {a : Fin m → α} {g : E → Fin m → ℝ} (ha : ∀ i, R (a i) fun y => g y i) (p : Prim m)
    (hp : p.Regular (g x)) : R (p.eval a) fun y => p.fn (g y) := by
  cases p with
  | const c => exact S.const c
  | add i j => exact S.add (ha i) (ha j)
  | sub i j => exact S.sub (ha i) (ha j)
  | mul i j => exact S.mul (ha i) (ha j)
  | div i j => exact S.div (ha i) (ha j) hp
  | neg i => exact S.neg (ha i)
  | sqrt i => exact S.sqrt (ha i) hp
  | exp i => exact S.exp (ha i)
  | sin i => exact S.sin (ha i)
  | cos i => exact S.cos (ha i)
  | tanh i => exact S.tanh (ha i)
  | log i => exact S.log (ha i) hp
  | ipow i n => exact S.ipow n (ha i) hp
  | rpow i y => exact S.rpow y (ha i) hp

omit [NormedAddCommGroup E] [NormedSpace ℝ E] [ADNum α] in
theorem snoc_rep {a : Fin m → α} {g : E → Fin m → ℝ} {v : α} {f : E → ℝ} (ha : ∀ i, R (a i) fun y => g y i) (hv : R v f)
    (i : Fin (m + 1)) : R (Fin.snoc (α := fun _ => α) a v i) fun y => Fin.snoc (α := fun _ => ℝ) (g y) (f y) i := by
  refine Fin.lastCases ?_ (fun i => ?_) i
  · simpa using hv
  · simpa using ha i

theorem Prog.sound (S : Sound x R) : ∀ {m : ℕ} (P : Prog m) {a : Fin m → α} {g : E → Fin m → ℝ}, (∀ i, R (a i) fun y => g y i) →
    P.Regular (g x) → R (P.eval a) fun y => P.fn (g y)
  | _, ret i, _, _, ha, _ => ha i
  | _, bind p rest, _, _, ha, hr => Prog.sound S rest (snoc_rep ha (p.sound S ha hr.1)) hr.2

end

theorem Prim.smooth {m : ℕ} (p : Prim m) {z : Fin m → ℝ} (h : p.Regular z) : ContDiffAt ℝ ∞ (fun y => p.fn y) z :=
  (p.sound (sound_base z) (a := fun i => fin (z i)) (g := fun y => y) (fun _ => ⟨contDiffAt_apply .., rfl⟩) h).1

theorem Prog.smooth {m : ℕ} (P : Prog m) {z : Fin m → ℝ} (h : P.Regular z) : ContDiffAt ℝ ∞ P.fn z :=
  (P.sound (sound_base z) (a := fun i => fin (z i)) (g := fun y => y) (fun _ => ⟨contDiffAt_apply .., rfl⟩) h).1

/-- The partial derivatives of an operation. -/
noncomputable def Prim.partials {m : ℕ} (x : Fin m → ℝ) : Prim m → List (Fin m × ℝ)
  | const _ => []
  | add i j => [(i, 1), (j, 1)]
  | sub i j => [(i, 1), (j, -1)]
  | mul i j => [(i, x j), (j, x i)]
  | div i j => [(i, (x j)⁻¹), (j, -(x j ^ (-2 : ℤ) * x i))]
  | neg i => [(i, -1)]
  | sqrt i => [(i, 1 / 2 / Real.sqrt (x i))]
  | exp i => [(i, Real.exp (x i))]
  | sin i => [(i, Real.cos (x i))]
  | cos i => [(i, -Real.sin (x i))]
  | tanh i => [(i, (1 + Real.tanh (x i)) * (1 - Real.tanh (x i)))]
  | log i => [(i, (x i)⁻¹)]
  | ipow i n => if n = 0 then [] else [(i, n * x i ^ (n - 1))]
  | rpow i y => [(i, y * x i ^ (y - 1))]

/-- The sum of the parts of a variable. -/
noncomputable def partSum {m : ℕ} (l : List (Fin m × ℝ)) (j : Fin m) : ℝ := (l.map fun e => if j = e.1 then e.2 else 0).sum

theorem Prim.fderiv_fn {m : ℕ} (p : Prim m) {z : Fin m → ℝ} (h : p.Regular z) (j : Fin m) :
    fderiv ℝ (fun y => p.fn y) z (Pi.single j 1) = partSum (p.partials z) j := by
  have hd : ∀ i : Fin m, HasFDerivAt (fun y : Fin m → ℝ => y i) (ContinuousLinearMap.proj (R := ℝ) (φ := fun _ => ℝ) i) z :=
    fun i => hasFDerivAt_apply i z
  have hs : ∀ i : Fin m, (Pi.single j (1 : ℝ) : Fin m → ℝ) i = if j = i then 1 else 0 := fun i => by
    rw [Pi.single_apply]; simp [eq_comm]
  have hc : ∀ (φ : ℝ → ℝ) (d : ℝ) (i : Fin m), HasDerivAt φ d (z i) →
      fderiv ℝ (fun y : Fin m → ℝ => φ (y i)) z (Pi.single j 1) = if j = i then d else 0 := fun φ d i hφ => by
    have h1 := fderiv_comp_apply (f := fun y : Fin m → ℝ => y i) (φ := φ) (y := z) hφ (hd i).differentiableAt (Pi.single j 1)
    rw [h1, (hd i).fderiv]
    simp only [ContinuousLinearMap.proj_apply, hs]
    split <;> simp
  have one : ∀ (i : Fin m) (d : ℝ), (if j = i then d else 0) = partSum [(i, d)] j := fun i d => by simp [partSum]
  cases p with
  | const c => simp [Prim.fn, Prim.partials, partSum]
  | add i k =>
    simp only [Prim.fn]
    rw [((hd i).fun_add (hd k)).fderiv]
    simp [Prim.partials, partSum, hs]
  | sub i k =>
    simp only [Prim.fn]
    rw [((hd i).fun_sub (hd k)).fderiv]
    simp only [Prim.partials, partSum, hs, List.map_cons, List.map_nil, List.sum_cons, List.sum_nil, _root_.sub_apply,
      ContinuousLinearMap.proj_apply]
    split <;> split <;> simp
  | mul i k =>
    simp only [Prim.fn]
    rw [((hd i).fun_mul (hd k)).fderiv]
    simp only [Prim.partials, partSum, hs, List.map_cons, List.map_nil, List.sum_cons, List.sum_nil, _root_.add_apply,
      _root_.smul_apply, ContinuousLinearMap.proj_apply, smul_eq_mul]
    split <;> split <;> simp [add_comm]
  | div i k =>
    have h0 : z k ≠ 0 := h
    have e : (fun y : Fin m → ℝ => (Prim.div i k).fn y) = fun y => y i * (y k)⁻¹ := funext fun y => div_eq_mul_inv _ _
    have h2 := hc (fun t => t⁻¹) _ k (hasDerivAt_inv h0)
    have h3 : DifferentiableAt ℝ (fun y : Fin m → ℝ => (y k)⁻¹) z := (hd k).differentiableAt.inv h0
    rw [e, fderiv_fun_mul (hd i).differentiableAt h3, (hd i).fderiv]
    simp only [Prim.partials, partSum, hs, List.map_cons, List.map_nil, List.sum_cons, List.sum_nil, _root_.add_apply,
      _root_.smul_apply, ContinuousLinearMap.proj_apply, smul_eq_mul, h2]
    rw [zpow_neg]
    split <;> split <;> simp <;> ring
  | neg i => exact (hc _ _ i (hasDerivAt_neg _)).trans (one _ _)
  | sqrt i =>
    refine (hc _ _ i (Real.hasDerivAt_sqrt (ne_of_gt h))).trans ?_
    rw [one, ← div_div]
    rfl
  | exp i => exact (hc _ _ i (Real.hasDerivAt_exp _)).trans (one _ _)
  | sin i => exact (hc _ _ i (Real.hasDerivAt_sin _)).trans (one _ _)
  | cos i => exact (hc _ _ i (Real.hasDerivAt_cos _)).trans (one _ _)
  | tanh i => exact (hc _ _ i (real_tanh_deriv _)).trans (one _ _)
  | log i => exact (hc _ _ i (Real.hasDerivAt_log (ne_of_gt h))).trans (one _ _)
  | ipow i n =>
    have := (hc _ _ i (hasDerivAt_zpow n (z i) h.symm)).trans (one _ _)
    by_cases hn : n = 0
    · subst hn
      simp [Prim.fn, Prim.partials, partSum]
    · rw [Prim.partials, if_neg hn]
      exact this
  | rpow i y => exact (hc _ _ i (Real.hasDerivAt_rpow_const (p := y) (Or.inl (ne_of_gt h)))).trans (one _ _)

section

variable {E : Type*} [NormedAddCommGroup E] [NormedSpace ℝ E] {x : E} {α : Type} [ADNum α] {R : α → (E → ℝ) → Prop} {m : ℕ}

/-- The parts `l` of the transpose stand for the multiplication with the partial derivatives `l'`. -/
def TransposeRep (R : α → (E → ℝ) → Prop) (l : List (Fin m × (α → α))) (l' : E → List (Fin m × ℝ)) : Prop :=
  ∃ L : List (Fin m × (α → α) × (E → ℝ)), l = L.map (fun e => (e.1, e.2.1)) ∧ (∀ y, l' y = L.map fun e => (e.1, e.2.2 y)) ∧
    ∀ e ∈ L, ∀ c h, R c h → R (e.2.1 c) fun y => h y * e.2.2 y

omit [NormedAddCommGroup E] [NormedSpace ℝ E] [ADNum α] in
theorem TransposeRep.one (i : Fin m) (φ : α → α) (d : E → ℝ) (h : ∀ c h, R c h → R (φ c) fun y => h y * d y) :
    TransposeRep R [(i, φ)] fun y => [(i, d y)] :=
  ⟨[(i, φ, d)], rfl, fun _ => rfl, by simpa using h⟩

omit [NormedAddCommGroup E] [NormedSpace ℝ E] [ADNum α] in
theorem TransposeRep.two (i j : Fin m) (φ ψ : α → α) (d e : E → ℝ) (h : ∀ c h, R c h → R (φ c) fun y => h y * d y)
    (h' : ∀ c h, R c h → R (ψ c) fun y => h y * e y) :
    TransposeRep R [(i, φ), (j, ψ)] fun y => [(i, d y), (j, e y)] :=
  ⟨[(i, φ, d), (j, ψ, e)], rfl, fun _ => rfl, by
    intro k hk
    simp only [List.mem_cons, List.not_mem_nil, or_false] at hk
    rcases hk with rfl | rfl
    · exact h
    · exact h'⟩

theorem half_rep (S : Sound x R) : R (ADNum.const (1 / 2)) fun _ => 1 / 2 := by
  have : (1 / 2 : XR) = fin (1 / 2) := by rw [one_eq, lit_eq, fin_div _ (by norm_num)]
  rw [this]
  exact S.const _

theorem Prim.transpose_rep (S : Sound x R) {a : Fin m → α} {g : E → Fin m → ℝ} (ha : ∀ i, R (a i) fun y => g y i) (p : Prim m)
    (hp : p.Regular (g x)) : TransposeRep R (p.transpose a) fun y => p.partials (g y) := by
  have id1 : ∀ c h, R c h → R c fun y => h y * (1 : ℝ) := fun c h hc => by simpa using hc
  have neg1 : ∀ c h, R c h → R (ADNum.neg c) fun y => h y * (-1 : ℝ) := fun c h hc => by simpa using S.neg hc
  have cg : ∀ {c : α} {f h : E → ℝ}, R c f → (∀ y, f y = h y) → R c h := fun hc he => S.congr hc (by filter_upwards with y; exact he y)
  cases p with
  | const c => exact ⟨[], rfl, fun _ => rfl, by simp⟩
  | add i j => exact .two i j _ _ _ _ id1 id1
  | sub i j => exact .two i j _ _ _ _ id1 neg1
  | mul i j => exact .two i j _ _ _ _ (fun c h hc => S.mul hc (ha j)) fun c h hc => cg (S.mul (ha i) hc) fun y => mul_comm _ _
  | div i j =>
    exact .two i j _ _ (fun y => (g y j)⁻¹) _ (fun c h hc => cg (S.div hc (ha j) hp) fun y => div_eq_mul_inv _ _) fun c h hc =>
      cg (S.neg (S.mul (S.mul hc (S.ipow (-2) (ha j) (Or.inr hp))) (ha i))) fun y => by ring
  | neg i => exact .one i _ _ neg1
  | sqrt i =>
    exact .one i _ _ fun c h hc => S.mul hc (S.div (half_rep S) (S.sqrt (ha i) hp) (Real.sqrt_pos.mpr hp).ne')
  | exp i => exact .one i _ _ fun c h hc => S.mul hc (S.exp (ha i))
  | sin i => exact .one i _ _ fun c h hc => S.mul hc (S.cos (ha i))
  | cos i => exact .one i _ _ fun c h hc => cg (S.mul (S.neg hc) (S.sin (ha i))) fun y => by ring
  | tanh i =>
    refine .one i _ _ fun c h hc => ?_
    have h1 : R (ADNum.const 1 -ₐ ADNum.tanh (a i)) fun y => 1 - Real.tanh (g y i) := S.sub (one_eq ▸ S.const 1) (S.tanh (ha i))
    have h2 := S.mul hc h1
    exact cg (S.add h2 (S.mul h2 (S.tanh (ha i)))) fun y => by ring
  | log i => exact .one i _ (fun y => (g y i)⁻¹) fun c h hc => cg (S.div hc (ha i) (ne_of_gt hp)) fun y => div_eq_mul_inv _ _
  | ipow i n =>
    by_cases hn : n = 0
    · simp only [Prim.transpose, Prim.partials, hn, if_true]
      exact ⟨[], rfl, fun _ => rfl, by simp⟩
    · simp only [Prim.transpose, Prim.partials, hn, if_false]
      exact .one i _ (fun y => n * g y i ^ (n - 1)) fun c h hc =>
        S.mul hc (S.mul (S.const _) (S.ipow _ (ha i) (hp.imp (fun h => by omega) id)))
  | rpow i s =>
    refine .one i _ (fun y => s * g y i ^ (s - 1)) fun c h hc => S.mul hc ?_
    by_cases hs : s = 0
    · rw [if_pos hs, zero_eq]
      exact cg (S.const 0) fun y => by simp [hs]
    · rw [if_neg hs]
      exact S.mul (S.const _) (S.rpow _ (ha i) hp)

theorem accumulate_rep (S : Sound x R) {c : Option α} {h : E → ℝ} (hc : RO x R c h) :
    ∀ (L : List (Fin m × (α → α) × (E → ℝ))) (_ : ∀ e ∈ L, ∀ c h, R c h → R (e.2.1 c) fun y => h y * e.2.2 y)
      (t : Fin m → Option α) (f : Fin m → E → ℝ), (∀ j, RO x R (t j) (f j)) →
      ∀ j, RO x R (accumulate c t (L.map fun e => (e.1, e.2.1)) j)
        fun y => f j y + h y * partSum (L.map fun e => (e.1, e.2.2 y)) j
  | [], _, t, f, hf, j => by
    refine RO.congr S (hf j) ?_
    filter_upwards with y
    simp [partSum]
  | e :: L, hL, t, f, hf, j => by
    have h1 := accumulate_rep S hc L (fun e he => hL e (List.mem_cons_of_mem _ he))
      (Function.update t e.1 (JVP.addT (t e.1) (c.map e.2.1))) (fun j y => f j y + if j = e.1 then h y * e.2.2 y else 0)
      (fun j => by
        by_cases hj : j = e.1
        · subst hj
          rw [Function.update_self]
          refine RO.congr S (RO.addT S (hf e.1) (RO.mulr e.2.1 hc fun t ht => hL e (by simp) t h ht)) ?_
          filter_upwards with y
          simp
        · rw [Function.update_of_ne hj]
          refine RO.congr S (hf j) ?_
          filter_upwards with y
          simp [hj]) j
    refine RO.congr S h1 ?_
    filter_upwards with y
    simp only [partSum, List.map_cons, List.sum_cons, mul_add, mul_ite, mul_zero, add_assoc]

omit [NormedSpace ℝ E] in
theorem Prim.regular_ev {g : E → Fin m → ℝ} (hc : ∀ i, ContinuousAt (fun y => g y i) x) (p : Prim m) (hp : p.Regular (g x)) :
    ∀ᶠ y in 𝓝 x, p.Regular (g y) := by
  cases p with
  | div i k => exact (hc k).eventually_ne hp
  | sqrt i => exact (hc i).eventually (lt_mem_nhds hp)
  | log i => exact (hc i).eventually (lt_mem_nhds hp)
  | rpow i s => exact (hc i).eventually (lt_mem_nhds hp)
  | ipow i n =>
    rcases hp with hp | hp
    · exact Filter.Eventually.of_forall fun y => Or.inl hp
    · filter_upwards [(hc i).eventually_ne hp] with y hy
      exact Or.inr hy
  | _ => exact Filter.Eventually.of_forall fun y => trivial

theorem Prog.rev_sound (S : Sound x R) : ∀ {m : ℕ} (P : Prog m) {a : Fin m → α} {g : E → Fin m → ℝ},
    (∀ i, R (a i) fun y => g y i) → P.Regular (g x) →
    ∀ j, RO x R (P.rev a j) fun y => fderiv ℝ P.fn (g y) (Pi.single j 1)
  | _, ret i, a, g, ha, _, j => by
    have e : ∀ y, fderiv ℝ (ret i).fn (g y) (Pi.single j 1) = if j = i then 1 else 0 := fun y => by
      have : fderiv ℝ (ret i).fn (g y) = ContinuousLinearMap.proj (R := ℝ) (φ := fun _ => ℝ) i := (hasFDerivAt_apply i (g y)).fderiv
      rw [this]
      simp [Pi.single_apply, eq_comm]
    simp only [e]
    rw [Prog.rev]
    by_cases hj : j = i
    · subst hj
      rw [Function.update_self]
      simp only [if_true]
      exact one_eq ▸ S.const 1
    · rw [Function.update_of_ne hj]
      simp only [if_neg hj]
      exact Filter.EventuallyEq.rfl
  | m, bind p rest, a, g, ha, hr, j => by
    set g' : E → Fin (m + 1) → ℝ := fun y => Fin.snoc (α := fun _ => ℝ) (g y) (p.fn (g y)) with hg'
    have ih := Prog.rev_sound S rest (a := Fin.snoc (α := fun _ => α) a (p.eval a)) (g := g')
      (snoc_rep ha (p.sound S ha hr.1)) hr.2
    obtain ⟨L, e1, e2, e3⟩ := p.transpose_rep S ha hr.1
    rw [Prog.rev]
    simp only [e1]
    refine RO.congr S (accumulate_rep S (ih (Fin.last m)) L e3 _ _ (fun j => ih j.castSucc) j) ?_
    have hg : ContDiffAt ℝ ∞ g x := contDiffAt_pi.mpr fun i => S.smooth (ha i)
    have hev1 : ∀ᶠ y in 𝓝 x, DifferentiableAt ℝ (fun z => p.fn z) (g y) :=
      hg.continuousAt.eventually (ev_diff (p.smooth hr.1))
    have hg'c : ContinuousAt g' x := (contDiffAt_pi.mpr fun i =>
      S.smooth (snoc_rep (R := R) ha (p.sound S ha hr.1) i)).continuousAt
    have hev2 : ∀ᶠ y in 𝓝 x, DifferentiableAt ℝ rest.fn (g' y) := hg'c.eventually (ev_diff (rest.smooth hr.2))
    have hev3 := p.regular_ev (fun i => (S.smooth (ha i)).continuousAt) hr.1
    filter_upwards [hev1, hev2, hev3] with y h1 h2 h3
    have hs : HasFDerivAt (fun z : Fin m → ℝ => (Fin.snoc (α := fun _ => ℝ) z (p.fn z) : Fin (m + 1) → ℝ))
        (ContinuousLinearMap.pi fun i : Fin (m + 1) => Fin.lastCases (motive := fun _ => (Fin m → ℝ) →L[ℝ] ℝ)
          (fderiv ℝ (fun z => p.fn z) (g y)) (fun i => ContinuousLinearMap.proj i) i) (g y) := by
      rw [hasFDerivAt_pi]
      intro i
      refine Fin.lastCases ?_ (fun i => ?_) i
      · simpa using h1.hasFDerivAt
      · simpa using hasFDerivAt_apply i (g y)
    have h4 : fderiv ℝ (bind p rest).fn (g y) = (fderiv ℝ rest.fn (g' y)).comp _ :=
      (HasFDerivAt.comp (g y) (g := rest.fn) h2.hasFDerivAt hs).fderiv
    rw [h4, ContinuousLinearMap.comp_apply]
    have h5 : (ContinuousLinearMap.pi fun i : Fin (m + 1) => Fin.lastCases (motive := fun _ => (Fin m → ℝ) →L[ℝ] ℝ)
          (fderiv ℝ (fun z => p.fn z) (g y)) (fun i => ContinuousLinearMap.proj i) i) (Pi.single j 1) =
        (Pi.single j.castSucc 1 + partSum (p.partials (g y)) j • Pi.single (Fin.last m) 1 : Fin (m + 1) → ℝ) := by
      funext i
      refine Fin.lastCases ?_ (fun i => ?_) i
      · simp [← p.fderiv_fn h3 j, (Fin.castSucc_lt_last j).ne']
      · simp [Pi.single_apply, (Fin.castSucc_lt_last i).ne, Fin.castSucc_inj]
    have e2' : p.partials (g y) = L.map fun e => (e.1, e.2.2 y) := e2 y
    rw [h5, map_add, map_smul, e2', smul_eq_mul, mul_comm]

end

/-! ### reverse differentiation around any other -/

section

variable {E : Type*} [NormedAddCommGroup E] [NormedSpace ℝ E] {x : E} {α : Type} [ADNum α] {R : α → (E → ℝ) → Prop} {m n : ℕ}

/-- What a number of an outer reverse differentiation stands for. -/
def liftRev (x : E) (R : α → (E → ℝ) → Prop) (dirs : Fin n → E) (d : RevNum n α) (f : E → ℝ) : Prop :=
  R d.val f ∧ ∀ c h, R c h → ∀ j, RO x R (d.back c j) fun y => h y * fderiv ℝ f y (dirs j)

theorem Prim.fderiv_apply (p : Prim m) {z : Fin m → ℝ} (h : p.Regular z) (w : Fin m → ℝ) :
    fderiv ℝ (fun y => p.fn y) z w = ((p.partials z).map fun e => e.2 * w e.1).sum := by
  have e : w = ∑ j, w j • (Pi.single j 1 : Fin m → ℝ) := by
    funext i
    simp [Finset.sum_apply, Pi.single_apply]
  conv_lhs => rw [e]
  rw [map_sum]
  simp only [map_smul, p.fderiv_fn h, smul_eq_mul, partSum]
  induction p.partials z with
  | nil => simp
  | cons a l ih =>
    simp only [List.map_cons, List.sum_cons, mul_add, Finset.sum_add_distrib, ih]
    simp [mul_comm]

theorem revOp_sound (S : Sound x R) (dirs : Fin n → E) {a : Fin m → RevNum n α} {g : E → Fin m → ℝ}
    (ha : ∀ i, liftRev x R dirs (a i) fun y => g y i) (p : Prim m) (hp : p.Regular (g x)) :
    liftRev x R dirs (revOp p a) fun y => p.fn (g y) := by
  refine ⟨p.sound S (fun i => (ha i).1) hp, fun c h hc j => ?_⟩
  obtain ⟨L, e1, e2, e3⟩ := p.transpose_rep S (fun i => (ha i).1) hp
  have key : ∀ (L : List (Fin m × (α → α) × (E → ℝ))) (_ : ∀ e ∈ L, ∀ c h, R c h → R (e.2.1 c) fun y => h y * e.2.2 y)
      (t : Option α) (f : E → ℝ), RO x R t f → RO x R
        ((L.map fun e => (e.1, e.2.1)).foldl (fun t e => JVP.addT t ((a e.1).back (e.2 c) j)) t)
        fun y => f y + h y * (L.map fun e => e.2.2 y * fderiv ℝ (fun z => g z e.1) y (dirs j)).sum := by
    intro L
    induction L with
    | nil =>
      intro _ t f hf
      refine RO.congr S hf ?_
      filter_upwards with y
      simp
    | cons e L ih =>
      intro hL t f hf
      have h1 := ih (fun e he => hL e (List.mem_cons_of_mem _ he)) _ _
        (RO.addT S hf ((ha e.1).2 _ _ (hL e (by simp) c h hc) j))
      refine RO.congr S h1 ?_
      filter_upwards with y
      simp only [List.map_cons, List.sum_cons]
      ring
  have h0 : RO x R (none : Option α) fun _ => (0 : ℝ) := Filter.EventuallyEq.rfl
  have h1 := key L e3 none _ h0
  rw [← e1] at h1
  refine RO.congr S h1 ?_
  have hg : ContDiffAt ℝ ∞ g x := contDiffAt_pi.mpr fun i => S.smooth (ha i).1
  have hev1 : ∀ᶠ y in 𝓝 x, DifferentiableAt ℝ (fun z => p.fn z) (g y) := hg.continuousAt.eventually (ev_diff (p.smooth hp))
  have hev2 : ∀ᶠ y in 𝓝 x, ∀ i, DifferentiableAt ℝ (fun z => g z i) y :=
    Filter.eventually_all.mpr fun i => ev_diff (S.smooth (ha i).1)
  filter_upwards [hev1, hev2, p.regular_ev (fun i => (S.smooth (ha i).1).continuousAt) hp] with y h1 h2 h3
  have h4 : HasFDerivAt g (ContinuousLinearMap.pi fun i => fderiv ℝ (fun z => g z i) y) y :=
    hasFDerivAt_pi.mpr fun i => (h2 i).hasFDerivAt
  have h5 : fderiv ℝ (fun y => p.fn (g y)) y = (fderiv ℝ (fun z => p.fn z) (g y)).comp _ :=
    (HasFDerivAt.comp y (g := fun z => p.fn z) h1.hasFDerivAt h4).fderiv
  rw [h5, ContinuousLinearMap.comp_apply, p.fderiv_apply h3]
  have e2' : p.partials (g y) = L.map fun e => (e.1, e.2.2 y) := e2 y
  rw [e2', List.map_map, zero_add]
  rfl

theorem Sound.liftRev (S : Sound x R) (dirs : Fin n → E) : Sound (α := RevNum n α) x (Verif.liftRev x R dirs) where
  smooth h := S.smooth h.1
  congr h hg := ⟨S.congr h.1 hg, fun c k hc j => RO.congr S (h.2 c k hc j) (by
    filter_upwards [hg.fderiv (𝕜 := ℝ)] with y hy
    rw [hy])⟩
  const c := ⟨S.const c, fun _ k _ j => by
    show (fun y => k y * fderiv ℝ (fun _ => c) y (dirs j)) =ᶠ[𝓝 x] 0
    filter_upwards with y
    simp⟩
  add {a b f g} ha hb := revOp_sound S dirs (g := fun y => ![f y, g y]) (Fin.forall_fin_two.mpr ⟨ha, hb⟩) (.add 0 1) trivial
  sub {a b f g} ha hb := revOp_sound S dirs (g := fun y => ![f y, g y]) (Fin.forall_fin_two.mpr ⟨ha, hb⟩) (.sub 0 1) trivial
  mul {a b f g} ha hb := revOp_sound S dirs (g := fun y => ![f y, g y]) (Fin.forall_fin_two.mpr ⟨ha, hb⟩) (.mul 0 1) trivial
  div {a b f g} ha hb h0 := revOp_sound S dirs (g := fun y => ![f y, g y]) (Fin.forall_fin_two.mpr ⟨ha, hb⟩) (.div 0 1) h0
  neg {a f} ha := revOp_sound S dirs (g := fun y => ![f y]) (Fin.forall_fin_one.mpr ha) (.neg 0) trivial
  sqrt {a f} ha h0 := revOp_sound S dirs (g := fun y => ![f y]) (Fin.forall_fin_one.mpr ha) (.sqrt 0) h0
  exp {a f} ha := revOp_sound S dirs (g := fun y => ![f y]) (Fin.forall_fin_one.mpr ha) (.exp 0) trivial
  sin {a f} ha := revOp_sound S dirs (g := fun y => ![f y]) (Fin.forall_fin_one.mpr ha) (.sin 0) trivial
  cos {a f} ha := revOp_sound S dirs (g := fun y => ![f y]) (Fin.forall_fin_one.mpr ha) (.cos 0) trivial
  tanh {a f} ha := revOp_sound S dirs (g := fun y => ![f y]) (Fin.forall_fin_one.mpr ha) (.tanh 0) trivial
  log {a f} ha h0 := revOp_sound S dirs (g := fun y => ![f y]) (Fin.forall_fin_one.mpr ha) (.log 0) h0
  ipow {a f} n ha h0 := revOp_sound S dirs (g := fun y => ![f y]) (Fin.forall_fin_one.mpr ha) (.ipow 0 n) h0
  rpow {a f} s ha h0 := revOp_sound S dirs (g := fun y => ![f y]) (Fin.forall_fin_one.mpr ha) (.rpow 0 s) h0

end

end Verif
