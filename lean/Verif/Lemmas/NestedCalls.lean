import Verif.Model.BcAD
import Verif.Lemmas.NestedShapes
import Mathlib.Analysis.Calculus.ContDiff.Operations
import Mathlib.Topology.Algebra.Module.FiniteDimension

/-! # Differentiated calls of `jvp` and `jacfwd` -/

namespace Verif

open XR
open scoped ContDiff Topology

section

variable {E : Type*} [NormedAddCommGroup E] [NormedSpace ℝ E] {E' : Type*} [NormedAddCommGroup E'] [NormedSpace ℝ E']

/-- Nested pairs stand for a function seen through a linear map if the map carries the directions along. -/
theorem Rep.comp_lin (L : E' →L[ℝ] E) {x : E'} {vs : ℕ → E} {vs' : ℕ → E'} : ∀ {k : ℕ} {d : Nested k} {f : E → ℝ},
    Rep (L x) vs k d f → (∀ i < k, L (vs' i) = vs i) → Rep x vs' k d fun y => f (L y)
  | 0, _, _, h, _ => ⟨h.1.comp x L.contDiff.contDiffAt, h.2⟩
  | k + 1, ⟨d, t⟩, f, h, hv => by
    have hs : ContDiffAt ℝ ∞ f (L x) := (rep_sound (L x) vs (k + 1)).smooth h
    have hL : Filter.Tendsto L (𝓝 x) (𝓝 (L x)) := L.continuous.continuousAt
    have e : (fun y => fderiv ℝ f (L y) (vs k)) =ᶠ[𝓝 x] fun y => fderiv ℝ (fun z => f (L z)) y (vs' k) := by
      filter_upwards [hL.eventually (ev_diff hs)] with y hy
      rw [← hv k (by omega), show fderiv ℝ (fun z => f (L z)) y = _ from
        (HasFDerivAt.comp (g := f) (f := L) y hy.hasFDerivAt L.hasFDerivAt).fderiv]
      rfl
    refine ⟨Rep.comp_lin L h.1 fun i hi => hv i (by omega), ?_⟩
    have h2 := h.2
    cases t with
    | none =>
      show (fun y => fderiv ℝ (fun z => f (L z)) y (vs' k)) =ᶠ[𝓝 x] 0
      refine e.symm.trans ?_
      have h3 : (fun y => fderiv ℝ f y (vs k)) =ᶠ[𝓝 (L x)] 0 := h2
      exact hL.eventually h3
    | some t =>
      show Rep x vs' k t fun y => fderiv ℝ (fun z => f (L z)) y (vs' k)
      have h3 : Rep (L x) vs k t fun y => fderiv ℝ f y (vs k) := h2
      exact (rep_sound x vs' k).congr (Rep.comp_lin L h3 fun i hi => hv i (by omega)) e

/-- A linear function which vanishes at the point and in all directions can be added. -/
theorem Rep.add_lin (L : E →L[ℝ] ℝ) {x : E} (hx : L x = 0) {vs : ℕ → E} : ∀ {k : ℕ} {d : Nested k} {f : E → ℝ},
    Rep x vs k d f → (∀ i < k, L (vs i) = 0) → Rep x vs k d fun y => f y + L y
  | 0, _, f, h, _ => ⟨h.1.add L.contDiff.contDiffAt, h.2.trans (congrArg fin (by beta_reduce; rw [hx, add_zero]))⟩
  | k + 1, ⟨d, t⟩, f, h, hv => by
    have hs : ContDiffAt ℝ ∞ f x := (rep_sound x vs (k + 1)).smooth h
    have e : (fun y => fderiv ℝ f y (vs k)) =ᶠ[𝓝 x] fun y => fderiv ℝ (fun z => f z + L z) y (vs k) := by
      filter_upwards [ev_diff hs] with y hy
      rw [fderiv_fun_add hy L.differentiableAt, L.fderiv]
      simp [hv k (by omega)]
    refine ⟨Rep.add_lin L hx h.1 fun i hi => hv i (by omega), ?_⟩
    have h2 := h.2
    cases t with
    | none =>
      have h3 : (fun y => fderiv ℝ f y (vs k)) =ᶠ[𝓝 x] 0 := h2
      exact e.symm.trans h3
    | some t =>
      have h3 : Rep x vs k t fun y => fderiv ℝ f y (vs k) := h2
      exact (rep_sound x vs k).congr h3 e

theorem Rep.tangent {x : E} {vs : ℕ → E} {k : ℕ} {d : JVP (Nested k)} {f : E → ℝ} (h : Rep x vs (k + 1) d f) :
    Rep x vs k d.tangent fun y => fderiv ℝ f y (vs k) := by
  obtain ⟨d, t⟩ := d
  have h2 := h.2
  cases t with
  | none =>
    have h3 : (fun y => fderiv ℝ f y (vs k)) =ᶠ[𝓝 x] 0 := h2
    show Rep x vs k (ADNum.const 0) _
    rw [zero_eq]
    exact (rep_sound x vs k).congr ((rep_sound x vs k).const 0) h3.symm
  | some t => exact h2

end

theorem comp_congr {b c : ℕ → Bool} : ∀ {k : ℕ} (d : Nested k), (∀ i < k, b i = c i) → comp b k d = comp c k d
  | 0, _, _ => rfl
  | k + 1, ⟨d, t⟩, h => by
    rw [comp_succ, comp_succ, h k (by omega)]
    split
    · cases t with
      | none => rfl
      | some t => exact comp_congr t fun i hi => h i (by omega)
    · exact comp_congr d fun i hi => h i (by omega)

theorem comp_const (b : ℕ → Bool) : ∀ (k : ℕ) (c : XR), comp b k (ADNum.const c) = c ∨ comp b k (ADNum.const c) = 0
  | 0, _ => Or.inl rfl
  | k + 1, c => by
    rw [nested_const, comp_succ]
    split
    · exact Or.inr rfl
    · exact comp_const b k c

theorem comp_tangent_nan {b : ℕ → Bool} {k : ℕ} {d : JVP (Nested k)} (h : comp (Function.update b k true) (k + 1) d = nan) :
    comp b k d.tangent = nan := by
  rw [comp_succ, Function.update_self, if_pos rfl] at h
  obtain ⟨t, h1, h2⟩ := compO_nan _ h
  obtain ⟨d, t'⟩ := d
  dsimp only at h1
  subst h1
  show comp b k t = nan
  rw [← h2]
  exact comp_congr t fun i hi => by rw [Function.update_of_ne (by omega)]

/-! ### the gradient -/

section

variable {n m : ℕ}

/-- Drop the last coordinate. -/
noncomputable def dropLast (n : ℕ) : Pt (n + 1) →L[ℝ] Pt n :=
  LinearMap.toContinuousLinearMap
    { toFun := fun y => WithLp.toLp 2 fun i => y i.castSucc
      map_add' := fun _ _ => by ext i; rfl
      map_smul' := fun _ _ => by ext i; rfl }

/-- Append the coordinate zero. -/
noncomputable def addZero (n : ℕ) : Pt n →L[ℝ] Pt (n + 1) :=
  LinearMap.toContinuousLinearMap
    { toFun := fun y => WithLp.toLp 2 (Fin.snoc (α := fun _ => ℝ) (fun i => y i) 0)
      map_add' := fun y z => by
        ext i
        refine Fin.lastCases ?_ (fun i => ?_) i <;> simp
      map_smul' := fun c y => by
        ext i
        refine Fin.lastCases ?_ (fun i => ?_) i <;> simp }

theorem dropLast_apply (y : Pt (n + 1)) (i : Fin n) : dropLast n y i = y i.castSucc := rfl
theorem addZero_castSucc (y : Pt n) (i : Fin n) : addZero n y i.castSucc = y i := by
  show Fin.snoc (α := fun _ => ℝ) (fun i => y i) 0 i.castSucc = y i
  simp
theorem addZero_last (y : Pt n) : addZero n y (Fin.last n) = 0 := by
  show Fin.snoc (α := fun _ => ℝ) (fun i => y i) 0 (Fin.last n) = 0
  simp
theorem dropLast_addZero (y : Pt n) : dropLast n (addZero n y) = y := by
  ext i
  rw [dropLast_apply, addZero_castSucc]

theorem jacG_rep {p : Prop} {F : (k : ℕ) → GADF (Nested k) m} {f : Pt m → ℝ} {x₀ : Pt m} (hF : NestOutcome p F f x₀)
    {k : ℕ} {x : Pt n} {vs : ℕ → Pt n} {a : Fin m → Nested k} {T : Pt n → Pt m} (hT : T x = x₀)
    (ha : ∀ i, Rep x vs k (a i) (fun y => T y i) ∧ Tracked k (a i)) (j : Fin m) :
    (p → Rep x vs k (jacG (F (k + 1)) a j) fun y => fderiv ℝ f (T y) (EuclideanSpace.single j 1)) ∧
    (¬ p → ∀ b, comp b k (jacG (F (k + 1)) a j) = nan) := by
  set L : Pt (n + 1) →L[ℝ] ℝ := EuclideanSpace.proj (𝕜 := ℝ) (Fin.last n) with hL
  set vs' : ℕ → Pt (n + 1) := fun i => if i < k then addZero n (vs i) else EuclideanSpace.single (Fin.last n) 1 with hvs
  set T' : Pt (n + 1) → Pt m := fun y => T (dropLast n y) + L y • EuclideanSpace.single j 1 with hT'
  have hvk : vs' k = EuclideanSpace.single (Fin.last n) 1 := by simp [hvs]
  have hvi : ∀ i < k, vs' i = addZero n (vs i) := fun i hi => by simp [hvs, hi]
  have hLx : ∀ y, L (addZero n y) = 0 := fun y => addZero_last y
  have hx' : T' (addZero n x) = x₀ := by
    rw [hT']
    show T (dropLast n (addZero n x)) + L (addZero n x) • _ = x₀
    rw [hLx, zero_smul, add_zero, dropLast_addZero, hT]
  have hTi : ∀ y i, T' y i = T (dropLast n y) i + (if i = j then L y else 0) := fun y i => by
    show T (dropLast n y) i + L y • (EuclideanSpace.single j (1 : ℝ) : Pt m) i = _
    by_cases h : i = j
    · subst h; simp
    · simp [h]
  have S' := rep_sound (addZero n x) vs' k
  have hsm : ∀ i, ContDiffAt ℝ ∞ (fun y => T y i) x := fun i => (rep_sound x vs k).smooth (ha i).1
  have hdrop : Filter.Tendsto (dropLast n) (𝓝 (addZero n x)) (𝓝 x) := by
    have := (dropLast n).continuous.continuousAt (x := addZero n x)
    rwa [ContinuousAt, dropLast_addZero] at this
  have hDi : ∀ i y, DifferentiableAt ℝ (fun z => T z i) (dropLast n y) →
      HasFDerivAt (fun z => T' z i) ((fderiv ℝ (fun z => T z i) (dropLast n y)).comp (dropLast n) + (if i = j then L else 0)) y := by
    intro i y hy
    have h1 := HasFDerivAt.comp (g := fun z => T z i) (f := dropLast n) y hy.hasFDerivAt (dropLast n).hasFDerivAt
    have h2 : HasFDerivAt (fun z => if i = j then L z else 0) (if i = j then L else 0) y := by
      by_cases h : i = j
      · simp only [h, if_true]; exact L.hasFDerivAt
      · simp only [h, if_false]; exact hasFDerivAt_const 0 y
    have h3 := h1.add h2
    refine h3.congr_of_eventuallyEq (Filter.Eventually.of_forall fun z => ?_)
    exact hTi z i
  have hdl : dropLast n (EuclideanSpace.single (Fin.last n) 1) = 0 := by
    ext i
    rw [dropLast_apply]
    simp [Fin.castSucc_ne_last]
  have hLl : L (EuclideanSpace.single (Fin.last n) 1) = 1 := by simp [hL]
  have ha' : ∀ i, Rep (addZero n x) vs' (k + 1) ((⟨a i, some (ADNum.const (if i = j then 1 else 0))⟩ : JVP (Nested k)))
      (fun y => T' y i) ∧ Tracked (k + 1) ((⟨a i, some (ADNum.const (if i = j then 1 else 0))⟩ : JVP (Nested k))) := by
    intro i
    refine ⟨⟨?_, ?_⟩, (ha i).2, rfl⟩
    · show Rep (addZero n x) vs' k (a i) _
      have h0 : Rep (dropLast n (addZero n x)) vs k (a i) fun y => T y i := by rw [dropLast_addZero]; exact (ha i).1
      have h1 : Rep (addZero n x) vs' k (a i) fun y => T (dropLast n y) i := Rep.comp_lin (dropLast n) h0 fun l hl => by
        rw [hvi l hl, dropLast_addZero]
      have h2 := Rep.add_lin (if i = j then L else 0) (by split <;> simp [hLx]) h1 fun l hl => by
        rw [hvi l hl]; split <;> simp [hLx]
      refine S'.congr h2 (Filter.Eventually.of_forall fun y => ?_)
      beta_reduce
      rw [hTi]
      split <;> rfl
    · show Rep (addZero n x) vs' k (ADNum.const (if i = j then 1 else 0)) _
      have h0 : (if i = j then (1 : XR) else 0) = fin (if i = j then 1 else 0) := by
        split
        · exact one_eq
        · exact zero_eq
      rw [h0]
      refine S'.congr (S'.const _) ?_
      filter_upwards [hdrop.eventually (ev_diff (hsm i))] with y hy
      rw [(hDi i y hy).fderiv, hvk]
      simp only [_root_.add_apply, ContinuousLinearMap.comp_apply, hdl, map_zero, zero_add]
      split <;> simp [hLl]
  obtain ⟨h1, h2⟩ := hF (n + 1) (k + 1) (addZero n x) vs' _ T' hx' ha'
  refine ⟨fun hp => ?_, fun hp b => ?_⟩
  · have h3 := (h1 hp).1
    have h4 := Rep.tangent h3
    have hfx : ContDiffAt ℝ ∞ f x₀ := by
      have := hF m 0 x₀ 0 _ (fun y => y) rfl (seedK_ok x₀ _ 0)
      exact (rep_sound x₀ _ 0).smooth (this.1 hp).1
    have h5 : Rep x vs k (jacG (F (k + 1)) a j) fun y => fderiv ℝ (fun z => f (T' z)) (addZero n y) (vs' k) := by
      refine Rep.comp_lin (addZero n) (vs := vs') (f := fun y => fderiv ℝ (fun z => f (T' z)) y (vs' k)) h4 fun i hi => (hvi i hi).symm
    refine (rep_sound x vs k).congr h5 ?_
    have hTc : Filter.Tendsto T (𝓝 x) (𝓝 x₀) := by
      have : ContDiffAt ℝ ∞ T x := contDiffAt_euclidean.mpr hsm
      rw [← hT]
      exact this.continuousAt
    have hall : ∀ᶠ y in 𝓝 x, ∀ i, DifferentiableAt ℝ (fun z => T z i) y := Filter.eventually_all.mpr fun i => ev_diff (hsm i)
    filter_upwards [hTc.eventually (ev_diff hfx), hall] with y hy hy2
    have hTy : T' (addZero n y) = T y := by
      ext i
      rw [hTi, dropLast_addZero, hLx]
      simp
    have hD : HasFDerivAt T' (fderiv ℝ T' (addZero n y)) (addZero n y) := by
      refine DifferentiableAt.hasFDerivAt ?_
      rw [differentiableAt_euclidean]
      intro i
      exact (hDi i (addZero n y) (by rw [dropLast_addZero]; exact hy2 i)).differentiableAt
    have hdir : fderiv ℝ T' (addZero n y) (vs' k) = EuclideanSpace.single j 1 := by
      ext i
      have h6 := (HasFDerivAt.comp (g := fun z : Pt m => z i) (f := T') (addZero n y)
        (EuclideanSpace.proj (𝕜 := ℝ) i : Pt m →L[ℝ] ℝ).hasFDerivAt hD).unique (hDi i (addZero n y) (by rw [dropLast_addZero]; exact hy2 i))
      have h7 := congrArg (fun A : Pt (n + 1) →L[ℝ] ℝ => A (vs' k)) h6
      simp only [hvk, _root_.add_apply, ContinuousLinearMap.comp_apply, hdl, map_zero, zero_add] at h7
      rw [hvk]
      refine h7.trans ?_
      by_cases h : i = j
      · subst h; simp [hLl]
      · simp [h]
    have hf' : HasFDerivAt f (fderiv ℝ f (T y)) (T' (addZero n y)) := by rw [hTy]; exact hy.hasFDerivAt
    rw [show fderiv ℝ (fun z => f (T' z)) (addZero n y) = _ from
      (HasFDerivAt.comp (g := f) (f := T') (addZero n y) hf' hD).fderiv]
    rw [ContinuousLinearMap.comp_apply, hdir]
  · refine comp_tangent_nan (h2 hp _ ⟨k, by omega, ?_⟩)
    simp

end

/-! ### `jvp` along a field of directions -/

section

variable {E : Type*} [NormedAddCommGroup E] [NormedSpace ℝ E] {E' : Type*} [NormedAddCommGroup E'] [NormedSpace ℝ E']
variable {α : Type} [ADNum α]

/-- The value stands for `g ∘ T`, the tangent for the derivative of `g` at `T` in direction `V`. -/
def alongR (x : E) (T V : E → E') (R : α → (E → ℝ) → Prop) (d : JVP α) (g : E' → ℝ) : Prop :=
  ContDiffAt ℝ ∞ g (T x) ∧ R d.val (fun y => g (T y)) ∧ RO x R d.tan fun y => fderiv ℝ g (T y) (V y)

variable {x : E} {R : α → (E → ℝ) → Prop} (S : Sound x R) {T V : E → E'} (hT : Filter.Tendsto T (𝓝 x) (𝓝 (T x)))
include S hT

theorem Sound.along : Sound (α := JVP α) (T x) (alongR x T V R) where
  smooth h := h.1
  congr h hg := ⟨h.1.congr_of_eventuallyEq hg.symm, S.congr h.2.1 (hT.eventually hg),
    RO.congr S h.2.2 (by filter_upwards [hT.eventually (hg.fderiv (𝕜 := ℝ))] with y hy; rw [hy])⟩
  const c := ⟨contDiffAt_const, S.const c, by
    show (fun y => fderiv ℝ (fun _ => c) (T y) (V y)) =ᶠ[𝓝 x] 0
    filter_upwards with y
    simp⟩
  add {a b f g} ha hb := ⟨((sound_base (T x)).add ⟨ha.1, rfl⟩ ⟨hb.1, rfl⟩).1, S.add ha.2.1 hb.2.1, by
    refine RO.congr S (RO.addT S ha.2.2 hb.2.2) ?_
    filter_upwards [hT.eventually (ev_diff ha.1), hT.eventually (ev_diff hb.1)] with y h1 h2
    rw [fderiv_fun_add h1 h2]; rfl⟩
  sub {a b f g} ha hb := ⟨((sound_base (T x)).sub ⟨ha.1, rfl⟩ ⟨hb.1, rfl⟩).1, S.sub ha.2.1 hb.2.1, by
    refine RO.congr S (RO.subT S ha.2.2 hb.2.2) ?_
    filter_upwards [hT.eventually (ev_diff ha.1), hT.eventually (ev_diff hb.1)] with y h1 h2
    rw [fderiv_fun_sub h1 h2]; rfl⟩
  mul {a b f g} ha hb := ⟨((sound_base (T x)).mul ⟨ha.1, rfl⟩ ⟨hb.1, rfl⟩).1, S.mul ha.2.1 hb.2.1, by
    refine RO.congr S (RO.addT S
      (RO.mulr (fun t => t *ₐ b.val) ha.2.2 fun t ht => S.mul ht hb.2.1)
      (RO.mulr (m := fun y => f (T y)) (fun t => a.val *ₐ t) hb.2.2 fun t ht => S.congr (S.mul ha.2.1 ht)
        (by filter_upwards with y; exact mul_comm _ _))) ?_
    filter_upwards [hT.eventually (ev_diff ha.1), hT.eventually (ev_diff hb.1)] with y h1 h2
    rw [fderiv_fun_mul h1 h2]
    simp
    ring⟩
  neg {a f} ha := ⟨((sound_base (T x)).neg ⟨ha.1, rfl⟩).1, S.neg ha.2.1, by
    refine RO.map ADNum.neg ha.2.2 (fun t ht => S.congr (S.neg ht) ?_) fun h => ?_
    · filter_upwards with y
      rw [fderiv_fun_neg]; rfl
    · filter_upwards [h] with y hy
      rw [fderiv_fun_neg]
      simpa using hy⟩
  div {a b f g} ha hb h0 := ⟨((sound_base (T x)).div ⟨ha.1, rfl⟩ ⟨hb.1, rfl⟩ h0).1, S.div ha.2.1 hb.2.1 h0, by
    refine RO.congr S (RO.addT S
      (RO.mulr (m := fun y => (g (T y))⁻¹) (fun t => t /ₐ b.val) ha.2.2 fun t ht => S.congr (S.div ht hb.2.1 h0)
        (by filter_upwards with y; exact div_eq_mul_inv _ _))
      (RO.mulr (m := fun y => -(f (T y) * (g (T y) ^ (-2 : ℤ)))) (fun t => ADNum.neg t *ₐ a.val *ₐ ADNum.ipow b.val (-2)) hb.2.2
        fun t ht => S.congr (S.mul (S.mul (S.neg ht) ha.2.1) (S.ipow (-2) hb.2.1 (Or.inr h0)))
        (by filter_upwards with y; ring))) ?_
    filter_upwards [hT.eventually (ev_diff ha.1), hT.eventually (ev_diff hb.1), hT.eventually (ev_ne hb.1 h0)] with y h1 h2 h3
    have h4 : DifferentiableAt ℝ (fun z => (g z)⁻¹) (T y) := h2.inv h3
    have h5 : (fun z => f z / g z) = fun z => f z * (g z)⁻¹ := funext fun z => div_eq_mul_inv _ _
    rw [h5, fderiv_fun_mul h1 h4]
    have h6 := fderiv_comp_apply (hasDerivAt_inv h3) h2 (V y)
    simp only [_root_.add_apply, _root_.smul_apply, smul_eq_mul, h6]
    rw [zpow_neg]
    norm_cast
    ring⟩
  sqrt {a f} ha h0 := ⟨((sound_base (T x)).sqrt ⟨ha.1, rfl⟩ h0).1, S.sqrt ha.2.1 h0, by
    refine RO.congr S (RO.mulr (m := fun y => 1 / 2 / Real.sqrt (f (T y)))
      (fun t => t *ₐ (ADNum.const (1 / 2) /ₐ ADNum.sqrt a.val)) ha.2.2
      fun t ht => S.mul ht (S.div (a := ADNum.const (1 / 2)) ?_ (S.sqrt ha.2.1 h0) (Real.sqrt_pos.mpr h0).ne')) ?_
    · have : (1 / 2 : XR) = fin (1 / 2) := by rw [one_eq, lit_eq, fin_div _ (by norm_num)]
      rw [this]
      exact S.const _
    · filter_upwards [hT.eventually (ev_diff ha.1), hT.eventually (ev_pos ha.1 h0)] with y h1 h2
      rw [fderiv_comp_apply (Real.hasDerivAt_sqrt h2.ne') h1]
      rw [div_div]⟩
  exp {a f} ha := ⟨((sound_base (T x)).exp ⟨ha.1, rfl⟩).1, S.exp ha.2.1, by
    refine RO.congr S (RO.mulr (m := fun y => Real.exp (f (T y))) (fun t => t *ₐ ADNum.exp a.val) ha.2.2
      fun t ht => S.mul ht (S.exp ha.2.1)) ?_
    filter_upwards [hT.eventually (ev_diff ha.1)] with y h1
    rw [fderiv_comp_apply (Real.hasDerivAt_exp _) h1]⟩
  sin {a f} ha := ⟨((sound_base (T x)).sin ⟨ha.1, rfl⟩).1, S.sin ha.2.1, by
    refine RO.congr S (RO.mulr (m := fun y => Real.cos (f (T y))) (fun t => t *ₐ ADNum.cos a.val) ha.2.2
      fun t ht => S.mul ht (S.cos ha.2.1)) ?_
    filter_upwards [hT.eventually (ev_diff ha.1)] with y h1
    rw [fderiv_comp_apply (Real.hasDerivAt_sin _) h1]⟩
  cos {a f} ha := ⟨((sound_base (T x)).cos ⟨ha.1, rfl⟩).1, S.cos ha.2.1, by
    refine RO.congr S (RO.mulr (m := fun y => -Real.sin (f (T y))) (fun t => ADNum.neg (t *ₐ ADNum.sin a.val)) ha.2.2
      fun t ht => S.congr (S.neg (S.mul ht (S.sin ha.2.1))) (by filter_upwards with y; ring)) ?_
    filter_upwards [hT.eventually (ev_diff ha.1)] with y h1
    rw [fderiv_comp_apply (Real.hasDerivAt_cos _) h1]⟩
  tanh {a f} ha := ⟨((sound_base (T x)).tanh ⟨ha.1, rfl⟩).1, S.tanh ha.2.1, by
    refine RO.congr S (RO.mulr (m := fun y => (1 + Real.tanh (f (T y))) * (1 - Real.tanh (f (T y))))
      (fun t => (t +ₐ t *ₐ ADNum.tanh a.val) *ₐ (ADNum.const 1 -ₐ ADNum.tanh a.val)) ha.2.2
      fun t ht => S.congr (S.mul (S.add ht (S.mul ht (S.tanh ha.2.1))) (S.sub (one_eq ▸ S.const 1) (S.tanh ha.2.1)))
        (by filter_upwards with y; ring)) ?_
    filter_upwards [hT.eventually (ev_diff ha.1)] with y h1
    rw [fderiv_comp_apply (real_tanh_deriv _) h1]⟩
  log {a f} ha h0 := ⟨((sound_base (T x)).log ⟨ha.1, rfl⟩ h0).1, S.log ha.2.1 h0, by
    refine RO.congr S (RO.mulr (m := fun y => (f (T y))⁻¹) (fun t => t /ₐ a.val) ha.2.2
      fun t ht => S.congr (S.div ht ha.2.1 h0.ne') (by filter_upwards with y; exact div_eq_mul_inv _ _)) ?_
    filter_upwards [hT.eventually (ev_diff ha.1), hT.eventually (ev_pos ha.1 h0)] with y h1 h2
    rw [fderiv_comp_apply (Real.hasDerivAt_log h2.ne') h1]⟩
  ipow {a f} n ha h0 := ⟨((sound_base (T x)).ipow n ⟨ha.1, rfl⟩ h0).1, S.ipow n ha.2.1 h0, by
    refine RO.congr S (RO.mulr (m := fun y => n * f (T y) ^ (n - 1))
      (fun t => if n = 0 then ADNum.const 0 else t *ₐ (ADNum.const (fin n) *ₐ ADNum.ipow a.val (n - 1))) ha.2.2
      fun t ht => ?_) ?_
    · by_cases hn : n = 0
      · rw [if_pos hn]
        rw [zero_eq]
        refine S.congr (S.const 0) ?_
        filter_upwards with y
        simp [hn]
      · rw [if_neg hn]
        exact S.mul ht (S.mul (S.const _) (S.ipow _ ha.2.1 (h0.imp (fun h => by omega) id)))
    · have hc : ContDiffAt ℝ ∞ f (T x) := ha.1
      have hev : ∀ᶠ y in 𝓝 x, f (T y) ≠ 0 ∨ 0 ≤ n := by
        rcases h0 with h | h
        · filter_upwards with y; exact Or.inr h
        · filter_upwards [hT.eventually (ev_ne hc h)] with y hy; exact Or.inl hy
      filter_upwards [hT.eventually (ev_diff hc), hev] with y h1 h2
      rw [fderiv_comp_apply (hasDerivAt_zpow n _ h2) h1]⟩
  rpow {a f} s ha h0 := ⟨((sound_base (T x)).rpow s ⟨ha.1, rfl⟩ h0).1, S.rpow s ha.2.1 h0, by
    refine RO.congr S (RO.mulr (m := fun y => s * f (T y) ^ (s - 1))
      (fun t => t *ₐ (if s = 0 then ADNum.const 0 else ADNum.const (fin s) *ₐ ADNum.rpow a.val (s - 1))) ha.2.2
      fun t ht => S.mul ht ?_) ?_
    · by_cases hs : s = 0
      · rw [if_pos hs]
        rw [zero_eq]
        refine S.congr (S.const 0) ?_
        filter_upwards with y
        simp [hs]
      · rw [if_neg hs]
        exact S.mul (S.const _) (S.rpow _ ha.2.1 h0)
    · filter_upwards [hT.eventually (ev_diff ha.1), hT.eventually (ev_pos ha.1 h0)] with y h1 h2
      rw [fderiv_comp_apply (Real.hasDerivAt_rpow_const (Or.inl h2.ne')) h1]⟩


end

end Verif
