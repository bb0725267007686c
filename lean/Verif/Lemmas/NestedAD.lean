import Verif.Spec.NestedAD
import Verif.Lemmas.FwdAD
import Mathlib.Analysis.Calculus.ContDiff.Operations
import Mathlib.Analysis.SpecialFunctions.ExpDeriv
import Mathlib.Analysis.SpecialFunctions.Trigonometric.Deriv
import Mathlib.Analysis.SpecialFunctions.Pow.Deriv
import Mathlib.Analysis.Calculus.Deriv.ZPow
import Mathlib.Analysis.SpecialFunctions.Sqrt
import Mathlib.Analysis.SpecialFunctions.Trigonometric.DerivHyp
import Mathlib.Analysis.SpecialFunctions.Log.Deriv

/-! # Lemmas about nested differentiation -/

namespace Verif

open XR
open scoped ContDiff Topology

section

variable {E : Type*} [NormedAddCommGroup E] [NormedSpace ℝ E]

/-- `R a f`: the number `a` stands for the function `f` at `x`; the operations respect this. -/
structure Sound {α : Type} [ADNum α] (x : E) (R : α → (E → ℝ) → Prop) : Prop where
  smooth : ∀ {a f}, R a f → ContDiffAt ℝ ∞ f x
  congr : ∀ {a f g}, R a f → f =ᶠ[𝓝 x] g → R a g
  const : ∀ c : ℝ, R (ADNum.const (fin c)) fun _ => c
  add : ∀ {a b f g}, R a f → R b g → R (a +ₐ b) fun y => f y + g y
  sub : ∀ {a b f g}, R a f → R b g → R (a -ₐ b) fun y => f y - g y
  mul : ∀ {a b f g}, R a f → R b g → R (a *ₐ b) fun y => f y * g y
  div : ∀ {a b f g}, R a f → R b g → g x ≠ 0 → R (a /ₐ b) fun y => f y / g y
  neg : ∀ {a f}, R a f → R (ADNum.neg a) fun y => -f y
  sqrt : ∀ {a f}, R a f → 0 < f x → R (ADNum.sqrt a) fun y => Real.sqrt (f y)
  exp : ∀ {a f}, R a f → R (ADNum.exp a) fun y => Real.exp (f y)
  sin : ∀ {a f}, R a f → R (ADNum.sin a) fun y => Real.sin (f y)
  cos : ∀ {a f}, R a f → R (ADNum.cos a) fun y => Real.cos (f y)
  tanh : ∀ {a f}, R a f → R (ADNum.tanh a) fun y => Real.tanh (f y)
  log : ∀ {a f}, R a f → 0 < f x → R (ADNum.log a) fun y => Real.log (f y)
  ipow : ∀ {a f} (n : ℤ), R a f → (0 ≤ n ∨ f x ≠ 0) → R (ADNum.ipow a n) fun y => f y ^ n
  rpow : ∀ {a f} (s : ℝ), R a f → 0 < f x → R (ADNum.rpow a s) fun y => f y ^ s

/-- What a tangent stands for. -/
def RO {α : Type} (x : E) (R : α → (E → ℝ) → Prop) : Option α → (E → ℝ) → Prop
  | none, f => f =ᶠ[𝓝 x] 0
  | some t, f => R t f

def liftR {α : Type} (x : E) (R : α → (E → ℝ) → Prop) (v : E) (d : JVP α) (f : E → ℝ) : Prop :=
  R d.val f ∧ RO x R d.tan fun y => fderiv ℝ f y v

variable {x : E} {f g : E → ℝ}

theorem ev_diff (h : ContDiffAt ℝ ∞ f x) : ∀ᶠ y in 𝓝 x, DifferentiableAt ℝ f y := by
  have h1 : ContDiffAt ℝ 1 f x := h.of_le (by exact_mod_cast le_top)
  filter_upwards [h1.eventually (by simp)] with y hy
  exact hy.differentiableAt (by simp)

theorem smooth_fderiv (h : ContDiffAt ℝ ∞ f x) (v : E) : ContDiffAt ℝ ∞ (fun y => fderiv ℝ f y v) x :=
  (h.fderiv_right (m := ∞) (by simp)).clm_apply contDiffAt_const

theorem ev_ne (h : ContDiffAt ℝ ∞ f x) {c : ℝ} (h0 : f x ≠ c) : ∀ᶠ y in 𝓝 x, f y ≠ c :=
  h.continuousAt.eventually_ne h0

theorem ev_pos (h : ContDiffAt ℝ ∞ f x) (h0 : 0 < f x) : ∀ᶠ y in 𝓝 x, 0 < f y :=
  h.continuousAt.eventually (lt_mem_nhds h0)

theorem fderiv_comp_apply {φ : ℝ → ℝ} {y : E} {m : ℝ} (hφ : HasDerivAt φ m (f y)) (hf : DifferentiableAt ℝ f y) (v : E) :
    fderiv ℝ (fun z => φ (f z)) y v = fderiv ℝ f y v * m := by
  rw [show fderiv ℝ (fun z => φ (f z)) y = _ from (hφ.comp_hasFDerivAt y hf.hasFDerivAt).fderiv]
  simp [mul_comm]

theorem real_tanh_smooth {r : WithTop ℕ∞} : ContDiff ℝ r Real.tanh := by
  have : Real.tanh = fun x => Real.sinh x / Real.cosh x := funext Real.tanh_eq_sinh_div_cosh
  rw [this]
  exact Real.contDiff_sinh.div Real.contDiff_cosh fun x => (Real.cosh_pos x).ne'

theorem real_tanh_deriv (x : ℝ) : HasDerivAt Real.tanh ((1 + Real.tanh x) * (1 - Real.tanh x)) x := by
  have e : Real.tanh = Real.sinh / Real.cosh := funext Real.tanh_eq_sinh_div_cosh
  have h0 := (Real.cosh_pos x).ne'
  have h := (Real.hasDerivAt_sinh x).div (Real.hasDerivAt_cosh x) h0
  rw [← e] at h
  have e2 : (1 + Real.tanh x) * (1 - Real.tanh x) =
      (Real.cosh x * Real.cosh x - Real.sinh x * Real.sinh x) / Real.cosh x ^ 2 := by
    rw [Real.tanh_eq_sinh_div_cosh]
    field_simp
    ring
  rw [e2]
  exact h

section
variable {α : Type} [ADNum α] {R : α → (E → ℝ) → Prop} {a b : α} (S : Sound x R)
include S

theorem RO.congr {o : Option α} (h : RO x R o f) (hg : f =ᶠ[𝓝 x] g) : RO x R o g := by
  cases o with
  | none => exact hg.symm.trans h
  | some t => exact S.congr h hg

theorem RO.addT {o p : Option α} (h : RO x R o f) (hp : RO x R p g) : RO x R (JVP.addT o p) fun y => f y + g y := by
  cases o with
  | none =>
    refine RO.congr S hp ?_
    have h' : f =ᶠ[𝓝 x] 0 := h
    filter_upwards [h'] with y hy
    simp [hy]
  | some t =>
    cases p with
    | none =>
      refine S.congr h ?_
      have h' : g =ᶠ[𝓝 x] 0 := hp
      filter_upwards [h'] with y hy
      simp [hy]
    | some s => exact S.add h hp

theorem RO.subT {o p : Option α} (h : RO x R o f) (hp : RO x R p g) : RO x R (JVP.subT o p) fun y => f y - g y := by
  cases p with
  | none =>
    have h' : g =ᶠ[𝓝 x] 0 := hp
    have : JVP.subT o none = o := by cases o <;> rfl
    rw [this]
    refine RO.congr S h ?_
    filter_upwards [h'] with y hy
    simp [hy]
  | some s =>
    cases o with
    | none =>
      have h' : f =ᶠ[𝓝 x] 0 := h
      refine S.congr (S.neg hp) ?_
      filter_upwards [h'] with y hy
      simp [hy]
    | some t => exact S.sub h hp

omit S [NormedSpace ℝ E] [ADNum α] in
theorem RO.map {o : Option α} (φ : α → α) (h : RO x R o f) (h1 : ∀ t, R t f → R (φ t) g)
    (h2 : f =ᶠ[𝓝 x] 0 → g =ᶠ[𝓝 x] 0) : RO x R (o.map φ) g := by
  cases o with
  | none => exact h2 h
  | some t => exact h1 t h

omit S [NormedSpace ℝ E] [ADNum α] in
theorem RO.mulr {o : Option α} (φ : α → α) (h : RO x R o f) {m : E → ℝ} (h1 : ∀ t, R t f → R (φ t) fun y => f y * m y) :
    RO x R (o.map φ) fun y => f y * m y := by
  refine RO.map φ h h1 fun h0 => ?_
  filter_upwards [h0] with y hy
  simp [hy]

theorem Sound.lift (v : E) : Sound (α := JVP α) x (liftR x R v) where
  smooth h := S.smooth h.1
  congr h hg := ⟨S.congr h.1 hg, RO.congr S h.2 (by filter_upwards [hg.fderiv (𝕜 := ℝ)] with y hy; rw [hy])⟩
  const c := ⟨S.const c, by
    show (fun y => fderiv ℝ (fun _ => c) y v) =ᶠ[𝓝 x] 0
    filter_upwards with y
    simp⟩
  add {a b f g} ha hb := ⟨S.add ha.1 hb.1, by
    refine RO.congr S (RO.addT S ha.2 hb.2) ?_
    filter_upwards [ev_diff (S.smooth ha.1), ev_diff (S.smooth hb.1)] with y h1 h2
    rw [fderiv_fun_add h1 h2]; rfl⟩
  sub {a b f g} ha hb := ⟨S.sub ha.1 hb.1, by
    refine RO.congr S (RO.subT S ha.2 hb.2) ?_
    filter_upwards [ev_diff (S.smooth ha.1), ev_diff (S.smooth hb.1)] with y h1 h2
    rw [fderiv_fun_sub h1 h2]; rfl⟩
  mul {a b f g} ha hb := ⟨S.mul ha.1 hb.1, by
    refine RO.congr S (RO.addT S
      (RO.mulr (fun t => t *ₐ b.val) ha.2 fun t ht => S.mul ht hb.1)
      (RO.mulr (m := f) (fun t => a.val *ₐ t) hb.2 fun t ht => S.congr (S.mul ha.1 ht)
        (by filter_upwards with y; exact mul_comm _ _))) ?_
    filter_upwards [ev_diff (S.smooth ha.1), ev_diff (S.smooth hb.1)] with y h1 h2
    rw [fderiv_fun_mul h1 h2]
    simp
    ring⟩
  neg {a f} ha := ⟨S.neg ha.1, by
    refine RO.map ADNum.neg ha.2 (fun t ht => S.congr (S.neg ht) ?_) fun h => ?_
    · filter_upwards with y
      rw [fderiv_fun_neg]; rfl
    · filter_upwards [h] with y hy
      rw [fderiv_fun_neg]
      simpa using hy⟩
  div {a b f g} ha hb h0 := ⟨S.div ha.1 hb.1 h0, by
    refine RO.congr S (RO.addT S
      (RO.mulr (m := fun y => (g y)⁻¹) (fun t => t /ₐ b.val) ha.2 fun t ht => S.congr (S.div ht hb.1 h0)
        (by filter_upwards with y; exact div_eq_mul_inv _ _))
      (RO.mulr (m := fun y => -(f y * (g y ^ (-2 : ℤ)))) (fun t => ADNum.neg t *ₐ a.val *ₐ ADNum.ipow b.val (-2)) hb.2
        fun t ht => S.congr (S.mul (S.mul (S.neg ht) ha.1) (S.ipow (-2) hb.1 (Or.inr h0)))
        (by filter_upwards with y; ring))) ?_
    filter_upwards [ev_diff (S.smooth ha.1), ev_diff (S.smooth hb.1), ev_ne (S.smooth hb.1) h0] with y h1 h2 h3
    have h4 : DifferentiableAt ℝ (fun z => (g z)⁻¹) y := h2.inv h3
    have h5 : (fun z => f z / g z) = fun z => f z * (g z)⁻¹ := funext fun z => div_eq_mul_inv _ _
    rw [h5, fderiv_fun_mul h1 h4]
    have h6 := fderiv_comp_apply (hasDerivAt_inv h3) h2 v
    simp only [_root_.add_apply, _root_.smul_apply, smul_eq_mul, h6]
    rw [zpow_neg]
    norm_cast
    ring⟩
  sqrt {a f} ha h0 := ⟨S.sqrt ha.1 h0, by
    refine RO.congr S (RO.mulr (m := fun y => 1 / 2 / Real.sqrt (f y))
      (fun t => t *ₐ (ADNum.const (1 / 2) /ₐ ADNum.sqrt a.val)) ha.2
      fun t ht => S.mul ht (S.div (a := ADNum.const (1 / 2)) ?_ (S.sqrt ha.1 h0) (Real.sqrt_pos.mpr h0).ne')) ?_
    · have : (1 / 2 : XR) = fin (1 / 2) := by rw [one_eq, lit_eq, fin_div _ (by norm_num)]
      rw [this]
      exact S.const _
    · filter_upwards [ev_diff (S.smooth ha.1), ev_pos (S.smooth ha.1) h0] with y h1 h2
      rw [fderiv_comp_apply (Real.hasDerivAt_sqrt h2.ne') h1]
      rw [div_div]⟩
  exp {a f} ha := ⟨S.exp ha.1, by
    refine RO.congr S (RO.mulr (m := fun y => Real.exp (f y)) (fun t => t *ₐ ADNum.exp a.val) ha.2
      fun t ht => S.mul ht (S.exp ha.1)) ?_
    filter_upwards [ev_diff (S.smooth ha.1)] with y h1
    rw [fderiv_comp_apply (Real.hasDerivAt_exp _) h1]⟩
  sin {a f} ha := ⟨S.sin ha.1, by
    refine RO.congr S (RO.mulr (m := fun y => Real.cos (f y)) (fun t => t *ₐ ADNum.cos a.val) ha.2
      fun t ht => S.mul ht (S.cos ha.1)) ?_
    filter_upwards [ev_diff (S.smooth ha.1)] with y h1
    rw [fderiv_comp_apply (Real.hasDerivAt_sin _) h1]⟩
  cos {a f} ha := ⟨S.cos ha.1, by
    refine RO.congr S (RO.mulr (m := fun y => -Real.sin (f y)) (fun t => ADNum.neg (t *ₐ ADNum.sin a.val)) ha.2
      fun t ht => S.congr (S.neg (S.mul ht (S.sin ha.1))) (by filter_upwards with y; ring)) ?_
    filter_upwards [ev_diff (S.smooth ha.1)] with y h1
    rw [fderiv_comp_apply (Real.hasDerivAt_cos _) h1]⟩
  tanh {a f} ha := ⟨S.tanh ha.1, by
    refine RO.congr S (RO.mulr (m := fun y => (1 + Real.tanh (f y)) * (1 - Real.tanh (f y)))
      (fun t => (t +ₐ t *ₐ ADNum.tanh a.val) *ₐ (ADNum.const 1 -ₐ ADNum.tanh a.val)) ha.2
      fun t ht => S.congr (S.mul (S.add ht (S.mul ht (S.tanh ha.1))) (S.sub (one_eq ▸ S.const 1) (S.tanh ha.1)))
        (by filter_upwards with y; ring)) ?_
    filter_upwards [ev_diff (S.smooth ha.1)] with y h1
    rw [fderiv_comp_apply (real_tanh_deriv _) h1]⟩
  log {a f} ha h0 := ⟨S.log ha.1 h0, by
    refine RO.congr S (RO.mulr (m := fun y => (f y)⁻¹) (fun t => t /ₐ a.val) ha.2
      fun t ht => S.congr (S.div ht ha.1 h0.ne') (by filter_upwards with y; exact div_eq_mul_inv _ _)) ?_
    filter_upwards [ev_diff (S.smooth ha.1), ev_pos (S.smooth ha.1) h0] with y h1 h2
    rw [fderiv_comp_apply (Real.hasDerivAt_log h2.ne') h1]⟩
  ipow {a f} n ha h0 := ⟨S.ipow n ha.1 h0, by
    refine RO.congr S (RO.mulr (m := fun y => n * f y ^ (n - 1))
      (fun t => if n = 0 then ADNum.const 0 else t *ₐ (ADNum.const (fin n) *ₐ ADNum.ipow a.val (n - 1))) ha.2
      fun t ht => ?_) ?_
    · by_cases hn : n = 0
      · rw [if_pos hn]
        rw [zero_eq]
        refine S.congr (S.const 0) ?_
        filter_upwards with y
        simp [hn]
      · rw [if_neg hn]
        exact S.mul ht (S.mul (S.const _) (S.ipow _ ha.1 (h0.imp (fun h => by omega) id)))
    · have hc : ContDiffAt ℝ ∞ f x := S.smooth ha.1
      have hev : ∀ᶠ y in 𝓝 x, f y ≠ 0 ∨ 0 ≤ n := by
        rcases h0 with h | h
        · filter_upwards with y; exact Or.inr h
        · filter_upwards [ev_ne hc h] with y hy; exact Or.inl hy
      filter_upwards [ev_diff hc, hev] with y h1 h2
      rw [fderiv_comp_apply (hasDerivAt_zpow n _ h2) h1]⟩
  rpow {a f} s ha h0 := ⟨S.rpow s ha.1 h0, by
    refine RO.congr S (RO.mulr (m := fun y => s * f y ^ (s - 1))
      (fun t => t *ₐ (if s = 0 then ADNum.const 0 else ADNum.const (fin s) *ₐ ADNum.rpow a.val (s - 1))) ha.2
      fun t ht => S.mul ht ?_) ?_
    · by_cases hs : s = 0
      · rw [if_pos hs]
        rw [zero_eq]
        refine S.congr (S.const 0) ?_
        filter_upwards with y
        simp [hs]
      · rw [if_neg hs]
        exact S.mul (S.const _) (S.rpow _ ha.1 h0)
    · filter_upwards [ev_diff (S.smooth ha.1), ev_pos (S.smooth ha.1) h0] with y h1 h2
      rw [fderiv_comp_apply (Real.hasDerivAt_rpow_const (Or.inl h2.ne')) h1]⟩

end

theorem xr_zpow_fin (c : ℝ) (n : ℤ) (h : 0 ≤ n ∨ c ≠ 0) : XR.zpow (fin c) n = fin (c ^ n) := by
  cases n with
  | ofNat n => simp [XR.zpow]
  | negSucc n =>
    have hc : c ≠ 0 := h.resolve_left (by simp)
    simp only [XR.zpow, fin_npow, one_eq]
    rw [fin_div _ (pow_ne_zero _ hc), zpow_negSucc, one_div]

theorem sound_base (x : E) : Sound (α := XR) x fun d f => ContDiffAt ℝ ∞ f x ∧ d = fin (f x) where
  smooth h := h.1
  congr h hg := ⟨h.1.congr_of_eventuallyEq hg.symm, by rw [h.2, hg.eq_of_nhds]⟩
  const c := ⟨contDiffAt_const, rfl⟩
  add ha hb := ⟨ha.1.add hb.1, by rw [ha.2, hb.2]; exact fin_add _ _⟩
  sub ha hb := ⟨ha.1.sub hb.1, by rw [ha.2, hb.2]; exact fin_sub _ _⟩
  mul ha hb := ⟨ha.1.mul hb.1, by rw [ha.2, hb.2]; exact fin_mul _ _⟩
  div ha hb h0 := ⟨ha.1.div hb.1 h0, by rw [ha.2, hb.2]; exact fin_div _ h0⟩
  neg ha := ⟨ha.1.neg, by rw [ha.2]; exact fin_neg _⟩
  sqrt ha h0 := ⟨ha.1.sqrt h0.ne', by rw [ha.2]; exact fin_sqrt h0.le⟩
  exp ha := ⟨ha.1.exp, by rw [ha.2]; rfl⟩
  sin ha := ⟨ha.1.sin, by rw [ha.2]; rfl⟩
  cos ha := ⟨ha.1.cos, by rw [ha.2]; rfl⟩
  tanh ha := ⟨real_tanh_smooth.contDiffAt.comp x ha.1, by rw [ha.2]; rfl⟩
  log ha h0 := ⟨ha.1.log h0.ne', by
    rw [ha.2]
    show XR.log (fin _) = _
    rw [XR.log, if_neg h0.le.not_gt, if_neg h0.ne']⟩
  ipow {a f} n ha h0 := ⟨by
    rcases h0 with h | h
    · lift n to ℕ using h
      simpa using ha.1.pow n
    · cases n with
      | ofNat n => simpa using ha.1.pow n
      | negSucc n =>
        simp only [zpow_negSucc]
        exact (ha.1.pow (n + 1)).inv (pow_ne_zero _ h), by rw [ha.2]; exact xr_zpow_fin _ _ h0⟩
  rpow s ha h0 := ⟨ha.1.rpow_const_of_ne h0.ne', by rw [ha.2]; exact fin_rpow h0 _⟩

theorem rep_sound (x : E) (vs : ℕ → E) : ∀ k, Sound (α := Nested k) x (Rep x vs k)
  | 0 => sound_base x
  | k + 1 => by
    have h := (rep_sound x vs k).lift (vs k)
    have e : (Rep x vs (k + 1)) = liftR (α := Nested k) x (Rep x vs k) (vs k) := by
      funext d f
      rcases d with ⟨v, _ | t⟩ <;> rfl
    rw [e]
    exact h

end


/-! ### what the nested pairs carry -/

section

variable {E : Type*} [NormedAddCommGroup E] [NormedSpace ℝ E]

theorem dderiv_congr (vs : ℕ → E) (b : ℕ → Bool) {x : E} : ∀ (k : ℕ) {f g : E → ℝ}, f =ᶠ[𝓝 x] g →
    dderiv vs b k f x = dderiv vs b k g x
  | 0, _, _, h => h.eq_of_nhds
  | k + 1, f, g, h => by
    rw [dderiv, dderiv]
    split
    · refine dderiv_congr vs b k ?_
      filter_upwards [h.fderiv (𝕜 := ℝ)] with y hy
      rw [hy]
    · exact dderiv_congr vs b k h

theorem dderiv_zero (vs : ℕ → E) (b : ℕ → Bool) (x : E) : ∀ k : ℕ, dderiv vs b k (0 : E → ℝ) x = 0
  | 0 => rfl
  | k + 1 => by
    rw [dderiv]
    split
    · have : (fun y => fderiv ℝ (0 : E → ℝ) y (vs k)) = 0 := by
        funext y
        simp
      rw [this]
      exact dderiv_zero vs b x k
    · exact dderiv_zero vs b x k

theorem Rep.carries {x : E} {vs : ℕ → E} : ∀ {k : ℕ} {d : Nested k} {f : E → ℝ}, Rep x vs k d f → Carries k vs d f x
  | 0, _, _, h => fun _ => h.2
  | k + 1, ⟨v, t⟩, f, h => fun b => by
    show (if b k then _ else _) = fin ((if b k then _ else _ : E → ℝ) x)
    split
    · cases t with
      | none =>
        have h2 : (fun y => fderiv ℝ f y (vs k)) =ᶠ[𝓝 x] 0 := h.2
        rw [dderiv_congr vs b k h2, dderiv_zero, ← zero_eq]
        rfl
      | some t => exact Rep.carries h.2 b
    · exact Rep.carries h.1 b

end

/-! ### `nan` is passed on -/

theorem nested_const (k : ℕ) (c : XR) : (ADNum.const c : Nested (k + 1)) = (⟨ADNum.const c, none⟩ : JVP (Nested k)) := rfl

section

variable (b : ℕ → Bool)

/-- The entry of a tangent. -/
noncomputable def compO (k : ℕ) (o : Option (Nested k)) : XR := o.elim 0 (comp b k)

theorem comp_succ (k : ℕ) (d : JVP (Nested k)) :
    comp b (k + 1) d = if b k then compO b k d.tan else comp b k d.val := rfl

theorem comp_add (k : ℕ) : ∀ d e : Nested k, comp b k (d +ₐ e) = comp b k d + comp b k e := by
  induction k with
  | zero => intros; rfl
  | succ k ih =>
    rintro ⟨d, s⟩ ⟨e, t⟩
    show comp b (k + 1) (⟨d +ₐ e, JVP.addT s t⟩ : JVP (Nested k)) = comp b (k + 1) (⟨d, s⟩ : JVP (Nested k)) + comp b (k + 1) (⟨e, t⟩ : JVP (Nested k))
    simp only [comp_succ]
    split
    · cases s with
      | none =>
        show compO b k t = 0 + compO b k t
        rw [zero_add]
      | some s =>
        cases t with
        | none =>
          show comp b k s = comp b k s + 0
          rw [add_zero]
        | some t => exact ih s t
    · exact ih d e

theorem comp_neg (k : ℕ) : ∀ d : Nested k, comp b k (ADNum.neg d) = -comp b k d := by
  induction k with
  | zero => intros; rfl
  | succ k ih =>
    rintro ⟨d, s⟩
    show comp b (k + 1) (⟨ADNum.neg d, s.map ADNum.neg⟩ : JVP (Nested k)) = -comp b (k + 1) (⟨d, s⟩ : JVP (Nested k))
    simp only [comp_succ]
    split
    · cases s with
      | none =>
        show (0 : XR) = -0
        simp [zero_eq]
      | some s => exact ih s
    · exact ih d

theorem comp_sub (k : ℕ) : ∀ d e : Nested k, comp b k (d -ₐ e) = comp b k d - comp b k e := by
  induction k with
  | zero => intros; rfl
  | succ k ih =>
    rintro ⟨d, s⟩ ⟨e, t⟩
    show comp b (k + 1) (⟨d -ₐ e, JVP.subT s t⟩ : JVP (Nested k)) = comp b (k + 1) (⟨d, s⟩ : JVP (Nested k)) - comp b (k + 1) (⟨e, t⟩ : JVP (Nested k))
    simp only [comp_succ]
    split
    · cases t with
      | none =>
        have : JVP.subT s none = s := by cases s <;> rfl
        rw [this]
        show compO b k s = compO b k s - 0
        show _ = compO b k s + -0
        simp only [zero_eq, fin_neg, neg_zero]
        rw [← zero_eq, add_zero]
      | some t =>
        cases s with
        | none =>
          show comp b k (ADNum.neg t) = 0 - comp b k t
          rw [comp_neg]
          show _ = 0 + -comp b k t
          rw [zero_add]
        | some s => exact ih s t
    · exact ih d e


theorem compO_addT (k : ℕ) (s t : Option (Nested k)) : compO b k (JVP.addT s t) = compO b k s + compO b k t := by
  cases s with
  | none =>
    show compO b k t = 0 + compO b k t
    rw [zero_add]
  | some s =>
    cases t with
    | none =>
      show comp b k s = comp b k s + 0
      rw [add_zero]
    | some t => exact comp_add b k s t

theorem compO_nan {k : ℕ} {o : Option (Nested k)} (h : compO b k o = nan) : ∃ t, o = some t ∧ comp b k t = nan := by
  cases o with
  | none => cases h
  | some t => exact ⟨t, rfl, h⟩

theorem compO_map_nan {k : ℕ} {o : Option (Nested k)} (h : compO b k o = nan) (φ : Nested k → Nested k)
    (hφ : ∀ t, comp b k t = nan → comp b k (φ t) = nan) : compO b k (o.map φ) = nan := by
  obtain ⟨t, rfl, ht⟩ := compO_nan b h
  exact hφ t ht

theorem xr_nan_mul (a : XR) : nan * a = nan := by cases a <;> rfl
theorem xr_mul_nan (a : XR) : a * nan = nan := by cases a <;> rfl
theorem xr_nan_div (a : XR) : nan / a = nan := by cases a <;> rfl
theorem xr_div_nan (a : XR) : a / nan = nan := by cases a <;> rfl
theorem xr_nan_add (a : XR) : nan + a = nan := by cases a <;> rfl
theorem xr_add_nan (a : XR) : a + nan = nan := by cases a <;> rfl
theorem xr_nan_sub (a : XR) : nan - a = nan := by cases a <;> rfl
theorem xr_sub_nan (a : XR) : a - nan = nan := by cases a <;> rfl

theorem mul_nan (k : ℕ) : ∀ d e : Nested k, comp b k d = nan ∨ comp b k e = nan → comp b k (d *ₐ e) = nan := by
  induction k with
  | zero =>
    have h0 : ∀ d e : XR, d = nan ∨ e = nan → d * e = nan := by
      rintro d e (rfl | rfl)
      · exact xr_nan_mul _
      · exact xr_mul_nan _
    exact h0
  | succ k ih =>
    rintro ⟨d, s⟩ ⟨e, t⟩ h
    rw [comp_succ, comp_succ] at h
    show comp b (k + 1) (⟨d *ₐ e, JVP.addT (s.map fun g => g *ₐ e) (t.map fun g => d *ₐ g)⟩ : JVP (Nested k)) = nan
    rw [comp_succ]
    split_ifs at h ⊢ with hb
    · rw [compO_addT]
      rcases h with h | h
      · rw [compO_map_nan b h _ fun t ht => ih _ _ (Or.inl ht), xr_nan_add]
      · rw [compO_map_nan b h (fun g => d *ₐ g) fun t ht => ih _ _ (Or.inr ht), xr_add_nan]
    · exact ih _ _ h

theorem div_nan (k : ℕ) : ∀ d e : Nested k, comp b k d = nan ∨ comp b k e = nan → comp b k (d /ₐ e) = nan := by
  induction k with
  | zero =>
    have h0 : ∀ d e : XR, d = nan ∨ e = nan → d / e = nan := by
      rintro d e (rfl | rfl)
      · exact xr_nan_div _
      · exact xr_div_nan _
    exact h0
  | succ k ih =>
    rintro ⟨d, s⟩ ⟨e, t⟩ h
    rw [comp_succ, comp_succ] at h
    show comp b (k + 1) (⟨d /ₐ e, JVP.addT (s.map fun g => g /ₐ e)
      (t.map fun g => ADNum.neg g *ₐ d *ₐ ADNum.ipow e (-2))⟩ : JVP (Nested k)) = nan
    rw [comp_succ]
    split_ifs at h ⊢ with hb
    · rw [compO_addT]
      rcases h with h | h
      · rw [compO_map_nan b h _ fun t ht => ih _ _ (Or.inl ht), xr_nan_add]
      · rw [compO_map_nan b h (fun g => ADNum.neg g *ₐ d *ₐ ADNum.ipow e (-2)) fun t ht => mul_nan b _ _ _ (Or.inl (mul_nan b _ _ _ (Or.inl
          (by rw [comp_neg, ht]; rfl)))), xr_add_nan]
    · exact ih _ _ h

theorem sqrt_nan (k : ℕ) : ∀ d : Nested k, comp b k d = nan → comp b k (ADNum.sqrt d) = nan := by
  induction k with
  | zero =>
    have h0 : ∀ d : XR, d = nan → XR.sqrt d = nan := by rintro _ rfl; rfl
    exact h0
  | succ k ih =>
    rintro ⟨d, s⟩ h
    rw [comp_succ] at h
    show comp b (k + 1) (⟨ADNum.sqrt d, s.map fun g => g *ₐ (ADNum.const (1 / 2) /ₐ ADNum.sqrt d)⟩ : JVP (Nested k)) = nan
    rw [comp_succ]
    split_ifs at h ⊢ with hb
    · exact compO_map_nan b h _ fun t ht => mul_nan b _ _ _ (Or.inl ht)
    · exact ih _ h

theorem nexp_nan (k : ℕ) : ∀ d : Nested k, comp b k d = nan → comp b k (ADNum.exp d) = nan := by
  induction k with
  | zero =>
    have h0 : ∀ d : XR, d = nan → XR.exp d = nan := by rintro _ rfl; rfl
    exact h0
  | succ k ih =>
    rintro ⟨d, s⟩ h
    rw [comp_succ] at h
    show comp b (k + 1) (⟨ADNum.exp d, s.map fun g => g *ₐ ADNum.exp d⟩ : JVP (Nested k)) = nan
    rw [comp_succ]
    split_ifs at h ⊢ with hb
    · exact compO_map_nan b h _ fun t ht => mul_nan b _ _ _ (Or.inl ht)
    · exact ih _ h

theorem ipow_nan (k : ℕ) (n : ℕ) (hn : n ≠ 0) : ∀ d : Nested k, comp b k d = nan → comp b k (ADNum.ipow d n) = nan := by
  induction k with
  | zero =>
    have h0 : ∀ d : XR, d = nan → XR.zpow d n = nan := by
      rintro _ rfl
      obtain ⟨m, rfl⟩ := Nat.exists_eq_succ_of_ne_zero hn
      exact xr_mul_nan _
    exact h0
  | succ k ih =>
    rintro ⟨d, s⟩ h
    rw [comp_succ] at h
    show comp b (k + 1) (⟨ADNum.ipow d n, s.map fun g => if (n : ℤ) = 0 then ADNum.const 0 else
      g *ₐ (ADNum.const (fin ((n : ℤ) : ℝ)) *ₐ ADNum.ipow d (n - 1))⟩ : JVP (Nested k)) = nan
    rw [comp_succ]
    by_cases hb : b k = true
    · rw [if_pos hb] at h ⊢
      refine compO_map_nan b h (fun g => if (n : ℤ) = 0 then ADNum.const 0 else
        g *ₐ (ADNum.const (fin ((n : ℤ) : ℝ)) *ₐ ADNum.ipow d (n - 1))) fun t ht => ?_
      rw [if_neg (by exact_mod_cast hn)]
      exact mul_nan b _ _ _ (Or.inl ht)
    · rw [if_neg hb] at h ⊢
      exact ih _ h

end

/-! ### values -/

theorem value_succ (k : ℕ) (d : JVP (Nested k)) : value (k + 1) d = value k d.val := rfl

theorem value_const : ∀ (k : ℕ) (c : XR), value k (ADNum.const c) = c
  | 0, _ => rfl
  | k + 1, c => value_const k c

theorem value_mul : ∀ (k : ℕ) (d e : Nested k), value k (d *ₐ e) = value k d * value k e
  | 0, _, _ => rfl
  | k + 1, d, e => value_mul k (JVP.val d) (JVP.val e)

theorem value_div : ∀ (k : ℕ) (d e : Nested k), value k (d /ₐ e) = value k d / value k e
  | 0, _, _ => rfl
  | k + 1, d, e => value_div k (JVP.val d) (JVP.val e)

theorem value_sqrt : ∀ (k : ℕ) (d : Nested k), value k (ADNum.sqrt d) = XR.sqrt (value k d)
  | 0, _ => rfl
  | k + 1, d => value_sqrt k (JVP.val d)

theorem value_exp : ∀ (k : ℕ) (d : Nested k), value k (ADNum.exp d) = XR.exp (value k d)
  | 0, _ => rfl
  | k + 1, d => value_exp k (JVP.val d)

theorem value_ipow (n : ℤ) : ∀ (k : ℕ) (d : Nested k), value k (ADNum.ipow d n) = XR.zpow (value k d) n
  | 0, _ => rfl
  | k + 1, d => value_ipow n k (JVP.val d)

theorem value_rpow (y : ℝ) : ∀ (k : ℕ) (d : Nested k), value k (ADNum.rpow d y) = XR.rpow (value k d) y
  | 0, _ => rfl
  | k + 1, d => value_rpow y k (JVP.val d)

/-! ### roots of zero -/

/-- Value zero, first derivatives zero, no symbolic zeros. -/
def ZJ : (k : ℕ) → Nested k → Prop
  | 0, d => d = fin 0
  | k + 1, d => ZJ k (JVP.val d) ∧ ∃ t, JVP.tan d = some t ∧ value k t = fin 0

/-- Value zero, finite first derivatives, no symbolic zeros. -/
def FJ : (k : ℕ) → Nested k → Prop
  | 0, d => d = fin 0
  | k + 1, d => FJ k (JVP.val d) ∧ ∃ t s, JVP.tan d = some t ∧ value k t = fin s

theorem zj_value : ∀ {k : ℕ} {d : Nested k}, ZJ k d → value k d = fin 0
  | 0, _, h => h
  | k + 1, d, h => zj_value (k := k) (d := JVP.val d) h.1

theorem fj_value : ∀ {k : ℕ} {d : Nested k}, FJ k d → value k d = fin 0
  | 0, _, h => h
  | k + 1, d, h => fj_value (k := k) (d := JVP.val d) h.1

theorem value_add (k : ℕ) (d e : Nested k) : value k (d +ₐ e) = value k d + value k e := comp_add _ k d e
theorem value_sub (k : ℕ) (d e : Nested k) : value k (d -ₐ e) = value k d - value k e := comp_sub _ k d e

theorem ZJ.add : ∀ {k : ℕ} {d e : Nested k}, ZJ k d → ZJ k e → ZJ k (d +ₐ e)
  | 0, d, e, h, h' => by
    have h0 : ∀ d e : XR, d = fin 0 → e = fin 0 → d + e = fin 0 := by rintro _ _ rfl rfl; simp
    exact h0 d e h h'
  | k + 1, ⟨d, s⟩, ⟨e, t⟩, h, h' => by
    obtain ⟨h1, s', rfl, h2⟩ := h
    obtain ⟨h3, t', rfl, h4⟩ := h'
    refine ⟨ZJ.add h1 h3, _, rfl, ?_⟩
    rw [value_add, h2, h4]; simp

theorem ZJ.sub : ∀ {k : ℕ} {d e : Nested k}, ZJ k d → ZJ k e → ZJ k (d -ₐ e)
  | 0, d, e, h, h' => by
    have h0 : ∀ d e : XR, d = fin 0 → e = fin 0 → d - e = fin 0 := by rintro _ _ rfl rfl; simp
    exact h0 d e h h'
  | k + 1, ⟨d, s⟩, ⟨e, t⟩, h, h' => by
    obtain ⟨h1, s', rfl, h2⟩ := h
    obtain ⟨h3, t', rfl, h4⟩ := h'
    refine ⟨ZJ.sub h1 h3, _, rfl, ?_⟩
    rw [value_sub, h2, h4]; simp

theorem FJ.mul : ∀ {k : ℕ} {d e : Nested k}, FJ k d → FJ k e → ZJ k (d *ₐ e)
  | 0, d, e, h, h' => by
    have h0 : ∀ d e : XR, d = fin 0 → e = fin 0 → d * e = fin 0 := by rintro _ _ rfl rfl; simp
    exact h0 d e h h'
  | k + 1, ⟨d, s⟩, ⟨e, t⟩, h, h' => by
    obtain ⟨h1, s', a, rfl, h2⟩ := h
    obtain ⟨h3, t', c, rfl, h4⟩ := h'
    refine ⟨FJ.mul h1 h3, _, rfl, ?_⟩
    rw [value_add]
    have h5 := fj_value h1
    have h6 := fj_value h3
    change value k d = _ at h5
    change value k e = _ at h6
    rw [value_mul, value_mul, h2, h4, h5, h6]; simp

theorem FJ.cmul (c : ℝ) : ∀ {k : ℕ} {d : Nested k}, FJ k d → FJ k (ADNum.const (fin c) *ₐ d)
  | 0, d, h => by
    have h0 : ∀ d : XR, d = fin 0 → fin c * d = fin 0 := by rintro _ rfl; simp
    exact h0 d h
  | k + 1, ⟨d, s⟩, h => by
    obtain ⟨h1, s', a, rfl, h2⟩ := h
    refine ⟨FJ.cmul c h1, ADNum.const (fin c) *ₐ s', c * a, rfl, ?_⟩
    rw [value_mul, value_const, h2]; simp

theorem FJ.ipow (n : ℕ) (hn : 2 ≤ n) : ∀ {k : ℕ} {d : Nested k}, FJ k d → ZJ k (ADNum.ipow d n)
  | 0, d, h => by
    have h0 : ∀ d : XR, d = fin 0 → XR.zpow d n = fin 0 := by
      rintro _ rfl
      rw [xr_zpow_fin _ _ (Or.inl (by omega)), zero_zpow _ (by omega)]
    exact h0 d h
  | k + 1, ⟨d, s⟩, h => by
    obtain ⟨h1, s', a, rfl, h2⟩ := h
    refine ⟨FJ.ipow n hn h1, _, rfl, ?_⟩
    beta_reduce
    rw [if_neg (by omega), value_mul, value_mul, value_const, value_ipow, h2]
    have h5 := fj_value h1
    change value k d = _ at h5
    rw [h5, xr_zpow_fin _ _ (Or.inl (by omega)), zero_zpow _ (by omega)]
    simp

theorem sqrt_poison : ∀ {k : ℕ} {d : Nested k}, ZJ k d → Poisoned k (ADNum.sqrt d)
  | 0, _, _ => fun b h => by obtain ⟨j, hj, -⟩ := h; omega
  | k + 1, ⟨d, s⟩, h => fun b hb => by
    obtain ⟨h1, s', rfl, h2⟩ := h
    have ih := sqrt_poison h1
    change Poisoned k (ADNum.sqrt d) at ih
    show comp b (k + 1) (⟨ADNum.sqrt d, some (s' *ₐ (ADNum.const (1 / 2) /ₐ ADNum.sqrt d))⟩ : JVP (Nested k)) = nan
    rw [comp_succ]
    by_cases hr : ∃ j < k, b j = true
    · have h3 := ih b hr
      split
      · exact mul_nan b _ _ _ (Or.inr (div_nan b _ _ _ (Or.inr h3)))
      · exact h3
    · have hbk : b k = true := by
        obtain ⟨j, hj, hj'⟩ := hb
        by_cases hjk : j = k
        · exact hjk ▸ hj'
        · exact absurd ⟨j, by omega, hj'⟩ hr
      rw [if_pos hbk]
      have e : ∀ (k' : ℕ) (t : Nested k'), k' ≤ k → comp b k' t = value k' t := by
        intro k'
        induction k' with
        | zero => intros; rfl
        | succ k' ih' =>
          rintro ⟨t, u⟩ hk
          rw [comp_succ, if_neg (fun h => hr ⟨k', by omega, h⟩)]
          exact ih' t (by omega)
      show comp b k _ = nan
      have h5 := zj_value h1
      change value k d = _ at h5
      rw [e k _ le_rfl, value_mul, value_div, value_const, value_sqrt, h2, h5]
      exact zero_mul_div_zero

theorem rpow_poison : ∀ {k : ℕ} {d : Nested k} (y : ℝ), y < 1 → y ≠ 0 → ZJ k d → Poisoned k (ADNum.rpow d y)
  | 0, _, _, _, _, _ => fun b h => by obtain ⟨j, hj, -⟩ := h; omega
  | k + 1, ⟨d, s⟩, y, hy1, hy0, h => fun b hb => by
    obtain ⟨h1, s', rfl, h2⟩ := h
    have ih := rpow_poison y hy1 hy0 h1
    have ih' := rpow_poison (y - 1) (by linarith) (by intro h; linarith) h1
    change Poisoned k (ADNum.rpow d y) at ih
    change Poisoned k (ADNum.rpow d (y - 1)) at ih'
    show comp b (k + 1) (⟨ADNum.rpow d y, some (s' *ₐ (if y = 0 then ADNum.const 0 else
      ADNum.const (fin y) *ₐ ADNum.rpow d (y - 1)))⟩ : JVP (Nested k)) = nan
    rw [comp_succ, if_neg hy0]
    by_cases hr : ∃ j < k, b j = true
    · split
      · exact mul_nan b _ _ _ (Or.inr (mul_nan b _ _ _ (Or.inr (ih' b hr))))
      · exact ih b hr
    · have hbk : b k = true := by
        obtain ⟨j, hj, hj'⟩ := hb
        by_cases hjk : j = k
        · exact hjk ▸ hj'
        · exact absurd ⟨j, by omega, hj'⟩ hr
      rw [if_pos hbk]
      have e : ∀ (k' : ℕ) (t : Nested k'), k' ≤ k → comp b k' t = value k' t := by
        intro k'
        induction k' with
        | zero => intros; rfl
        | succ k' ih' =>
          rintro ⟨t, u⟩ hk
          rw [comp_succ, if_neg (fun h => hr ⟨k', by omega, h⟩)]
          exact ih' t (by omega)
      show comp b k _ = nan
      have h5 := zj_value h1
      change value k d = _ at h5
      rw [e k _ le_rfl, value_mul, value_mul, value_const, value_rpow, h2, h5]
      have h6 : XR.rpow (fin 0) (y - 1) = pinf := by
        simp only [XR.rpow, lt_irrefl, if_false]; rw [if_pos ⟨trivial, by linarith⟩]
      rw [h6]
      rcases lt_or_gt_of_ne hy0 with h | h
      · have : fin y * pinf = ninf := by
          show infSign _ = _
          simp [infSign, h, not_lt.mpr h.le]
        rw [this]
        show infSign (-0) = _
        simp [infSign]
      · have : fin y * pinf = pinf := by
          show infSign _ = _
          simp [infSign, h]
        rw [this]
        show infSign 0 = _
        simp [infSign]

end Verif
