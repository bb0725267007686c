import Verif.Model.BC
import Mathlib.Analysis.Calculus.ContDiff.Basic
import Mathlib.Analysis.Calculus.Gradient.Basic
import Mathlib.Analysis.InnerProductSpace.Calculus
import Mathlib.Analysis.InnerProductSpace.PiL2
import Mathlib.Analysis.SpecialFunctions.Exp
import Mathlib.Analysis.Calculus.Deriv.Add

/-! # Properties of the constrained models and of the MLP -/

namespace Verif

open XR

/-! ## Selecting arguments -/

/-- `a` is the entry of `args` at position `i`, counted from the end if `i` is negative. -/
def PyAt {α : Type} (args : List α) (i : ℤ) (a : α) : Prop :=
  (0 ≤ i ∧ args[i.toNat]? = some a) ∨ (i < 0 ∧ args.reverse[(-i - 1).toNat]? = some a)

theorem pyIndex_iff {α : Type} (args : List α) (i : ℤ) (a : α) : pyIndex args i = .ok a ↔ PyAt args i a := by
  unfold pyIndex PyAt
  by_cases hi : i < 0
  · simp only [hi, if_true, true_and, not_le.mpr hi, false_and, false_or]
    by_cases h0 : 0 ≤ i + args.length
    · rw [if_pos h0, List.getElem?_reverse (by omega), show args.length - 1 - (-i - 1).toNat = (i + args.length).toNat by omega]
      cases args[(i + args.length).toNat]? <;> simp
    · rw [if_neg h0, List.getElem?_eq_none (by simp; omega)]
      simp
  · have h0 : 0 ≤ i := not_lt.mp hi
    simp only [hi, if_false, h0, if_true, true_and, false_and, or_false]
    cases args[i.toNat]? <;> simp

/-- `xs` are the entries of `args` selected by `argnums`: one entry for a number, one entry per member of a sequence. -/
def SelArgs {α : Type} (args : List α) : Argnums → List α → Prop
  | .int i, xs => ∃ x, xs = [x] ∧ PyAt args i x
  | .seq is, xs => List.Forall₂ (PyAt args) is xs

theorem mapM_of_forall₂ {α : Type} {args : List α} {l : List ℤ} {xs : List α}
    (h : List.Forall₂ (PyAt args) l xs) : l.mapM (pyIndex args) = .ok xs := by
  induction h with
  | nil => rfl
  | cons h1 _ ih => rw [List.mapM_cons, (pyIndex_iff _ _ _).mpr h1, ih]; rfl

theorem forall₂_of_mapM {α : Type} {args : List α} {l : List ℤ} {xs : List α} (h : l.mapM (pyIndex args) = .ok xs) :
    List.Forall₂ (PyAt args) l xs := by
  induction l generalizing xs with
  | nil => cases h; exact .nil
  | cons i l ih =>
    rw [List.mapM_cons] at h
    cases h1 : pyIndex args i with
    | error e => rw [h1] at h; cases h
    | ok a =>
      cases h2 : List.mapM (pyIndex args) l with
      | error e => rw [h1, h2] at h; cases h
      | ok ys =>
        rw [h1, h2] at h
        cases h
        exact .cons ((pyIndex_iff _ _ _).mp h1) (ih h2)

theorem pick_of_forall₂ {α : Type} {args : List α} {argnums : Argnums} {xs : List α}
    (h : SelArgs args argnums xs) : pick args argnums = .ok xs := by
  cases argnums with
  | int i =>
    obtain ⟨x, rfl, hx⟩ := h
    exact mapM_of_forall₂ (.cons hx .nil)
  | seq is => exact mapM_of_forall₂ h

/-- The other direction: if no error occurs, every index is valid. -/
theorem forall₂_of_pick {α : Type} {args : List α} {argnums : Argnums} {xs : List α} (h : pick args argnums = .ok xs) :
    SelArgs args argnums xs := by
  cases argnums with
  | int i =>
    have h1 : List.Forall₂ (PyAt args) [i] xs := forall₂_of_mapM h
    cases h1 with
    | cons h1 h2 => cases h2; exact ⟨_, rfl, h1⟩
  | seq is => exact forall₂_of_mapM h

/-! ## C77 -/

section
variable {A K : Type} {n : ℕ}

/-- Where the ADF vanishes the constrained model is `g`, or zero, whatever the model gives. -/
theorem C77_boundary (adf : List A → XR) (g : Option (List A → Fin n → ℝ)) (argnums_adf argnums_g : Argnums)
    (model : List A → K → Fin n → ℝ) (args : List A) (kwargs : K) (xs ys : List A)
    (hxs : SelArgs args argnums_adf xs) (hys : SelArgs args argnums_g ys)
    (hadf : adf xs = fin 0) :
    imposeDirichletBc adf (g.map fun g a => vfin (g a)) argnums_adf argnums_g (fun a k => vfin (model a k)) args kwargs =
      .ok (vfin ((g.getD fun _ _ => 0) ys)) := by
  simp only [imposeDirichletBc, pick_of_forall₂ hxs, pick_of_forall₂ hys, bind, Except.bind, pure,
    Except.pure, hadf]
  congr 1
  funext i
  cases g <;> simp [zero_eq]

/-- Away from it the result is the model scaled by the ADF plus `g`, so that every value can be attained. -/
theorem C77_interior (adf : List A → XR) (g : List A → Fin n → ℝ) (argnums_adf argnums_g : Argnums)
    (args : List A) (kwargs : K) (xs ys : List A) (l : ℝ)
    (hxs : SelArgs args argnums_adf xs) (hys : SelArgs args argnums_g ys)
    (hadf : adf xs = fin l) (hl : l ≠ 0) (target : Fin n → ℝ) :
    ∃ v : Fin n → ℝ, ∀ model : List A → K → Vec n, model args kwargs = vfin v →
      imposeDirichletBc adf (some fun a => vfin (g a)) argnums_adf argnums_g model args kwargs = .ok (vfin target) := by
  refine ⟨fun i => (target i - g ys i) / l, fun model hm => ?_⟩
  simp only [imposeDirichletBc, pick_of_forall₂ hxs, pick_of_forall₂ hys, bind, Except.bind, pure,
    Except.pure, hadf, hm]
  congr 1
  funext i
  simp only [vfin_apply, fin_mul, fin_add, fin_inj]
  field_simp
  ring

/-- Inside of `a < 5` the constrained model attains any value, here `7`. -/
example : ∃ v : Fin 1 → ℝ, ∀ model : List ℝ → Unit → Vec 1, model [1, 2, 3] () = vfin v →
    imposeDirichletBc (fun a => fin (5 - a.sum)) (some fun a => vfin ![a.sum]) (.int (-1)) (.seq [0, 1]) model [1, 2, 3] () =
      .ok (vfin ![7]) :=
  C77_interior (fun a => fin (5 - a.sum)) (fun a => ![a.sum]) (.int (-1)) (.seq [0, 1]) [1, 2, 3] () [3] [1, 2] (5 - [3].sum)
    ⟨_, rfl, (by right; simp)⟩ (.cons (by left; simp) (.cons (by left; simp) .nil)) rfl (by norm_num) _

/-- Without an error all argument numbers are valid. -/
theorem C77_argnums (adf : List A → XR) (g : Option (List A → Vec n)) (argnums_adf argnums_g : Argnums)
    (model : List A → K → Vec n) (args : List A) (kwargs : K) (v : Vec n)
    (h : imposeDirichletBc adf g argnums_adf argnums_g model args kwargs = .ok v) :
    ∃ xs ys, SelArgs args argnums_adf xs ∧ SelArgs args argnums_g ys ∧
      ∀ i, v i = adf xs * model args kwargs i + (match g with | none => 0 | some g => g ys i) := by
  unfold imposeDirichletBc at h
  cases h1 : pick args argnums_adf with
  | error e => rw [h1] at h; cases h
  | ok xs =>
    cases h2 : pick args argnums_g with
    | error e => rw [h1, h2] at h; cases h
    | ok ys =>
      rw [h1, h2] at h
      cases h
      refine ⟨xs, ys, forall₂_of_pick h1, forall₂_of_pick h2, fun i => ?_⟩
      cases g <;> rfl

/-- Position 2 does not exist, so the call fails. -/
example (model : List ℝ → Unit → Vec 1) (v : Vec 1) :
    imposeDirichletBc (fun a => fin a.sum) none (.int 2) (.int 0) model [1, 2] () ≠ .ok v := by
  intro h
  obtain ⟨xs, ys, h1, -⟩ := C77_argnums _ _ _ _ _ _ _ _ h
  obtain ⟨_, -, h⟩ := h1
  rcases h with ⟨_, h⟩ | ⟨h, _⟩ <;> simp at h

end

/-- The ADF takes the last argument, `g` the first two. -/
example (model : List ℝ → Unit → Fin 1 → ℝ) :
    imposeDirichletBc (fun a => fin (a.sum - 3)) (some fun a => vfin ![a.sum]) (.int (-1)) (.seq [0, 1])
      (fun a k => vfin (model a k)) [1, 2, 3] () = .ok (vfin ![3]) := by
  have h := C77_boundary (fun a => fin (a.sum - 3)) (some fun a => ![a.sum]) (.int (-1)) (.seq [0, 1]) model [1, 2, 3] ()
    [3] [1, 2] ⟨_, rfl, (by right; simp)⟩ (.cons (by left; simp) (.cons (by left; simp) .nil)) (by simp)
  rw [Option.map_some] at h
  rw [h]
  norm_num

/-! ## C78 -/

section
variable {A K : Type} {n : ℕ}

/-- The value of the constrained model: a combination of the initial condition and the model with weight
`exp (-decay_rate * (t - t0))`. -/
theorem imposeIc_fin (num : A → XR) (m0 : List A → Fin n → ℝ) (t0 decay_rate : ℝ) (argnums_m0 : Argnums)
    (argnum_t : ℤ) (model : List A → K → Fin n → ℝ) (args : List A) (kwargs : K) (xs : List A) (a : A) (t : ℝ)
    (hxs : SelArgs args argnums_m0 xs) (ha : PyAt args argnum_t a) (ht : num a = fin t) :
    imposeIc num (fun a => vfin (m0 a)) t0 decay_rate argnums_m0 argnum_t (fun a k => vfin (model a k)) args kwargs =
      .ok (vfin fun i => Real.exp (-decay_rate * (t - t0)) * m0 xs i +
        (1 - Real.exp (-decay_rate * (t - t0))) * model args kwargs i) := by
  simp only [imposeIc, pick_of_forall₂ hxs, (pyIndex_iff _ _ _).mpr ha, bind, Except.bind, pure,
    Except.pure, ht]
  congr 1
  funext i
  simp only [vfin_apply, fin_neg, fin_sub, fin_mul, XR.exp, one_eq, fin_add]
  rw [mul_comm (m0 xs i)]

/-- At `t0` the constrained model is the initial condition. -/
theorem C78_initial (num : A → XR) (m0 : List A → Fin n → ℝ) (t0 decay_rate : ℝ) (argnums_m0 : Argnums)
    (argnum_t : ℤ) (model : List A → K → Fin n → ℝ) (args : List A) (kwargs : K) (xs : List A) (a : A)
    (hxs : SelArgs args argnums_m0 xs) (ha : PyAt args argnum_t a) (ht : num a = fin t0) :
    imposeIc num (fun a => vfin (m0 a)) t0 decay_rate argnums_m0 argnum_t (fun a k => vfin (model a k)) args kwargs =
      .ok (vfin (m0 xs)) := by
  rw [imposeIc_fin num m0 t0 decay_rate argnums_m0 argnum_t model args kwargs xs a t0 hxs ha ht]
  simp

/-- From `t0` on it lies between the initial condition and the model. -/
theorem C78_convex (num : A → XR) (m0 : List A → Fin n → ℝ) (t0 decay_rate : ℝ) (hd : 0 ≤ decay_rate)
    (argnums_m0 : Argnums) (argnum_t : ℤ) (model : List A → K → Fin n → ℝ) (args : List A) (kwargs : K) (xs : List A)
    (a : A) (t : ℝ) (hxs : SelArgs args argnums_m0 xs) (ha : PyAt args argnum_t a)
    (ht : num a = fin t) (h0 : t0 ≤ t) :
    ∃ v : Fin n → ℝ, v ∈ segment ℝ (m0 xs) (model args kwargs) ∧
      imposeIc num (fun a => vfin (m0 a)) t0 decay_rate argnums_m0 argnum_t (fun a k => vfin (model a k)) args kwargs =
        .ok (vfin v) := by
  refine ⟨_, ?_, imposeIc_fin num m0 t0 decay_rate argnums_m0 argnum_t model args kwargs xs a t hxs ha ht⟩
  refine ⟨Real.exp (-decay_rate * (t - t0)), 1 - Real.exp (-decay_rate * (t - t0)), (Real.exp_pos _).le, ?_, by ring, rfl⟩
  rw [sub_nonneg, Real.exp_le_one_iff]
  nlinarith

/-- With initial value `1` and model value `3` the result at time `2` lies in `[1, 3]`. -/
example : ∃ v : Fin 1 → ℝ, v ∈ segment ℝ ![1] ![3] ∧
    imposeIc fin (fun _ : List ℝ => vfin ![1]) 0 10 (.int 0) 1 (fun _ (_ : Unit) => vfin ![3]) [7, 2] () = .ok (vfin v) :=
  C78_convex fin (fun _ => ![1]) 0 10 (by norm_num) (.int 0) 1 (fun _ _ => ![3]) [7, 2] () [7] 2 2
    ⟨_, rfl, (by left; simp)⟩ (by left; simp) rfl (by norm_num)

/-- As the time grows it approaches the model: for times `t k` tending to infinity and bounded values of the initial
condition and the model, the difference to the model tends to zero. -/
theorem C78_limit (num : A → XR) (m0 : List A → Fin n → ℝ) (t0 decay_rate : ℝ) (hd : 0 < decay_rate)
    (argnums_m0 : Argnums) (argnum_t : ℤ) (model : List A → K → Fin n → ℝ) (args : ℕ → List A) (kwargs : K)
    (xs : ℕ → List A) (a : ℕ → A) (t : ℕ → ℝ) (hxs : ∀ k, SelArgs (args k) argnums_m0 (xs k))
    (ha : ∀ k, PyAt (args k) argnum_t (a k)) (ht : ∀ k, num (a k) = fin (t k))
    (htop : Filter.Tendsto t Filter.atTop Filter.atTop) (C : ℝ)
    (hC : ∀ k i, |m0 (xs k) i - model (args k) kwargs i| ≤ C) :
    ∃ v : ℕ → Fin n → ℝ, (∀ k, imposeIc num (fun a => vfin (m0 a)) t0 decay_rate argnums_m0 argnum_t
        (fun a k => vfin (model a k)) (args k) kwargs = .ok (vfin (v k))) ∧
      ∀ i, Filter.Tendsto (fun k => v k i - model (args k) kwargs i) Filter.atTop (nhds 0) := by
  refine ⟨_, fun k => imposeIc_fin num m0 t0 decay_rate argnums_m0 argnum_t model (args k) kwargs (xs k) (a k) (t k)
    (hxs k) (ha k) (ht k), fun i => ?_⟩
  have hexp : Filter.Tendsto (fun k => Real.exp (-decay_rate * (t k - t0)) * C) Filter.atTop (nhds 0) := by
    rw [show (0 : ℝ) = 0 * C by ring]
    refine Filter.Tendsto.mul_const C (Real.tendsto_exp_atBot.comp ?_)
    refine Filter.Tendsto.const_mul_atTop_of_neg (by linarith) ?_
    exact Filter.tendsto_atTop_add_const_right _ _ htop
  refine squeeze_zero_norm (fun k => ?_) hexp
  rw [Real.norm_eq_abs, show Real.exp (-decay_rate * (t k - t0)) * m0 (xs k) i +
    (1 - Real.exp (-decay_rate * (t k - t0))) * model (args k) kwargs i - model (args k) kwargs i =
    Real.exp (-decay_rate * (t k - t0)) * (m0 (xs k) i - model (args k) kwargs i) by ring, abs_mul, Real.abs_exp]
  exact mul_le_mul_of_nonneg_left (hC k i) (Real.exp_pos _).le

/-- With initial value `1` and model value `3`, at the times `0, 1, 2, …`. -/
example : ∃ v : ℕ → Fin 1 → ℝ, (∀ k : ℕ, imposeIc fin (fun _ : List ℝ => vfin ![1]) 0 10 (.int 0) 1
      (fun _ (_ : Unit) => vfin ![3]) [7, (k : ℝ)] () = .ok (vfin (v k))) ∧
    ∀ i, Filter.Tendsto (fun k => v k i - ![3] i) Filter.atTop (nhds 0) :=
  C78_limit fin (fun _ => ![1]) 0 10 (by norm_num) (.int 0) 1 (fun _ _ => ![3]) (fun k => [7, (k : ℝ)]) ()
    (fun _ => [7]) (fun k => (k : ℝ)) (fun k => (k : ℝ)) (fun _ => ⟨_, rfl, (by left; simp)⟩) (fun _ => by left; simp)
    (fun _ => rfl) tendsto_natCast_atTop_atTop 2 (fun _ i => by fin_cases i; norm_num)

end

/-- The defaults: the first argument is passed to `m0`, the second is the time. -/
example (model : List ℝ → Unit → Fin 1 → ℝ) :
    imposeIc fin (fun a => vfin ![a.sum]) 0 10 (.int 0) 1 (fun a k => vfin (model a k)) [7, 0] () = .ok (vfin ![7]) := by
  rw [C78_initial fin (fun a => ![a.sum]) 0 10 (.int 0) 1 model [7, 0] () [7] 0 ⟨_, rfl, (by left; simp)⟩
    (by left; simp) rfl]
  simp

/-! ## C79 -/

section
variable {E F : Type} [NormedAddCommGroup E] [NormedSpace ℝ E] [NormedAddCommGroup F] [NormedSpace ℝ F]

/-- A product with a factor that vanishes at a point is differentiable there as soon as the other factor is
continuous. -/
theorem hasFDerivAt_smul_of_zero {a : F → ℝ} {g : F → E} {x : F} {a' : F →L[ℝ] ℝ} (ha : HasFDerivAt a a' x)
    (h0 : a x = 0) (hg : ContinuousAt g x) : HasFDerivAt (fun y => a y • g y) (a'.smulRight (g x)) x := by
  have h1 : HasFDerivAt (fun y => a y • g x) (a'.smulRight (g x)) x := ha.smul_const (g x)
  have h2 : HasFDerivAt (fun y => a y • (g y - g x)) (0 : F →L[ℝ] E) x := by
    rw [hasFDerivAt_iff_isLittleO]
    have e : (fun y => a y • (g y - g x) - a x • (g x - g x) - (0 : F →L[ℝ] E) (y - x)) = fun y => a y • (g y - g x) := by
      funext y; simp
    rw [e]
    have hO : a =O[nhds x] fun y => y - x := by
      have := ha.isBigO_sub
      simpa [h0] using this
    have ho : (fun y => g y - g x) =o[nhds x] fun _ => (1 : ℝ) := by
      rw [Asymptotics.isLittleO_one_iff]
      have := hg.tendsto.sub_const (g x)
      rwa [sub_self] at this
    have := hO.norm_norm.smul_isLittleO ho
    refine Asymptotics.IsLittleO.of_norm_norm ?_
    refine (this.norm_norm).congr (fun y => ?_) (fun y => ?_)
    · simp [norm_smul]
    · simp
  have := h1.add h2
  rw [add_zero] at this
  refine this.congr_of_eventuallyEq (Filter.Eventually.of_forall fun y => ?_)
  show a y • g y = a y • g x + a y • (g y - g x)
  rw [← smul_add]
  congr 1
  abel

end

theorem jacVec_eq_gradient {d : ℕ} {f : Pt d → ℝ} {x : Pt d} (hf : DifferentiableAt ℝ f x) :
    jacVec f x = gradient f x := by
  ext i
  have h := hf.hasGradientAt.hasFDerivAt
  show fderiv ℝ f x (EuclideanSpace.single i 1) = _
  rw [h.fderiv, InnerProductSpace.toDual_apply_apply, EuclideanSpace.inner_single_right]
  simp

theorem continuousAt_jacVec {d : ℕ} {f : Pt d → ℝ} {x : Pt d} (hf : ContDiffAt ℝ 1 f x) :
    ContinuousAt (jacVec f) x := by
  have h1 : ContinuousAt (fderiv ℝ f) x := (hf.fderiv_right (m := 0) (by norm_num)).continuousAt
  refine (PiLp.continuous_toLp 2 _).continuousAt.comp ?_
  rw [continuousAt_pi]
  intro i
  exact h1.clm_apply continuousAt_const

theorem pySlices {α : Type} (args : List α) (i : ℕ) (hi : i < args.length) (x : α) :
    pySliceTo args i ++ x :: pySliceFrom args (i + 1) = args.set i x := by
  have h1 : pyBound args.length (i : ℤ) = i := by
    unfold pyBound; rw [if_neg (by omega)]; omega
  have h2 : pyBound args.length ((i : ℤ) + 1) = i + 1 := by
    unfold pyBound; rw [if_neg (by omega)]; omega
  rw [pySliceTo, pySliceFrom, h1, h2, List.set_eq_take_append_cons_drop, if_pos hi]

section
variable {K : Type} {E : Type} [NormedAddCommGroup E] [NormedSpace ℝ E]

/-- On the boundary the derivative of the constrained model in the direction of the outward normal `-∇ adf` is `h`, or
zero if `h` is omitted. The differentiated argument is the first one of the ADF, its other arguments `ys` and
the arguments `zs` of `h` are arbitrary. -/
theorem C79_neumann {d : ℕ} (adf : List Arg → ℝ) (h : Option (List Arg → E)) (argnums_adf argnums_h : Argnums)
    (i : ℕ) (model : List Arg → K → E) (args : List Arg) (kwargs : K) (x0 : Pt d) (ys : List Arg)
    (zs : Pt d → List Arg) (hi : i < args.length)
    (hadf : ∀ x : Pt d, SelArgs (args.set i (.vec d x)) argnums_adf (.vec d x :: ys))
    (hh : ∀ x : Pt d, SelArgs (args.set i (.vec d x)) argnums_h (zs x))
    (sa : ContDiffAt ℝ 1 (fun x => adf (.vec d x :: ys)) x0)
    (sm : ContDiffAt ℝ 1 (fun x => model (args.set i (.vec d x)) kwargs) x0)
    (sh : ∀ h', h = some h' → ContinuousAt (fun x => h' (zs x)) x0)
    (h0 : adf (.vec d x0 :: ys) = 0) (h1 : ‖gradient (fun x => adf (.vec d x :: ys)) x0‖ = 1) :
    ∃ u : Pt d → E, (∀ x, imposeNeumannBc adf h argnums_adf i argnums_h model (args.set i (.vec d x)) kwargs = .ok (u x)) ∧
      DifferentiableAt ℝ u x0 ∧
      fderiv ℝ u x0 (-gradient (fun x => adf (.vec d x :: ys)) x0) =
        h.elim 0 fun h' => h' (zs x0) := by
  set a : Pt d → ℝ := fun x => adf (.vec d x :: ys) with ha
  set v : Pt d → E := fun x => model (args.set i (.vec d x)) kwargs with hv
  set H : Pt d → E := fun x => h.elim 0 fun h' => h' (zs x) with hH
  have cH : ContinuousAt H x0 := by
    cases h with
    | none => exact continuousAt_const
    | some h' => exact sh h' rfl
  refine ⟨fun x => v x - a x • fderiv ℝ v x (jacVec a x) - a x • H x, fun x => ?_, ?_⟩
  · have hx : pyIndex (args.set i (.vec d x)) (i : ℤ) = .ok (.vec d x) := by
      rw [pyIndex_iff]
      left
      exact ⟨by omega, by simp [hi]⟩
    have hset : ∀ y : Arg, pySliceTo (args.set i (.vec d x)) (i : ℤ) ++ y :: pySliceFrom (args.set i (.vec d x)) ((i : ℤ) + 1) =
        args.set i y := by
      intro y
      rw [pySlices _ i (by simpa using hi), List.set_set]
    simp only [imposeNeumannBc, hx, pick_of_forall₂ (hadf x), pick_of_forall₂ (hh x), hset, bind, Except.bind, pure,
      Except.pure, dif_pos]
    cases h <;> rfl
  · have da := (sa.differentiableAt (by norm_num)).hasFDerivAt
    have dm := (sm.differentiableAt (by norm_num)).hasFDerivAt
    have c1 : ContinuousAt (fun x => fderiv ℝ v x (jacVec a x)) x0 :=
      ((sm.fderiv_right (m := 0) (by norm_num)).continuousAt).clm_apply (continuousAt_jacVec sa)
    have key := (dm.sub (hasFDerivAt_smul_of_zero da h0 c1)).sub (hasFDerivAt_smul_of_zero da h0 cH)
    refine ⟨key.differentiableAt, ?_⟩
    rw [HasFDerivAt.fderiv (f := fun x => v x - a x • fderiv ℝ v x (jacVec a x) - a x • H x) key]
    have hg : fderiv ℝ a x0 (gradient a x0) = 1 := by
      have := (sa.differentiableAt (by norm_num : (1 : WithTop ℕ∞) ≠ 0)).hasGradientAt.hasFDerivAt.fderiv
      rw [this, InnerProductSpace.toDual_apply_apply, real_inner_self_eq_norm_sq, h1, one_pow]
    rw [jacVec_eq_gradient (sa.differentiableAt (by norm_num))]
    simp only [map_neg, sub_apply, ContinuousLinearMap.smulRight_apply, hg, one_smul]
    rw [sub_self, zero_sub, neg_neg]

/-- The same for a differentiated argument which is a number. -/
theorem C79_neumann_scalar (adf : List Arg → ℝ) (h : Option (List Arg → E)) (argnums_adf argnums_h : Argnums)
    (i : ℕ) (model : List Arg → K → E) (args : List Arg) (kwargs : K) (x0 : ℝ) (ys : List Arg)
    (zs : ℝ → List Arg) (hi : i < args.length)
    (hadf : ∀ x : ℝ, SelArgs (args.set i (.num x)) argnums_adf (.num x :: ys))
    (hh : ∀ x : ℝ, SelArgs (args.set i (.num x)) argnums_h (zs x))
    (sa : ContDiffAt ℝ 1 (fun x => adf (.num x :: ys)) x0)
    (sm : ContDiffAt ℝ 1 (fun x => model (args.set i (.num x)) kwargs) x0)
    (sh : ∀ h', h = some h' → ContinuousAt (fun x => h' (zs x)) x0)
    (h0 : adf (.num x0 :: ys) = 0) (h1 : |deriv (fun x => adf (.num x :: ys)) x0| = 1) :
    ∃ u : ℝ → E, (∀ x, imposeNeumannBc adf h argnums_adf i argnums_h model (args.set i (.num x)) kwargs = .ok (u x)) ∧
      DifferentiableAt ℝ u x0 ∧
      -deriv (fun x => adf (.num x :: ys)) x0 • deriv u x0 = h.elim 0 fun h' => h' (zs x0) := by
  set a : ℝ → ℝ := fun x => adf (.num x :: ys) with ha
  set v : ℝ → E := fun x => model (args.set i (.num x)) kwargs with hv
  set H : ℝ → E := fun x => h.elim 0 fun h' => h' (zs x) with hH
  have cH : ContinuousAt H x0 := by
    cases h with
    | none => exact continuousAt_const
    | some h' => exact sh h' rfl
  refine ⟨fun x => v x - a x • (deriv a x • deriv v x) - a x • H x, fun x => ?_, ?_⟩
  · have hx : pyIndex (args.set i (.num x)) (i : ℤ) = .ok (.num x) := by
      rw [pyIndex_iff]
      left
      exact ⟨by omega, by simp [hi]⟩
    have hset : ∀ y : Arg, pySliceTo (args.set i (.num x)) (i : ℤ) ++ y :: pySliceFrom (args.set i (.num x)) ((i : ℤ) + 1) =
        args.set i y := by
      intro y
      rw [pySlices _ i (by simpa using hi), List.set_set]
    simp only [imposeNeumannBc, hx, pick_of_forall₂ (hadf x), pick_of_forall₂ (hh x), hset, bind, Except.bind, pure,
      Except.pure]
    cases h <;> rfl
  · have da := (sa.differentiableAt (by norm_num)).hasFDerivAt
    have dm := (sm.differentiableAt (by norm_num)).hasFDerivAt
    have cd : ∀ {G : Type} [NormedAddCommGroup G] [NormedSpace ℝ G] {f : ℝ → G}, ContDiffAt ℝ 1 f x0 →
        ContinuousAt (deriv f) x0 := by
      intro G _ _ f hf
      exact ((hf.fderiv_right (m := 0) (by norm_num)).continuousAt).clm_apply continuousAt_const
    have key := (dm.sub (hasFDerivAt_smul_of_zero da h0 ((cd sa).smul (cd sm)))).sub (hasFDerivAt_smul_of_zero da h0 cH)
    refine ⟨key.differentiableAt, ?_⟩
    rw [← fderiv_apply_one_eq_deriv (f := fun x => v x - a x • (deriv a x • deriv v x) - a x • H x),
      HasFDerivAt.fderiv (f := fun x => v x - a x • (deriv a x • deriv v x) - a x • H x) key]
    have hsq : deriv a x0 * deriv a x0 = 1 := by rw [← abs_mul_abs_self, h1, one_mul]
    simp only [sub_apply, ContinuousLinearMap.smulRight_apply, fderiv_apply_one_eq_deriv]
    simp only [smul_sub, smul_smul, neg_mul, hsq]
    simp [hH]

/-- On the interval `x < 1` with `adf = 1 - x` the derivative of the constrained model at `1` is the prescribed `4`. -/
example (model : List Arg → Unit → ℝ) (adf : List Arg → ℝ) (hadf : ∀ x : ℝ, adf [.num x] = 1 - x)
    (sm : ContDiffAt ℝ 1 (fun x => model [.num x] ()) (1 : ℝ)) :
    ∃ u : ℝ → ℝ, (∀ x, imposeNeumannBc adf (some fun _ => 4) (.int 0) (0 : ℕ) (.int 0) model [.num x] () = .ok (u x)) ∧
      deriv u 1 = 4 := by
  have ha : (fun x : ℝ => adf [.num x]) = fun x => 1 - x := funext hadf
  have hd : deriv (fun x : ℝ => adf [.num x]) 1 = -1 := by rw [ha, deriv_const_sub]; exact congrArg Neg.neg (deriv_id 1)
  obtain ⟨u, h1, -, h2⟩ := C79_neumann_scalar adf (some fun _ => (4 : ℝ)) (.int 0) (.int 0) 0 model [.num 1] () 1 []
    (fun x => [.num x]) (by simp) (fun x => ⟨_, rfl, (by left; simp)⟩) (fun x => ⟨_, rfl, (by left; simp)⟩)
    (by rw [ha]; exact (contDiff_const.sub contDiff_id).contDiffAt) sm (fun _ h => by cases h; exact continuousAt_const)
    (by rw [hadf, sub_self]) (by rw [hd]; norm_num)
  refine ⟨u, h1, ?_⟩
  rw [hd, neg_neg, one_smul] at h2
  exact h2

end

/-- A negative `argnum_model` does not work for the last argument: `args[argnum_model + 1:]` is all of `args` then, so
the model is called with the arguments twice. -/
theorem C79_last_argument {K E : Type} [NormedAddCommGroup E] [NormedSpace ℝ E] (adf : List Arg → ℝ)
    (argnums_adf argnums_h : Argnums) (model : List Arg → K → E) (args : List Arg) (kwargs : K) (x : Arg)
    (xs : List Arg) (zs : List Arg) (hadf : SelArgs (args ++ [x]) argnums_adf xs)
    (hh : SelArgs (args ++ [x]) argnums_h zs) (h0 : adf xs = 0) (u : E)
    (h : imposeNeumannBc adf none argnums_adf (-1) argnums_h model (args ++ [x]) kwargs = .ok u) :
    u = model (args ++ [x] ++ (args ++ [x])) kwargs := by
  have hx : pyIndex (args ++ [x]) (-1) = .ok x := by
    rw [pyIndex_iff]
    right
    simp
  have hset : ∀ y : Arg, pySliceTo (args ++ [x]) (-1) ++ y :: pySliceFrom (args ++ [x]) (-1 + 1) =
      args ++ [y] ++ (args ++ [x]) := by
    intro y
    have : pyBound (args ++ [x]).length (-1) = args.length := by
      unfold pyBound
      rw [if_pos (by omega), List.length_append, List.length_singleton]
      omega
    rw [pySliceTo, pySliceFrom, this, List.take_left]
    simp [pyBound]
  simp only [imposeNeumannBc, hx, pick_of_forall₂ hadf, pick_of_forall₂ hh, hset, bind, Except.bind, pure,
    Except.pure, h0, zero_smul, sub_zero] at h
  rcases x with x | ⟨k, x⟩ <;> rcases xs with _ | ⟨y | ⟨k', y⟩, ys⟩ <;> try (cases h; done)
  · cases h; rfl
  · by_cases e : k' = k
    · simp only [dif_pos e, Except.ok.injEq] at h
      exact h.symm
    · simp only [dif_neg e] at h
      cases h

/-- The result for the last of two arguments contains four arguments. -/
example (model : List Arg → Unit → ℝ) (adf : List Arg → ℝ) (h : ∀ x : Pt 1, adf [.vec 1 x] = 1 - ‖x‖) (x : Pt 1)
    (hx : ‖x‖ = 1) (u : ℝ)
    (hu : imposeNeumannBc adf none (.int (-1)) (-1) (.int 0) model [.num 5, .vec 1 x] () = .ok u) :
    u = model [.num 5, .vec 1 x, .num 5, .vec 1 x] () :=
  C79_last_argument adf (.int (-1)) (.int 0) model [.num 5] () (.vec 1 x) [.vec 1 x] [.num 5]
    ⟨_, rfl, (by right; simp)⟩ ⟨_, rfl, (by left; simp)⟩ (by rw [h, hx, sub_self]) u hu

/-- On the unit disk with `adf = (1 - |x|^2) / 2`, for all models and Neumann data of the time as second argument. -/
example (model : List Arg → Unit → ℝ) (t : ℝ) (h' : List Arg → ℝ) (x0 : Pt 2) (hx : ‖x0‖ = 1)
    (sm : ContDiffAt ℝ 1 (fun x => model [.vec 2 x, .num t] ()) x0) (adf : List Arg → ℝ)
    (hadf : ∀ x : Pt 2, adf [.vec 2 x] = (1 - ‖x‖ ^ 2) / 2) :
    ∃ u : Pt 2 → ℝ, (∀ x, imposeNeumannBc adf (some h') (.int 0) 0 (.int 1) model [.vec 2 x, .num t] () = .ok (u x)) ∧
      fderiv ℝ u x0 x0 = h' [.num t] := by
  have ha : (fun x : Pt 2 => adf [.vec 2 x]) = fun x => (1 - ‖x‖ ^ 2) / 2 := funext hadf
  have hgrad : gradient (fun x : Pt 2 => adf [.vec 2 x]) x0 = -x0 := by
    rw [ha]
    apply HasGradientAt.gradient
    rw [hasGradientAt_iff_hasFDerivAt]
    have h2 := ((hasStrictFDerivAt_norm_sq x0).hasFDerivAt.const_sub 1).mul_const (1 / 2)
    have e : (1 / 2 : ℝ) • -(2 • (innerSL ℝ) x0) = (InnerProductSpace.toDual ℝ (Pt 2)) (-x0) := by
      ext y
      simp
    rw [← e]
    refine h2.congr_of_eventuallyEq (Filter.Eventually.of_forall fun y => ?_)
    show (1 - ‖y‖ ^ 2) / 2 = (1 - ‖y‖ ^ 2) * (1 / 2)
    ring
  obtain ⟨u, h1, -, h2⟩ := C79_neumann adf (some h') (.int 0) (.int 1) 0 model [.vec 2 x0, .num t] () x0 []
    (fun _ => [.num t]) (by simp) (fun x => ⟨_, rfl, (by left; simp)⟩) (fun x => ⟨_, rfl, (by left; simp)⟩)
    (by rw [ha]; exact (contDiff_const.sub (contDiff_norm_sq ℝ)).div_const 2 |>.contDiffAt) sm
    (fun _ _ => continuousAt_const) (by rw [hadf, hx]; norm_num) (by rw [hgrad, norm_neg, hx])
  refine ⟨u, h1, ?_⟩
  rw [hgrad, neg_neg] at h2
  exact h2

/-! ## C80 -/

theorem dense_length {features : ℕ} {p : DenseParams} {x : List XR} (h : p.HasShape x.length features) :
    ∃ y, dense features p x = .ok y ∧ y.length = features := by
  refine ⟨_, if_pos h, by simp⟩

theorem hidden_length (activation : XR → XR) (params : MLPParams) (layers : List ℕ) (s : ℕ) (x : List XR)
    (h : ∀ i (hi : i < layers.length), (params.layers_ (s + i)).HasShape
      ((x.length :: layers)[i]'(by simp; omega)) layers[i]) :
    ∃ y, (layers.zipIdx s).foldlM (fun x (layer, i) => do
      let y ← dense layer (params.layers_ i) x
      return y.map activation) x = Except.ok (ε := Err) y ∧ y.length = (x.length :: layers).getLast (by simp) := by
  induction layers generalizing s x with
  | nil => exact ⟨x, rfl, rfl⟩
  | cons l layers ih =>
    obtain ⟨y, hy, hl⟩ := dense_length (h 0 (by simp))
    have := ih (s + 1) (y.map activation) (fun i hi => by
      have := h (i + 1) (by simp; omega)
      rw [show s + (i + 1) = s + 1 + i by omega] at this
      simpa [hl] using this)
    obtain ⟨z, hz, hzl⟩ := this
    refine ⟨z, ?_, ?_⟩
    · rw [List.zipIdx_cons, List.foldlM_cons]
      simp only [Nat.add_zero, List.getElem_cons_zero] at hy
      simp only [hy, bind, Except.bind, pure, Except.pure]
      exact hz
    · rw [hzl]
      simp [hl]

/-- An MLP maps vectors with `n0` entries to a number if its last layer has one neuron and otherwise to a vector with as
many entries as the last layer has neurons, for all parameters of the shapes of `mlp`. -/
theorem C80_shape (n0 : ℕ) (hidden : List ℕ) (out : ℕ) (activation : XR → XR) (params : MLPParams)
    (hp : ∀ i (hi : i < hidden.length), (params.layers_ i).HasShape ((n0 :: hidden)[i]'(by simp; omega)) hidden[i])
    (ho : params.output_layer.HasShape ((n0 :: hidden).getLast (by simp)) out) (x : List XR) (hx : x.length = n0) :
    ∃ r, MLP.apply (hidden ++ [out]) activation params x = .ok r ∧
      ((∃ v, r = .inl v) ↔ out = 1) ∧ ∀ y, r = .inr y → y.length = out := by
  subst hx
  obtain ⟨y, hy, hl⟩ := hidden_length activation params hidden 0 x (by simpa using hp)
  rw [← hl] at ho
  obtain ⟨z, hz, hzl⟩ := dense_length ho
  have hh : MLP.hidden activation params hidden x = .ok y := hy
  simp only [MLP.apply, List.dropLast_concat, hh, List.getLast?_concat, hz, bind, Except.bind]
  by_cases h1 : out = 1
  · rw [if_pos h1]
    exact ⟨_, rfl, by simp [h1], by simp⟩
  · rw [if_neg h1]
    refine ⟨_, rfl, by simp [h1], fun y hy => ?_⟩
    cases hy
    exact hzl

/-- `mlp` creates parameters of these shapes, if the initializers of the layers do. -/
theorem C80_init (init : ℕ → ℕ → ℕ → DenseParams) (hinit : ∀ i a b, (init i a b).HasShape a b) (n0 : ℕ)
    (hidden : List ℕ) (out : ℕ) :
    ∃ params, mlp init (n0 :: (hidden ++ [out])) = .ok (hidden ++ [out], params) ∧
      (∀ i (hi : i < hidden.length), (params.layers_ i).HasShape ((n0 :: hidden)[i]'(by simp; omega)) hidden[i]) ∧
      params.output_layer.HasShape ((n0 :: hidden).getLast (by simp)) out := by
  have hm : mlp init (n0 :: (hidden ++ [out])) = .ok (hidden ++ [out],
      ⟨fun i => init i ((n0 :: (hidden ++ [out])).getD i 0) ((hidden ++ [out]).getD i 0),
        init ((hidden ++ [out]).length - 1) ((n0 :: (hidden ++ [out])).getD ((hidden ++ [out]).length - 1) 0) out⟩) := by
    simp only [mlp, MLP.init, List.getLast?_concat, bind, Except.bind, pure, Except.pure]
  refine ⟨_, hm, fun i hi => ?_, ?_⟩
  · have e1 : (n0 :: (hidden ++ [out])).getD i 0 = (n0 :: hidden)[i]'(by simp; omega) := by
      rw [← List.cons_append, List.getD_eq_getElem?_getD, List.getElem?_append_left (by simp; omega),
        List.getElem?_eq_getElem (by simp; omega), Option.getD_some]
    have e2 : (hidden ++ [out]).getD i 0 = hidden[i] := by
      rw [List.getD_eq_getElem?_getD, List.getElem?_append_left hi, List.getElem?_eq_getElem hi, Option.getD_some]
    simp only
    rw [e1, e2]
    exact hinit _ _ _
  · simp only
    have e1 : (n0 :: (hidden ++ [out])).getD ((hidden ++ [out]).length - 1) 0 = (n0 :: hidden).getLast (by simp) := by
      rw [← List.cons_append, List.getD_eq_getElem?_getD, List.getElem?_append_left (by simp), List.getLast_eq_getElem]
      simp
    rw [e1]
    exact hinit _ _ _

/-- At least an input and an output layer are needed. -/
theorem C80_too_short (init : ℕ → ℕ → ℕ → DenseParams) (n0 : ℕ) :
    mlp init [] = .error .indexError ∧ mlp init [n0] = .error .indexError := ⟨rfl, rfl⟩

/-- Inputs of another size are rejected. -/
theorem C80_mismatch (n0 : ℕ) (hidden : List ℕ) (out : ℕ) (activation : XR → XR) (params : MLPParams)
    (hp : ∀ i (hi : i < hidden.length), (params.layers_ i).HasShape ((n0 :: hidden)[i]'(by simp; omega)) hidden[i])
    (ho : params.output_layer.HasShape ((n0 :: hidden).getLast (by simp)) out) (x : List XR) (hx : x.length ≠ n0) :
    MLP.apply (hidden ++ [out]) activation params x = .error .valueError := by
  cases hidden with
  | nil =>
    have : ¬ params.output_layer.HasShape x.length out := fun h => hx (h.1.symm.trans ho.1)
    simp [MLP.apply, MLP.hidden, dense, this, bind, Except.bind, pure, Except.pure]
  | cons l hidden =>
    have h0 := hp 0 (by simp)
    have : ¬ (params.layers_ 0).HasShape x.length l := fun h => hx (h.1.symm.trans h0.1)
    have hh : MLP.hidden activation params (l :: hidden) x = .error .valueError := by
      rw [MLP.hidden, List.zipIdx_cons, List.foldlM_cons]
      simp only [dense, if_neg this, bind, Except.bind]
    rw [MLP.apply, List.dropLast_concat, hh]
    rfl

/-- `mlp` with layers `[2, 10, 10, 1]`: vectors with two entries are mapped to numbers, vectors with three are
rejected. -/
example (activation : XR → XR) (a b c : XR) :
    ∃ params, mlp (fun i a b => ⟨List.replicate a (List.replicate b (fin i)), List.replicate b 0⟩) [2, 10, 10, 1] =
        .ok ([10, 10, 1], params) ∧
      (∃ v, MLP.apply [10, 10, 1] activation params [a, b] = .ok (.inl v)) ∧
      MLP.apply [10, 10, 1] activation params [a, b, c] = .error .valueError := by
  obtain ⟨params, h1, h2, h3⟩ := C80_init (fun i a b => ⟨List.replicate a (List.replicate b (fin i)), List.replicate b 0⟩)
    (fun i a b => ⟨by simp, fun row hrow => by rw [List.eq_of_mem_replicate hrow]; simp, by simp⟩) 2 [10, 10] 1
  refine ⟨params, h1, ?_, C80_mismatch 2 [10, 10] 1 activation params h2 h3 [a, b, c] (by simp)⟩
  obtain ⟨r, hr, hs, -⟩ := C80_shape 2 [10, 10] 1 activation params h2 h3 [a, b] rfl
  obtain ⟨v, rfl⟩ := hs.mpr rfl
  exact ⟨v, hr⟩

end Verif
