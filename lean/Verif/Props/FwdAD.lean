import Verif.Lemmas.FwdAD

/-! # C157: forward differentiation of R-functions and ADFs -/

namespace Verif

open XR

/-- The R-systems whose operations are smooth away from the points where both operands vanish: `RAlpha` with
`-1 < alpha < 1` (such as `r0`), `RP` with even `p ≥ 2` (such as `rp2` and `rp4`) and `RAlphaM` with `m ≥ 0`,
`-1 < alpha < 1`, each with its differentiated program. -/
inductive ADProvided : RFunD → RFun → Prop
  | ralpha (α : ℝ) (S : RFun) (h : RAlpha α = .ok S) (hα : α ≠ 1) : ADProvided (RAlpha.sysD α) S
  | rp (p : ℕ) (h : RP p = .ok (p : ℤ)) (h2 : 2 ≤ p) : ADProvided (RP.sysD p) (RP.sys p)
  | ralpham (m α : ℝ) (S : RFun) (h : RAlphaM m α = .ok S) (hm : 0 ≤ m) (hα : α ≠ 1) : ADProvided (RAlphaM.sysD m α) S

theorem ADProvided.adSystem {S : RFunD} {P : RFun} (h : ADProvided S P) : ADSystem S P := by
  cases h with
  | ralpha α _ h hα =>
    unfold RAlpha at h
    split at h
    · rename_i h'
      injection h with h; subst h
      exact RAlpha.adSystem h'.1 (lt_of_le_of_ne h'.2 hα)
    · cases h
  | rp p h h2 =>
    unfold RP at h
    split at h
    · rename_i h'
      exact RP.adSystem (by omega) h2
    · cases h
  | ralpham m α _ h hm hα =>
    unfold RAlphaM at h
    split at h
    · rename_i h'
      injection h with h; subst h
      exact RAlphaM.adSystem hm h'.1 (lt_of_le_of_ne h'.2 hα)
    · cases h

theorem ADProvided.signLaw {S : RFunD} {P : RFun} (h : ADProvided S P) : SignLaw P.conj P.disj := by
  cases h with
  | ralpha α _ h hα => exact (ProvidedSystem.ralpha α P h).signLaw
  | rp p h h2 => exact (ProvidedSystem.rp p h (by exact_mod_cast h2)).signLaw
  | ralpham m α _ h hm hα => exact (ProvidedSystem.ralpham m α P h hm).signLaw

/-- Differentiation does not change the values: the value part of the differentiated program is the program itself, for
set expressions, boxes and spheres, and for all inputs, also infinite ones and `nan`. -/
theorem C157_primal {ι : Type*} {n : ℕ} (S : RFunD) (P : RFun) (hS : ADProvided S P) :
    (∀ (leaf : ι → ADF n) (leafD : ι → DADF n), (∀ i, Primal (leafD i) (leaf i)) →
      ∀ e : SetExpr ι, Primal (e.buildD S leafD) (e.build P leaf)) ∧
    (∀ (e : EdgeArg n) (c : Bool), Primal (cuboidD e c S) (cuboid e c P)) ∧
    (∀ r : XR, Primal (sphereD (n := n) r) (sphere r)) :=
  ⟨fun leaf leafD hl e => buildD_primal hS.adSystem leaf leafD hl e, fun e c => cuboidD_primal hS.adSystem e c,
    fun r => sphereD_primal r⟩

/-- Set expressions: the tangent is the derivative of the computed function at every point where no set operation meets two
operands which are both on their boundaries (and where the tangents of the leaves are right); at every other point it is
`nan` in every direction. The value is right in both cases. -/
theorem C157_csg {ι : Type*} {n : ℕ} (S : RFunD) (P : RFun) (hS : ADProvided S P) (leaf : ι → ADF n) (leafD : ι → DADF n)
    (f : ι → Pt n → ℝ) (hf : ∀ i y, leaf i (efin y) = fin (f i y)) (x : Pt n) (r : ι → Prop)
    (hr : ∀ i, Outcome (r i) (fun v => leafD i (seed x v)) (f i) x) (e : SetExpr ι) :
    ∃ h : Pt n → ℝ, (∀ y, e.build P leaf (efin y) = fin (h y)) ∧
      (e.regular (fun i => SignType.sign (f i x)) r → IsAD (fun v => e.buildD S leafD (seed x v)) h x) ∧
      (¬ e.regular (fun i => SignType.sign (f i x)) r → NoTangent (fun v => e.buildD S leafD (seed x v)) (h x)) := by
  choose h h1 _ using fun y => csg_kleene hS.signLaw leaf (efin y) (fun i => f i y) (fun i => hf i y) e
  exact ⟨h, h1, csg_outcome hS.adSystem hS.signLaw leaf leafD f hf x r hr e h h1⟩

/-- `r1 = RAlpha(1)` (minimum and maximum): the tangent is right exactly where the operands differ, and `nan` in every
direction where they agree, on the boundary or not. -/
theorem C157_r1 {n : ℕ} (d e : Pt n → Dual) (f g : Pt n → ℝ) (x : Pt n) (hd : IsAD d f x) (he : IsAD e g x) :
    (f x ≠ g x → IsAD (fun v => (RAlpha.sysD 1).conj (d v) (e v)) (fun y => min (f y) (g y)) x ∧
      IsAD (fun v => (RAlpha.sysD 1).disj (d v) (e v)) (fun y => max (f y) (g y)) x) ∧
    (f x = g x → NoTangent (fun v => (RAlpha.sysD 1).conj (d v) (e v)) (f x) ∧
      NoTangent (fun v => (RAlpha.sysD 1).disj (d v) (e v)) (f x)) := by
  have h := r1_outcome (p := True) (q := True) (d := d) (e := e) (f := f) (g := g) (x := x)
    ⟨fun _ => hd, fun h => absurd trivial h⟩ ⟨fun _ => he, fun h => absurd trivial h⟩
  refine ⟨fun hne => ⟨h.1.1 ⟨trivial, trivial, hne⟩, h.2.1 ⟨trivial, trivial, hne⟩⟩, fun heq => ⟨?_, ?_⟩⟩
  · have := h.1.2 fun h => h.2.2 heq
    beta_reduce at this
    rwa [heq, min_self, ← heq] at this
  · have := h.2.2 fun h => h.2.2 heq
    beta_reduce at this
    rwa [heq, max_self, ← heq] at this

example : IsAD (fun v : Pt 2 => (RAlpha.sysD 1).conj (seed !₂[1, 2] v 0) (seed !₂[1, 2] v 1)) (fun y => min (y 0) (y 1)) !₂[1, 2] :=
  ((C157_r1 _ _ _ _ _ (seed_isAD _ 0) (seed_isAD _ 1)).1 (by simp)).1

/-- `RhoBlending` with `rho > 0`: the tangent is right at every point, also where both operands are on their boundaries and
on the circle where the blending begins. -/
theorem C157_rho {n : ℕ} (ρ : ℝ) (hρ : 0 < ρ) (d e : Pt n → Dual) (f g : Pt n → ℝ) (x : Pt n) (hd : IsAD d f x)
    (he : IsAD e g x) :
    ∃ h k : Pt n → ℝ, (∀ y, (RhoBlending ρ).conj (fin (f y)) (fin (g y)) = fin (h y)) ∧
      (∀ y, (RhoBlending ρ).disj (fin (f y)) (fin (g y)) = fin (k y)) ∧
      IsAD (fun v => (RhoBlending.sysD ρ).conj (d v) (e v)) h x ∧
      IsAD (fun v => (RhoBlending.sysD ρ).disj (d v) (e v)) k x := by
  choose h k c₀ d₀ h1 h2 _ using fun y => C06_rho_blending ρ hρ (f y) (g y)
  have := rho_isAD hρ hd he
  exact ⟨h, k, h1, h2, this.1 h h1, this.2 k h2⟩

example : ∃ h k : Pt 2 → ℝ, (∀ y, (RhoBlending 1).conj (fin (y 0)) (fin (y 1)) = fin (h y)) ∧
    (∀ y, (RhoBlending 1).disj (fin (y 0)) (fin (y 1)) = fin (k y)) ∧
    IsAD (fun v : Pt 2 => (RhoBlending.sysD 1).conj (seed 0 v 0) (seed 0 v 1)) h 0 ∧
    IsAD (fun v : Pt 2 => (RhoBlending.sysD 1).disj (seed 0 v 0) (seed 0 v 1)) k 0 :=
  C157_rho 1 one_pos _ _ _ _ _ (seed_isAD _ 0) (seed_isAD _ 1)

/-- `sphere`: the tangent is right everywhere but at the centre, where it is `nan`, although the function is differentiable
there with derivative zero. -/
theorem C157_sphere {n : ℕ} (r : ℝ) (hr : r ≠ 0) :
    ∃ h : Pt n → ℝ, (∀ y, sphere (fin r) (efin y) = fin (h y)) ∧
      (∀ x, x ≠ 0 → IsAD (fun v => sphereD (fin r) (seed x v)) h x) ∧
      NoTangent (fun v => sphereD (fin r) (seed (0 : Pt n) v)) (h 0) ∧ HasFDerivAt h (0 : Pt n →L[ℝ] ℝ) 0 := by
  refine ⟨_, sphere_real hr, fun x hx => (sphereD_outcome hr x _ (sphere_real hr)).1 hx,
    (sphereD_outcome hr 0 _ (sphere_real hr)).2 (by simp), sphere_deriv_centre r⟩

example : ∃ h : Pt 3 → ℝ, (∀ y, sphere (fin 2) (efin y) = fin (h y)) ∧
    (∀ x, x ≠ 0 → IsAD (fun v => sphereD (fin 2) (seed x v)) h x) ∧
    NoTangent (fun v => sphereD (fin 2) (seed (0 : Pt 3) v)) (h 0) ∧ HasFDerivAt h (0 : Pt 3 →L[ℝ] ℝ) 0 :=
  C157_sphere 2 two_ne_zero

/-- `cylinder`: the tangent is right off the axis and `nan` on it. -/
theorem C157_cylinder {n : ℕ} (r : ℝ) (hr : r ≠ 0) (x : Pt (n + 2)) (h : Pt (n + 2) → ℝ)
    (hh : ∀ y, cylinder (fin r) (efin y) = fin (h y)) :
    (¬ (x 0 = 0 ∧ x 1 = 0) → IsAD (fun v => cylinderD (fin r) (seed x v)) h x) ∧
    (x 0 = 0 ∧ x 1 = 0 → NoTangent (fun v => cylinderD (fin r) (seed x v)) (h x)) :=
  ⟨(cylinderD_outcome hr x h hh).1, fun hax => (cylinderD_outcome hr x h hh).2 (not_not.mpr hax)⟩

/-- `cuboid` and `cube` (with positive edges `w`): the tangent is right at every point with at most one coordinate on a face
plane; at a point of the closed box with two coordinates on face planes (an edge or a corner) it is `nan` in every
direction. -/
theorem C157_cuboid {n : ℕ} (hn : 0 < n) (S : RFunD) (P : RFun) (hS : ADProvided S P) (e : EdgeArg n) (w : Fin n → ℝ)
    (he : ∀ i, e.get i = fin (w i)) (hw : ∀ i, 0 < w i) (c : Bool) (lb ub : Fin n → ℝ)
    (hlb : lb = fun i => if c then -(w i) / 2 else 0) (hub : ub = fun i => if c then w i / 2 else w i) :
    ∃ h : Pt n → ℝ, (∀ y, cuboid e c P (efin y) = fin (h y)) ∧
      (∀ x : Pt n, (∀ i j, OnFace lb ub (fun i => x i) i → OnFace lb ub (fun i => x i) j → i = j) →
        IsAD (fun v => cuboidD e c S (seed x v)) h x) ∧
      (∀ x : Pt n, (∀ i, lb i ≤ x i ∧ x i ≤ ub i) →
        (∃ i j, i ≠ j ∧ OnFace lb ub (fun i => x i) i ∧ OnFace lb ub (fun i => x i) j) →
        NoTangent (fun v => cuboidD e c S (seed x v)) (h x)) := by
  have hlb' : ∀ i, cuboid.lb e c i = fin (lb i) := by
    intro i; rw [hlb]
    cases c
    · simp [cuboid.lb]
    · simp only [cuboid.lb, he, if_true, fin_neg, lit_eq]
      rw [fin_div _ (by norm_num)]
  have hub' : ∀ i, cuboid.ub e c i = fin (ub i) := by
    intro i; rw [hub]
    cases c
    · simp [cuboid.ub, he]
    · simp only [cuboid.ub, he, if_true, lit_eq]
      rw [fin_div _ (by norm_num)]
  have hlt : ∀ i, lb i < ub i := by
    intro i; rw [hlb, hub]
    have := hw i
    cases c
    · simpa using this
    · simp only [if_true]; linarith
  choose h hh using fun y => cuboid_fin hn hS.signLaw e c lb ub hlb' hub' y
  refine ⟨h, hh, fun x hx => ?_, fun x hx hface => ?_⟩
  · obtain ⟨a, l, hf, ho⟩ := cuboidD_outcome hn hS.adSystem hS.signLaw e c lb ub hlb' hub' x h hh
    have hp := (faces_pairwise lb ub (fun i => x i) hlt).mpr hx
    rw [hf, List.pairwise_cons] at hp
    refine ho.1 (noClash_of_pairwise l _ (fun h0 b hb h1 => hp.1 b hb ⟨sign_eq_zero_iff.mp h0, h1⟩) hp.2)
  · obtain ⟨a, l, hf, ho⟩ := cuboidD_outcome hn hS.adSystem hS.signLaw e c lb ub hlb' hub' x h hh
    refine ho.2 fun hcl => ?_
    have hnn : ∀ b ∈ faces lb ub (fun i => x i), 0 ≤ b := by
      intro b hb
      simp only [faces, List.mem_flatMap, List.mem_finRange, true_and, List.mem_cons, List.not_mem_nil, or_false] at hb
      obtain ⟨i, rfl | rfl⟩ := hb
      · linarith [(hx i).2]
      · linarith [(hx i).1]
    rw [hf] at hnn
    obtain ⟨h1, h2⟩ := pairwise_of_noClash l (SignType.sign a) (sign_nonneg_iff.mpr (hnn a (by simp)))
      (fun b hb => hnn b (by simp [hb])) hcl
    have hp : (faces lb ub (fun i => x i)).Pairwise (fun a b => ¬ (a = 0 ∧ b = 0)) := by
      rw [hf, List.pairwise_cons]
      exact ⟨fun b hb hab => h1 (by rw [hab.1, sign_zero]) b hb hab.2, h2⟩
    obtain ⟨i, j, hij, hi, hj⟩ := hface
    exact hij ((faces_pairwise lb ub (fun i => x i) hlt).mp hp i j hi hj)

/-- `translate` and `scale` move the points where the tangent is right with the solid. -/
theorem C157_transforms {n : ℕ} (fD : DADF n) (h : Pt n → ℝ) (p : Prop) (x y : Pt n) (s : ℝ) (hs : s ≠ 0) :
    (Outcome p (fun w => fD (seed (x - y) w)) h (x - y) →
      Outcome p (fun v => translateD fD (efin y) (seed x v)) (fun z => h (z - y)) x) ∧
    (Outcome p (fun w => fD (seed (s⁻¹ • x) w)) h (s⁻¹ • x) →
      Outcome p (fun v => scaleByD fD (fin s) (seed x v)) (fun z => h (s⁻¹ • z) * s) x) :=
  ⟨translateD_outcome x y, scaleByD_outcome hs x⟩

example : ∃ h : Pt 3 → ℝ, ∀ x : Pt 3, x ≠ !₂[1, 0, 0] →
    IsAD (fun v => translateD (sphereD (fin 2)) (efin !₂[1, 0, 0]) (seed x v)) (fun z => h (z - !₂[1, 0, 0])) x := by
  obtain ⟨h, -, h2, -, -⟩ := C157_sphere (n := 3) 2 two_ne_zero
  exact ⟨h, fun x hx => (((C157_transforms _ h True x _ 1 one_ne_zero).1 ⟨fun _ => h2 _ (sub_ne_zero.mpr hx), fun h => absurd trivial h⟩).1) trivial⟩

/-- Spheres, boxes and set expressions of such pass a `nan` tangent on. -/
theorem C157_strict {ι : Type*} {n : ℕ} (S : RFunD) (P : RFun) (hS : ADProvided S P) :
    (∀ leafD : ι → DADF n, (∀ i, Strict (leafD i)) → ∀ e : SetExpr ι, Strict (e.buildD S leafD)) ∧
    (∀ (e : EdgeArg n) (c : Bool), Strict (cuboidD e c S)) ∧ (∀ r : XR, Strict (sphereD (n := n) r)) :=
  ⟨fun leafD hl e => buildD_strict hS.adSystem leafD hl e, fun e c => cuboidD_strict hS.adSystem e c,
    fun r => sphereD_strict r⟩

/-- `revolution`: off the axis the tangent is right where that of the plane figure is; on the whole axis it is `nan`. -/
theorem C157_revolution (fD : DADF 2) (F : ADF 2) (hprim : Primal fD F) (hst : Strict fD) (h : Pt 2 → ℝ)
    (hF : ∀ y, F (efin y) = fin (h y)) (x : Pt 3) (p : Prop) :
    (Outcome p (fun w => fD (seed (!₂[x 0, Real.sqrt (x 1 ^ 2 + x 2 ^ 2)]) w)) h
        (!₂[x 0, Real.sqrt (x 1 ^ 2 + x 2 ^ 2)]) →
      ∃ gD : DADF 3, (∀ z, revolutionD fD 0 z = .ok (gD z)) ∧
        Outcome (p ∧ ¬ (x 1 = 0 ∧ x 2 = 0)) (fun v => gD (seed x v))
          (fun y => h (!₂[y 0, Real.sqrt (y 1 ^ 2 + y 2 ^ 2)])) x) ∧
    (Outcome p (fun w => fD (seed (!₂[Real.sqrt (x 0 ^ 2 + x 2 ^ 2), x 1]) w)) h
        (!₂[Real.sqrt (x 0 ^ 2 + x 2 ^ 2), x 1]) →
      ∃ gD : DADF 3, (∀ z, revolutionD fD 1 z = .ok (gD z)) ∧
        Outcome (p ∧ ¬ (x 0 = 0 ∧ x 2 = 0)) (fun v => gD (seed x v))
          (fun y => h (!₂[Real.sqrt (y 0 ^ 2 + y 2 ^ 2), y 1])) x) :=
  ⟨revolutionD_outcome hprim hst hF x, revolutionD_outcome₁ hprim hst hF x⟩

/-- `jacfwd` gives the gradient where the tangents are right, and `nan` in every entry where they are not. -/
theorem C157_jacfwd {n : ℕ} (fD : DADF n) (h : Pt n → ℝ) (p : Prop) (x : Pt n)
    (ho : Outcome p (fun w => fD (seed x w)) h x) :
    (p → DifferentiableAt ℝ h x ∧ jacfwdD fD (efin x) = efin (gradient h x)) ∧
    (¬ p → ∀ k, jacfwdD fD (efin x) k = nan) :=
  jacfwdD_outcome ho

example : ∃ h : Pt 3 → ℝ, (∀ y, sphere (fin 2) (efin y) = fin (h y)) ∧
    (∀ x, x ≠ 0 → jacfwdD (sphereD (fin 2)) (efin x) = efin (gradient h x)) ∧
    ∀ k, jacfwdD (sphereD (fin 2)) (efin (0 : Pt 3)) k = nan := by
  obtain ⟨h, h1, h2, h3, -⟩ := C157_sphere (n := 3) 2 two_ne_zero
  exact ⟨h, h1, fun x hx => ((C157_jacfwd _ h True x ⟨fun _ => h2 x hx, fun h => absurd trivial h⟩).1 trivial).2,
    (C157_jacfwd _ h False 0 ⟨fun h => h.elim, fun _ => h3⟩).2 id⟩

/-- `normalize_1st_order`: the value is `f / √(f² + ‖∇f‖²)` where the tangents of `f` are right, and `nan` where they are
not, even if `f` itself is finite and smooth there. -/
theorem C157_normalize {n : ℕ} (hn : 0 < n) (fD : DADF n) (F : ADF n) (h : Pt n → ℝ) (p : Prop) (x : Pt n)
    (hF : F (efin x) = fin (h x)) (ho : Outcome p (fun w => fD (seed x w)) h x) :
    (p → normalize1stOrder F (jacfwdD fD) (efin x) = fin (h x) / fin (Real.sqrt (h x ^ 2 + ‖gradient h x‖ ^ 2))) ∧
    (¬ p → normalize1stOrder F (jacfwdD fD) (efin x) = nan) :=
  normalize_outcome hn hF ho

/-- `RAlphaM` with `m > 0` is smoothed at the origin by its factor `(a² + b²) ** (m / 2)`: both operations have derivative zero
there. The computed tangent is `nan` in every direction nevertheless. -/
theorem C157_ralpham_smooth_nan (m α : ℝ) (hm : 0 < m) (h1 : -1 < α) (h2 : α < 1) :
    ∃ f g : Pt 2 → ℝ, (∀ y, RAlphaM.conj m α (fin (y 0)) (fin (y 1)) = fin (f y)) ∧
      (∀ y, RAlphaM.disj m α (fin (y 0)) (fin (y 1)) = fin (g y)) ∧
      HasFDerivAt f (0 : Pt 2 →L[ℝ] ℝ) 0 ∧ HasFDerivAt g (0 : Pt 2 →L[ℝ] ℝ) 0 ∧
      NoTangent (fun v : Pt 2 => (RAlphaM.sysD m α).conj (seed 0 v 0) (seed 0 v 1)) (f 0) ∧
      NoTangent (fun v : Pt 2 => (RAlphaM.sysD m α).disj (seed 0 v 0) (seed 0 v 1)) (g 0) := by
  have hS := RAlphaM.adSystem hm.le h1 h2
  have hc : ∀ y : Pt 2, RAlphaM.conj m α (fin (y 0)) (fin (y 1)) =
      fin (1 / (1 + α) * (y 0 + y 1 + -1 * Real.sqrt (y 0 ^ 2 + y 1 ^ 2 - 2 * α * y 0 * y 1)) *
        (y 0 ^ 2 + y 1 ^ 2) ^ (m / 2)) := by
    intro y
    rw [RAlphaM.conj_fin h1 h2.le (Or.inr hm.le)]
    congr 1; ring
  have hd : ∀ y : Pt 2, RAlphaM.disj m α (fin (y 0)) (fin (y 1)) =
      fin (1 / (1 + α) * (y 0 + y 1 + 1 * Real.sqrt (y 0 ^ 2 + y 1 ^ 2 - 2 * α * y 0 * y 1)) *
        (y 0 ^ 2 + y 1 ^ 2) ^ (m / 2)) := by
    intro y
    rw [RAlphaM.disj_dual, fin_neg, fin_neg, RAlphaM.conj_fin h1 h2.le (Or.inr hm.le), fin_neg]
    congr 1; ring_nf
  refine ⟨_, _, hc, hd, ralpham_deriv hm h1 h2.le (-1) (by norm_num), ralpham_deriv hm h1 h2.le 1 (by norm_num),
    fun v => ?_, fun v => ?_⟩
  · refine Dual.ext' ?_ (hS.conj_zero (v 0) (v 1))
    rw [hS.val_conj, ← hc 0]; rfl
  · refine Dual.ext' ?_ (hS.disj_zero (v 0) (v 1))
    rw [hS.val_disj, ← hd 0]; rfl

/-- A ball made by `revolution` of a circle around its diameter: the computed function is that of the ball, differentiable at
every point; its computed tangent is `nan` on the whole axis and right elsewhere. -/
theorem C157_revolution_ball (r : ℝ) (hr : r ≠ 0) :
    ∃ (gD : DADF 3) (h : Pt 3 → ℝ), (∀ z, revolutionD (sphereD (fin r)) 0 z = .ok (gD z)) ∧
      (∀ y, revolution (sphere (fin r)) 0 (efin y) = .ok (fin (h y))) ∧ Differentiable ℝ h ∧
      (∀ x : Pt 3, ¬ (x 1 = 0 ∧ x 2 = 0) → IsAD (fun v => gD (seed x v)) h x) ∧
      (∀ x : Pt 3, x 1 = 0 ∧ x 2 = 0 → NoTangent (fun v => gD (seed x v)) (h x)) := by
  have hn : ∀ y : Pt 3, ‖(!₂[y 0, Real.sqrt (y 1 ^ 2 + y 2 ^ 2)] : Pt 2)‖ ^ 2 = ‖y‖ ^ 2 := by
    intro y
    rw [EuclideanSpace.norm_sq_eq, EuclideanSpace.norm_sq_eq, Fin.sum_univ_two, Fin.sum_univ_three]
    show ‖y 0‖ ^ 2 + ‖Real.sqrt (y 1 ^ 2 + y 2 ^ 2)‖ ^ 2 = _
    rw [Real.norm_eq_abs (Real.sqrt _), sq_abs, Real.sq_sqrt (by positivity)]
    simp only [Real.norm_eq_abs, sq_abs]
    ring
  set h : Pt 3 → ℝ := fun y => (r ^ 2 - ‖(!₂[y 0, Real.sqrt (y 1 ^ 2 + y 2 ^ 2)] : Pt 2)‖ ^ 2) / (2 * r) with hh
  have hball : h = fun y : Pt 3 => (r ^ 2 - ‖y‖ ^ 2) / (2 * r) := funext fun y => by rw [hh]; beta_reduce; rw [hn]
  have key (x : Pt 3) := (C157_revolution (sphereD (fin r)) (sphere (fin r)) (sphereD_primal _) (sphereD_strict _) _
    (sphere_real hr) x _).1 (sphereD_outcome hr _ _ (sphere_real hr))
  refine ⟨fun z => sphereD (fin r) ![z 0, Dual.sqrt ((z 1).sq + (z 2).sq)], h, fun z => by simp [revolutionD],
    fun y => ?_, ?_, fun x hx => ?_, fun x hx => ?_⟩
  · rw [hh, ← sphere_real hr]
    simp only [revolution, if_true]
    congr 2
    funext i
    fin_cases i
    · rfl
    · show XR.sqrt (fin (y 1) ^ 2 + fin (y 2) ^ 2) = _
      rw [fin_npow, fin_npow, fin_add, fin_sqrt (by positivity)]
      rfl
  · rw [hball]
    have hd : Differentiable ℝ fun y : Pt 3 => r ^ 2 - ‖y‖ ^ 2 :=
      ((contDiff_norm_sq ℝ (n := 1)).differentiable (by norm_num)).const_sub (r ^ 2)
    simp only [div_eq_mul_inv]
    exact hd.mul_const _
  · obtain ⟨gD, h1, h2⟩ := key x
    have hg : gD = fun z => sphereD (fin r) ![z 0, Dual.sqrt ((z 1).sq + (z 2).sq)] := funext fun z => by
      have := h1 z; simp only [revolutionD, if_true, Except.ok.injEq] at this; exact this.symm
    rw [hg] at h2
    refine h2.1 ⟨fun h0 => hx ?_, hx⟩
    have h3 := congrArg (fun q : Pt 2 => q 1) h0
    have h4 : Real.sqrt (x 1 ^ 2 + x 2 ^ 2) = 0 := h3
    rw [Real.sqrt_eq_zero (by positivity)] at h4
    constructor <;> nlinarith [sq_nonneg (x 1), sq_nonneg (x 2)]
  · obtain ⟨gD, h1, h2⟩ := key x
    have hg : gD = fun z => sphereD (fin r) ![z 0, Dual.sqrt ((z 1).sq + (z 2).sq)] := funext fun z => by
      have := h1 z; simp only [revolutionD, if_true, Except.ok.injEq] at this; exact this.symm
    rw [hg] at h2
    exact h2.2 fun hp => hp.2 hx

/-! ### Concrete cases -/

theorem r0_provided : ADProvided (RAlpha.sysD 0) (RAlpha.sys 0) :=
  .ralpha 0 _ (by unfold RAlpha; rw [if_pos (by norm_num)]) (by norm_num)

example : ADProvided (RP.sysD 4) (RP.sys (4 : ℕ)) := .rp 4 (by decide) (by norm_num)

example : ADProvided (RAlphaM.sysD 2 0) (RAlphaM.sys 2 0) :=
  .ralpham 2 0 _ (by unfold RAlphaM; rw [if_pos (by norm_num)]) (by norm_num) (by norm_num)

/-- The unit square: the gradient is right in the middle of an edge and `nan` in a corner. -/
example : ∃ h : Pt 2 → ℝ, (∀ y, cuboid (.scalar (fin 1)) false (RAlpha.sys 0) (efin y) = fin (h y)) ∧
    IsAD (fun v => cuboidD (.scalar (fin 1)) false (RAlpha.sysD 0) (seed (!₂[1 / 2, 0] : Pt 2) v)) h (!₂[1 / 2, 0]) ∧
    NoTangent (fun v => cuboidD (.scalar (fin 1)) false (RAlpha.sysD 0) (seed (!₂[0, 1] : Pt 2) v)) (h (!₂[0, 1])) := by
  obtain ⟨h, h1, h2, h3⟩ := C157_cuboid (n := 2) (by norm_num) _ _ r0_provided (.scalar (fin 1)) (fun _ => 1)
    (fun _ => rfl) (fun _ => by norm_num) false _ _ rfl rfl
  refine ⟨h, h1, h2 _ ?_, h3 _ ?_ ⟨0, 1, by decide, Or.inl (by simp), Or.inr (by simp)⟩⟩
  · intro i j hi hj
    fin_cases i <;> fin_cases j <;> simp [OnFace] at hi hj ⊢
  · intro i
    fin_cases i <;> simp

/-- Two discs which cross at `x`: the tangent of their union is `nan` there; where only one circle passes it is right. -/
example (x c : Pt 2) (hx : x ≠ 0) (hx1 : x - c ≠ 0) :
    ∃ h : Pt 2 → ℝ,
      (∀ y, (SetExpr.union (.leaf true) (.leaf false)).build (RAlpha.sys 0)
        (fun b => if b then sphere (fin 1) else translate (sphere (fin 1)) (efin c)) (efin y) = fin (h y)) ∧
      (¬ (‖x‖ = 1 ∧ ‖x - c‖ = 1) →
        IsAD (fun v => (SetExpr.union (.leaf true) (.leaf false)).buildD (RAlpha.sysD 0)
          (fun b => if b then sphereD (fin 1) else translateD (sphereD (fin 1)) (efin c)) (seed x v)) h x) ∧
      (‖x‖ = 1 ∧ ‖x - c‖ = 1 →
        NoTangent (fun v => (SetExpr.union (.leaf true) (.leaf false)).buildD (RAlpha.sysD 0)
          (fun b => if b then sphereD (fin 1) else translateD (sphereD (fin 1)) (efin c)) (seed x v)) (h x)) := by
  have hz : ∀ y : Pt 2, SignType.sign ((1 ^ 2 - ‖y‖ ^ 2) / (2 * 1) : ℝ) = 0 ↔ ‖y‖ = 1 := by
    intro y
    rw [sign_eq_zero_iff]
    constructor
    · intro h
      have : ‖y‖ ^ 2 = 1 ^ 2 := by linarith
      exact (sq_eq_sq₀ (norm_nonneg y) zero_le_one).mp this
    · intro h; rw [h]; norm_num
  have hc := C157_csg _ _ r0_provided
    (fun b : Bool => if b then sphere (fin 1) else translate (sphere (fin 1)) (efin c))
    (fun b : Bool => if b then sphereD (fin 1) else translateD (sphereD (fin 1)) (efin c))
    (fun b y => if b then (1 ^ 2 - ‖y‖ ^ 2) / (2 * 1) else (1 ^ 2 - ‖y - c‖ ^ 2) / (2 * 1))
    (fun b y => by
      cases b
      · show sphere (fin 1) (fun i => efin y i - efin c i) = _
        rw [show (fun i => efin y i - efin c i) = efin (y - c) from funext fun i => by simp]
        exact sphere_real one_ne_zero (y - c)
      · exact sphere_real one_ne_zero y)
    x (fun b => if b then x ≠ 0 else x - c ≠ 0)
    (fun b => by
      cases b
      · exact translateD_outcome x c (sphereD_outcome one_ne_zero _ _ (sphere_real one_ne_zero))
      · exact sphereD_outcome one_ne_zero x _ (sphere_real one_ne_zero))
    (.union (.leaf true) (.leaf false))
  obtain ⟨h, h1, h2, h3⟩ := hc
  refine ⟨h, h1, fun hne => h2 ⟨hx, hx1, fun hk => hne ?_⟩, fun hb => h3 fun hk => hk.2.2 ?_⟩
  · exact ⟨(hz x).mp hk.1, (hz _).mp hk.2⟩
  · exact ⟨(hz x).mpr hb.1, (hz _).mpr hb.2⟩

example : ∃ h : Pt 3 → ℝ, (∀ y, sphere (fin 1) (efin y) = fin (h y)) ∧
    normalize1stOrder (sphere (fin 1)) (jacfwdD (sphereD (fin 1))) (efin (0 : Pt 3)) = nan :=
  ⟨_, sphere_real one_ne_zero, (C157_normalize (by norm_num) _ _ _ _ 0 (sphere_real one_ne_zero 0)
    (sphereD_outcome one_ne_zero 0 _ (sphere_real one_ne_zero))).2 (by simp)⟩

end Verif
