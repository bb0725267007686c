import Verif.Lemmas.NestedShapes
import Verif.Model.ElmAD
import Verif.Props.FwdAD
import Verif.Props.ElmPoisson
import Verif.Props.Calc

/-! # C167: nested forward differentiation of R-functions and ADFs -/

namespace Verif

open XR
open scoped ContDiff Topology
open InnerProductSpace Laplacian

/-- The R-systems whose operations are smooth away from the points where both operands vanish: `RAlpha` with
`-1 < alpha < 1` (such as `r0`), `RP` with even `p ≥ 2` (such as `rp2` and `rp4`) and `RAlphaM` with `m ≥ 0`,
`-1 < alpha < 1`, each with its program for differentiated numbers. -/
inductive NestProvided : ((α : Type) → [ADNum α] → RFunG α) → RFun → Prop
  | ralpha (α : ℝ) (S : RFun) (h : RAlpha α = .ok S) (hα : α ≠ 1) : NestProvided (RAlpha.sysG α) S
  | rp (p : ℕ) (h : RP p = .ok (p : ℤ)) (h2 : 2 ≤ p) : NestProvided (RP.sysG p) (RP.sys p)
  | ralpham (m α : ℝ) (S : RFun) (h : RAlphaM m α = .ok S) (hm : 0 ≤ m) (hα : α ≠ 1) : NestProvided (RAlphaM.sysG m α) S

theorem NestProvided.system {S : (α : Type) → [ADNum α] → RFunG α} {P : RFun} (h : NestProvided S P) : NestSystem S P := by
  cases h with
  | ralpha α _ h hα =>
    unfold RAlpha at h
    split at h
    · rename_i h'
      injection h with h; subst h
      exact RAlpha.nestSystem h'.1 (lt_of_le_of_ne h'.2 hα)
    · cases h
  | rp p h h2 =>
    unfold RP at h
    split at h
    · rename_i h'
      exact RP.nestSystem (by omega) h2
    · cases h
  | ralpham m α _ h hm hα =>
    unfold RAlphaM at h
    split at h
    · rename_i h'
      injection h with h; subst h
      exact RAlphaM.nestSystem hm h'.1 (lt_of_le_of_ne h'.2 hα)
    · cases h

theorem NestProvided.signLaw {S : (α : Type) → [ADNum α] → RFunG α} {P : RFun} (h : NestProvided S P) :
    SignLaw P.conj P.disj := by
  cases h with
  | ralpha α _ h hα => exact (ProvidedSystem.ralpha α P h).signLaw
  | rp p h h2 => exact (ProvidedSystem.rp p h (by exact_mod_cast h2)).signLaw
  | ralpham m α _ h hm hα => exact (ProvidedSystem.ralpham m α P h hm).signLaw

theorem r0_nest : NestProvided (RAlpha.sysG 0) (RAlpha.sys 0) :=
  .ralpha 0 _ (by unfold RAlpha; rw [if_pos (by norm_num)]) (by norm_num)

example : NestProvided (RP.sysG 4) (RP.sys (4 : ℕ)) := .rp 4 (by decide) (by norm_num)

example : NestProvided (RAlphaM.sysG 2 0) (RAlphaM.sys 2 0) :=
  .ralpham 2 0 _ (by unfold RAlphaM; rw [if_pos (by norm_num)]) (by norm_num) (by norm_num)

/-- What the outcomes below mean for a call below `k` nested `jvp`s in directions `vs 0`, ..., `vs (k - 1)`: if `p` holds, the
function is smooth at the point and the result carries the value and every mixed derivative; if not, every derivative is `nan`. -/
theorem C167_derivatives {n : ℕ} (p : Prop) (F : (k : ℕ) → GADF (Nested k) n) (f : Pt n → ℝ) (x : Pt n)
    (h : NestOutcome p F f x) :
    (p → ContDiffAt ℝ ∞ f x ∧ ∀ k vs, Carries k vs (F k (seedK x vs k)) f x) ∧
    (¬ p → ∀ k vs, Poisoned k (F k (seedK x vs k))) := by
  have h1 := fun k vs => h n k x vs _ (fun y => y) rfl (seedK_ok x vs k)
  exact ⟨fun hp => ⟨(rep_sound x 0 0).smooth ((h1 0 0).1 hp).1, fun k vs => ((h1 k vs).1 hp).1.carries⟩,
    fun hp k vs => (h1 k vs).2 hp⟩

/-- Set expressions: all derivatives of all orders are right at every point where no set operation meets two operands which are
both on their boundaries (and where the derivatives of the leaves are right); at every other point all of them are `nan`. -/
theorem C167_csg {ι : Type*} {n : ℕ} (S : (α : Type) → [ADNum α] → RFunG α) (P : RFun) (hS : NestProvided S P) (leaf : ι → ADF n)
    (leafG : ι → (k : ℕ) → GADF (Nested k) n) (f : ι → Pt n → ℝ) (hf : ∀ i y, leaf i (efin y) = fin (f i y)) (x : Pt n)
    (r : ι → Prop) (hr : ∀ i, NestOutcome (r i) (leafG i) (f i) x) (e : SetExpr ι) :
    ∃ h : Pt n → ℝ, (∀ y, e.build P leaf (efin y) = fin (h y)) ∧
      NestOutcome (e.regular (fun i => SignType.sign (f i x)) r) (fun k => e.buildG (S (Nested k)) fun i => leafG i k) h x := by
  choose h h1 _ using fun y => csg_kleene hS.signLaw leaf (efin y) (fun i => f i y) (fun i => hf i y) e
  refine ⟨h, h1, ?_⟩
  rintro l k x vs a T rfl ha
  exact csg_nest hS.system hS.signLaw leaf f hf x vs T a (fun i => leafG i k) r (fun i => hr i l k x vs a T rfl ha) e h h1

/-- Two discs which cross at `x`: all derivatives of their union are `nan` there, whatever their number; where only one circle passes
they are right. -/
example (x c : Pt 2) (hx : x ≠ 0) (hx1 : x - c ≠ 0) :
    ∃ h : Pt 2 → ℝ,
      (∀ y, (SetExpr.union (.leaf true) (.leaf false)).build (RAlpha.sys 0)
        (fun b => if b then sphere (fin 1) else translate (sphere (fin 1)) (efin c)) (efin y) = fin (h y)) ∧
      NestOutcome (¬ (‖x‖ = 1 ∧ ‖x - c‖ = 1)) (fun k => (SetExpr.union (.leaf true) (.leaf false)).buildG (RAlpha.sysG 0 (Nested k))
          fun b => if b then sphereG (fin 1) else translateG (sphereG (fin 1)) (efin c)) h x := by
  have hz : ∀ y : Pt 2, SignType.sign ((1 ^ 2 - ‖y‖ ^ 2) / (2 * 1) : ℝ) = 0 ↔ ‖y‖ = 1 := by
    intro y
    rw [sign_eq_zero_iff]
    constructor
    · intro h
      have : ‖y‖ ^ 2 = 1 ^ 2 := by linarith
      exact (sq_eq_sq₀ (norm_nonneg y) zero_le_one).mp this
    · intro h; rw [h]; norm_num
  obtain ⟨h, h1, h2⟩ := C167_csg _ _ r0_nest
    (fun b : Bool => if b then sphere (fin 1) else translate (sphere (fin 1)) (efin c))
    (fun b k => if b then sphereG (fin 1) else translateG (sphereG (fin 1)) (efin c))
    (fun b y => if b then (1 ^ 2 - ‖y‖ ^ 2) / (2 * 1) else (1 ^ 2 - ‖y - c‖ ^ 2) / (2 * 1))
    (fun b y => by
      cases b
      · show sphere (fin 1) (fun i => efin y i - efin c i) = _
        rw [show (fun i => efin y i - efin c i) = efin (y - c) from funext fun i => by simp]
        exact sphere_real one_ne_zero (y - c)
      · exact sphere_real one_ne_zero y)
    x (fun b => if b then x ≠ 0 else x - c ≠ 0)
    (fun b => by
      cases b
      · exact translate_nestOutcome x c (sphere_nestOutcome (by norm_num) one_ne_zero _)
      · exact sphere_nestOutcome (by norm_num) one_ne_zero x)
    (.union (.leaf true) (.leaf false))
  refine ⟨h, h1, ?_⟩
  have e : (¬ (‖x‖ = 1 ∧ ‖x - c‖ = 1)) ↔ (SetExpr.union (.leaf true) (.leaf false)).regular
      (fun b : Bool => SignType.sign (if b then (1 ^ 2 - ‖x‖ ^ 2) / (2 * 1) else (1 ^ 2 - ‖x - c‖ ^ 2) / (2 * 1) : ℝ))
      (fun b : Bool => if b then x ≠ 0 else x - c ≠ 0) := by
    rw [← hz x, ← hz (x - c)]
    exact ⟨fun h => ⟨hx, hx1, h⟩, fun h => h.2.2⟩
  rw [propext e]
  exact h2

/-- `sphere`: all derivatives of all orders are right everywhere but at the centre, where all of them are `nan`, although the
function is a polynomial. -/
theorem C167_sphere {n : ℕ} (hn : 0 < n) (r : ℝ) (hr : r ≠ 0) :
    ∃ h : Pt n → ℝ, (∀ y, sphere (fin r) (efin y) = fin (h y)) ∧ ContDiff ℝ ∞ h ∧
      ∀ x, NestOutcome (x ≠ 0) (fun _ => sphereG (fin r)) h x := by
  refine ⟨_, sphere_real hr, ?_, sphere_nestOutcome hn hr⟩
  exact (contDiff_const.sub (contDiff_norm_sq ℝ)).div_const _

/-- `cylinder`: all derivatives of all orders are right off the axis and `nan` on it. -/
theorem C167_cylinder {n : ℕ} (r : ℝ) (hr : r ≠ 0) (x : Pt (n + 2)) (h : Pt (n + 2) → ℝ)
    (hh : ∀ y, cylinder (fin r) (efin y) = fin (h y)) :
    NestOutcome (¬ (x 0 = 0 ∧ x 1 = 0)) (fun _ => cylinderG (fin r)) h x :=
  cylinder_nestOutcome hr x h hh

example : ∃ h : Pt 3 → ℝ, (∀ y, cylinder (fin 2) (efin y) = fin (h y)) ∧ ∀ x : Pt 3,
    NestOutcome (¬ (x 0 = 0 ∧ x 1 = 0)) (fun _ => cylinderG (fin 2)) h x := by
  refine ⟨fun y => (2 ^ 2 - ‖(!₂[y 0, y 1] : Pt 2)‖ ^ 2) / (2 * 2), fun y => ?_, fun x => C167_cylinder 2 two_ne_zero x _ fun y => ?_⟩ <;>
  · rw [← sphere_real two_ne_zero]
    unfold cylinder
    congr 1
    funext i
    fin_cases i <;> rfl

/-- `cuboid` and `cube` (with positive edges `w`): all derivatives of all orders are right at every point with at most one
coordinate on a face plane; at a point of the closed box with two coordinates on face planes (an edge or a corner) all of them are
`nan`. -/
theorem C167_cuboid {n : ℕ} (hn : 0 < n) (S : (α : Type) → [ADNum α] → RFunG α) (P : RFun) (hS : NestProvided S P) (e : EdgeArg n)
    (w : Fin n → ℝ) (he : ∀ i, e.get i = fin (w i)) (hw : ∀ i, 0 < w i) (c : Bool) (lb ub : Fin n → ℝ)
    (hlb : lb = fun i => if c then -(w i) / 2 else 0) (hub : ub = fun i => if c then w i / 2 else w i) :
    ∃ h : Pt n → ℝ, (∀ y, cuboid e c P (efin y) = fin (h y)) ∧
      (∀ x : Pt n, (∀ i j, OnFace lb ub (fun i => x i) i → OnFace lb ub (fun i => x i) j → i = j) →
        NestOutcome True (fun k => cuboidG e c (S (Nested k))) h x) ∧
      (∀ x : Pt n, (∀ i, lb i ≤ x i ∧ x i ≤ ub i) →
        (∃ i j, i ≠ j ∧ OnFace lb ub (fun i => x i) i ∧ OnFace lb ub (fun i => x i) j) →
        NestOutcome False (fun k => cuboidG e c (S (Nested k))) h x) := by
  have hlb' : ∀ i, cuboid.lb e c i = fin (lb i) := by
    intro i; rw [hlb]
    cases c
    · simp [cuboid.lb]
    · simp only [cuboid.lb, he, if_true, fin_neg, lit_eq]
      rw [fin_div _ (by norm_num)]
  have hub' : ∀ i, cuboid.ub e c i = fin (ub i) := by
    intro i; rw [hub]
    cases c
    · simp [cuboid.ub, he]
    · simp only [cuboid.ub, he, if_true, lit_eq]
      rw [fin_div _ (by norm_num)]
  have hlt : ∀ i, lb i < ub i := by
    intro i; rw [hlb, hub]
    have := hw i
    cases c
    · simpa using this
    · simp only [if_true]; linarith
  choose h hh using fun y => cuboid_fin hn hS.signLaw e c lb ub hlb' hub' y
  refine ⟨h, hh, fun x hx => ?_, fun x hx hface => ?_⟩
  · rintro l k x vs a T rfl ha
    obtain ⟨b, l, hf, ho⟩ := cuboid_nout hn hS.system hS.signLaw e c lb ub hlb' hub' ha h hh
    have hp := (faces_pairwise lb ub (fun i => T x i) hlt).mpr hx
    rw [hf, List.pairwise_cons] at hp
    exact ho.iff (iff_true_intro
      (noClash_of_pairwise l _ (fun h0 b hb h1 => hp.1 b hb ⟨sign_eq_zero_iff.mp h0, h1⟩) hp.2))
  · rintro l k x vs a T rfl ha
    obtain ⟨b, l, hf, ho⟩ := cuboid_nout hn hS.system hS.signLaw e c lb ub hlb' hub' ha h hh
    refine ho.iff (iff_false_intro fun hcl => ?_)
    have hnn : ∀ b ∈ faces lb ub (fun i => T x i), 0 ≤ b := by
      intro b hb
      simp only [faces, List.mem_flatMap, List.mem_finRange, true_and, List.mem_cons, List.not_mem_nil, or_false] at hb
      obtain ⟨i, rfl | rfl⟩ := hb
      · linarith [(hx i).2]
      · linarith [(hx i).1]
    rw [hf] at hnn
    obtain ⟨h1, h2⟩ := pairwise_of_noClash l (SignType.sign b) (sign_nonneg_iff.mpr (hnn b (by simp)))
      (fun b hb => hnn b (by simp [hb])) hcl
    have hp : (faces lb ub (fun i => T x i)).Pairwise (fun a b => ¬ (a = 0 ∧ b = 0)) := by
      rw [hf, List.pairwise_cons]
      exact ⟨fun b hb hab => h1 (by rw [hab.1, sign_zero]) b hb hab.2, h2⟩
    obtain ⟨i, j, hij, hi, hj⟩ := hface
    exact hij ((faces_pairwise lb ub (fun i => T x i) hlt).mp hp i j hi hj)

/-- `translate` and `scale` move the points where the derivatives are right with the solid. -/
theorem C167_transforms {n : ℕ} (F : (k : ℕ) → GADF (Nested k) n) (h : Pt n → ℝ) (p : Prop) (x y : Pt n) (s : ℝ) (hs : s ≠ 0) :
    (NestOutcome p F h (x - y) → NestOutcome p (fun k => translateG (F k) (efin y)) (fun z => h (z - y)) x) ∧
    (NestOutcome p F h (s⁻¹ • x) → NestOutcome p (fun k => scaleByG (F k) (fin s)) (fun z => h (s⁻¹ • z) * s) x) :=
  ⟨translate_nestOutcome x y, scaleBy_nestOutcome hs x⟩

/-- Spheres, boxes and set expressions of such pass `nan` on, entry by entry. -/
theorem C167_strict {ι : Type*} {n : ℕ} (S : (α : Type) → [ADNum α] → RFunG α) (P : RFun) (hS : NestProvided S P) :
    (∀ leafG : ι → (k : ℕ) → GADF (Nested k) n, (∀ i, NestStrict (leafG i)) →
      ∀ e : SetExpr ι, NestStrict fun k => e.buildG (S (Nested k)) fun i => leafG i k) ∧
    (∀ (e : EdgeArg n) (c : Bool), NestStrict fun k => (cuboidG e c (S (Nested k)) : GADF (Nested k) n)) ∧
    (∀ r : XR, NestStrict fun k => (sphereG r : GADF (Nested k) n)) :=
  ⟨fun leafG hl e => build_strict hS.system leafG hl e, fun e c => cuboid_strict hS.system e c, fun r => sphere_strict r⟩

/-- `revolution`: off the axis all derivatives are right where those of the plane figure are; on the whole axis all are `nan`. -/
theorem C167_revolution (F : (k : ℕ) → GADF (Nested k) 2) (hF : NestStrict F) (h : Pt 2 → ℝ) (x : Pt 3) (p : Prop) :
    (NestOutcome p F h (!₂[x 0, Real.sqrt (x 1 ^ 2 + x 2 ^ 2)]) →
      ∃ G : (k : ℕ) → GADF (Nested k) 3, (∀ k z, revolutionG (F k) 0 z = .ok (G k z)) ∧
        NestOutcome (p ∧ ¬ (x 1 = 0 ∧ x 2 = 0)) G (fun y => h (!₂[y 0, Real.sqrt (y 1 ^ 2 + y 2 ^ 2)])) x) ∧
    (NestOutcome p F h (!₂[Real.sqrt (x 0 ^ 2 + x 2 ^ 2), x 1]) →
      ∃ G : (k : ℕ) → GADF (Nested k) 3, (∀ k z, revolutionG (F k) 1 z = .ok (G k z)) ∧
        NestOutcome (p ∧ ¬ (x 0 = 0 ∧ x 2 = 0)) G (fun y => h (!₂[Real.sqrt (y 0 ^ 2 + y 2 ^ 2), y 1])) x) :=
  ⟨revolution_nestOutcome hF x, revolution_nestOutcome₁ hF x⟩

/-- A ball made by `revolution` of a circle around its diameter. -/
example (x : Pt 3) : ∃ G : (k : ℕ) → GADF (Nested k) 3, (∀ k z, revolutionG (sphereG (fin 2)) 0 z = .ok (G k z)) ∧
    NestOutcome (!₂[x 0, Real.sqrt (x 1 ^ 2 + x 2 ^ 2)] ≠ (0 : Pt 2) ∧ ¬ (x 1 = 0 ∧ x 2 = 0)) G
      (fun y => (2 ^ 2 - ‖(!₂[y 0, Real.sqrt (y 1 ^ 2 + y 2 ^ 2)] : Pt 2)‖ ^ 2) / (2 * 2)) x :=
  (C167_revolution _ (sphere_strict _) _ x _).1 (sphere_nestOutcome (by norm_num) two_ne_zero _)

/-- `hvp` and `laplace`: the Hessian times a vector and the Laplacian where the derivatives are right, and `nan` where they are
not. -/
theorem C167_laplace {n : ℕ} (hn : 0 < n) (p : Prop) (F : (k : ℕ) → GADF (Nested k) n) (f : Pt n → ℝ) (x : Pt n)
    (h : NestOutcome p F f x) :
    (p → (∀ v j, hvpG (F 2) (efin x) (efin v) j =
        fin (fderiv ℝ (fun y => fderiv ℝ f y (EuclideanSpace.single j 1)) x v)) ∧ laplaceG (F 2) (efin x) = fin ((Δ f) x)) ∧
    (¬ p → (∀ v j, hvpG (F 2) (efin x) (efin v) j = nan) ∧ laplaceG (F 2) (efin x) = nan) := by
  refine ⟨fun hp => ⟨fun v j => (hvpG_outcome' h v j).1 hp, ?_⟩,
    fun hp => ⟨fun v j => (hvpG_outcome h v j).2 hp, (laplaceG_outcome hn h).2 hp⟩⟩
  rw [(laplaceG_outcome hn h).1 hp, C81_laplace]
  exact ((C167_derivatives p F f x h).1 hp).1.of_le (by norm_cast)

/-- The computed Laplacian of a ball is right but at its centre. -/
example : ∃ h : Pt 3 → ℝ, (∀ y, sphere (fin 2) (efin y) = fin (h y)) ∧
    (∀ x, x ≠ 0 → laplaceG (sphereG (fin 2)) (efin x) = fin ((Δ h) x)) ∧ laplaceG (sphereG (fin 2)) (efin (0 : Pt 3)) = nan := by
  obtain ⟨h, h1, -, h2⟩ := C167_sphere (n := 3) (by norm_num) 2 two_ne_zero
  exact ⟨h, h1, fun x hx => ((C167_laplace (by norm_num) _ (fun _ => sphereG (fin 2)) h x (h2 x)).1 hx).2,
    ((C167_laplace (by norm_num) _ (fun _ => sphereG (fin 2)) h 0 (h2 0)).2 (by simp)).2⟩

/-- The unit square: third derivatives in the middle of an edge, and the Laplacian there and in a corner. -/
example : ∃ h : Pt 2 → ℝ, (∀ y, cuboid (.scalar (fin 1)) false (RAlpha.sys 0) (efin y) = fin (h y)) ∧
    (∀ vs, Carries 3 vs (cuboidG (.scalar (fin 1)) false (RAlpha.sysG 0 (Nested 3)) (seedK (!₂[1 / 2, 0] : Pt 2) vs 3)) h (!₂[1 / 2, 0])) ∧
    laplaceG (cuboidG (.scalar (fin 1)) false (RAlpha.sysG 0 (Nested 2))) (efin (!₂[1 / 2, 0] : Pt 2)) = fin ((Δ h) (!₂[1 / 2, 0])) ∧
    laplaceG (cuboidG (.scalar (fin 1)) false (RAlpha.sysG 0 (Nested 2))) (efin (!₂[0, 1] : Pt 2)) = nan := by
  obtain ⟨h, h1, h2, h3⟩ := C167_cuboid (n := 2) (by norm_num) _ _ r0_nest (.scalar (fin 1)) (fun _ => 1)
    (fun _ => rfl) (fun _ => by norm_num) false _ _ rfl rfl
  have h4 := h2 (!₂[1 / 2, 0] : Pt 2) (by
    intro i j hi hj
    fin_cases i <;> fin_cases j <;> simp [OnFace] at hi hj ⊢)
  have h5 := h3 (!₂[0, 1] : Pt 2) (by intro i; fin_cases i <;> simp) ⟨0, 1, by decide, Or.inl (by simp), Or.inr (by simp)⟩
  exact ⟨h, h1, ((C167_derivatives _ _ h _ h4).1 trivial).2 3, ((C167_laplace (by norm_num) _ _ h _ h4).1 trivial).2,
    ((C167_laplace (by norm_num) _ _ h _ h5).2 id).2⟩

/-- Below any number of `jvp`s the value of the result is that of the program without differentiation, for set expressions, boxes
and spheres, and for all inputs, also infinite ones and `nan`. -/
theorem C167_primal {ι : Type*} {n : ℕ} (S : (α : Type) → [ADNum α] → RFunG α) (P : RFun) (hS : NestProvided S P) (k : ℕ) :
    (∀ (leaf : ι → ADF n) (leafG : ι → GADF (Nested k) n), (∀ i a, value k (leafG i a) = leaf i fun j => value k (a j)) →
      ∀ (e : SetExpr ι) (a : Fin n → Nested k), value k (e.buildG (S (Nested k)) leafG a) = e.build P leaf fun j => value k (a j)) ∧
    (∀ (e : EdgeArg n) (c : Bool) (a : Fin n → Nested k),
      value k (cuboidG e c (S (Nested k)) a) = cuboid e c P fun j => value k (a j)) ∧
    (∀ (r : XR) (a : Fin n → Nested k), value k (sphereG r a) = sphere r fun j => value k (a j)) :=
  ⟨fun leaf leafG hl e a => build_value hS.system leaf leafG hl e a, fun e c a => cuboid_value hS.system e c a,
    fun r a => sphere_value r a⟩

/-! ## `elm_poisson.ipynb` -/

variable {N k r : ℕ} (s : ElmPoisson N k r)

/-- The right hand side `b` is the Laplacian of the solution at every sample. -/
theorem C167_elm_rhs (n : Fin N) : s.bAD n = fin ((Δ ElmPoisson.solution) (s.x_dom n)) := by
  have h : NestOutcome True (fun _ => ElmPoisson.solutionG) ElmPoisson.solution (s.x_dom n) := by
    intro l k x vs a T hT ha
    have S := rep_sound x vs k
    refine ⟨fun _ => ⟨?_, tracked_mul (tracked_sin (tracked_mul_right (ha 0).2))⟩, fun h => absurd trivial h⟩
    exact S.mul (S.sin (S.mul (S.const _) (ha 0).1)) (S.sin (S.mul (S.const _) (ha 1).1))
  exact ((C167_laplace (by norm_num) _ _ _ _ h).1 trivial).2

theorem elm_exp_nestOutcome (a : Fin k) (x : Pt 2) : NestOutcome (x ≠ s.W_elm a)
    (fun k z => ADNum.exp (ADNum.const (fin (-s.gamma)) *ₐ
      ADNum.ipow (vnormG fun i => z i -ₐ (ADNum.const (fin (s.W_elm a i)) : Nested k)) 2))
    (fun y => Real.exp (-s.gamma * ‖y - s.W_elm a‖ ^ 2)) x := by
  rintro l k x vs z T rfl ha
  have S := rep_sound x vs k
  have h1 := vnorm_nout (T := fun y => T y - s.W_elm a) (by norm_num) fun i =>
    ⟨S.sub (ha i).1 (S.const (s.W_elm a i)), tracked_sub (e := ADNum.const (fin (s.W_elm a i))) (ha i).2⟩
  refine ⟨fun hp => ?_, fun hp => ?_⟩
  · have h2 := h1.1 (sub_ne_zero.mpr hp)
    refine ⟨S.congr (S.exp (S.mul (S.const (-s.gamma)) (S.ipow 2 h2.1 (Or.inl (by norm_num)))))
      (Filter.Eventually.of_forall fun y => ?_), tracked_exp (tracked_mul_right (tracked_ipow _ h2.2))⟩
    norm_cast
  · push Not at hp
    exact poisoned_of_nan (h1.2 (by rw [hp, sub_self]; simp)) fun b hb =>
      nexp_nan _ _ _ (mul_nan _ _ _ _ (Or.inr (ipow_nan _ _ 2 (by norm_num) _ hb)))

theorem NestOutcome.mul {n : ℕ} {p q : Prop} {F G : (k : ℕ) → GADF (Nested k) n} {f g : Pt n → ℝ} {x : Pt n}
    (hF : NestOutcome p F f x) (hG : NestOutcome q G g x) :
    NestOutcome (p ∧ q) (fun k a => F k a *ₐ G k a) (fun y => f y * g y) x := by
  rintro l k x vs a T rfl ha
  have h1 := hF l k x vs a T rfl ha
  have h2 := hG l k x vs a T rfl ha
  refine ⟨fun h => ⟨(rep_sound x vs k).mul (h1.1 h.1).1 (h2.1 h.2).1, tracked_mul (h1.1 h.1).2⟩, fun h => ?_⟩
  by_cases hp : p
  · exact poisoned_of_nan (h2.2 fun hq => h ⟨hp, hq⟩) fun b hb => mul_nan _ _ _ _ (Or.inr hb)
  · exact poisoned_of_nan (h1.2 hp) fun b hb => mul_nan _ _ _ _ (Or.inl hb)

theorem elm_adf_nestOutcome (x : Pt 2) : NestOutcome (¬ ∀ i, x i = 0 ∨ x i = 1)
    (fun k => cuboidG (.scalar 1) false (RAlpha.sysG 0 (Nested k))) ElmPoisson.adf x := by
  obtain ⟨h, h1, h2, h3⟩ := C167_cuboid (n := 2) (by norm_num) _ _ r0_nest (.scalar 1) (fun _ => 1)
    (fun _ => one_eq) (fun _ => by norm_num) false _ _ rfl rfl
  have e : h = ElmPoisson.adf := funext fun y => by
    rw [ElmPoisson.adf, cube, h1]; rfl
  rw [e] at h2 h3
  by_cases hx : ∀ i, x i = 0 ∨ x i = 1
  · rw [eq_false (not_not.mpr hx)]
    refine h3 x ?_ ⟨0, 1, by decide, hx 0, hx 1⟩
    intro i
    rcases hx i with h | h <;> rw [h] <;> simp
  · rw [eq_true hx]
    refine h2 x fun i j hi hj => ?_
    by_contra hij
    refine hx fun l => ?_
    have hl : l = i ∨ l = j := by
      have key : ∀ i j l : Fin 2, i ≠ j → l = i ∨ l = j := by decide
      exact key i j l hij
    rcases hl with rfl | rfl
    · exact hi
    · exact hj

/-- The entries of `Q` are the Laplacians of the hidden nodes, for every sample which is neither a corner of the square nor the
centre of the node. At a corner and at the centre of the node the entry is `nan`. -/
theorem C167_elm_matrix (n : Fin N) (a : Fin k) :
    ((¬ ∀ i, s.x_dom n i = 0 ∨ s.x_dom n i = 1) → s.x_dom n ≠ s.W_elm a →
      s.QAD n a = fin ((Δ fun y => s.u_elm y a) (s.x_dom n))) ∧
    ((∀ i, s.x_dom n i = 0 ∨ s.x_dom n i = 1) ∨ s.x_dom n = s.W_elm a → s.QAD n a = nan) := by
  have h := C167_laplace (by norm_num) _ _ _ _ ((elm_adf_nestOutcome (s.x_dom n)).mul (elm_exp_nestOutcome s a (s.x_dom n)))
  exact ⟨fun hx hne => (h.1 ⟨hx, hne⟩).2, fun hx => (h.2 fun h => hx.elim h.1 h.2).2⟩

/-- One sample and two nodes, one of them with its centre at the sample: its entry is `nan`, the other is right. -/
example : let s : ElmPoisson 1 2 0 := ⟨fun _ => !₂[1 / 2, 1 / 4], ![!₂[1 / 2, 1 / 4], !₂[1 / 2, 1 / 2]], 1, 20, 0, 0, 0⟩
    s.QAD 0 0 = nan ∧ s.QAD 0 1 = fin ((Δ fun y => s.u_elm y 1) !₂[1 / 2, 1 / 4]) := by
  intro s
  refine ⟨(C167_elm_matrix s 0 0).2 (Or.inr rfl), (C167_elm_matrix s 0 1).1 (fun h => ?_) fun h => ?_⟩
  · have := h 0
    simp [s] at this
  · have := congrArg (fun p : Pt 2 => p 1) h
    simp [s] at this

theorem laplace_entry {n m : ℕ} {f : Pt n → Fin m → ℝ} {x : Pt n} (h : ContDiffAt ℝ 2 f x) (a : Fin m) :
    laplace (fun y => f y a) x = laplace f x a := by
  rw [C81_laplace _ _ (contDiffAt_pi.mp h a), C81_laplace _ _ h]
  exact h.laplacian_CLM_comp_left (l := ContinuousLinearMap.proj (R := ℝ) (φ := fun _ : Fin m => ℝ) a)

/-- Where the entries are right they are those of the exact `Q`, so everything proved about the solver in C163 holds for it. -/
theorem C167_elm_exact (hx : ∀ n, (s.x_dom n).ofLp ∈ interior (Set.Icc (0 : Fin 2 → ℝ) 1)) (hne : ∀ n a, s.x_dom n ≠ s.W_elm a) :
    (∀ n a, s.QAD n a = fin (s.Q n a)) ∧ ∀ n, s.bAD n = fin (laplace ElmPoisson.solution (s.x_dom n)) := by
  refine ⟨fun n a => ?_, fun n => ?_⟩
  · have h1 : ∀ i, 0 < s.x_dom n i ∧ s.x_dom n i < 1 := by
      have := hx n
      rw [← Set.pi_univ_Icc, interior_pi_set Set.finite_univ] at this
      simpa [interior_Icc] using this
    have hC := contDiffAt_pi.mp (elmPoisson_u_contDiff s (hx n) 2) a
    rw [(C167_elm_matrix s n a).1 (fun h => ?_) (hne n a), ← C81_laplace _ _ hC]
    · congr 1
      exact laplace_entry (elmPoisson_u_contDiff s (hx n) 2) a
    · rcases h 0 with h | h <;> have := h1 0 <;> rw [h] at this <;> simp at this
  · rw [C167_elm_rhs, ← C81_laplace]
    rw [show ElmPoisson.solution = fun y : Pt 2 => Real.sin (2 * Real.pi * y 0) * Real.sin (2 * Real.pi * y 1) from rfl]
    fun_prop

end Verif
