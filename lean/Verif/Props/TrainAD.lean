import Verif.Lemmas.SolveAD
import Verif.Props.RevAD
import Verif.Props.LossGradient
import Verif.Props.MumagAD

/-! # C171: the gradient of the loss by reverse differentiation of a program which differentiates by `jacfwd` -/

namespace Verif

open XR Micromag
open scoped ContDiff Topology

/-- Spec: the program `F` computes `f` near parameters `p₀` and inputs `x₀`, for every kind of numbers which stand for functions and whose
operations respect this. -/
def NetSound {q a b : ℕ} (F : NetG q a b) (f : Pt q → Pt a → Pt b) (p₀ : Pt q) (x₀ : Pt a) : Prop :=
  ∀ (α : Type) [ADNum α] [ADSolve α] (E : Type) [NormedAddCommGroup E] [NormedSpace ℝ E] (x : E) (R : α → (E → ℝ) → Prop),
    Sound x R → SolveSound x R → ∀ (c : Fin q → α) (d : Fin a → α) (P : E → Pt q) (X : E → Pt a), P x = p₀ → X x = x₀ →
    (∀ i, R (c i) fun y => P y i) → (∀ i, R (d i) fun y => X y i) → ∀ i, R (F α c d i) fun y => f (P y) (X y) i

/-- Spec: the same for a program without parameters. -/
def FunSound {a b : ℕ} (F : FunG a b) (f : Pt a → Pt b) (x₀ : Pt a) : Prop :=
  ∀ (α : Type) [ADNum α] [ADSolve α] (E : Type) [NormedAddCommGroup E] [NormedSpace ℝ E] (x : E) (R : α → (E → ℝ) → Prop),
    Sound x R → SolveSound x R → ∀ (d : Fin a → α) (X : E → Pt a), X x = x₀ → (∀ i, R (d i) fun y => X y i) →
    ∀ i, R (F α d i) fun y => f (X y) i

/-- Spec: the same for a program of the parameters with one value. -/
def LossSound {q : ℕ} (L : LossG q) (l : Pt q → ℝ) (p₀ : Pt q) : Prop :=
  ∀ (α : Type) [ADNum α] [ADSolve α] (E : Type) [NormedAddCommGroup E] [NormedSpace ℝ E] (x : E) (R : α → (E → ℝ) → Prop),
    Sound x R → SolveSound x R → ∀ (c : Fin q → α) (P : E → Pt q), P x = p₀ → (∀ i, R (c i) fun y => P y i) →
    R (L α c) fun y => l (P y)

theorem coord_contDiff {n : ℕ} (x : Pt n) (i : Fin n) : ContDiffAt ℝ ∞ (fun y : Pt n => y i) x :=
  (PiLp.proj 2 (𝕜 := ℝ) (fun _ : Fin n => ℝ) i).contDiff.contDiffAt

theorem fderiv_coord_apply {n : ℕ} (i : Fin n) (y v : Pt n) : fderiv ℝ (fun y : Pt n => y i) y v = v i := by
  have : fderiv ℝ (fun y : Pt n => y i) y = PiLp.proj 2 (𝕜 := ℝ) (fun _ : Fin n => ℝ) i :=
    (PiLp.proj 2 (𝕜 := ℝ) (fun _ : Fin n => ℝ) i).fderiv
  rw [this]
  rfl

/-! ## Gradient, product with the Hessian and trust region method for all programs -/

section

variable {q : ℕ} {L : LossG q} {l : Pt q → ℝ} {p : Pt q}

theorem seed_liftRev {α : Type} [ADNum α] {R : α → (Pt q → ℝ) → Prop} {a : Fin q → α} (ha : ∀ i, R (a i) fun y => y i) (i : Fin q) :
    liftRev p R (fun j => (unitVec j : Pt q)) (RevNum.seed a i) fun y => y i := by
  refine ⟨ha i, fun c k hc j => ?_⟩
  simp only [fderiv_coord_apply, RevNum.seed]
  by_cases hj : j = i
  · subst hj
    rw [Function.update_self]
    show R c _
    simpa using hc
  · rw [Function.update_of_ne hj]
    show _ =ᶠ[𝓝 p] 0
    filter_upwards with y
    simp [Ne.symm hj]

theorem LossSound.back {α : Type} [ADNum α] [ADSolve α] (h : LossSound L l p) {R : α → (Pt q → ℝ) → Prop} (S : Sound p R)
    (hS : SolveSound p R) {a : Fin q → α} (ha : ∀ i, R (a i) fun y => y i) (j : Fin q) :
    R (L (RevNum q α) (RevNum.seed a)).val l ∧
    R (((L (RevNum q α) (RevNum.seed a)).back (ADNum.const 1) j).getD (ADNum.const 0)) fun y => fderiv ℝ l y (unitVec j) := by
  have h1 := h (RevNum q α) (Pt q) p _ (S.liftRev fun j => (unitVec j : Pt q)) (hS.liftRev S fun j => (unitVec j : Pt q))
    (RevNum.seed a) (fun y => y) rfl (seed_liftRev ha)
  refine ⟨h1.1, RO.getD S (RO.congr S (h1.2 (ADNum.const 1) (fun _ => 1) (one_eq ▸ S.const 1) j) ?_)⟩
  filter_upwards with y
  rw [one_mul]

/-- `jax.value_and_grad` of a program: the value and the gradient of its function, which is smooth. -/
theorem C171_grad (h : LossSound L l p) : ContDiffAt ℝ ∞ l p ∧ L XR (efin p) = fin (l p) ∧
    L.valueAndGrad (efin p) = (fin (l p), fun j => fin (fderiv ℝ l p (unitVec j))) ∧
    (L.valueAndGrad (efin p)).2 = efin (gradient l p) := by
  have h0 := h XR (Pt q) p _ (sound_base p) (solve_base p) (efin p) (fun y => y) rfl (base_seed p)
  have hb := fun j => h.back (sound_base p) (solve_base p) (base_seed p) j
  have h1 : L.valueAndGrad (efin p) = (fin (l p), fun j => fin (fderiv ℝ l p (unitVec j))) := by
    refine Prod.ext ?_ (funext fun j => (hb j).2.2)
    have h2 := h (RevNum q XR) (Pt q) p _ ((sound_base p).liftRev fun j => (unitVec j : Pt q))
      ((solve_base p).liftRev (sound_base p) fun j => (unitVec j : Pt q)) (RevNum.seed (efin p)) (fun y => y) rfl
      (seed_liftRev (base_seed p))
    exact h2.1.2
  refine ⟨h0.1, h0.2, h1, ?_⟩
  rw [h1, ← jacVec_eq_gradient (h0.1.differentiableAt (by simp))]
  rfl

/-- `jax.jvp` of `jax.grad`: the derivative of the partial derivatives in direction `v`. -/
theorem C171_hvp (h : LossSound L l p) (v : Pt q) (j : Fin q) :
    L.hvpForwardOverReverse (efin p) (efin v) j = fin (fderiv ℝ (fun y => fderiv ℝ l y (unitVec j)) p v) := by
  have S := sound_base p
  have S1 := S.lift v
  have h1 := (h.back S1 ((solve_base p).lift S v) (a := fun i => ⟨efin p i, some (efin v i)⟩) (fun i => ⟨base_seed p i, by
    simp only [fderiv_coord_apply]
    exact ⟨contDiffAt_const, rfl⟩⟩) j).2
  exact (RO.getD S h1.2).2

/-- The objective of the trust region method for a program. -/
noncomputable def LossG.objective (L : LossG q) : Objective q Unit where
  value := L XR
  aux _ := ()
  grad p := (L.valueAndGrad p).2
  hvp := L.hvpForwardOverReverse

/-- The trust region method meets the contract of exact derivatives for a program which computes a function at all parameters. -/
theorem C171_trust_region (h : ∀ p, LossSound L l p) (c : TRConf) (hc : c.approx_hvp = false) :
    ∃ B : Pt q → Pt q →ₗ[ℝ] Pt q, (∀ x v w, inner ℝ w (B x v) = fderiv ℝ (fderiv ℝ l) x v w) ∧
      SecondOrder c L.objective (gradient l) B ∧ (∀ x, L.objective.value (efin x) = fin (l x)) ∧
      ∀ x, HasGradientAt l (gradient l x) x := by
  have hs := fun x => (C171_grad (h x)).1
  have h2 : ∀ x, ContDiffAt ℝ 2 l x := fun x => (hs x).of_le (by norm_cast)
  let B : Pt q → Pt q →ₗ[ℝ] Pt q := fun x => (fderiv ℝ (gradF (A := Unit) (.plain l)) x).toLinearMap
  have hB : ∀ x v w, inner ℝ w (B x v) = fderiv ℝ (fderiv ℝ l) x v w := fun x v w =>
    (C84_hvp (A := Unit) (.plain l) l rfl x (h2 x) v w).2.2.2
  have hd : ∀ x, DifferentiableAt ℝ (fderiv ℝ l) x := fun x =>
    ((hs x).fderiv_right (m := 1) (by norm_cast)).differentiableAt (by simp)
  refine ⟨B, hB, ⟨fun x => (C171_grad (h x)).2.2.2, fun x v => ?_, fun x u v => ?_⟩, fun x => (C171_grad (h x)).2.1,
    fun x => ((hs x).differentiableAt (by simp)).hasGradientAt⟩
  · rw [TR.hvp, hc]
    funext j
    refine (C171_hvp (h x) v j).trans (congrArg fin ?_)
    have e1 : fderiv ℝ (fun y => fderiv ℝ l y (unitVec j)) x v = fderiv ℝ (fderiv ℝ l) x v (unitVec j) := by
      have := ((hd x).hasFDerivAt.clm_apply (hasFDerivAt_const (unitVec j : Pt q) x)).fderiv
      rw [this]
      simp
    rw [e1, ← hB]
    simp [unitVec, EuclideanSpace.inner_single_left]
  · rw [real_inner_comm, hB, hB]
    exact ((h2 x).isSymmSndFDerivAt (by simp)).eq u v

end

/-! ## Differentiating by the inputs inside -/

/-- `jacfwd` by the inputs of an output of a program, which closes over the parameters. -/
noncomputable def NetG.jac {q a b : ℕ} (F : NetG q a b) (i : Fin b) : NetG q a a := fun α _ _ c d =>
  jacG (fun z => F (JVP α) (fun k => ⟨c k, none⟩) z i) d

theorem partial_fderiv {q a : ℕ} {g : Pt q × Pt a → ℝ} {p : Pt q} {x : Pt a} (h : DifferentiableAt ℝ g (p, x)) (v : Pt a) :
    fderiv ℝ g (p, x) (0, v) = fderiv ℝ (fun z => g (p, z)) x v := by
  have h1 : HasFDerivAt (fun z : Pt a => (p, z)) ((0 : Pt a →L[ℝ] Pt q).prod (ContinuousLinearMap.id ℝ (Pt a))) x :=
    (hasFDerivAt_const p x).prodMk (hasFDerivAt_id x)
  have h2 := (HasFDerivAt.comp x (g := g) (f := fun z => (p, z)) h.hasFDerivAt h1).fderiv
  have h3 : (g ∘ fun z => (p, z)) = fun z => g (p, z) := rfl
  rw [h3] at h2
  rw [h2]
  simp

/-- A program which computes a function, differentiated by its inputs with `jacfwd`, computes the partial derivatives: so they may be
differentiated again by the parameters or the inputs, in forward or reverse mode. -/
theorem C171_jacfwd {q a b : ℕ} {F : NetG q a b} {f : Pt q → Pt a → Pt b} {p₀ : Pt q} {x₀ : Pt a} (h : NetSound F f p₀ x₀) (i : Fin b) :
    NetSound (F.jac i) (fun p x => WithLp.toLp 2 fun j => fderiv ℝ (fun z => f p z i) x (EuclideanSpace.single j 1)) p₀ x₀ := by
  intro α _ _ E _ _ x R S hS c d P X hP hX hc hd j
  have hPc : ContinuousAt P x := (contDiffAt_euclidean.mpr fun i => S.smooth (hc i)).continuousAt
  have hXc : ContinuousAt X x := (contDiffAt_euclidean.mpr fun i => S.smooth (hd i)).continuousAt
  have hT : Filter.Tendsto (fun y => (P y, X y)) (𝓝 x) (𝓝 (P x, X x)) := (hPc.prodMk hXc).tendsto
  have e1 : ∀ (k : Fin q) (z v : Pt q × Pt a), fderiv ℝ (fun z : Pt q × Pt a => z.1 k) z v = v.1 k := fun k z v => by
    have h1 : HasFDerivAt (fun z : Pt q × Pt a => z.1 k) ((PiLp.proj 2 (𝕜 := ℝ) (fun _ : Fin q => ℝ) k).comp
      (ContinuousLinearMap.fst ℝ (Pt q) (Pt a))) z :=
      ((PiLp.proj 2 (𝕜 := ℝ) (fun _ : Fin q => ℝ) k).comp (ContinuousLinearMap.fst ℝ (Pt q) (Pt a))).hasFDerivAt
    rw [h1.fderiv]
    rfl
  have e2 : ∀ (k : Fin a) (z v : Pt q × Pt a), fderiv ℝ (fun z : Pt q × Pt a => z.2 k) z v = v.2 k := fun k z v => by
    have h1 : HasFDerivAt (fun z : Pt q × Pt a => z.2 k) ((PiLp.proj 2 (𝕜 := ℝ) (fun _ : Fin a => ℝ) k).comp
      (ContinuousLinearMap.snd ℝ (Pt q) (Pt a))) z :=
      ((PiLp.proj 2 (𝕜 := ℝ) (fun _ : Fin a => ℝ) k).comp (ContinuousLinearMap.snd ℝ (Pt q) (Pt a))).hasFDerivAt
    rw [h1.fderiv]
    rfl
  have h1 := h (JVP α) (Pt q × Pt a) (P x, X x) _
    (S.along (T := fun y => (P y, X y)) (V := fun _ => ((0 : Pt q), (EuclideanSpace.single j 1 : Pt a))) hT)
    (hS.along S (T := fun y => (P y, X y)) (V := fun _ => ((0 : Pt q), (EuclideanSpace.single j 1 : Pt a))) hT)
    (fun k => ⟨c k, none⟩) (fun k => ⟨d k, some (ADNum.const (if k = j then 1 else 0))⟩) Prod.fst Prod.snd hP hX
    (fun k => ⟨((PiLp.proj 2 (𝕜 := ℝ) (fun _ : Fin q => ℝ) k).comp (ContinuousLinearMap.fst ℝ (Pt q) (Pt a))).contDiff.contDiffAt, hc k, by
      show _ =ᶠ[𝓝 x] 0
      filter_upwards with y
      rw [e1]
      rfl⟩)
    (fun k => ⟨((PiLp.proj 2 (𝕜 := ℝ) (fun _ : Fin a => ℝ) k).comp (ContinuousLinearMap.snd ℝ (Pt q) (Pt a))).contDiff.contDiffAt, hd k, by
      simp only [e2]
      show R _ _
      by_cases hk : k = j
      · subst hk
        simpa using (one_eq ▸ S.const 1 : R (ADNum.const 1) fun _ => 1)
      · simpa [hk] using (zero_eq ▸ S.const 0 : R (ADNum.const 0) fun _ => 0)⟩) i
  refine S.congr (RO.getD S h1.2.2) ?_
  filter_upwards [hT.eventually (ev_diff h1.1)] with y hy
  exact partial_fderiv hy _

/-! ## The magnetisation -/

section

variable {E : Type} [NormedAddCommGroup E] [NormedSpace ℝ E] {α : Type} [ADNum α] {x : E} {R : α → (E → ℝ) → Prop}

theorem skew_sound (S : Sound x R) {p : Fin 3 → α} {P : E → Pt 3} (hp : ∀ i, R (p i) fun y => P y i) (i j : Fin 3) :
    R (toSkewSimmetricMatrixG p i j) fun y => toSkewSimmetricMatrix (P y) i j := by
  have z : R (ADNum.const 0) fun _ => 0 := zero_eq ▸ S.const 0
  have key : ∀ i j : Fin 3, R ((![![ADNum.const 0, ADNum.const 0, ADNum.const 0], ![p 2, ADNum.const 0, ADNum.const 0],
      ![ADNum.neg (p 1), p 0, ADNum.const 0]] : Fin 3 → Fin 3 → α) i j) fun y => (![![0, 0, 0], ![P y 2, 0, 0], ![-P y 1, P y 0, 0]] :
      Fin 3 → Fin 3 → ℝ) i j := by
    intro i j
    fin_cases i <;> fin_cases j
    · exact z
    · exact z
    · exact z
    · exact hp 2
    · exact z
    · exact z
    · exact S.neg (hp 1)
    · exact hp 0
    · exact z
  refine S.congr (S.sub (key i j) (key j i)) ?_
  filter_upwards with y
  fin_cases i <;> fin_cases j <;> simp [toSkewSimmetricMatrix]

variable [ADSolve α]

/-- `cayley_rotation` with a differentiated argument and a differentiated vector. -/
theorem C171_cayley (S : Sound x R) (hS : SolveSound x R) {p v : Fin 3 → α} {P X : E → Pt 3} (hp : ∀ i, R (p i) fun y => P y i)
    (hv : ∀ i, R (v i) fun y => X y i) (i : Fin 3) : R (cayleyRotationG p v i) fun y => cayleyRotation (P y) (X y) i := by
  have hI : ∀ i j : Fin 3, R (ADNum.const (if i = j then 1 else 0)) fun _ => (1 : Matrix (Fin 3) (Fin 3) ℝ) i j := fun i j => by
    rw [Matrix.one_apply]
    split_ifs
    · exact one_eq ▸ S.const 1
    · exact zero_eq ▸ S.const 0
  refine hS 3 _ _ (fun y => 1 - toSkewSimmetricMatrix (P y)) (fun y => (1 + toSkewSimmetricMatrix (P y)).mulVec (X y).ofLp)
    (fun i j => S.sub (hI i j) (skew_sound S hp i j))
    (fun i => sumG_sound S _ _ fun j => S.mul (S.add (hI i j) (skew_sound S hp i j)) (hv j)) (C90_invertible (P x)).ne_zero i

end

section

variable {xs ys zs : List ℝ} {D : Cuboid} (hD : Cuboid.init xs ys zs = .ok D) (hlt : ∀ i, gridLo ![xs, ys, zs] i < gridHi ![xs, ys, zs] i)
include hD hlt

/-- The magnetisation for numbers of every kind is the magnetisation. -/
theorem C171_mag {q : ℕ} {F : NetG q 3 3} {f : Pt q → Pt 3 → Pt 3} {G : FunG 3 3} {g : Pt 3 → Pt 3} {p₀ : Pt q} {x₀ : Pt 3}
    (hF : NetSound F f p₀ (WithLp.toLp 2 fun i => XR.toReal (D.normalize (efin x₀) i)))
    (hG : FunSound G g (WithLp.toLp 2 fun i => XR.toReal (D.normalize (efin x₀) i))) :
    NetSound (magG D F G) (fun p x => mag D f g x p) p₀ x₀ := by
  rintro α _ _ E _ _ x R S hS c d P X rfl rfl hc hd i
  have hd' := (init_inv hD).2.2.2
  have e1 : ∀ i, D.dom.lb i = fin (gridLo ![xs, ys, zs] i) := fun i => by rw [hd']; rfl
  have e2 : ∀ i, D.dom.ub i = fin (gridHi ![xs, ys, zs] i) := fun i => by rw [hd']; rfl
  have hn : ∀ i, R (D.normalizeG d i) (fun y => (WithLp.toLp 2 fun i => XR.toReal (D.normalize (efin (X y)) i) : Pt 3) i) := fun i => by
    simp only [normalize_toReal hD hlt, Cuboid.normalizeG, e1, e2, fin_sub, one_eq]
    rw [show (2 : XR) = fin 2 from lit_eq 2]
    exact S.sub (S.div (S.mul (S.const 2) (S.sub (hd i) (S.const _))) (S.const _) (sub_pos.mpr (hlt i)).ne') (S.const 1)
  exact C171_cayley S hS (hF α E x R S hS c _ P _ rfl rfl hc hn) (hG α E x R S hS _ _ rfl hn) i

end

/-! ## The energies and the loss -/

section

variable {q n : ℕ} {M : NetG q 3 3} {m : Pt q → Pt 3 → Pt 3} {p₀ : Pt q} {x : Fin n → Pt 3} (hm : ∀ i, NetSound M m p₀ (x i))

section
variable {E : Type} [NormedAddCommGroup E] [NormedSpace ℝ E] {α : Type} [ADNum α] {w : E} {R : α → (E → ℝ) → Prop}

theorem mean_sound (hn : n ≠ 0) (S : Sound w R) {a : Fin n → α} {f : Fin n → E → ℝ} (h : ∀ i, R (a i) (f i)) :
    R (meanG a) fun y => mean fun i => f i y :=
  S.div (sumG_sound S _ _ h) (S.const n) (Nat.cast_ne_zero.mpr hn)

theorem dot_sound (S : Sound w R) {a : Fin 3 → α} {f : E → Pt 3} (h : ∀ i, R (a i) fun y => f y i) (v : Pt 3) :
    R (dotCG a (efin v)) fun y => inner ℝ (f y) v := by
  refine S.congr (sumG_sound S _ _ fun i => S.mul (h i) (S.const (v i))) ?_
  filter_upwards with y
  rw [PiLp.inner_apply]
  exact Finset.sum_congr rfl fun i _ => by simp [mul_comm]

end

include hm

theorem exchange_sound (hn : n ≠ 0) (A : ℝ) : LossSound (fun _ _ _ c => exchange_energyG A M c x) (fun p => exchange_energy A (m p) x) p₀ := by
  intro α _ _ E _ _ w R S hS c P hP hc
  have hx : ∀ (z : Pt 3) i, R (constG (α := α) z i) fun _ => z i := fun z i => S.const _
  have h1 := fun i j k => C171_jacfwd (hm i) j α E w R S hS c (constG (x i)) P (fun _ => x i) hP rfl hc (hx (x i)) k
  refine S.congr (S.mul (S.const A) (mean_sound hn S fun i => sumG_sound S _ _ fun j => sumG_sound S _ _ fun k =>
    S.mul (h1 i j k) (h1 i j k))) ?_
  have hc' : ContinuousAt P w := (contDiffAt_euclidean.mpr fun i => S.smooth (hc i)).continuousAt
  have hsm : ∀ i j, ContDiffAt ℝ ∞ (fun z : Pt q × Pt 3 => m z.1 z.2 j) (p₀, x i) := fun i j =>
    (hm i XR (Pt q × Pt 3) (p₀, x i) _ (sound_base _) (solve_base _) (fun k => fin (p₀ k)) (fun k => fin (x i k)) Prod.fst Prod.snd rfl rfl
      (fun k => ⟨((PiLp.proj 2 (𝕜 := ℝ) (fun _ : Fin q => ℝ) k).comp (ContinuousLinearMap.fst ℝ (Pt q) (Pt 3))).contDiff.contDiffAt, rfl⟩)
      (fun k => ⟨((PiLp.proj 2 (𝕜 := ℝ) (fun _ : Fin 3 => ℝ) k).comp (ContinuousLinearMap.snd ℝ (Pt q) (Pt 3))).contDiff.contDiffAt, rfl⟩)
      j).1
  have hev : ∀ᶠ y in 𝓝 w, ∀ i j, DifferentiableAt ℝ (fun z => m (P y) z j) (x i) := by
    refine Filter.eventually_all.mpr fun i => Filter.eventually_all.mpr fun j => ?_
    have hT : Filter.Tendsto (fun y => (P y, x i)) (𝓝 w) (𝓝 (p₀, x i)) := hP ▸ (hc'.prodMk continuousAt_const).tendsto
    filter_upwards [hT.eventually (ev_diff (hsm i j))] with y hy
    exact DifferentiableAt.comp (x i) (g := fun z : Pt q × Pt 3 => m z.1 z.2 j) (f := fun z => (P y, z)) hy
      ((differentiableAt_const _).prodMk differentiableAt_id)
  filter_upwards [hev] with y hy
  rw [exchange_energy]
  congr 2
  funext i
  refine Finset.sum_congr rfl fun j _ => Finset.sum_congr rfl fun k _ => ?_
  have e : fderiv ℝ (fun z => m (P y) z j) (x i) (EuclideanSpace.single k 1) = jacMatrix (m (P y)) (x i) j k := by
    have h2 : HasFDerivAt (m (P y)) _ (x i) := (differentiableAt_euclidean.mpr fun j => hy i j).hasFDerivAt
    have h3 : HasFDerivAt (fun z => m (P y) z j) ((PiLp.proj 2 (𝕜 := ℝ) (fun _ : Fin 3 => ℝ) j).comp (fderiv ℝ (m (P y)) (x i))) (x i) :=
      (PiLp.proj 2 (𝕜 := ℝ) (fun _ : Fin 3 => ℝ) j).hasFDerivAt.comp (x i) h2
    rw [h3.fderiv]
    rfl
  show fderiv ℝ (fun z => m (P y) z j) (x i) (EuclideanSpace.single k 1) * fderiv ℝ (fun z => m (P y) z j) (x i) (EuclideanSpace.single k 1) = _
  rw [e]

theorem ani_sound (hn : n ≠ 0) (Ka : ℝ) (axis : Pt 3) :
    LossSound (fun _ _ _ c => ani_energyG Ka axis M c x) (fun p => ani_energy Ka axis (m p) x) p₀ := by
  intro α _ _ E _ _ w R S hS c P hP hc
  have h1 := fun i => dot_sound S (hm i α E w R S hS c (constG (x i)) P (fun _ => x i) hP rfl hc fun k => S.const _) axis
  refine S.congr (S.mul (S.const Ka) (mean_sound hn S fun i => S.sub (one_eq ▸ S.const 1) (S.ipow 2 (h1 i) (Or.inl (by norm_num))))) ?_
  filter_upwards with y
  rw [ani_energy]
  norm_cast

theorem mag_sound (hn : n ≠ 0) (c : ℝ) (h : Fin n → Pt 3) :
    LossSound (fun _ _ _ p => mag_energyG c h M p x) (fun p => -c * ((∑ i, inner ℝ (m p (x i)) (h i)) / n)) p₀ := by
  intro α _ _ E _ _ w R S hS p P hP hc
  have h1 := fun i => dot_sound S (hm i α E w R S hS p (constG (x i)) P (fun _ => x i) hP rfl hc fun k => S.const _) (h i)
  exact S.mul (S.const (-c)) (mean_sound hn S h1)

theorem ext_sound (hn : n ≠ 0) (h : Pt 3) :
    LossSound (fun _ _ _ p => ext_energyG h M p x) (fun p => ext_energy (m p) x h) p₀ := by
  intro α _ _ E _ _ w R S hS p P hP hc
  have h1 := fun i => dot_sound S (hm i α E w R S hS p (constG (x i)) P (fun _ => x i) hP rfl hc fun k => S.const _) h
  exact S.neg (mean_sound hn S h1)

/-- The program of the loss of `hysteresis.ipynb` for given values of the stray field. -/
theorem C171_hysteresis_program (hn : n ≠ 0) (A Ka : ℝ) (easy hax : Pt 3) (h : Fin n → Pt 3) (hext : ℝ) :
    LossSound (fun _ _ _ => hysteresisLossG A Ka easy hax h M x hext) (fun p => exchange_energy A (m p) x + ani_energy Ka easy (m p) x +
      ext_energy (m p) x (hext • hax) + 2 * (-(1 / 2) * ((∑ i, inner ℝ (m p (x i)) (h i)) / n))) p₀ := by
  intro α _ _ E _ _ w R S hS c P hP hc
  exact S.add (S.add (S.add (exchange_sound hm hn A α E w R S hS c P hP hc) (ani_sound hm hn Ka easy α E w R S hS c P hP hc))
    (ext_sound hm hn (hext • hax) α E w R S hS c P hP hc))
    (S.mul (lit_eq 2 ▸ S.const 2) (mag_sound hm hn (1 / 2) h α E w R S hS c P hP hc))

/-- The program of the loss of `mumag3.ipynb` for one value `lam` and given values of the stray field. -/
theorem C171_mumag3_program (hn : n ≠ 0) (lam : ℝ) (h : Fin n → Pt 3) :
    LossSound (fun _ _ _ => mumag3LossG lam h M x) (fun p => exchange_energy (1 / lam ^ 2) (m p) x +
      ani_energy 0.1 (EuclideanSpace.single 2 1) (m p) x + 2 * (-1 * ((∑ i, inner ℝ (m p (x i)) (h i)) / n))) p₀ := by
  intro α _ _ E _ _ w R S hS c P hP hc
  exact S.add (S.add (exchange_sound hm hn (1 / lam ^ 2) α E w R S hS c P hP hc)
    (ani_sound hm hn 0.1 (EuclideanSpace.single 2 1) α E w R S hS c P hP hc))
    (S.mul (lit_eq 2 ▸ S.const 2) (mag_sound hm hn 1 h α E w R S hS c P hP hc))

end

/-- The batch of values `lam` of `mumag3.ipynb`: the mean of the losses. -/
theorem C171_batch_program {q n k : ℕ} {M : Fin k → NetG q 3 3} {m : Fin k → Pt q → Pt 3 → Pt 3} {p₀ : Pt q} {x : Fin n → Pt 3}
    (hm : ∀ l i, NetSound (M l) (m l) p₀ (x i)) (hn : n ≠ 0) (hk : k ≠ 0) (lam : Fin k → ℝ) (h : Fin k → Fin n → Pt 3) :
    LossSound (fun _ _ _ => mumag3BatchLossG lam h M x) (fun p => mean fun l => exchange_energy (1 / lam l ^ 2) (m l p) x +
      ani_energy 0.1 (EuclideanSpace.single 2 1) (m l p) x + 2 * (-1 * ((∑ i, inner ℝ (m l p (x i)) (h l i)) / n))) p₀ := by
  intro α _ _ E _ _ w R S hS c P hP hc
  exact mean_sound hk S fun l => C171_mumag3_program (hm l) hn (lam l) (h l) α E w R S hS c P hP hc

section

variable {N k r q n : ℕ} (s : StrayField N k r) {xs ys zs : List ℝ} {D : Cuboid} (hD : Cuboid.init xs ys zs = .ok D)
  (hlt : ∀ i, gridLo ![xs, ys, zs] i < gridHi ![xs, ys, zs] i) (hn : n ≠ 0) {p₀ : Pt q} {x : Fin n → Pt 3}
  {xt : Fin n → List (List (List (Fin 6 → Pt 3)))}

/-- `domain.normalize` as a real function. -/
noncomputable abbrev normalizeReal (D : Cuboid) (x : Pt 3) : Pt 3 := WithLp.toLp 2 fun i => XR.toReal (D.normalize (efin x) i)

include hD hlt hn

/-- **C171, `hysteresis.ipynb`.** Reverse differentiation of the loss by all parameters gives its value and its gradient, where the stray
field is that of the parameters `p₀` (`stop_gradient`); forward over reverse differentiation gives the products with the Hessian. -/
theorem C171_hysteresis {F : NetG q 3 3} {f : Pt q → Pt 3 → Pt 3} {G : FunG 3 3} {g : Pt 3 → Pt 3}
    (hF : ∀ i, NetSound F f p₀ (normalizeReal D (x i))) (hG : ∀ i, FunSound G g (normalizeReal D (x i))) (A Ka : ℝ) (easy hax : Pt 3)
    (hext : ℝ) (h : Fin n → Pt 3) (hh : ∀ i, s.hsTensors (fun y => mag D f g y p₀) (x i) (xt i) = .ok (h i)) :
    ∃ (L : Pt q → ℝ) (E : Pt q → Energies),
      (∀ p, hysteresisLoss A Ka easy hax s (fun p y => mag D f g y p) x xt p₀ p hext = .ok (L p, E p)) ∧ ContDiffAt ℝ ∞ L p₀ ∧
      LossG.valueAndGrad (fun _ _ _ => hysteresisLossG A Ka easy hax h (magG D F G) x hext) (efin p₀) =
        (fin (L p₀), efin (gradient L p₀)) ∧
      ∀ v j, LossG.hvpForwardOverReverse (fun _ _ _ => hysteresisLossG A Ka easy hax h (magG D F G) x hext) (efin p₀) (efin v) j =
        fin (fderiv ℝ (fun p => fderiv ℝ L p (unitVec j)) p₀ v) := by
  have hm : ∀ i, NetSound (magG D F G) (fun p y => mag D f g y p) p₀ (x i) := fun i => C171_mag hD hlt (hF i) (hG i)
  have hL := C171_hysteresis_program hm hn A Ka easy hax h hext
  choose L E h1 h2 using fun p => C165_hysteresis_loss (p0 := p₀) (p := p) s (fun p y => mag D f g y p) x xt A Ka easy hax hext h hh
  have e : L = fun p => exchange_energy A (fun y => mag D f g y p) x + ani_energy Ka easy (fun y => mag D f g y p) x +
      ext_energy (fun y => mag D f g y p) x (hext • hax) + 2 * (-(1 / 2) * ((∑ i, inner ℝ (mag D f g (x i) p) (h i)) / n)) := by
    funext p
    obtain ⟨a1, a2, a3, a4, a5, a6⟩ := h2 p
    rw [a6, a5, a1, a2, a3, a4]
    ring
  rw [← e] at hL
  have hg := C171_grad hL
  exact ⟨L, E, h1, hg.1, Prod.ext (congrArg Prod.fst hg.2.2.1 :) hg.2.2.2, fun v j => C171_hvp hL v j⟩

/-- **C171, `mumag3.ipynb`.** The same for the mean over the values `lam`, on which the network and the field depend. -/
theorem C171_mumag3 {b : ℕ} (hb : b ≠ 0) {F : Fin b → NetG q 3 3} {f : Fin b → Pt q → Pt 3 → Pt 3} {G : FunG 3 3} {g : Pt 3 → Pt 3}
    (hF : ∀ l i, NetSound (F l) (f l) p₀ (normalizeReal D (x i))) (hG : ∀ i, FunSound G g (normalizeReal D (x i))) (lam : Fin b → ℝ)
    (h : Fin b → Fin n → Pt 3) (hh : ∀ l i, s.hsTensors (fun y => mag D (f l) g y p₀) (x i) (xt i) = .ok (h l i)) :
    ∃ (L : Fin b → Pt q → ℝ) (E : Fin b → Pt q → Energies),
      (∀ l p, mumag3Loss (lam l) s (fun p y => mag D (f l) g y p) x xt p₀ p = .ok (L l p, E l p)) ∧
      ContDiffAt ℝ ∞ (fun p => mean fun l => L l p) p₀ ∧
      LossG.valueAndGrad (fun _ _ _ => mumag3BatchLossG lam h (fun l => magG D (F l) G) x) (efin p₀) =
        (fin (mean fun l => L l p₀), efin (gradient (fun p => mean fun l => L l p) p₀)) ∧
      ∀ v j, LossG.hvpForwardOverReverse (fun _ _ _ => mumag3BatchLossG lam h (fun l => magG D (F l) G) x) (efin p₀) (efin v) j =
        fin (fderiv ℝ (fun p => fderiv ℝ (fun p => mean fun l => L l p) p (unitVec j)) p₀ v) := by
  have hm : ∀ l i, NetSound (magG D (F l) G) (fun p y => mag D (f l) g y p) p₀ (x i) := fun l i => C171_mag hD hlt (hF l i) (hG i)
  have hL := C171_batch_program hm hn hb lam h
  choose L E h1 h2 using fun l p => C165_mumag3_loss (p0 := p₀) (p := p) s (fun p y => mag D (f l) g y p) x xt (lam l) (h l) (hh l)
  have e : (fun p => mean fun l => L l p) = fun p => mean fun l => exchange_energy (1 / lam l ^ 2) (fun y => mag D (f l) g y p) x +
      ani_energy 0.1 (EuclideanSpace.single 2 1) (fun y => mag D (f l) g y p) x +
      2 * (-1 * ((∑ i, inner ℝ (mag D (f l) g (x i) p) (h l i)) / n)) := by
    funext p
    congr 1
    funext l
    obtain ⟨a1, a2, a3, a4, a5⟩ := h2 l p
    rw [a5, a4, a1, a2, a3]
    ring
  rw [← e] at hL
  have hg := C171_grad hL
  exact ⟨L, E, h1, hg.1, Prod.ext (congrArg Prod.fst hg.2.2.1 :) hg.2.2.2, fun v j => C171_hvp hL v j⟩

end

/-! ## The networks and initial states of the notebooks -/

/-- Spec: `gelu`, approximated by `tanh`. -/
noncomputable def gelu (x : ℝ) : ℝ := x * (1 + Real.tanh (√(2 / Real.pi) * (x + 0.044715 * x ^ 3))) / 2

/-- Spec: a dense layer. -/
noncomputable def affine {a b : ℕ} (W : Fin a → Fin b → ℝ) (c : Fin b → ℝ) (y : Fin a → ℝ) (j : Fin b) : ℝ := ∑ i, W i j * y i + c j

/-- Spec: the values of the hidden layers after the first. -/
noncomputable def pinnHidden {q a nodes depth : ℕ} (ix : PinnIndex q a nodes depth) (p : Pt q) (y : Fin nodes → ℝ) : List (Fin depth) → Fin nodes → ℝ
  | [] => y
  | l :: ls => pinnHidden ix p (fun j => gelu (affine (fun i j => p (ix.kernels l i j)) (fun j => p (ix.biases l j)) y j)) ls

/-- Spec: the network as a real function. -/
noncomputable def pinn {q nodes depth e : ℕ} (ix : PinnIndex q (3 + e) nodes depth) (lam : Fin e → ℝ) (p : Pt q) (x : Pt 3) : Pt 3 :=
  WithLp.toLp 2 (affine (fun i j => p (ix.kernelOut i j)) (fun j => p (ix.biasOut j)) (pinnHidden ix p
    (fun j => gelu (affine (fun i j => p (ix.kernel1 i j)) (fun j => p (ix.bias1 j)) (Fin.append x.ofLp lam) j)) (List.finRange depth)))

section

variable {E : Type} [NormedAddCommGroup E] [NormedSpace ℝ E] {α : Type} [ADNum α] {w : E} {R : α → (E → ℝ) → Prop}

theorem gelu_sound (S : Sound w R) {a : α} {f : E → ℝ} (h : R a f) : R (geluG a) fun y => gelu (f y) := by
  have h2 : R (ADNum.const (1 / 2)) fun _ => 1 / 2 := by
    have : (1 / 2 : XR) = fin (1 / 2) := by rw [one_eq, lit_eq, fin_div _ (by norm_num)]
    rw [this]
    exact S.const _
  refine S.congr (S.mul h (S.mul h2 (S.add (one_eq ▸ S.const 1) (S.tanh (S.mul (S.const _) (S.add h (S.mul (S.const _)
    (S.ipow 3 h (Or.inl (by norm_num)))))))))) ?_
  filter_upwards with y
  rw [gelu]
  norm_cast
  ring

theorem dense_sound (S : Sound w R) {a b : ℕ} {W : Fin a → Fin b → α} {c : Fin b → α} {x : Fin a → α} {Wf : E → Fin a → Fin b → ℝ}
    {cf : E → Fin b → ℝ} {xf : E → Fin a → ℝ} (hW : ∀ i j, R (W i j) fun y => Wf y i j) (hc : ∀ j, R (c j) fun y => cf y j)
    (hx : ∀ i, R (x i) fun y => xf y i) (j : Fin b) : R (denseParG W c x j) fun y => affine (Wf y) (cf y) (xf y) j := by
  refine S.congr (S.add (sumG_sound S _ _ fun i => S.mul (hx i) (hW i j)) (hc j)) ?_
  filter_upwards with y
  rw [affine]
  congr 1
  exact Finset.sum_congr rfl fun i _ => mul_comm _ _

end

/-- The networks of `hysteresis.ipynb` and `mumag3.ipynb`, for all parameters and inputs. -/
theorem C171_pinn {q nodes depth e : ℕ} (ix : PinnIndex q (3 + e) nodes depth) (lam : Fin e → ℝ) (p : Pt q) (x : Pt 3) :
    NetSound (pinnG ix lam) (pinn ix lam) p x := by
  intro α _ _ E _ _ w R S _ c d P X _ _ hc hd i
  refine dense_sound S (fun i j => hc _) (fun j => hc _) (fun i => ?_) i
  have key : ∀ (ls : List (Fin depth)) (y : Fin nodes → α) (f : E → Fin nodes → ℝ), (∀ j, R (y j) fun z => f z j) → ∀ j,
      R (ls.foldl (fun y l => fun j =>
        geluG (denseParG (fun i j => c (ix.kernels l i j)) (fun j => c (ix.biases l j)) y j)) y j) fun z => pinnHidden ix (P z) (f z) ls j := by
    intro ls
    induction ls with
    | nil => intro y f h j; exact h j
    | cons l ls ih =>
      intro y f h j
      exact ih _ _ (fun j => gelu_sound S (dense_sound S (fun i j => hc _) (fun j => hc _) h j)) j
  refine key _ _ (fun z j => gelu (affine (fun i j => P z (ix.kernel1 i j)) (fun j => P z (ix.bias1 j)) (Fin.append (X z).ofLp lam) j))
    (fun j => gelu_sound S (dense_sound S (fun i j => hc _) (fun j => hc _) (fun i => ?_) j)) i
  refine Fin.addCases (fun i => ?_) (fun i => ?_) i
  · simp only [Fin.append_left]
    exact hd i
  · simp only [Fin.append_right]
    exact S.const _

/-- The initial state of `hysteresis.ipynb`. -/
theorem C171_m0 (x : Pt 3) : FunSound m0G m0 x := by
  intro α _ _ E _ _ w R S _ d X _ hd i
  fin_cases i
  · exact S.congr (one_eq ▸ S.const 1) (by filter_upwards with y; simp [m0])
  · exact S.congr (zero_eq ▸ S.const 0) (by filter_upwards with y; simp [m0])
  · exact S.congr (zero_eq ▸ S.const 0) (by filter_upwards with y; simp [m0])

theorem unitVector_fin {m : ℕ} (v : Pt m) (hv : v ≠ 0) (i : Fin m) : unitVector (efin v) i = fin (v i / ‖v‖) := by
  rw [unitVector, vnorm_efin, ← fin_div _ (norm_ne_zero_iff.mpr hv)]
  rfl

theorem unitVector_sound {E : Type} [NormedAddCommGroup E] [NormedSpace ℝ E] {α : Type} [ADNum α] {w : E} {R : α → (E → ℝ) → Prop}
    (S : Sound w R) {m : ℕ} {a : Fin m → α} {f : E → Pt m} (h : ∀ i, R (a i) fun y => f y i) (h0 : f w ≠ 0) (i : Fin m) :
    R (unitVectorG a i) fun y => f y i / ‖f y‖ := by
  have e : ∀ y, ∑ i, f y i * f y i = ‖f y‖ ^ 2 := fun y => by
    rw [norm_sq_pt]
    exact Finset.sum_congr rfl fun i _ => (sq _).symm
  have hp : 0 < ∑ i, f w i * f w i := by
    rw [e]
    have := norm_pos_iff.mpr h0
    positivity
  refine S.congr (S.div (h i) (S.sqrt (sumG_sound S _ _ fun i => S.mul (h i) (h i)) hp) (Real.sqrt_pos.mpr hp).ne') ?_
  filter_upwards with y
  rw [e, Real.sqrt_sq (norm_nonneg _)]

/-- The flower state of `mumag3.ipynb`, at all points. -/
theorem C171_flower (x : Pt 3) : FunSound m_flowerG (fun y => WithLp.toLp 2 fun i => XR.toReal (m_flower (efin y) i)) x := by
  intro α _ _ E _ _ w R S _ d X _ hd i
  have h0 : ∀ z : Pt 3, (!₂[z 0 * z 2, z 1 * z 2, 1] : Pt 3) ≠ 0 := fun z h => by
    simpa using congrArg (fun v : Pt 3 => v 2) h
  have h1 : ∀ i, R ((![d 0 *ₐ d 2, d 1 *ₐ d 2, ADNum.const 1] : Fin 3 → α) i) fun y => (!₂[X y 0 * X y 2, X y 1 * X y 2, 1] : Pt 3) i := by
    intro i
    fin_cases i
    · exact S.mul (hd 0) (hd 2)
    · exact S.mul (hd 1) (hd 2)
    · exact one_eq ▸ S.const 1
  refine S.congr (unitVector_sound S h1 (h0 _) i) ?_
  filter_upwards with y
  have e : m_flower (efin (X y)) = unitVector (efin !₂[X y 0 * X y 2, X y 1 * X y 2, 1]) := by
    rw [m_flower]
    congr 1
    funext i
    fin_cases i <;> simp [efin, one_eq]
  show _ = XR.toReal (m_flower (efin (X y)) i)
  rw [e, unitVector_fin _ (h0 _)]
  rfl

/-- The vortex state of `mumag3.ipynb`, at all points off its axis; on the axis its values are `nan` (`C164_vortex_axis`). -/
theorem C171_vortex (x : Pt 3) (hx : x 0 ^ 2 + x 2 ^ 2 ≠ 0) :
    FunSound m_vortexG (fun y => WithLp.toLp 2 fun i => XR.toReal (m_vortex (efin y) i)) x := by
  rintro α _ _ E _ _ w R S _ d X rfl hd i
  have pos : ∀ z : Pt 3, z 0 ^ 2 + z 2 ^ 2 ≠ 0 → 0 < z 2 ^ (2 : ℤ) + z 0 ^ (2 : ℤ) := fun z hz => by
    have h : 0 < z 2 ^ 2 + z 0 ^ 2 := lt_of_le_of_ne (by positivity) fun h => hz (by rw [add_comm]; exact h.symm)
    exact_mod_cast h
  have hr : R (ADNum.sqrt (ADNum.ipow (d 2) 2 +ₐ ADNum.ipow (d 0) 2)) fun y => √(X y 2 ^ (2 : ℤ) + X y 0 ^ (2 : ℤ)) :=
    S.sqrt (S.add (S.ipow 2 (hd 2) (Or.inl (by norm_num))) (S.ipow 2 (hd 0) (Or.inl (by norm_num)))) (pos _ hx)
  have hr0 : 0 < √(X w 2 ^ (2 : ℤ) + X w 0 ^ (2 : ℤ)) := Real.sqrt_pos.mpr (pos _ hx)
  set r : E → ℝ := fun y => √(X y 2 ^ (2 : ℤ) + X y 0 ^ (2 : ℤ)) with hrdef
  have hk := S.div (S.ipow 2 hr (Or.inl (by norm_num))) (S.const (0.14 ^ 2)) (by norm_num)
  have hq := S.sqrt (S.sub (one_eq ▸ S.const 1 : R (ADNum.const 1) fun _ => 1) (S.exp (S.mul (S.const (-4)) hk))) (by
    rw [sub_pos, Real.exp_lt_one_iff]
    have : 0 < r w ^ (2 : ℤ) / 0.14 ^ 2 := by
      have : 0 < r w := hr0
      positivity
    linarith)
  let t := ADNum.sqrt (ADNum.ipow (d 2) 2 +ₐ ADNum.ipow (d 0) 2)
  let k := ADNum.ipow t 2 /ₐ ADNum.const (fin (0.14 ^ 2))
  let u := ADNum.sqrt (ADNum.const 1 -ₐ ADNum.exp (ADNum.const (fin (-4)) *ₐ k))
  have h1 : ∀ i, R ((![ADNum.neg (d 2) /ₐ t *ₐ u, ADNum.exp (ADNum.const (fin (-2)) *ₐ k), d 0 /ₐ t *ₐ u] : Fin 3 → α) i) fun y =>
      (!₂[-X y 2 / r y * √(1 - Real.exp (-4 * (r y ^ (2 : ℤ) / 0.14 ^ 2))), Real.exp (-2 * (r y ^ (2 : ℤ) / 0.14 ^ 2)),
        X y 0 / r y * √(1 - Real.exp (-4 * (r y ^ (2 : ℤ) / 0.14 ^ 2)))] : Pt 3) i := by
    intro i
    fin_cases i
    · exact S.mul (S.div (S.neg (hd 2)) hr hr0.ne') hq
    · exact S.exp (S.mul (S.const (-2)) hk)
    · exact S.mul (S.div (hd 0) hr hr0.ne') hq
  have h0 : ∀ y, (!₂[-X y 2 / r y * √(1 - Real.exp (-4 * (r y ^ (2 : ℤ) / 0.14 ^ 2))), Real.exp (-2 * (r y ^ (2 : ℤ) / 0.14 ^ 2)),
      X y 0 / r y * √(1 - Real.exp (-4 * (r y ^ (2 : ℤ) / 0.14 ^ 2)))] : Pt 3) ≠ 0 := fun y h =>
    (Real.exp_pos (-2 * (r y ^ (2 : ℤ) / 0.14 ^ 2))).ne' (by simpa using congrArg (fun v : Pt 3 => v 1) h)
  refine S.congr (unitVector_sound S h1 (h0 _) i) ?_
  have hXc : ContinuousAt X w := (contDiffAt_euclidean.mpr fun i => S.smooth (hd i)).continuousAt
  have hev : ∀ᶠ y in 𝓝 w, X y 0 ^ 2 + X y 2 ^ 2 ≠ 0 := by
    have hc : ∀ i, ContinuousAt (fun y => X y i) w := fun i => (S.smooth (hd i)).continuousAt
    exact (((hc 0).pow 2).add ((hc 2).pow 2)).eventually_ne hx
  filter_upwards [hev] with y hy
  obtain ⟨r', h1, h2, h3⟩ := vortex_fin hy
  have hr' : r' = r y := by
    rw [hrdef]
    simp only
    rw [← Real.sqrt_sq h1.le, h2]
    congr 1
    norm_cast
    ring
  show _ = XR.toReal (m_vortex (efin (X y)) i)
  rw [h3, hr']
  have e : ∀ z : ℝ, z ^ (2 : ℤ) = z ^ 2 := fun z => by norm_cast
  have h4 := h0 y
  rw [e] at h4
  rw [unitVector_fin _ h4, e]
  rfl

/-! ### cases -/

/-- The solution of a linear system with one unknown: `p 1 / p 0`. -/
noncomputable def quotG : LossG 2 := fun _ _ _ c => ADSolve.solve (m := 1) (fun _ _ => c 0) (fun _ => c 1) 0

theorem quotG_sound (p : Pt 2) (hp : p 0 ≠ 0) : LossSound quotG (fun p => p 1 / p 0) p := by
  rintro α _ _ E _ _ w R S hS c P rfl hc
  refine S.congr (hS 1 _ _ (fun y => Matrix.of fun _ _ => P y 0) (fun y _ => P y 1) (fun _ _ => hc 0) (fun _ => hc 1)
    (by simpa using hp) 0) ?_
  filter_upwards with y
  simp [Matrix.mulVec, dotProduct, div_eq_inv_mul]

theorem quot_fderiv (p : Pt 2) (hp : p 0 ≠ 0) (v : Pt 2) :
    fderiv ℝ (fun p : Pt 2 => p 1 / p 0) p v = v 1 / p 0 - p 1 * v 0 / p 0 ^ 2 := by
  have h : ∀ i, HasFDerivAt (fun p : Pt 2 => p i) (PiLp.proj 2 (𝕜 := ℝ) (fun _ : Fin 2 => ℝ) i) p := fun i =>
    (PiLp.proj 2 (𝕜 := ℝ) (fun _ : Fin 2 => ℝ) i).hasFDerivAt
  have h1 := ((h 1).mul ((hasDerivAt_inv hp).comp_hasFDerivAt p (h 0))).fderiv
  have e : (fun p : Pt 2 => p 1 / p 0) = fun p => p 1 * (p 0)⁻¹ := funext fun p => div_eq_mul_inv _ _
  rw [e]
  refine (congrArg (fun L => L v) h1).trans ?_
  simp
  field_simp
  ring

/-- The gradient of `p 1 / p 0` at `(2, 3)` through the transposed system. -/
example : quotG.valueAndGrad (efin !₂[2, 3]) = (fin (3 / 2), efin !₂[-3 / 4, 1 / 2]) := by
  have h0 : (!₂[2, 3] : Pt 2) 0 ≠ 0 := by norm_num
  rw [(C171_grad (quotG_sound _ h0)).2.2.1]
  refine Prod.ext (by norm_num) (funext fun j => ?_)
  simp only [quot_fderiv _ h0]
  fin_cases j
  · simp [unitVec, efin]
    norm_num
  · simp [unitVec, efin]

/-- The product of its Hessian with `(1, 0)`. -/
example : quotG.hvpForwardOverReverse (efin !₂[2, 3]) (efin !₂[1, 0]) = efin !₂[3 / 4, -1 / 4] := by
  have h0 : (!₂[2, 3] : Pt 2) 0 ≠ 0 := by norm_num
  funext j
  rw [C171_hvp (quotG_sound _ h0)]
  have hev : ∀ j : Fin 2, (fun y => fderiv ℝ (fun p : Pt 2 => p 1 / p 0) y (unitVec j)) =ᶠ[𝓝 (!₂[2, 3] : Pt 2)]
      fun y => (unitVec j : Pt 2) 1 * (y 0)⁻¹ - (unitVec j : Pt 2) 0 * (y 1 * (y 0)⁻¹ ^ 2) := fun j => by
    filter_upwards [(coord_contDiff (!₂[2, 3] : Pt 2) 0).continuousAt.eventually_ne h0] with y hy
    rw [quot_fderiv _ hy]
    field_simp
  have h : ∀ i, HasFDerivAt (fun p : Pt 2 => p i) (PiLp.proj 2 (𝕜 := ℝ) (fun _ : Fin 2 => ℝ) i) (!₂[2, 3] : Pt 2) := fun i =>
    (PiLp.proj 2 (𝕜 := ℝ) (fun _ : Fin 2 => ℝ) i).hasFDerivAt
  have hi := HasDerivAt.comp_hasFDerivAt (!₂[2, 3] : Pt 2) (hasDerivAt_inv h0) (h 0)
  have h1 := ((hi.const_mul ((unitVec j : Pt 2) 1)).sub (((h 1).mul (hi.pow 2)).const_mul ((unitVec j : Pt 2) 0))).fderiv
  rw [(hev j).fderiv_eq]
  refine congrArg fin ((congrArg (fun L => L !₂[1, 0]) h1).trans ?_)
  fin_cases j <;> simp [unitVec] <;> norm_num

/-- A network with one node in each of two hidden layers. -/
def smallIndex : PinnIndex 12 (3 + 0) 1 1 where
  kernel1 i _ := ⟨i, by omega⟩
  bias1 _ := 3
  kernels _ _ _ := 4
  biases _ _ := 5
  kernelOut _ j := ⟨6 + j, by omega⟩
  biasOut j := ⟨9 + j, by omega⟩

/-- Second derivatives in space of an output of the network, from nested `jacfwd`s, may be differentiated by the parameters. -/
example (p : Pt 12) (x : Pt 3) : NetSound (((pinnG smallIndex ![]).jac 0).jac 1)
    (fun p x => WithLp.toLp 2 fun j => fderiv ℝ (fun z => fderiv ℝ (fun z => pinn smallIndex ![] p z 0) z (EuclideanSpace.single 1 1)) x
      (EuclideanSpace.single j 1)) p x :=
  C171_jacfwd (C171_jacfwd (C171_pinn smallIndex ![] p x) 0) 1

/-- One sample at the centre of the cube `[-1, 1]³`, for this network with all parameters `p₀`. -/
example (p₀ : Pt 12) : ∃ (s : StrayField 1 1 1) (xt : List (List (List (Fin 6 → Pt 3)))) (h : Pt 3) (L : Pt 12 → ℝ) (E : Pt 12 → Energies),
    (∀ p, hysteresisLoss 1 2 (EuclideanSpace.single 2 1) (EuclideanSpace.single 0 1) s
      (fun p x => mag s.domain (pinn smallIndex ![]) m0 x p) (fun _ : Fin 1 => 0) (fun _ => xt) p₀ p 3 = .ok (L p, E p)) ∧
    LossG.valueAndGrad (fun _ _ _ => hysteresisLossG 1 2 (EuclideanSpace.single 2 1) (EuclideanSpace.single 0 1) (fun _ : Fin 1 => h)
      (magG s.domain (pinnG smallIndex ![]) m0G) (fun _ => 0) 3) (efin p₀) = (fin (L p₀), efin (gradient L p₀)) := by
  have g : IsGrid [-1, 1] := ⟨by simp, by simp⟩
  obtain ⟨D, hD⟩ : ∃ D, Cuboid.init [-1, 1] [-1, 1] [-1, 1] = .ok D := ⟨_, init_ok g g g⟩
  let s : StrayField 1 1 1 := ⟨fun _ => 0, D, fun _ _ => 1, fun _ => 0, midpoint, .int 1, 1, fun _ => 1, 1⟩
  have hlt : ∀ i, gridLo ![[-1, 1], [-1, 1], [-1, 1]] i < gridHi ![[-1, 1], [-1, 1], [-1, 1]] i := fun i => by
    fin_cases i <;> simp [gridLo, gridHi]
  have hx : (0 : Pt 3).ofLp ∈ interior (Set.Icc (gridLo ![[-1, 1], [-1, 1], [-1, 1]]) (gridHi ![[-1, 1], [-1, 1], [-1, 1]])) := by
    rw [← Set.pi_univ_Icc, interior_pi_set Set.finite_univ]
    intro i _
    simp only [interior_Icc]
    fin_cases i <;> simp [gridLo, gridHi]
  obtain ⟨φ, -, -, dt, -, hdt⟩ := C99_inside _ _ _ s hD 1 rfl (fun y => mag D (pinn smallIndex ![]) m0 y p₀) 0 hlt hx
  obtain ⟨L, E, h1, -, h2, -⟩ := C171_hysteresis s hD hlt one_ne_zero (p₀ := p₀) (x := fun _ : Fin 1 => 0) (xt := fun _ => dt)
    (fun _ => C171_pinn smallIndex ![] p₀ _) (fun _ => C171_m0 _) 1 2 (EuclideanSpace.single 2 1) (EuclideanSpace.single 0 1) 3 _
    (fun _ => hdt)
  exact ⟨s, dt, _, L, E, h1, h2⟩

/-- A network which is constant in space, turning the initial state `(1, 0, 0)`; the external field is along the second axis: the
gradient of the energy at the parameters zero. -/
example : LossG.valueAndGrad (fun _ _ _ c => ext_energyG (EuclideanSpace.single 1 1) (fun α _ _ c d => cayleyRotationG c (m0G α d)) c
    (fun _ : Fin 1 => 0)) (efin (0 : Pt 3)) = (0, efin !₂[0, 0, -2]) := by
  have hm : NetSound (q := 3) (fun α _ _ c d => cayleyRotationG c (m0G α d)) (fun p y => cayleyRotation p (m0 y)) 0 (0 : Pt 3) :=
    fun α _ _ E _ _ w R S hS c d P X _ _ hc hd i => C171_cayley S hS hc (C171_m0 _ α E w R S hS d X rfl hd) i
  have h := ext_sound (fun _ : Fin 1 => hm) one_ne_zero (EuclideanSpace.single 1 1)
  have e : (fun p : Pt 3 => ext_energy (fun y => cayleyRotation p (m0 y)) (fun _ : Fin 1 => 0) (EuclideanSpace.single 1 1)) =
      fun p => -(1 + ‖p‖ ^ 2)⁻¹ * (2 * p 0 * p 1 + 2 * p 2) := by
    funext p
    simp [ext_energy, mean, C90_rodrigues, m0, cross_apply, PiLp.inner_apply]
    ring
  rw [e] at h
  rw [(C171_grad h).2.2.1]
  have hp : ∀ i, HasFDerivAt (fun p : Pt 3 => p i) (PiLp.proj 2 (𝕜 := ℝ) (fun _ : Fin 3 => ℝ) i) (0 : Pt 3) := fun i =>
    (PiLp.proj 2 (𝕜 := ℝ) (fun _ : Fin 3 => ℝ) i).hasFDerivAt
  have hd : DifferentiableAt ℝ (fun p : Pt 3 => -(1 + ‖p‖ ^ 2)⁻¹) 0 :=
    (((differentiableAt_const 1).add (differentiableAt_id.norm_sq ℝ)).inv (by simp)).neg
  have h1 := (hd.hasFDerivAt.mul ((((hp 0).const_mul 2).mul (hp 1)).add ((hp 2).const_mul 2))).fderiv
  refine Prod.ext (by simp [zero_eq]) (funext fun j => ?_)
  refine (congrArg (fun L => fin (L (unitVec j))) h1).trans ?_
  fin_cases j <;> simp [unitVec, efin]

/-- A program of two parameters for the trust region method. -/
example (c : TRConf) (hc : c.approx_hvp = false) : ∃ B : Pt 2 → Pt 2 →ₗ[ℝ] Pt 2, SecondOrder c (LossG.objective fun _ _ _ c => ADNum.ipow (c 0) 4 +ₐ ADNum.exp (c 1))
    (gradient fun p : Pt 2 => p 0 ^ (4 : ℤ) + Real.exp (p 1)) B := by
  obtain ⟨B, -, h, -⟩ := C171_trust_region (L := fun _ _ _ c => ADNum.ipow (c 0) 4 +ₐ ADNum.exp (c 1))
    (l := fun p : Pt 2 => p 0 ^ (4 : ℤ) + Real.exp (p 1)) (fun p α _ _ E _ _ w R S _ c P _ hc =>
      S.add (S.ipow 4 (hc 0) (Or.inl (by norm_num))) (S.exp (hc 1))) c hc
  exact ⟨B, h⟩

/-- A network with the exchange length as additional input. -/
def smallIndexLam : PinnIndex 13 (3 + 1) 1 1 where
  kernel1 i _ := ⟨i, by omega⟩
  bias1 _ := 4
  kernels _ _ _ := 5
  biases _ _ := 6
  kernelOut _ j := ⟨7 + j, by omega⟩
  biasOut j := ⟨10 + j, by omega⟩

/-- The loss of `mumag3.ipynb` for two values of `lam` and the flower state. -/
example (p₀ : Pt 13) : ∃ (s : StrayField 1 1 1) (xt : List (List (List (Fin 6 → Pt 3)))) (h : Fin 2 → Pt 3) (L : Fin 2 → Pt 13 → ℝ),
    (∀ l p, (mumag3Loss (![8, 9] l) s (fun p x => mag s.domain (pinn smallIndexLam ![![8, 9] l])
      (fun y => WithLp.toLp 2 fun i => XR.toReal (m_flower (efin y) i)) x p) (fun _ : Fin 1 => 0) (fun _ => xt) p₀ p).map (·.1) =
      .ok (L l p)) ∧
    LossG.valueAndGrad (fun _ _ _ => mumag3BatchLossG ![8, 9] (fun l (_ : Fin 1) => h l)
      (fun l => magG s.domain (pinnG smallIndexLam ![![8, 9] l]) m_flowerG) (fun _ => 0)) (efin p₀) =
      (fin (mean fun l => L l p₀), efin (gradient (fun p => mean fun l => L l p) p₀)) := by
  have g : IsGrid [-1, 1] := ⟨by simp, by simp⟩
  obtain ⟨D, hD⟩ : ∃ D, Cuboid.init [-1, 1] [-1, 1] [-1, 1] = .ok D := ⟨_, init_ok g g g⟩
  let s : StrayField 1 1 1 := ⟨fun _ => 0, D, fun _ _ => 1, fun _ => 0, midpoint, .int 1, 1, fun _ => 1, 1⟩
  have hlt : ∀ i, gridLo ![[-1, 1], [-1, 1], [-1, 1]] i < gridHi ![[-1, 1], [-1, 1], [-1, 1]] i := fun i => by
    fin_cases i <;> simp [gridLo, gridHi]
  have hx : (0 : Pt 3).ofLp ∈ interior (Set.Icc (gridLo ![[-1, 1], [-1, 1], [-1, 1]]) (gridHi ![[-1, 1], [-1, 1], [-1, 1]])) := by
    rw [← Set.pi_univ_Icc, interior_pi_set Set.finite_univ]
    intro i _
    simp only [interior_Icc]
    fin_cases i <;> simp [gridLo, gridHi]
  obtain ⟨φ, -, -, dt, hdt, -⟩ := C99_inside _ _ _ s hD 1 rfl 0 0 hlt hx
  choose H h1 h2 using fun u => (C99_inside _ _ _ s hD 1 rfl u 0 hlt hx)
  have h3 : ∀ u, s.hsTensors u 0 dt = .ok (-gradient (fun y => s.phi1 u y + H u y) 0) := by
    intro u
    obtain ⟨-, dt', e1, e2⟩ := h2 u
    obtain rfl : dt = dt' := Except.ok.inj (hdt.symm.trans e1)
    exact e2
  obtain ⟨L, E, h4, -, h5, -⟩ := C171_mumag3 s hD hlt one_ne_zero (p₀ := p₀) (x := fun _ : Fin 1 => 0) (xt := fun _ => dt) two_ne_zero
    (fun l _ => C171_pinn smallIndexLam ![![8, 9] l] p₀ _) (fun _ => C171_flower _) ![8, 9] _ (fun l _ => h3 _)
  exact ⟨s, dt, _, L, fun l p => by rw [h4 l p]; rfl, h5⟩

end Verif
