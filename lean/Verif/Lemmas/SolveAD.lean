import Verif.Lemmas.NestedCalls
import Verif.Lemmas.RevAD
import Verif.Model.TrainAD
import Mathlib.LinearAlgebra.Matrix.NonsingularInverse
import Mathlib.Analysis.Calculus.ContDiff.Operations
import Mathlib.Analysis.Calculus.FDeriv.Mul

/-! # Differentiation of the solution of a linear system -/

namespace Verif

open XR
open scoped ContDiff Topology

section

variable {E : Type*} [NormedAddCommGroup E] [NormedSpace ℝ E] {m : ℕ} {A : E → Matrix (Fin m) (Fin m) ℝ} {b : E → Fin m → ℝ} {z : E}

theorem det_contDiff {k : WithTop ℕ∞} (hA : ∀ i j, ContDiffAt ℝ k (fun y => A y i j) z) : ContDiffAt ℝ k (fun y => (A y).det) z := by
  simp only [Matrix.det_apply]
  exact ContDiffAt.sum fun σ _ => (contDiffAt_prod fun i _ => hA _ _).const_smul _

theorem solve_contDiff {k : WithTop ℕ∞} (hA : ∀ i j, ContDiffAt ℝ k (fun y => A y i j) z) (hb : ∀ i, ContDiffAt ℝ k (fun y => b y i) z)
    (h0 : (A z).det ≠ 0) (i : Fin m) : ContDiffAt ℝ k (fun y => ((A y)⁻¹.mulVec (b y)) i) z := by
  simp only [Matrix.inv_def, Matrix.mulVec, dotProduct, Matrix.smul_apply, smul_eq_mul, Ring.inverse_eq_inv']
  refine ContDiffAt.sum fun j _ => (((det_contDiff hA).inv h0).mul ?_).mul (hb j)
  simp only [Matrix.adjugate_apply]
  refine det_contDiff fun a d => ?_
  simp only [Matrix.updateRow_apply]
  split_ifs
  · exact contDiffAt_const
  · exact hA a d

/-- The derivative of the solution solves the system with the right hand side `db - dA @ x`. -/
theorem solve_fderiv (hA : ∀ i j, ContDiffAt ℝ 1 (fun y => A y i j) z) (hb : ∀ i, ContDiffAt ℝ 1 (fun y => b y i) z)
    (h0 : (A z).det ≠ 0) (v : E) (i : Fin m) : fderiv ℝ (fun y => ((A y)⁻¹.mulVec (b y)) i) z v =
      ((A z)⁻¹.mulVec fun a => fderiv ℝ (fun y => b y a) z v -
        ∑ j, fderiv ℝ (fun y => A y a j) z v * ((A z)⁻¹.mulVec (b z)) j) i := by
  have hs := fun j => (solve_contDiff hA hb h0 j).differentiableAt (by simp)
  have hA' := fun i j => (hA i j).differentiableAt (by simp)
  have hdet : ∀ᶠ y in 𝓝 z, (A y).det ≠ 0 := (det_contDiff hA).continuousAt.eventually_ne h0
  have e : ∀ a, ∑ j, A z a j * fderiv ℝ (fun y => ((A y)⁻¹.mulVec (b y)) j) z v = fderiv ℝ (fun y => b y a) z v -
      ∑ j, fderiv ℝ (fun y => A y a j) z v * ((A z)⁻¹.mulVec (b z)) j := by
    intro a
    have h1 : (fun y => ∑ j, A y a j * ((A y)⁻¹.mulVec (b y)) j) =ᶠ[𝓝 z] fun y => b y a := by
      filter_upwards [hdet] with y hy
      have : (A y).mulVec ((A y)⁻¹.mulVec (b y)) = b y := by
        rw [Matrix.mulVec_mulVec, Matrix.mul_nonsing_inv _ (isUnit_iff_ne_zero.mpr hy), Matrix.one_mulVec]
      exact congrFun this a
    have h2 := HasFDerivAt.fun_sum (u := Finset.univ) fun j (_ : j ∈ Finset.univ) => (hA' a j).hasFDerivAt.mul (hs j).hasFDerivAt
    have h3 := (h2.congr_of_eventuallyEq h1.symm).fderiv
    rw [h3]
    simp only [_root_.sum_apply, _root_.add_apply, _root_.smul_apply, smul_eq_mul]
    rw [Finset.sum_add_distrib, eq_sub_iff_add_eq]
    congr 1
    exact Finset.sum_congr rfl fun j _ => mul_comm _ _
  have e' : (A z).mulVec (fun j => fderiv ℝ (fun y => ((A y)⁻¹.mulVec (b y)) j) z v) = fun a => fderiv ℝ (fun y => b y a) z v -
      ∑ j, fderiv ℝ (fun y => A y a j) z v * ((A z)⁻¹.mulVec (b z)) j := funext e
  rw [← e', Matrix.mulVec_mulVec, Matrix.nonsing_inv_mul _ (isUnit_iff_ne_zero.mpr h0), Matrix.one_mulVec]

end

section

variable {E : Type*} [NormedAddCommGroup E] [NormedSpace ℝ E]

/-- The solution stands for the solution, where the matrix is not singular. -/
def SolveSound {α : Type} [ADNum α] [ADSolve α] (x : E) (R : α → (E → ℝ) → Prop) : Prop :=
  ∀ (m : ℕ) (A : Fin m → Fin m → α) (b : Fin m → α) (Af : E → Matrix (Fin m) (Fin m) ℝ) (bf : E → Fin m → ℝ),
    (∀ i j, R (A i j) fun y => Af y i j) → (∀ i, R (b i) fun y => bf y i) → (Af x).det ≠ 0 →
    ∀ i, R (ADSolve.solve A b i) fun y => ((Af y)⁻¹.mulVec (bf y)) i

open Classical in
theorem solve_base (x : E) : SolveSound (α := XR) x fun d f => ContDiffAt ℝ ∞ f x ∧ d = fin (f x) := by
  intro m A b Af bf hA hb h0 i
  refine ⟨solve_contDiff (fun i j => (hA i j).1) (fun i => (hb i).1) h0 i, ?_⟩
  have eA : (Matrix.of fun i j => XR.toReal (A i j)) = Af x := by
    ext i j
    show XR.toReal (A i j) = _
    rw [(hA i j).2]
    rfl
  have eb : (fun i => XR.toReal (b i)) = bf x := by
    funext i
    show XR.toReal (b i) = _
    rw [(hb i).2]
    rfl
  show (ite (_ ∧ _ ∧ _) _ _ : Fin m → XR) i = _
  rw [eA, eb, if_pos ⟨fun i j => (hA i j).2, fun i => (hb i).2, h0⟩]

variable {α : Type} [ADNum α] [ADSolve α] {E' : Type*} [NormedAddCommGroup E'] [NormedSpace ℝ E'] {x : E} {R : α → (E → ℝ) → Prop}

omit [ADSolve α] in
theorem RO.getD (S : Sound x R) {o : Option α} {f : E → ℝ} (h : RO x R o f) : R (o.getD (ADNum.const 0)) f := by
  cases o with
  | none => exact S.congr (zero_eq ▸ S.const 0) (Filter.EventuallyEq.symm h)
  | some t => exact h

omit [ADSolve α] in
theorem sumG_sound (S : Sound x R) {n : ℕ} (a : Fin n → α) (f : Fin n → E → ℝ) (h : ∀ i, R (a i) (f i)) :
    R (sumG ((List.finRange n).map a)) fun y => ∑ i, f i y := by
  have key : ∀ (l : List (Fin n)) (b : α) (g : E → ℝ), R b g → R ((l.map a).foldl ADNum.add b) fun y => g y + (l.map fun i => f i y).sum := by
    intro l
    induction l with
    | nil => intro b g hb; simpa using hb
    | cons i l ih =>
      intro b g hb
      have := ih _ _ (S.add hb (h i))
      simpa [add_assoc] using this
  have := key (List.finRange n) _ _ (S.const 0)
  rw [sumG, zero_eq]
  refine S.congr this ?_
  filter_upwards with y
  rw [zero_add, ← List.ofFn_eq_map, List.sum_ofFn]

omit [ADSolve α] in
theorem sumT_sound (S : Sound x R) {n : ℕ} (a : Fin n → Option α) (f : Fin n → E → ℝ) (h : ∀ i, RO x R (a i) (f i)) :
    RO x R (sumT ((List.finRange n).map a)) fun y => ∑ i, f i y := by
  have key : ∀ (l : List (Fin n)) (b : Option α) (g : E → ℝ), RO x R b g →
      RO x R ((l.map a).foldl JVP.addT b) fun y => g y + (l.map fun i => f i y).sum := by
    intro l
    induction l with
    | nil => intro b g hb; simpa using hb
    | cons i l ih =>
      intro b g hb
      have := ih _ _ (RO.addT S hb (h i))
      simpa [add_assoc] using this
  have := key (List.finRange n) none 0 Filter.EventuallyEq.rfl
  refine RO.congr S this ?_
  filter_upwards with y
  rw [Pi.zero_apply, zero_add, ← List.ofFn_eq_map, List.sum_ofFn]

theorem SolveSound.along (S : Sound x R) (hS : SolveSound x R) {T V : E → E'} (hT : Filter.Tendsto T (𝓝 x) (𝓝 (T x))) :
    SolveSound (α := JVP α) (T x) (alongR x T V R) := by
  intro m A b Af bf hA hb h0 i
  have hx := hS m (fun i j => (A i j).val) (fun i => (b i).val) (fun y => Af (T y)) (fun y => bf (T y)) (fun i j => (hA i j).2.1)
    (fun i => (hb i).2.1) h0
  have hdet : ∀ᶠ y in 𝓝 x, (Af (T y)).det ≠ 0 := hT.eventually ((det_contDiff fun i j => (hA i j).1).continuousAt.eventually_ne h0)
  have ev : ∀ {g : E' → ℝ}, ContDiffAt ℝ ∞ g (T x) → ∀ᶠ y in 𝓝 x, ContDiffAt ℝ 1 g (T y) := fun h =>
    hT.eventually ((h.of_le (by exact_mod_cast le_top)).eventually (by simp))
  have hevA : ∀ᶠ y in 𝓝 x, ∀ i j, ContDiffAt ℝ 1 (fun z => Af z i j) (T y) :=
    Filter.eventually_all.mpr fun i => Filter.eventually_all.mpr fun j => ev (hA i j).1
  have hevb : ∀ᶠ y in 𝓝 x, ∀ i, ContDiffAt ℝ 1 (fun z => bf z i) (T y) := Filter.eventually_all.mpr fun i => ev (hb i).1
  refine ⟨solve_contDiff (fun i j => (hA i j).1) (fun i => (hb i).1) h0 i, hx i, ?_⟩
  show RO x R (ite _ none (some (ADSolve.solve (fun i j => (A i j).val) _ i))) _
  split_ifs with hn
  · have h1 : ∀ᶠ y in 𝓝 x, ∀ i j, fderiv ℝ (fun z => Af z i j) (T y) (V y) = 0 :=
      Filter.eventually_all.mpr fun i => Filter.eventually_all.mpr fun j => by
        have := (hA i j).2.2
        rw [hn.1 i j] at this
        exact this
    have h2 : ∀ᶠ y in 𝓝 x, ∀ i, fderiv ℝ (fun z => bf z i) (T y) (V y) = 0 :=
      Filter.eventually_all.mpr fun i => by
        have := (hb i).2.2
        rw [hn.2 i] at this
        exact this
    show _ =ᶠ[𝓝 x] 0
    filter_upwards [hdet, hevA, hevb, h1, h2] with y e1 e2 e3 e4 e5
    rw [solve_fderiv e2 e3 e1]
    simp only [e4, e5, zero_mul, Finset.sum_const_zero, sub_zero]
    exact congrFun (Matrix.mulVec_zero _) i
  · refine S.congr (hS m _ _ (fun y => Af (T y)) (fun y a => fderiv ℝ (fun z => bf z a) (T y) (V y) -
      ∑ j, fderiv ℝ (fun z => Af z a j) (T y) (V y) * ((Af (T y))⁻¹.mulVec (bf (T y))) j) (fun i j => (hA i j).2.1) (fun a => ?_) h0 i) ?_
    · exact S.sub (RO.getD S (hb a).2.2) (sumG_sound S _ _ fun j => S.mul (RO.getD S (hA a j).2.2) (hx j))
    · filter_upwards [hdet, hevA, hevb] with y e1 e2 e3
      rw [solve_fderiv e2 e3 e1]

theorem SolveSound.lift (S : Sound x R) (hS : SolveSound x R) (v : E) : SolveSound (α := JVP α) x (liftR x R v) := by
  intro m A b Af bf hA hb h0 i
  have h := SolveSound.along S hS (T := fun y => y) (V := fun _ => v) Filter.tendsto_id m A b Af bf
    (fun i j => ⟨S.smooth (hA i j).1, hA i j⟩) (fun i => ⟨S.smooth (hb i).1, hb i⟩) h0 i
  exact h.2

theorem SolveSound.liftRev (S : Sound x R) (hS : SolveSound x R) {n : ℕ} (dirs : Fin n → E) :
    SolveSound (α := RevNum n α) x (Verif.liftRev x R dirs) := by
  intro m A b Af bf hA hb h0 i
  have hx := hS m (fun i j => (A i j).val) (fun i => (b i).val) Af bf (fun i j => (hA i j).1) (fun i => (hb i).1) h0
  have hsA := fun i j => S.smooth (hA i j).1
  have hsb := fun i => S.smooth (hb i).1
  refine ⟨hx i, fun c h hc k => ?_⟩
  have hdet : ∀ᶠ y in 𝓝 x, (Af y).det ≠ 0 := (det_contDiff hsA).continuousAt.eventually_ne h0
  have ev : ∀ {g : E → ℝ}, ContDiffAt ℝ ∞ g x → ∀ᶠ y in 𝓝 x, ContDiffAt ℝ 1 g y := fun h =>
    (h.of_le (by exact_mod_cast le_top)).eventually (by simp)
  have hevA : ∀ᶠ y in 𝓝 x, ∀ i j, ContDiffAt ℝ 1 (fun z => Af z i j) y :=
    Filter.eventually_all.mpr fun i => Filter.eventually_all.mpr fun j => ev (hsA i j)
  have hevb : ∀ᶠ y in 𝓝 x, ∀ i, ContDiffAt ℝ 1 (fun z => bf z i) y := Filter.eventually_all.mpr fun i => ev (hsb i)
  have hw := hS m (fun i j => (A j i).val) (fun a => if a = i then c else ADNum.const 0) (fun y => (Af y).transpose)
    (fun y a => if a = i then h y else 0) (fun i j => (hA j i).1) (fun a => by
      split_ifs
      · exact hc
      · exact zero_eq ▸ S.const 0) (by rwa [Matrix.det_transpose])
  have h1 := sumT_sound S _ _ fun a => RO.addT S ((hb a).2 _ _ (hw a) k)
    (sumT_sound S _ _ fun d => (hA a d).2 _ _ (S.neg (S.mul (hw a) (hx d))) k)
  refine RO.congr S h1 ?_
  filter_upwards [hdet, hevA, hevb] with y e1 e2 e3
  rw [solve_fderiv e2 e3 e1]
  have ew : ∀ a, ((Af y).transpose⁻¹.mulVec fun a => if a = i then h y else 0) a = h y * (Af y)⁻¹ i a := fun a => by
    rw [← Matrix.transpose_nonsing_inv]
    simp [Matrix.mulVec, dotProduct, mul_comm]
  simp only [ew]
  generalize (Af y)⁻¹.mulVec (bf y) = s
  simp only [Matrix.mulVec, dotProduct]
  rw [Finset.mul_sum]
  refine Finset.sum_congr rfl fun a _ => ?_
  have e : ∑ d, -(h y * (Af y)⁻¹ i a * s d) * fderiv ℝ (fun z => Af z a d) y (dirs k) =
      -(h y * (Af y)⁻¹ i a) * ∑ d, fderiv ℝ (fun z => Af z a d) y (dirs k) * s d := by
    rw [Finset.mul_sum]
    exact Finset.sum_congr rfl fun d _ => by ring
  rw [e]
  ring

end

end Verif
