import Verif.Model.CalcExtra
import Verif.Props.Calc
import Verif.Lemmas.Steihaug
import Mathlib.Analysis.Calculus.LineDeriv.Basic

/-! # Properties C122 to C125: Jacobians in reverse mode, modules, checks of `curl`, unit vectors -/

namespace Verif

open XR InnerProductSpace Laplacian

/-! ## C122 -/

section
variable {n m : ℕ} {A : Type}

/-- Forward mode computes the partial derivatives. -/
theorem jacMatrix_hasDerivAt {f : Pt n → Pt m} {x : Pt n} (hf : DifferentiableAt ℝ f x) (i : Fin m) (j : Fin n) :
    HasDerivAt (fun t : ℝ => f (x + t • (unitVec j : Pt n)) i) (jacMatrix f x i j) 0 := by
  have h := hf.hasFDerivAt.hasLineDerivAt (unitVec j)
  have h2 := (EuclideanSpace.proj (𝕜 := ℝ) i : Pt m →L[ℝ] ℝ).hasFDerivAt.comp_hasDerivAt (0 : ℝ) h
  exact h2

theorem jacrev_eq_jacMatrix (f : Pt n → Pt m) (x : Pt n) : jacrev f x = jacMatrix f x := by
  funext i j
  have h1 : vjp f x (unitVec i) j = inner ℝ (unitVec j : Pt n) (vjp f x (unitVec i)) := by
    simp [EuclideanSpace.inner_single_left]
  have h2 : inner ℝ (unitVec j : Pt n) (vjp f x (unitVec i)) = inner ℝ (fderiv ℝ f x (unitVec j)) (unitVec i : Pt m) := by
    rw [vjp, ContinuousLinearMap.adjoint_inner_right]
  rw [jacrev, h1, h2]
  simp [EuclideanSpace.inner_single_right, jacMatrix, jacfwd, jvp]

/-- **C122**. `value_and_jacrev` returns the value and the matrix whose entry `(i, j)` is the partial derivative of entry `i`
with respect to argument `j`. -/
theorem C122_jacrev (f : Pt n → Pt m) (x : Pt n) (hf : DifferentiableAt ℝ f x) :
    (valueAndJacrev f x).1 = f x ∧
    ∀ i j, HasDerivAt (fun t : ℝ => f (x + t • (unitVec j : Pt n)) i) ((valueAndJacrev f x).2 i j) 0 := by
  refine ⟨rfl, fun i j => ?_⟩
  have : (valueAndJacrev f x).2 = jacMatrix f x := jacrev_eq_jacMatrix f x
  rw [this]
  exact jacMatrix_hasDerivAt hf i j

/-- **C122**. Forward and reverse mode give the same Jacobian. -/
theorem C122_modes (f : Pt n → Pt m) (x : Pt n) (i : Fin m) (j : Fin n) :
    (valueAndJacrev f x).2 i j = (valueAndJacfwd f x).2 j i :=
  congrFun (congrFun (jacrev_eq_jacMatrix f x) i) j

/-- **C122**. With an auxiliary output, both modes return the value, the auxiliary output at the same point and the Jacobian of
the value alone. -/
theorem C122_aux (f : Pt n → Pt m × A) (x : Pt n) :
    valueAndJacrevAux f x = (f x, (valueAndJacrev (fun y => (f y).1) x).2) ∧
    valueAndJacfwdAux f x = (f x, (valueAndJacrev (fun y => (f y).1) x).2) :=
  ⟨rfl, Prod.ext rfl (jacrev_eq_jacMatrix _ x).symm⟩

/-- The Jacobian of a linear function is its matrix. -/
example (x : Pt 2) : (valueAndJacrev (fun y : Pt 2 => (3 : ℝ) • y) x).2 0 0 = 3 ∧
    (valueAndJacrev (fun y : Pt 2 => (3 : ℝ) • y) x).2 1 0 = 0 := by
  have hf : DifferentiableAt ℝ (fun y : Pt 2 => (3 : ℝ) • y) x := differentiableAt_id.const_smul (3 : ℝ)
  constructor
  · refine ((C122_jacrev _ x hf).2 0 0).unique ?_
    have : HasDerivAt (fun t : ℝ => 3 * (x 0 + t)) 3 0 := by
      simpa using ((hasDerivAt_id (0 : ℝ)).const_add (x 0)).const_mul 3
    exact this.congr_of_eventuallyEq (.of_forall fun t => by simp; try ring)
  · refine ((C122_jacrev _ x hf).2 1 0).unique ?_
    exact (hasDerivAt_const (0 : ℝ) (3 * x 1)).congr_of_eventuallyEq (.of_forall fun t => by simp; try ring)

end

/-! ## C123 -/

section
variable {n : ℕ} {P E : Type} [NormedAddCommGroup E] [NormedSpace ℝ E]

/-- **C123**. The operators `laplace`, `value_and_divergence` and `curl` differentiate a module with respect to its input, with
the parameters fixed. -/
theorem C123_operators (apply : P → Pt n → E) (field : P → Pt n → Pt n) (field3 : P → Pt 3 → Pt 3) (x : Pt n) (y : Pt 3)
    (p : P) (h : ContDiffAt ℝ 2 (apply p) x) :
    applyToModule laplaceArgs apply x p = (Δ (apply p)) x ∧
    applyToModule valueAndDivergenceArgs field x p = (field p x, LinearMap.trace ℝ (Pt n) (fderiv ℝ (field p) x)) ∧
    applyToModule curlArgs field3 y p = curl (field3 p) y :=
  ⟨C81_laplace (apply p) x h, Prod.ext rfl (C92_trace (field p) x), rfl⟩

/-- **C123, disagreement**. `derivative` and `value_and_derivative` accept a module as well, but the function they return always
fails when it is called with the input and the parameters: `zeros_like` does not accept a tree of parameters. -/
theorem C123_derivative_raises (apply : P → Pt n → E) (wrt : ℤ) (x : Pt n) (p : P) :
    moduleDerivative apply wrt x p = .error .typeError := by
  have h : moduleDirection wrt [PyObj.array x, PyObj.tree p] = .error .typeError := by
    simp only [moduleDirection, List.zipIdx_cons, List.zipIdx_nil, List.mapM_cons, PyObj.fullLike]
    rfl
  rw [moduleDerivative, h]
  rfl

/-- **C123**. With the parameters passed by keyword the result is the derivative with respect to the input, in the
direction of all ones; other positions give zero. -/
theorem C123_keyword (apply : P → Pt n → E) (wrt : ℤ) (x : Pt n) (p : P) (h : DifferentiableAt ℝ (apply p) x) :
    ∃ d, moduleDerivativeKw apply wrt x p = .ok (apply p x, d) ∧
      HasDerivAt (fun t : ℝ => apply p (x + t • (WithLp.toLp 2 fun _ => if wrt = 0 then 1 else 0 : Pt n))) d 0 := by
  refine ⟨fderiv ℝ (apply p) x (WithLp.toLp 2 fun _ => if wrt = 0 then 1 else 0), ?_, ?_⟩
  · simp only [moduleDerivativeKw, moduleDirection, List.zipIdx_cons, List.zipIdx_nil, List.mapM_cons, List.mapM_nil,
      PyObj.fullLike, eq_comm (a := (0 : ℤ)), Nat.cast_zero]
    rfl
  · exact h.hasFDerivAt.hasLineDerivAt _

/-- **C123**. An explicit direction in place of positions: the value and the derivative along the line in this direction. -/
theorem C123_direction {k : ℕ} {s : Fin k → ℕ} (f : Args s → E) (ei args : Args s) (h : DifferentiableAt ℝ f args) :
    (valueAndDerivativeDirection f ei args).1 = f args ∧
    HasDerivAt (fun t : ℝ => f (args + t • ei)) (valueAndDerivativeDirection f ei args).2 0 :=
  ⟨rfl, h.hasFDerivAt.hasLineDerivAt ei⟩

/-- A module with one weight. -/
example (x : Pt 1) (p : ℝ) : ∃ d, moduleDerivativeKw (fun (p : ℝ) (x : Pt 1) => p * x 0) 0 x p = .ok (p * x 0, d) ∧ d = p := by
  obtain ⟨d, h1, h2⟩ := C123_keyword (fun (p : ℝ) (x : Pt 1) => p * x 0) 0 x p
    ((EuclideanSpace.proj (𝕜 := ℝ) (0 : Fin 1) : Pt 1 →L[ℝ] ℝ).differentiableAt.const_mul p)
  refine ⟨d, h1, h2.unique ?_⟩
  have : HasDerivAt (fun t : ℝ => p * (x 0 + t)) p 0 := by
    simpa using ((hasDerivAt_id (0 : ℝ)).const_add (x 0)).const_mul p
  exact this.congr_of_eventuallyEq (.of_forall fun t => by simp; try ring)

end

/-! ## C124 -/

/-- **C124**. The check of the number of entries accepts exactly the trees of arrays whose last axes all have length `k`, and
fails exactly if some value is a number. -/
theorem C124_check (k : ℕ) (shapes : List (List ℕ)) :
    (isNd k shapes = .error .indexError ↔ [] ∈ shapes) ∧
    ([] ∉ shapes → isNd k shapes = .ok (decide (∀ s ∈ shapes, s.getLast? = some k))) := by
  have key : ([] ∈ shapes → isNd k shapes = .error .indexError) ∧
      ([] ∉ shapes → isNd k shapes = .ok (decide (∀ s ∈ shapes, s.getLast? = some k))) := by
    induction shapes with
    | nil => exact ⟨by simp, fun _ => by simp [isNd]; rfl⟩
    | cons s l ih =>
      rcases List.eq_nil_or_concat s with rfl | ⟨s', a, rfl⟩
      · exact ⟨fun _ => by simp [isNd, List.mapM_cons]; rfl, by simp⟩
      · have hlast : (s'.concat a).getLast? = some a := by simp
        have hne : [] ≠ s'.concat a := by simp
        constructor
        · intro h
          have h' : [] ∈ l := by
            rcases List.mem_cons.mp h with h | h
            · exact absurd h hne
            · exact h
          have := ih.1 h'
          simp only [isNd, List.mapM_cons, hlast] at this ⊢
          revert this
          cases (List.mapM (fun s : List ℕ => match s.getLast? with
            | some d => Except.ok d
            | none => .error Err.indexError) l) with
          | error e => intro h; exact h
          | ok v => intro h; cases h
        · intro h
          have h' : [] ∉ l := fun hh => h (List.mem_cons_of_mem _ hh)
          have := ih.2 h'
          simp only [isNd, List.mapM_cons, hlast] at this ⊢
          revert this
          cases (List.mapM (fun s : List ℕ => match s.getLast? with
            | some d => Except.ok d
            | none => .error Err.indexError) l) with
          | error e => intro h; cases h
          | ok v =>
            intro h
            have h2 : v.all (· == k) = decide (∀ s ∈ l, s.getLast? = some k) := by
              exact Except.ok.inj h
            show Except.ok ((a :: v).all (· == k)) = _
            congr 1
            rw [List.all_cons, h2]
            simp only [List.forall_mem_cons, hlast, Option.some.injEq, Bool.decide_and]
            congr 1
  refine ⟨⟨fun h => ?_, key.1⟩, key.2⟩
  by_contra hn
  rw [key.2 hn] at h
  cases h

/-- A pair of a vector and a batch of vectors, and a number among the values. -/
example : isNd 3 [[3], [5, 3]] = .ok true ∧ isNd 3 [[3], [5, 2]] = .ok false ∧ isNd 3 [[3], []] = .error .indexError := by
  refine ⟨?_, ?_, ?_⟩
  · rw [(C124_check 3 _).2 (by simp)]; simp
  · rw [(C124_check 3 _).2 (by simp)]; simp
  · rw [(C124_check 3 _).1]; simp

/-- **C124**. For values of shape `(b, 3)` and `(b, 2)` the result is the curl of each row. -/
theorem C124_batch {b : ℕ} (F : Pt 3 → Fin b → Pt 3) (G : Pt 2 → Fin b → Pt 2) (x : Pt 3) (y : Pt 2)
    (hF : DifferentiableAt ℝ F x) (hG : DifferentiableAt ℝ G y) (r : Fin b) :
    curl (fun z => F z r) x = .ok (.inr (curl3dBatch F x r)) ∧
    curl (fun z => G z r) y = .ok (.inl (curl2dBatch G y r)) := by
  have h1 := (hasFDerivAt_pi'.mp hF.hasFDerivAt r).fderiv
  have h2 := (hasFDerivAt_pi'.mp hG.hasFDerivAt r).fderiv
  have e1 : ∀ i j, jacMatrix (fun z => F z r) x i j = jacfwd F x j r i := by
    intro i j
    simp only [jacMatrix, jacfwd, jvp]
    rw [h1]; rfl
  have e2 : ∀ i j, jacMatrix (fun z => G z r) y i j = jacfwd G y j r i := by
    intro i j
    simp only [jacMatrix, jacfwd, jvp]
    rw [h2]; rfl
  refine ⟨?_, ?_⟩
  · show Except.ok (Sum.inr (curl3d _ x)) = _
    simp only [curl3d, curl3dBatch, e1]
  · show Except.ok (Sum.inl (curl2d _ y)) = _
    simp only [curl2d, curl2dBatch, e2]

/-- Two constant fields. -/
example (x : Pt 3) (y : Pt 2) (r : Fin 2) : curl (fun _ : Pt 3 => (unitVec 0 : Pt 3)) x =
    .ok (.inr (curl3dBatch (fun _ _ => unitVec 0 : Pt 3 → Fin 2 → Pt 3) x r)) :=
  (C124_batch (fun _ _ => unitVec 0 : Pt 3 → Fin 2 → Pt 3) (fun _ _ => unitVec 0 : Pt 2 → Fin 2 → Pt 2) x y
    (differentiableAt_const _) (differentiableAt_const _) r).1

/-! ## C125 -/

/-- **C125**. `unit_vec` of a vector other than zero is the vector of length one in the same direction, whatever the length; it
does not change unit vectors. -/
theorem C125_unit {n : ℕ} (x : Pt n) (hx : x ≠ 0) :
    ∃ u : Pt n, unitVector (efin x) = efin u ∧ ‖u‖ = 1 ∧ SameRay ℝ u x ∧ (‖x‖ = 1 → u = x) ∧
      ∀ a : ℝ, 0 < a → unitVector (efin (a • x)) = efin u := by
  have hn : ‖x‖ ≠ 0 := norm_ne_zero_iff.mpr hx
  have key : ∀ y : Pt n, ‖y‖ ≠ 0 → unitVector (efin y) = efin (‖y‖⁻¹ • y) := by
    intro y hy
    funext i
    simp only [unitVector, vnorm_efin']
    simp only [efin]
    show fin (y i) / fin ‖y‖ = fin ((‖y‖⁻¹ • y) i)
    rw [fin_div _ hy]
    congr 1
    simp [div_eq_inv_mul]
  refine ⟨‖x‖⁻¹ • x, key x hn, ?_, ?_, fun h => by simp [h], fun a ha => ?_⟩
  · rw [norm_smul, norm_inv, norm_norm, inv_mul_cancel₀ hn]
  · exact SameRay.sameRay_nonneg_smul_left x (by positivity)
  · have hax : ‖a • x‖ = a * ‖x‖ := by rw [norm_smul, Real.norm_of_nonneg ha.le]
    rw [key _ (by rw [hax]; positivity), hax, smul_smul]
    congr 2
    field_simp

/-- **C125**. Of the zero vector it is not a number in every entry. -/
theorem C125_zero {n : ℕ} (i : Fin n) : unitVector (efin (0 : Pt n)) i = nan := by
  simp only [unitVector, vnorm_efin', norm_zero]
  simp [efin]

/-- **C125**. A batch is treated row by row. -/
theorem C125_batch {b n : ℕ} (x : Fin b → Vec n) (r : Fin b) : unitVectorBatch x r = unitVector (x r) := rfl

/-- The direction of `(3, 4)`. -/
example : ∃ u : Pt 2, unitVector (efin !₂[3, 4]) = efin u ∧ ‖u‖ = 1 := by
  obtain ⟨u, h1, h2, -⟩ := C125_unit (!₂[3, 4] : Pt 2) (fun h => by have := congrArg (fun v : Pt 2 => v 0) h; simp at this)
  exact ⟨u, h1, h2⟩

end Verif
