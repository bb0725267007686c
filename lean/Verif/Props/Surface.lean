import Verif.Model.Surface
import Verif.Spec.Surface
import Verif.Props.Integrate
import Verif.Props.Calc
import Mathlib.Analysis.Calculus.ContDiff.Defs
import Mathlib.Analysis.Calculus.IteratedDeriv.Lemmas
import Mathlib.Analysis.Calculus.Deriv.Polynomial
import Mathlib.Tactic.ComputeDegree

/-! # Surface integrals (C85, C86, C87) -/

namespace Verif

open Filter Topology

section
variable {E : Type} [NormedAddCommGroup E] [NormedSpace ℝ E]

/-! ## Taylor polynomials in coordinates -/

/-- The terms of the next order. -/
noncomputable def stepTerm (d : Pt 3) (p : ℝ × (Pt 3 → E)) : List (ℝ × (Pt 3 → E)) :=
  [(p.1 * d 0, fun x => jacfwd p.2 x 0), (p.1 * d 1, fun x => jacfwd p.2 x 1), (p.1 * d 2, fun x => jacfwd p.2 x 2)]

theorem zip_flatMap {α β γ δ : Type*} (l : List α) (m : List β) (f : α → List γ) (g : β → List δ)
    (h : l.length = m.length) (hfg : ∀ a b, (f a).length = (g b).length) :
    (l.flatMap f).zip (m.flatMap g) = (l.zip m).flatMap fun p => (f p.1).zip (g p.2) := by
  induction l generalizing m with
  | nil => simp
  | cons a l ih =>
    cases m with
    | nil => simp at h
    | cons b m =>
      simp only [List.flatMap_cons, List.zip_cons_cons]
      rw [List.zip_append (hfg a b), ih m (by simpa using h)]

theorem outerPower_length (d : Pt 3) (i : ℕ) : (outerPower d i).length = 3 ^ i := by
  induction i with
  | zero => rfl
  | succ i ih => simp [outerPower, List.length_flatMap, ih, pow_succ]

theorem derivEntries_length (f : Pt 3 → E) (i : ℕ) : (derivEntries f i).length = 3 ^ i := by
  induction i with
  | zero => rfl
  | succ i ih => simp [derivEntries, List.length_flatMap, ih, pow_succ]

theorem zip_succ (d : Pt 3) (f : Pt 3 → E) (i : ℕ) :
    (outerPower d (i + 1)).zip (derivEntries f (i + 1)) = ((outerPower d i).zip (derivEntries f i)).flatMap (stepTerm d) := by
  rw [outerPower, derivEntries, zip_flatMap _ _ _ _ (by rw [outerPower_length, derivEntries_length]) (by intros; rfl)]
  rfl

theorem contDiffAt_derivEntries (f : Pt 3 → E) (c : Pt 3) (i : ℕ) : ∀ n : ℕ, ContDiffAt ℝ ((n + i : ℕ)) f c →
    ∀ g ∈ derivEntries f i, ContDiffAt ℝ n g c := by
  induction i with
  | zero =>
    intro n hf g hg
    simp only [derivEntries, List.mem_singleton] at hg
    subst hg
    exact hf
  | succ i ih =>
    intro n hf g hg
    simp only [derivEntries, List.mem_flatMap] at hg
    obtain ⟨g', hg', hg⟩ := hg
    have h1 : ContDiffAt ℝ ((n + 1 : ℕ)) g' c := ih (n + 1) (by convert hf using 2; ring_nf) g' hg'
    have key : ∀ j : Fin 3, ContDiffAt ℝ n (fun x => jacfwd g' x j) c := fun j =>
      (h1.fderiv_right (m := n) (by norm_cast)).clm_apply contDiffAt_const
    simp only [List.mem_cons, List.not_mem_nil, or_false] at hg
    rcases hg with rfl | rfl | rfl <;> exact key _

/-- Value of a list of terms. -/
noncomputable def termSum (L : List (ℝ × (Pt 3 → E))) (x : Pt 3) : E := (L.map fun p => p.1 • p.2 x).sum

theorem fderiv_eq_sum_jacfwd (g : Pt 3 → E) (x d : Pt 3) :
    fderiv ℝ g x d = d 0 • jacfwd g x 0 + d 1 • jacfwd g x 1 + d 2 • jacfwd g x 2 := by
  have hv : d = ∑ j, d j • (unitVec j : Pt 3) := by
    ext j
    simp [Pi.single_apply]
  conv_lhs => rw [hv]
  simp only [Fin.sum_univ_three, map_add, map_smul, jacfwd, jvp]

theorem hasDerivAt_termSum (L : List (ℝ × (Pt 3 → E))) (c d : Pt 3) (h : ∀ p ∈ L, ContDiffAt ℝ 1 p.2 c) :
    ∀ᶠ t : ℝ in 𝓝 0, HasDerivAt (fun t : ℝ => termSum L (c + t • d)) (termSum (L.flatMap (stepTerm d)) (c + t • d)) t := by
  induction L with
  | nil =>
    refine Eventually.of_forall fun t => ?_
    simpa [termSum] using hasDerivAt_const t (0 : E)
  | cons p L ih =>
    have ih := ih fun q hq => h q (by simp [hq])
    have hcont : Tendsto (fun t : ℝ => c + t • d) (𝓝 0) (𝓝 c) := by
      have : ContinuousAt (fun t : ℝ => c + t • d) 0 := by fun_prop
      simpa [ContinuousAt] using this
    have hp := hcont.eventually ((h p (by simp)).eventually (by simp))
    filter_upwards [ih, hp] with t h1 h2
    have hd : HasDerivAt (fun t : ℝ => p.2 (c + t • d)) (fderiv ℝ p.2 (c + t • d) d) t := by
      have hl : HasDerivAt (fun t : ℝ => c + t • d) d t := by
        simpa using ((hasDerivAt_id t).smul_const d).const_add c
      exact (h2.differentiableAt (by norm_num)).hasFDerivAt.comp_hasDerivAt t hl
    have := (hd.const_smul p.1).add h1
    simp only [termSum, List.map_cons, List.sum_cons, List.flatMap_cons, List.map_append, List.sum_append]
    refine this.congr_deriv ?_
    rw [fderiv_eq_sum_jacfwd]
    simp only [stepTerm, List.map_cons, List.map_nil, List.sum_cons, List.sum_nil, termSum, mul_smul, smul_add]
    abel

theorem iteratedDeriv_eq_termSum (f : Pt 3 → E) (c d : Pt 3) (i : ℕ) (hf : ContDiffAt ℝ i f c) :
    iteratedDeriv i (fun t : ℝ => f (c + t • d)) =ᶠ[𝓝 0]
      fun t => termSum ((outerPower d i).zip (derivEntries f i)) (c + t • d) := by
  induction i with
  | zero =>
    refine Eventually.of_forall fun t => ?_
    simp [termSum, outerPower, derivEntries]
  | succ i ih =>
    have ih := ih (hf.of_le (by norm_cast; omega))
    rw [iteratedDeriv_succ]
    have h1 := ih.deriv
    have h2 := hasDerivAt_termSum ((outerPower d i).zip (derivEntries f i)) c d (by
      intro p hp
      exact contDiffAt_derivEntries f c i 1 (by convert hf using 2; ring) p.2 (List.of_mem_zip hp).2)
    filter_upwards [h1, h2] with t h1 h2
    rw [h1, h2.deriv, zip_succ]

theorem tensordot_eq_zip (W : List ℝ) (F : List E) : tensordot W F = ((W.zip F).map fun p => p.1 • p.2).sum := by
  rw [tensordot, List.zip, List.map_zipWith]

theorem tensordot_append (W₁ W₂ : List ℝ) (F₁ F₂ : List E) (h : W₁.length = F₁.length) :
    tensordot (W₁ ++ W₂) (F₁ ++ F₂) = tensordot W₁ F₁ + tensordot W₂ F₂ := by
  simp [tensordot, List.zipWith_append h]

theorem tensordot_flatMap_same {α : Type*} (l : List α) (A : α → List ℝ) (B : α → List E)
    (h : ∀ a ∈ l, (A a).length = (B a).length) :
    tensordot (l.flatMap A) (l.flatMap B) = (l.map fun a => tensordot (A a) (B a)).sum := by
  induction l with
  | nil => simp [tensordot]
  | cons a l ih =>
    simp only [List.flatMap_cons, List.map_cons, List.sum_cons]
    rw [tensordot_append _ _ _ _ (h a (by simp)), ih fun b hb => h b (by simp [hb])]

theorem tensordot_smul_right (c : ℝ) (W : List ℝ) (F : List E) :
    tensordot W (F.map fun z => c • z) = c • tensordot W F := by
  simp only [tensordot]
  induction W generalizing F with
  | nil => simp
  | cons w W ih =>
    cases F with
    | nil => simp
    | cons z F =>
      simp only [List.map_cons, List.zipWith_cons_cons, List.sum_cons, ih, smul_add]
      rw [smul_comm]

theorem sourceTerms_length (d : Pt 3) (order : ℕ) : (sourceTerms d order).length = tensorSize order := by
  rw [sourceTerms, tensorSize, List.range_succ_eq_map]
  simp only [List.length_append, List.length_flatMap, outerPower_length, List.map_cons, List.map_map, List.sum_cons]
  rfl

theorem charge_length (f : Pt 3 → E) (order : ℕ) (c : Pt 3) : (chargeTensor.charge f order c).length = tensorSize order := by
  rw [chargeTensor.charge, tensorSize, List.range_succ_eq_map]
  simp only [List.length_append, List.length_flatMap, List.length_map, derivEntries_length, List.map_cons, List.map_map,
    List.sum_cons]
  rfl

/-- The contraction of the two tensors of one cell is the Taylor polynomial. -/
theorem tensordot_taylor (f : Pt 3 → E) (order : ℕ) (c y : Pt 3) (hf : ContDiffAt ℝ order f c) :
    tensordot (sourceTerms (y - c) order) (chargeTensor.charge f order c) = taylorPoly f order c y := by
  have key : ∀ i ≤ order, tensordot (outerPower (y - c) i) ((derivEntries f i).map fun g => g c) =
      iteratedDeriv i (fun t : ℝ => f (c + t • (y - c))) 0 := by
    intro i hi
    have h := (iteratedDeriv_eq_termSum f c (y - c) i (hf.of_le (by exact_mod_cast hi))).eq_of_nhds
    rw [h, tensordot, List.zipWith_map_right, termSum, List.zip, List.map_zipWith]
    simp
  rw [sourceTerms, chargeTensor.charge, tensordot_append [1] _ [f c] _ rfl,
    tensordot_flatMap_same _ _ _ (by intro i _; simp [outerPower_length, derivEntries_length])]
  rw [taylorPoly, Finset.sum_range_succ', add_comm]
  congr 1
  · rw [Finset.sum_range, ← List.sum_ofFn, List.ofFn_eq_map, ← List.map_coe_finRange_eq_range, List.map_map]
    congr 1
    refine List.map_congr_left fun i _ => ?_
    have := tensordot_smul_right ((((i : ℕ) + 1).factorial : ℝ)⁻¹) (outerPower (y - c) (i + 1))
      ((derivEntries f (i + 1)).map fun g => g c)
    rw [key _ i.isLt, List.map_map] at this
    exact this
  · simp [tensordot]

/-! ## Area elements -/

theorem norm_crossPt (a b : Pt 3) : ‖crossPt a b‖ = gramArea a b := by
  rw [gramArea, EuclideanSpace.norm_eq, ← real_inner_self_eq_norm_sq, ← real_inner_self_eq_norm_sq]
  congr 1
  simp only [Fin.sum_univ_three, Real.norm_eq_abs, sq_abs, PiLp.inner_apply, RCLike.inner_apply, conj_trivial, crossPt,
    cross_apply]
  simp
  ring

theorem pair_eq (s t : ℝ) : (!₂[s, t] : Pt 2) = s • unitVec 0 + t • unitVec 1 := by
  ext i
  fin_cases i <;> simp

theorem jacfwd_zero_eq (r : Pt 2 → E) (s t : ℝ) (hr : DifferentiableAt ℝ r !₂[s, t]) :
    jacfwd r !₂[s, t] 0 = deriv (fun s => r !₂[s, t]) s := by
  have hl : HasDerivAt (fun s : ℝ => (!₂[s, t] : Pt 2)) (unitVec 0) s := by
    simp only [pair_eq]
    simpa using ((hasDerivAt_id s).smul_const (unitVec 0 : Pt 2)).add_const (t • (unitVec 1 : Pt 2))
  exact (hr.hasFDerivAt.comp_hasDerivAt s hl).deriv.symm

theorem jacfwd_one_eq (r : Pt 2 → E) (s t : ℝ) (hr : DifferentiableAt ℝ r !₂[s, t]) :
    jacfwd r !₂[s, t] 1 = deriv (fun t => r !₂[s, t]) t := by
  have hl : HasDerivAt (fun t : ℝ => (!₂[s, t] : Pt 2)) (unitVec 1) t := by
    simp only [pair_eq]
    simpa using ((hasDerivAt_id t).smul_const (unitVec 1 : Pt 2)).const_add (s • (unitVec 0 : Pt 2))
  exact (hr.hasFDerivAt.comp_hasDerivAt t hl).deriv.symm

theorem integrand_eq (f : Pt 3 → E) (r : Pt 2 → Pt 3) (hr : Differentiable ℝ r) (s t : ℝ) :
    integrateSurface.integrand f r (pt2 [s, t]) = areaElement r s t • f (r !₂[s, t]) := by
  have e : pt2 [s, t] = !₂[s, t] := rfl
  simp only [integrateSurface.integrand, e]
  rw [jacfwd_zero_eq r s t (hr _), jacfwd_one_eq r s t (hr _), norm_crossPt]
  rfl

/-! ## C86 -/

/-- `integrate_surface` is the quadrature of the function times the area element. -/
theorem C86_formula (f : Pt 3 → E) (r : Pt 2 → Pt 3) (hr : Differentiable ℝ r) (u v : List ℝ) (method : QuadRule)
    (hu : (method u).1.length = (method u).2.length) (hv : (method v).1.length = (method v).2.length) :
    integrateSurface f r u v method = surfaceQuad (method u) (method v) r f := by
  rw [integrateSurface, C48_nested _ _ _ (by
    intro d hd
    simp only [List.mem_cons, List.not_mem_nil, or_false] at hd
    rcases hd with rfl | rfl <;> assumption)]
  simp only [List.map_cons, List.map_nil, nestedQuad, surfaceQuad, integrand_eq f r hr]

example : integrateSurface (fun y : Pt 3 => y 2) (fun x => x 0 • unitVec 0 + x 1 • unitVec 1) [0, 1, 3] [0, 2] trap =
    surfaceQuad (trap [0, 1, 3]) (trap [0, 2]) (fun x => x 0 • unitVec 0 + x 1 • unitVec 1) fun y : Pt 3 => y 2 :=
  C86_formula _ _ (by fun_prop) _ _ trap (C46_trap _ (by simp)).2.1 (C46_trap _ (by simp)).2.1

theorem quad_one_of_exact {m : QuadRule} (hm : ExactRule m 0) {l : List ℝ} (hl : 2 ≤ l.length) {a b : ℝ}
    (ha : l.head? = some a) (hb : l.getLast? = some b) : quad (m l) (fun _ => (1 : ℝ)) = b - a := by
  have hne : l ≠ [] := by rintro rfl; simp at hl
  have h := (hm l hne hl).2 1 (by simp)
  rw [List.head?_eq_some_head hne, Option.some_inj] at ha
  rw [List.getLast?_eq_some_getLast hne, Option.some_inj] at hb
  rw [ha, hb] at h
  simpa using h

/-- A planar patch: a constant is integrated to the constant times the area of the parallelogram. -/
theorem C86_planar (K : E) (p a b : Pt 3) (u v : List ℝ) (method : QuadRule) (hm : ExactRule method 0)
    (hu : 2 ≤ u.length) (hv : 2 ≤ v.length) (u0 u1 v0 v1 : ℝ) (hu0 : u.head? = some u0) (hu1 : u.getLast? = some u1)
    (hv0 : v.head? = some v0) (hv1 : v.getLast? = some v1) :
    integrateSurface (fun _ => K) (fun x => p + x 0 • a + x 1 • b) u v method =
      ((u1 - u0) * (v1 - v0) * gramArea a b) • K := by
  have hlen : ∀ l : List ℝ, 2 ≤ l.length → (method l).1.length = (method l).2.length := fun l hl =>
    (hm l (by rintro rfl; simp at hl) hl).1
  rw [C86_formula _ _ (by fun_prop) _ _ _ (hlen u hu) (hlen v hv)]
  have hA : ∀ s t, areaElement (fun x => p + x 0 • a + x 1 • b) s t = gramArea a b := by
    intro s t
    have h0 : HasDerivAt (fun s : ℝ => p + s • a + t • b) a s := by
      simpa using (((hasDerivAt_id s).smul_const a).const_add p).add_const (t • b)
    have h1 : HasDerivAt (fun t : ℝ => p + s • a + t • b) b t := by
      simpa using ((hasDerivAt_id t).smul_const b).const_add (p + s • a)
    have e0 := h0.deriv
    have e1 := h1.deriv
    simp only [areaElement]
    simp only [Matrix.cons_val_zero, Matrix.cons_val_one, Matrix.cons_val_fin_one]
    rw [e0, e1]
  have hq : ∀ r : List ℝ × List ℝ, ∀ z : E, quad r (fun _ => z) = quad r (fun _ => (1 : ℝ)) • z := by
    intro r z
    rw [← quad_smul_const]
    simp
  simp only [surfaceQuad, hA]
  rw [hq, hq, quad_one_of_exact hm hu hu0 hu1, quad_one_of_exact hm hv hv0 hv1, smul_smul, smul_smul, mul_assoc]

/-- The area of the parallelogram scales with the absolute value of the determinant, the orientation does not matter. -/
theorem gramArea_linear {V : Type*} [NormedAddCommGroup V] [InnerProductSpace ℝ V] (a b : V) (α β γ δ : ℝ) :
    gramArea (α • a + γ • b) (β • a + δ • b) = |α * δ - β * γ| * gramArea a b := by
  rw [gramArea, gramArea, ← Real.sqrt_sq_eq_abs, ← Real.sqrt_mul (sq_nonneg _)]
  congr 1
  simp only [← real_inner_self_eq_norm_sq, inner_add_left, inner_add_right, real_inner_smul_left, real_inner_smul_right,
    real_inner_comm a b]
  ring

/-- The area element of a surface in other parameters: the factor is the absolute value of the determinant, in particular
the orientation does not matter. -/
theorem C86_reparametrise (r : Pt 2 → Pt 3) (hr : Differentiable ℝ r) (α β γ δ e g s t : ℝ) :
    areaElement (fun x => r !₂[α * x 0 + β * x 1 + e, γ * x 0 + δ * x 1 + g]) s t =
      |α * δ - β * γ| * areaElement r (α * s + β * t + e) (γ * s + δ * t + g) := by
  rw [areaElement, areaElement, ← gramArea_linear]
  set s' := α * s + β * t + e
  set t' := γ * s + δ * t + g
  have h0 : HasDerivAt (fun s : ℝ => (!₂[α * s + β * t + e, γ * s + δ * t + g] : Pt 2)) (α • unitVec 0 + γ • unitVec 1) s := by
    simp only [pair_eq]
    refine HasDerivAt.add (HasDerivAt.smul_const ?_ _) (HasDerivAt.smul_const ?_ _)
    · simpa using (((hasDerivAt_id s).const_mul α).add_const (β * t)).add_const e
    · simpa using (((hasDerivAt_id s).const_mul γ).add_const (δ * t)).add_const g
  have h1 : HasDerivAt (fun t : ℝ => (!₂[α * s + β * t + e, γ * s + δ * t + g] : Pt 2)) (β • unitVec 0 + δ • unitVec 1) t := by
    simp only [pair_eq]
    refine HasDerivAt.add (HasDerivAt.smul_const ?_ _) (HasDerivAt.smul_const ?_ _)
    · simpa using (((hasDerivAt_id t).const_mul β).const_add (α * s)).add_const e
    · simpa using (((hasDerivAt_id t).const_mul δ).const_add (γ * s)).add_const g
  have k0 := ((hr !₂[s', t']).hasFDerivAt.comp_hasDerivAt s h0).deriv
  have k1 := ((hr !₂[s', t']).hasFDerivAt.comp_hasDerivAt t h1).deriv
  simp only [map_add, map_smul] at k0 k1
  have j0 := jacfwd_zero_eq r s' t' (hr _)
  have j1 := jacfwd_one_eq r s' t' (hr _)
  simp only [jacfwd, jvp] at j0 j1
  rw [j0, j1] at k0 k1
  congr 1

example (r : Pt 2 → Pt 3) (hr : ∀ z, r z = z 0 • unitVec 0 + z 1 • unitVec 1) (s t : ℝ) :
    areaElement (fun x => r !₂[2 * x 0 + 0 * x 1 + 1, 0 * x 0 + 3 * x 1 + 0]) s t =
      |2 * 3 - 0 * 0| * areaElement r (2 * s + 0 * t + 1) (0 * s + 3 * t + 0) :=
  C86_reparametrise r (by rw [funext hr]; fun_prop) 2 0 0 3 1 0 s t

/-- The parameters may be exchanged, which reverses the orientation of the normal. -/
theorem C86_swap (f : Pt 3 → E) (r : Pt 2 → Pt 3) (hr : Differentiable ℝ r) (u v : List ℝ) (method : QuadRule)
    (hu : (method u).1.length = (method u).2.length) (hv : (method v).1.length = (method v).2.length) :
    integrateSurface f (fun x => r !₂[x 1, x 0]) v u method = integrateSurface f r u v method := by
  rw [C86_formula f r hr u v method hu hv, C86_formula f _ (by
    refine hr.comp ?_
    simp only [pair_eq]
    fun_prop) v u method hv hu, surfaceQuad, surfaceQuad, quad_comm]
  have h := fun s t => C86_reparametrise r hr 0 1 1 0 0 0 s t
  simp only [zero_mul, one_mul, zero_add, add_zero, mul_one, zero_sub, abs_neg, abs_one] at h
  simp only [h]
  rfl

/-- The area of a paraboloid over a square does not depend on the order of the parameters. -/
example (u v : List ℝ) (hu : u ≠ []) (hv : v ≠ []) (r : Pt 2 → Pt 3) (hr : ∀ z, r z = !₂[z 0, z 1, z 0 ^ 2 + z 1 ^ 2]) :
    integrateSurface (fun y : Pt 3 => y 2) (fun x => r !₂[x 1, x 0]) v u trap =
      integrateSurface (fun y : Pt 3 => y 2) r u v trap := by
  refine C86_swap _ r ?_ u v trap (C46_trap u hu).2.1 (C46_trap v hv).2.1
  rw [funext hr]
  refine differentiable_euclidean.mpr fun i => ?_
  fin_cases i
  · change Differentiable ℝ fun z : Pt 2 => z 0
    fun_prop
  · change Differentiable ℝ fun z : Pt 2 => z 1
    fun_prop
  · change Differentiable ℝ fun z : Pt 2 => z 0 ^ 2 + z 1 ^ 2
    fun_prop

/-! ## C85 -/

theorem tensordot_ofFn (N : ℕ) (z : Fin N → ℝ) (q : List E) (hq : q.length = N) :
    tensordot (List.ofFn z) q = ∑ k : Fin N, z k • q.getD k 0 := by
  induction N generalizing q with
  | zero => simp [tensordot]
  | succ N ih =>
    cases q with
    | nil => simp at hq
    | cons a q =>
      rw [List.ofFn_succ, Fin.sum_univ_succ]
      have := ih (fun i => z i.succ) q (by simpa using hq)
      simp only [tensordot] at this ⊢
      rw [List.zipWith_cons_cons, List.sum_cons, this]
      rfl

/-- Contraction with a fixed charge as a linear map. -/
noncomputable def contract (N : ℕ) (q : List E) : (Fin N → ℝ) →ₗ[ℝ] E :=
  ∑ k : Fin N, (LinearMap.proj k : (Fin N → ℝ) →ₗ[ℝ] ℝ).smulRight (q.getD k 0)

theorem contract_apply (N : ℕ) (q : List E) (hq : q.length = N) (z : Fin N → ℝ) :
    contract N q z = tensordot (List.ofFn z) q := by
  rw [tensordot_ofFn N z q hq, contract]
  simp

theorem ofFn_getD (l : List ℝ) (N : ℕ) (h : l.length = N) : (List.ofFn fun k : Fin N => l.getD k 0) = l := by
  subst h
  refine List.ext_getElem (by simp) fun i h1 h2 => ?_
  simp [List.getD_eq_getElem?_getD]

/-- The contribution of one cell. -/
theorem cell_potential (f : Pt 3 → E) (r : Pt 2 → Pt 3) (x c : Pt 3) (order : ℕ) (u v : List ℝ) (method : QuadRule)
    (hf : ContDiffAt ℝ order f c) :
    tensordot (List.ofFn (integrateSurface (fun y => sourceTensor.integrand order y c x) r u v method))
      (chargeTensor.charge f order c) =
    integrateSurface (fun y => ‖x - y‖⁻¹ • taylorPoly f order c y) r u v method := by
  rw [← contract_apply _ _ (charge_length f order c), integrateSurface, C48_map, integrateSurface]
  congr 1
  funext p
  rw [contract_apply _ _ (charge_length f order c), integrateSurface.integrand, integrateSurface.integrand,
    ← tensordot_taylor f order c _ hf]
  set y := r (pt2 p)
  set z := ‖crossPt (jacfwd r (pt2 p) 0) (jacfwd r (pt2 p) 1)‖
  have e : List.ofFn (z • sourceTensor.integrand order y c x) =
      ((sourceTerms (y - c) order).map fun a => ‖x - y‖⁻¹ * a).map fun a => z * a := by
    conv_rhs => rw [← ofFn_getD (sourceTerms (y - c) order) _ (sourceTerms_length _ order)]
    rw [List.map_ofFn, List.map_ofFn]
    congr 1
    funext k
    simp [sourceTensor.integrand, div_eq_inv_mul]
  rw [e, tensordot_map_mul, tensordot_map_mul]

/-- The sum over the cells of a grid. -/
noncomputable def cellsSum (u v : List ℝ) (F : ℝ × ℝ → ℝ × ℝ → E) : E :=
  ((gridCells u).map fun a => ((gridCells v).map fun b => F a b).sum).sum

theorem integrateSurfaceElements_ok (f : Pt 3 → Pt 3 → E) (r : Pt 2 → Pt 3) (u v : List ℝ) (method : QuadRule)
    (hu : 2 ≤ u.length) (hv : 2 ≤ v.length) :
    integrateSurfaceElements f r u v method = .ok ((gridCells u).map fun a => (gridCells v).map fun b =>
      integrateSurface (fun y => f y (surfaceCenter r a b)) r [a.1, a.2] [b.1, b.2] method) := by
  rw [integrateSurfaceElements, if_neg (by omega), if_neg (by omega)]
  rfl

theorem potential_eq (f : Pt 3 → E) (r : Pt 2 → Pt 3) (x : Pt 3) (order : ℕ) (u v : List ℝ) (method : QuadRule)
    (hu : 2 ≤ u.length) (hv : 2 ≤ v.length)
    (hf : ∀ a ∈ gridCells u, ∀ b ∈ gridCells v, ContDiffAt ℝ order f (surfaceCenter r a b)) :
    (sourceTensor_ x r u v method order).bind (fun S => singleLayerPotential S (chargeTensor f r u v order)) =
      .ok ((1 / (4 * Real.pi)) • cellsSum u v fun a b =>
        integrateSurface (fun y => ‖x - y‖⁻¹ • taylorPoly f order (surfaceCenter r a b) y) r [a.1, a.2] [b.1, b.2] method) := by
  have hS : sourceTensor_ x r u v method order = .ok ((gridCells u).flatMap fun a => (gridCells v).flatMap fun b =>
      List.ofFn (integrateSurface (fun y => sourceTensor.integrand order y (surfaceCenter r a b) x) r [a.1, a.2] [b.1, b.2]
        method)) := by
    rw [sourceTensor_, integrateSurfaceElements_ok _ r u v method hu hv]
    change Except.ok _ = Except.ok _
    simp only [List.flatten_eq_flatMap, List.flatMap_map, List.flatMap_assoc, id]
  have hQ : chargeTensor f r u v order = (gridCells u).flatMap fun a => (gridCells v).flatMap fun b =>
      chargeTensor.charge f order (surfaceCenter r a b) := by
    simp only [chargeTensor, surfaceMidpoints, List.flatten_eq_flatMap, List.flatMap_map, List.flatMap_assoc, id]
  rw [hS, hQ]
  simp only [Except.bind]
  rw [singleLayerPotential, if_pos (by simp [List.length_flatMap, charge_length])]
  congr 2
  rw [tensordot_flatMap_same _ _ _ (by intro a _; simp [List.length_flatMap, charge_length]), cellsSum]
  congr 1
  refine List.map_congr_left fun a ha => ?_
  rw [tensordot_flatMap_same _ _ _ (by intro a _; simp [charge_length])]
  congr 1
  refine List.map_congr_left fun b hb => ?_
  rw [cell_potential _ _ _ _ _ _ _ _ (hf a ha b hb)]

omit [NormedSpace ℝ E] in
theorem sum_gridCells (u : List ℝ) (F : ℝ × ℝ → E) :
    ((gridCells u).map F).sum = ∑ i ∈ Finset.range (u.length - 1), F (u.getD i 0, u.getD (i + 1) 0) := by
  rw [Finset.sum_range, ← List.sum_ofFn]
  congr 1
  refine List.ext_getElem (by simp [gridCells]) fun i h1 h2 => ?_
  have hi : i + 1 < u.length := by simp [gridCells] at h1; omega
  have hi' : i < u.length := by omega
  simp [gridCells, List.getD_eq_getElem?_getD, hi, hi']

theorem mem_gridCells (w : List ℝ) (a : ℝ × ℝ) (ha : a ∈ gridCells w) :
    ∃ i < w.length - 1, a = (w.getD i 0, w.getD (i + 1) 0) := by
  obtain ⟨i, h1, rfl⟩ := List.mem_iff_getElem.mp ha
  have h2 : i < w.length - 1 := by simp [gridCells] at h1; omega
  have h3 : i + 1 < w.length := by omega
  have h4 : i < w.length := by omega
  exact ⟨i, h2, by simp [gridCells, List.getD_eq_getElem?_getD, h3, h4]⟩

/-- The single layer potential computed from a source and a charge tensor is the quadrature, cell by cell, of the Taylor
polynomial of the charge about the midpoint of the cell divided by the distance from the target point. -/
theorem C85_taylor (f : Pt 3 → E) (r : Pt 2 → Pt 3) (hr : Differentiable ℝ r) (x : Pt 3) (order : ℕ) (u v : List ℝ)
    (method : QuadRule) (hm : ∀ a b : ℝ, (method [a, b]).1.length = (method [a, b]).2.length)
    (hu : 2 ≤ u.length) (hv : 2 ≤ v.length)
    (hf : ∀ i < u.length - 1, ∀ j < v.length - 1, ContDiffAt ℝ order f
      (r !₂[(u.getD i 0 + u.getD (i + 1) 0) / 2, (v.getD j 0 + v.getD (j + 1) 0) / 2])) :
    (sourceTensor_ x r u v method order).bind (fun S => singleLayerPotential S (chargeTensor f r u v order)) =
      .ok ((1 / (4 * Real.pi)) • gridSum u v fun u0 u1 v0 v1 =>
        surfaceQuad (method [u0, u1]) (method [v0, v1]) r fun y =>
          ‖x - y‖⁻¹ • taylorPoly f order (r !₂[(u0 + u1) / 2, (v0 + v1) / 2]) y) := by
  have hc : ∀ a b : ℝ × ℝ, surfaceCenter r a b = r !₂[(a.1 + a.2) / 2, (b.1 + b.2) / 2] := by
    intro a b
    simp only [surfaceCenter, add_comm]
  rw [potential_eq f r x order u v method hu hv (by
    intro a ha b hb
    obtain ⟨i, hi, rfl⟩ := mem_gridCells u a ha
    obtain ⟨j, hj, rfl⟩ := mem_gridCells v b hb
    rw [hc]
    exact hf i hi j hj)]
  rw [cellsSum, sum_gridCells, gridSum]
  congr 2
  refine Finset.sum_congr rfl fun i _ => ?_
  rw [sum_gridCells]
  refine Finset.sum_congr rfl fun j _ => ?_
  rw [C86_formula _ r hr _ _ _ (hm _ _) (hm _ _), hc]

/-- The charge `exp x₀` on the unit square. -/
example (x : Pt 3) (r : Pt 2 → Pt 3) (hr : ∀ x, r x = 0 + x 0 • unitVec 0 + x 1 • unitVec 1) :
    (sourceTensor_ x r [0, 1, 2] [0, 1] simpson 2).bind
      (fun S => singleLayerPotential S (chargeTensor (fun y : Pt 3 => Real.exp (y 0)) r [0, 1, 2] [0, 1] 2)) =
    .ok ((1 / (4 * Real.pi)) • gridSum [0, 1, 2] [0, 1] fun u0 u1 v0 v1 =>
      surfaceQuad (simpson [u0, u1]) (simpson [v0, v1]) r
        fun y => ‖x - y‖⁻¹ • taylorPoly (fun y : Pt 3 => Real.exp (y 0)) 2 (r !₂[(u0 + u1) / 2, (v0 + v1) / 2]) y) := by
  have hd : Differentiable ℝ r := by rw [funext hr]; fun_prop
  exact C85_taylor _ r hd x 2 _ _ simpson (fun a b => simpson_length _) (by simp) (by simp) fun _ _ _ _ => by fun_prop

theorem iteratedDeriv_poly {ι : Type*} (s : Finset ι) (P : ι → Polynomial ℝ) (a : ι → E) (i : ℕ) :
    iteratedDeriv i (fun t : ℝ => ∑ m ∈ s, (P m).eval t • a m) =
      fun t => ∑ m ∈ s, (Polynomial.derivative^[i] (P m)).eval t • a m := by
  induction i with
  | zero => simp
  | succ i ih =>
    rw [iteratedDeriv_succ, ih]
    funext t
    have h : HasDerivAt (fun t => ∑ m ∈ s, (Polynomial.derivative^[i] (P m)).eval t • a m)
        (∑ m ∈ s, (Polynomial.derivative (Polynomial.derivative^[i] (P m))).eval t • a m) t := by
      refine HasDerivAt.fun_sum fun m _ => ?_
      exact ((Polynomial.derivative^[i] (P m)).hasDerivAt t).smul_const (a m)
    rw [h.deriv]
    simp only [Function.iterate_succ_apply']

/-- A polynomial equals its Taylor polynomial. -/
theorem taylorPoly_of_isPolynomial {n : ℕ} (f : Pt n → E) (k : ℕ) (hf : IsPolynomial f k) (c y : Pt n) :
    taylorPoly f k c y = f y := by
  obtain ⟨s, a, hs, hf⟩ := hf
  let P : (Fin n → ℕ) → Polynomial ℝ := fun m => ∏ i, (Polynomial.C (c i) + Polynomial.X * Polynomial.C (y i - c i)) ^ m i
  have hdeg : ∀ m ∈ s, (P m).natDegree ≤ k := by
    intro m hm
    refine (Polynomial.natDegree_prod_le _ _).trans (le_trans (Finset.sum_le_sum fun i _ => ?_) (hs m hm))
    refine (Polynomial.natDegree_pow_le).trans ?_
    have : (Polynomial.C (c i) + Polynomial.X * Polynomial.C (y i - c i)).natDegree ≤ 1 := by compute_degree
    calc _ ≤ m i * 1 := Nat.mul_le_mul_left _ this
      _ = m i := mul_one _
  have hline : (fun t : ℝ => f (c + t • (y - c))) = fun t => ∑ m ∈ s, (P m).eval t • a m := by
    funext t
    rw [hf]
    refine Finset.sum_congr rfl fun m _ => ?_
    simp [P, Polynomial.eval_prod]
  have hy : f y = ∑ m ∈ s, (P m).eval 1 • a m := by
    have := congrFun hline 1
    simpa using this
  rw [taylorPoly, hline, hy]
  simp only [iteratedDeriv_poly, Finset.smul_sum]
  rw [Finset.sum_comm]
  refine Finset.sum_congr rfl fun m hm => ?_
  rw [Polynomial.eval_eq_sum_range' (Nat.lt_succ_of_le (hdeg m hm)), Finset.sum_smul]
  refine Finset.sum_congr rfl fun i _ => ?_
  rw [← Polynomial.coeff_zero_eq_eval_zero, Polynomial.coeff_iterate_derivative, smul_smul]
  congr 1
  have : (i.factorial : ℝ) ≠ 0 := by exact_mod_cast i.factorial_ne_zero
  simp [Nat.descFactorial_self]
  field_simp

theorem contDiff_of_isPolynomial {n : ℕ} (f : Pt n → E) (k : ℕ) (hf : IsPolynomial f k) (j : WithTop ℕ∞) : ContDiff ℝ j f := by
  obtain ⟨s, a, -, hf⟩ := hf
  rw [funext hf]
  refine ContDiff.sum fun m _ => ContDiff.smul (contDiff_prod fun i _ => ContDiff.pow ?_ _) contDiff_const
  fun_prop

/-- For polynomial charges of degree at most the order there is no error from the expansion. -/
theorem C85_polynomial (f : Pt 3 → E) (order : ℕ) (hf : IsPolynomial f order) (r : Pt 2 → Pt 3) (hr : Differentiable ℝ r)
    (x : Pt 3) (u v : List ℝ) (method : QuadRule) (hm : ∀ a b : ℝ, (method [a, b]).1.length = (method [a, b]).2.length)
    (hu : 2 ≤ u.length) (hv : 2 ≤ v.length) :
    (sourceTensor_ x r u v method order).bind (fun S => singleLayerPotential S (chargeTensor f r u v order)) =
      .ok ((1 / (4 * Real.pi)) • gridSum u v fun u0 u1 v0 v1 =>
        surfaceQuad (method [u0, u1]) (method [v0, v1]) r fun y => ‖x - y‖⁻¹ • f y) := by
  rw [C85_taylor f r hr x order u v method hm hu hv fun i _ j _ => (contDiff_of_isPolynomial f order hf order).contDiffAt]
  simp only [taylorPoly_of_isPolynomial f order hf]

theorem derivEntries_comp {F : Type} [NormedAddCommGroup F] [NormedSpace ℝ F] (L : E ≃L[ℝ] F) (f : Pt 3 → E) (i : ℕ) :
    derivEntries (fun y => L (f y)) i = (derivEntries f i).map fun g y => L (g y) := by
  induction i with
  | zero => rfl
  | succ i ih =>
    have h : ∀ (g : Pt 3 → E) (j : Fin 3), (fun x => jacfwd (fun y => L (g y)) x j) = fun x => L (jacfwd g x j) := by
      intro g j
      funext x
      have := L.comp_fderiv (f := g) (x := x)
      simp only [jacfwd, jvp]
      exact congrArg (fun A => A (unitVec j)) this
    rw [derivEntries, derivEntries, ih, List.flatMap_map, List.map_flatMap]
    simp only [h]
    rfl

end

/-- Matrix valued charges are transposed by the code: the result is the potential of the transposed charge. -/
theorem C85_matrix_transposed {a b : ℕ} (f : Pt 3 → Fin a → Fin b → ℝ) (r : Pt 2 → Pt 3) (u v : List ℝ) (order : ℕ) :
    chargeTensorMatrix f r u v order = chargeTensor (fun y j i => f y i j) r u v order := by
  let L : (Fin a → Fin b → ℝ) ≃L[ℝ] (Fin b → Fin a → ℝ) := (Matrix.transposeLinearEquiv (Fin a) (Fin b) ℝ ℝ).toContinuousLinearEquiv
  have hL : ∀ q, L q = fun j i => q i j := fun q => rfl
  rw [chargeTensorMatrix, chargeTensor]
  congr 1
  funext c
  have h := fun i => derivEntries_comp L f i
  simp only [hL] at h
  simp only [chargeTensor.charge, h, List.map_append, List.map_flatMap, List.map_map]
  rfl

/-! ## C93 -/

/-- The source tensor as a list of functions of the target point. -/
noncomputable def sourceFuns (r : Pt 2 → Pt 3) (u v : List ℝ) (method : QuadRule) (order : ℕ) : List (Pt 3 → ℝ) :=
  (gridCells u).flatMap fun a => (gridCells v).flatMap fun b => List.ofFn fun k x =>
    integrateSurface (fun y => sourceTensor.integrand order y (surfaceCenter r a b) x) r [a.1, a.2] [b.1, b.2] method k

theorem sourceTensor_eq (x : Pt 3) (r : Pt 2 → Pt 3) (u v : List ℝ) (method : QuadRule) (order : ℕ)
    (hu : 2 ≤ u.length) (hv : 2 ≤ v.length) :
    sourceTensor_ x r u v method order = .ok ((sourceFuns r u v method order).map fun g => g x) := by
  rw [sourceTensor_, integrateSurfaceElements_ok _ r u v method hu hv]
  change Except.ok _ = Except.ok _
  simp only [List.flatten_eq_flatMap, List.flatMap_map, List.flatMap_assoc, id, sourceFuns, List.map_flatMap, List.map_ofFn]
  rfl

theorem differentiableAt_tensordot (W : List ℝ) (X : List (List ℝ)) (g : List ℝ → Pt 3 → ℝ) (x : Pt 3)
    (h : ∀ p ∈ X, DifferentiableAt ℝ (g p) x) : DifferentiableAt ℝ (fun x => tensordot W (X.map fun p => g p x)) x := by
  simp only [tensordot]
  induction W generalizing X with
  | nil => simp
  | cons w W ih =>
    cases X with
    | nil => simp
    | cons p X =>
      simp only [List.map_cons, List.zipWith_cons_cons, List.sum_cons]
      exact ((h p (by simp)).const_smul w).add (ih X fun q hq => h q (by simp [hq]))

theorem differentiableAt_sourceFuns (r : Pt 2 → Pt 3) (u v : List ℝ) (method : QuadRule) (order : ℕ) (x : Pt 3)
    (hx : ∀ a ∈ gridCells u, ∀ b ∈ gridCells v, ∀ s ∈ (method [a.1, a.2]).2, ∀ t ∈ (method [b.1, b.2]).2, x ≠ r !₂[s, t]) :
    ∀ g ∈ sourceFuns r u v method order, DifferentiableAt ℝ g x := by
  intro g hg
  simp only [sourceFuns, List.mem_flatMap, List.mem_ofFn] at hg
  obtain ⟨a, ha, b, hb, k, rfl⟩ := hg
  have h := fun x => C48_map (LinearMap.proj k : (Fin (tensorSize order) → ℝ) →ₗ[ℝ] ℝ)
    (fun p => integrateSurface.integrand (fun y => sourceTensor.integrand order y (surfaceCenter r a b) x) r (pt2 p))
    [[a.1, a.2], [b.1, b.2]] method
  rw [show (fun x => integrateSurface (fun y => sourceTensor.integrand order y (surfaceCenter r a b) x) r [a.1, a.2]
    [b.1, b.2] method k) = _ from funext h]
  simp only [integrateN]
  refine differentiableAt_tensordot _ _ _ x ?_
  intro p hp
  simp only [List.map_cons, List.map_nil, meshgrid, product, List.mem_flatMap, List.mem_singleton] at hp
  obtain ⟨t, ht, s, hs, _, rfl, rfl⟩ := hp
  have hne : x - r !₂[s, t] ≠ 0 := sub_ne_zero.mpr (hx a ha b hb s hs t ht)
  have hn : DifferentiableAt ℝ (fun x => ‖x - r (pt2 [s, t])‖) x := by
    refine DifferentiableAt.norm ℝ ?_ hne
    fun_prop
  have hn' : ‖x - r (pt2 [s, t])‖ ≠ 0 := norm_ne_zero_iff.mpr hne
  have key : DifferentiableAt ℝ (fun x => ‖crossPt (jacfwd r (pt2 [s, t]) 0) (jacfwd r (pt2 [s, t]) 1)‖ *
      ((sourceTerms (r (pt2 [s, t]) - surfaceCenter r a b) order).getD k 0 / ‖x - r (pt2 [s, t])‖)) x := by
    simp only [div_eq_mul_inv]
    exact ((hn.fun_inv hn').const_mul _).const_mul _
  exact key

theorem curl3d_add (F G : Pt 3 → Pt 3) (x : Pt 3) (hF : DifferentiableAt ℝ F x) (hG : DifferentiableAt ℝ G x) :
    curl3d (fun y => F y + G y) x = curl3d F x + curl3d G x := by
  have h : jacMatrix (fun y => F y + G y) x = jacMatrix F x + jacMatrix G x := by
    ext i j
    simp [jacMatrix, jacfwd, jvp, fderiv_fun_add hF hG]
  ext i
  fin_cases i <;> simp [curl3d, h] <;> ring

theorem curl3d_const_smul (c : ℝ) (F : Pt 3 → Pt 3) (x : Pt 3) (hF : DifferentiableAt ℝ F x) :
    curl3d (fun y => c • F y) x = c • curl3d F x := by
  have h : jacMatrix (fun y => c • F y) x = c • jacMatrix F x := by
    ext i j
    simp [jacMatrix, jacfwd, jvp, fderiv_fun_const_smul hF]
  ext i
  fin_cases i <;> simp [curl3d, h] <;> ring

theorem curl3d_smul (g : Pt 3 → ℝ) (q : Pt 3) (x : Pt 3) (hg : DifferentiableAt ℝ g x) :
    curl3d (fun y => g y • q) x = -crossPt q (jacVec g x) := by
  have h : jacMatrix (fun y => g y • q) x = fun i j => jacVec g x j * q i := by
    ext i j
    have := (hg.hasFDerivAt.smul_const q).fderiv
    simp only [jacMatrix, jacfwd, jvp, jacVec]
    rw [this]
    simp
  ext i
  fin_cases i <;> simp [curl3d, h, crossPt, cross_apply] <;> ring

theorem curl3d_tensordot (G : List (Pt 3 → ℝ)) (Q : List (Pt 3)) (x : Pt 3) (hG : ∀ g ∈ G, DifferentiableAt ℝ g x) :
    curl3d (fun x => tensordot (G.map fun g => g x) Q) x =
      (List.zipWith (fun q s => -crossPt q s) Q (G.map fun g => jacVec g x)).sum ∧
    DifferentiableAt ℝ (fun x => tensordot (G.map fun g => g x) Q) x := by
  simp only [tensordot]
  have h0 : curl3d (fun _ : Pt 3 => (0 : Pt 3)) x = 0 := by
    ext i
    fin_cases i <;> simp [curl3d, jacMatrix, jacfwd, jvp]
  induction G generalizing Q with
  | nil => simp [h0]
  | cons g G ih =>
    cases Q with
    | nil => simp [h0]
    | cons q Q =>
      have ih := ih Q fun g hg => hG g (by simp [hg])
      have hg := hG g (by simp)
      simp only [List.map_cons, List.zipWith_cons_cons, List.sum_cons]
      refine ⟨?_, (hg.smul_const q).add ih.2⟩
      rw [curl3d_add _ _ _ (hg.smul_const q) ih.2, ih.1, curl3d_smul g q x hg]

/-- `curl_single_layer_potential` of the derivative of the source tensor is the curl of the vector valued single layer
potential, at every target point which is not a quadrature node. -/
theorem C93_curl (r : Pt 2 → Pt 3) (u v : List ℝ) (method : QuadRule) (order : ℕ) (hu : 2 ≤ u.length) (hv : 2 ≤ v.length)
    (Q : List (Pt 3)) (A : Pt 3 → Pt 3)
    (hA : ∀ x, (sourceTensor_ x r u v method order).bind (fun S => singleLayerPotential S Q) = .ok (A x)) (x : Pt 3)
    (hx : ∀ i < u.length - 1, ∀ j < v.length - 1, ∀ s ∈ (method [u.getD i 0, u.getD (i + 1) 0]).2,
      ∀ t ∈ (method [v.getD j 0, v.getD (j + 1) 0]).2, x ≠ r !₂[s, t]) :
    ∃ S dS c, sourceTensorJac x r u v method order = .ok (S, dS) ∧ sourceTensor_ x r u v method order = .ok S ∧
      curlSingleLayerPotential dS Q = .ok c ∧ curl A x = .ok (.inr c) := by
  have hd := differentiableAt_sourceFuns r u v method order x (by
    intro a ha b hb
    obtain ⟨i, hi, rfl⟩ := mem_gridCells u a ha
    obtain ⟨j, hj, rfl⟩ := mem_gridCells v b hb
    exact hx i hi j hj)
  have hS := fun x => sourceTensor_eq x r u v method order hu hv
  set G := sourceFuns r u v method order
  have hlen : Q.length = G.length := by
    by_contra hne
    have := hA x
    rw [hS] at this
    simp only [Except.bind, singleLayerPotential, List.length_map, if_neg hne] at this
    cases this
  have hAe : A = fun x => (1 / (4 * Real.pi)) • tensordot (G.map fun g => g x) Q := by
    funext x
    have := hA x
    rw [hS] at this
    simp only [Except.bind, singleLayerPotential, List.length_map, if_pos hlen] at this
    exact (Except.ok.inj this).symm
  refine ⟨G.map fun g => g x, G.map fun g => jacVec g x, _, ?_, hS x, ?_, rfl⟩
  · rw [sourceTensorJac]
    simp only [hS]
    change Except.ok _ = Except.ok _
    congr 2
    refine List.ext_getElem (by simp) fun i h1 h2 => ?_
    have hi : i < G.length := by simpa using h2
    simp [List.getD_eq_getElem?_getD, hi]
  · rw [curlSingleLayerPotential, if_pos (by simpa using hlen), hAe,
      curl3d_const_smul _ _ _ (curl3d_tensordot G Q x hd).2, (curl3d_tensordot G Q x hd).1]

theorem crossPt_add_left (a b s : Pt 3) : crossPt (a + b) s = crossPt a s + crossPt b s := by
  ext i
  simp [crossPt]

theorem crossPt_zero_left (s : Pt 3) : crossPt 0 s = 0 := by
  ext i
  simp [crossPt]

theorem sum_map_neg_crossPt (Q : List (Pt 3)) (s : Pt 3) : (Q.map fun q => -crossPt q s).sum = -crossPt Q.sum s := by
  induction Q with
  | nil => simp [crossPt_zero_left]
  | cons q Q ih => simp [ih, crossPt_add_left, add_comm]

/-- **C93, shapes.** `single_layer_potential` accepts charges exactly if there are as many as entries of the source tensor.
`curl_single_layer_potential` also accepts one charge for any number `N` of derivatives, which is used for all of them, and any
number of charges for one derivative, of which the sum is used: there are `N` charges with the same field for all source
tensors with `N` entries. -/
theorem C93_broadcast (N : ℕ) (Q : List (Pt 3)) :
    (∀ S : List ℝ, S.length = N → ((∃ a, singleLayerPotential S Q = .ok a) ↔ Q.length = N)) ∧
    (∀ dS : List (Pt 3), dS.length = N →
      ((∃ a, curlSingleLayerPotential dS Q = .ok a) ↔ Q.length = N ∨ Q.length = 1 ∨ N = 1)) ∧
    (Q.length = N ∨ Q.length = 1 ∨ N = 1 → ∃ Q' : List (Pt 3), Q'.length = N ∧ (Q.length = N → Q' = Q) ∧
      (Q.length = 1 → Q' = List.replicate N (Q.headD 0)) ∧ (N = 1 → Q' = [Q.sum]) ∧
      ∀ dS : List (Pt 3), dS.length = N → curlSingleLayerPotential dS Q = curlSingleLayerPotential dS Q') := by
  refine ⟨fun S hS => ?_, fun dS hS => ?_, fun h => ?_⟩
  · rw [singleLayerPotential, hS]
    split <;> simp_all
  · rw [curlSingleLayerPotential, hS]
    split_ifs <;> simp_all
  · by_cases h0 : Q.length = N
    · refine ⟨Q, h0, fun _ => rfl, fun h1 => ?_, fun h1 => ?_, fun _ _ => rfl⟩
      · obtain ⟨q, rfl⟩ := List.length_eq_one_iff.mp h1
        simp [← h0]
      · obtain ⟨q, rfl⟩ := List.length_eq_one_iff.mp (h0.trans h1)
        simp
    by_cases h1 : Q.length = 1
    · obtain ⟨q, rfl⟩ := List.length_eq_one_iff.mp h1
      have hN : N ≠ 1 := fun h => h0 (by simp [h])
      refine ⟨List.replicate N q, by simp, fun h => absurd h h0, fun _ => rfl, fun h => absurd h hN, fun dS hS => ?_⟩
      rw [curlSingleLayerPotential, hS, if_neg h0, if_pos h1, curlSingleLayerPotential, hS, if_pos (by simp)]
      congr 3
      refine List.ext_getElem (by simp [hS]) fun i _ _ => by simp
    · have hN : N = 1 := by tauto
      refine ⟨[Q.sum], by simp [hN], fun h => absurd h h0, fun h => absurd h h1, fun _ => rfl, fun dS hS => ?_⟩
      obtain ⟨s, rfl⟩ := List.length_eq_one_iff.mp (hS.trans hN)
      rw [curlSingleLayerPotential, hS, if_neg h0, if_neg h1, if_pos hN, curlSingleLayerPotential, hS, if_pos (by simp [hN])]
      simp [sum_map_neg_crossPt]

/-- A charge for one cell and the derivatives of a source tensor for two cells: there is no potential, the field is that of the
charge on both cells. -/
example (q s t : Pt 3) : (¬∃ a, singleLayerPotential [1, 2] [q] = .ok a) ∧
    curlSingleLayerPotential [s, t] [q] = curlSingleLayerPotential [s, t] [q, q] := by
  obtain ⟨h1, -, h3⟩ := C93_broadcast 2 [q]
  obtain ⟨Q', -, -, h4, -, h5⟩ := h3 (by simp)
  refine ⟨by rw [h1 _ rfl]; simp, ?_⟩
  rw [h5 _ rfl, h4 rfl]
  rfl

/-! ## C87 -/

theorem chargeNormal_eq (adf : Pt 3 → ℝ) (x : Pt 3) (ha : DifferentiableAt ℝ adf x) :
    chargeNormal adf x = -(‖gradient adf x‖⁻¹ • gradient adf x) := by
  simp only [chargeNormal, jacVec_eq_gradient ha, norm_neg, smul_neg]

theorem mulVec_jacMatrix (F : Pt 3 → Pt 3) (x n : Pt 3) :
    WithLp.toLp 2 ((jacMatrix F x).mulVec n.ofLp) = fderiv ℝ F x n := by
  ext i
  rw [fderiv_coord]
  simp [Matrix.mulVec, dotProduct, mul_comm]

/-- The charge of the scalar potential: normal component of the magnetisation minus normal derivative of the potential. -/
theorem C87_scalar_charge (adf : Pt 3 → ℝ) (mag : Pt 3 → Pt 3) (phi : Pt 3 → ℝ) (x : Pt 3) (ha : DifferentiableAt ℝ adf x)
    (h1 : gradient adf x ≠ 0) (hp : DifferentiableAt ℝ phi x) :
    ∃ n : Pt 3, ‖n‖ = 1 ∧ gradient adf x = -(‖gradient adf x‖ • n) ∧
      scalarPotentialCharge adf mag phi false x = inner ℝ (mag x) n - fderiv ℝ phi x n := by
  have h1' : ‖gradient adf x‖ ≠ 0 := norm_ne_zero_iff.mpr h1
  refine ⟨-(‖gradient adf x‖⁻¹ • gradient adf x), ?_, ?_, ?_⟩
  · rw [norm_neg, norm_smul, norm_inv, norm_norm, inv_mul_cancel₀ h1']
  · rw [smul_neg, neg_neg, smul_smul, mul_inv_cancel₀ h1', one_smul]
  · simp only [scalarPotentialCharge, chargeNormal_eq adf x ha, jacVec_eq_gradient hp, Bool.false_eq_true, if_false]
    rw [hp.hasGradientAt.hasFDerivAt.fderiv, InnerProductSpace.toDual_apply_apply]

/-- The charge of the vector potential. -/
theorem C87_vector_charge (adf : Pt 3 → ℝ) (mag A : Pt 3 → Pt 3) (x : Pt 3) (ha : DifferentiableAt ℝ adf x)
    (h1 : gradient adf x ≠ 0) :
    ∃ n : Pt 3, ‖n‖ = 1 ∧ gradient adf x = -(‖gradient adf x‖ • n) ∧
      vectorPotentialCharge adf mag A false x =
        WithLp.toLp 2 (crossProduct (mag x).ofLp n.ofLp) - fderiv ℝ A x n := by
  have h1' : ‖gradient adf x‖ ≠ 0 := norm_ne_zero_iff.mpr h1
  refine ⟨-(‖gradient adf x‖⁻¹ • gradient adf x), ?_, ?_, ?_⟩
  · rw [norm_neg, norm_smul, norm_inv, norm_norm, inv_mul_cancel₀ h1']
  · rw [smul_neg, neg_neg, smul_smul, mul_inv_cancel₀ h1', one_smul]
  · simp only [vectorPotentialCharge, chargeNormal_eq adf x ha, mulVec_jacMatrix, Bool.false_eq_true, if_false]
    rfl

example (mag : Pt 3 → Pt 3) : ∃ n : Pt 3, ‖n‖ = 1 ∧
    scalarPotentialCharge (fun y : Pt 3 => ‖y‖ ^ 2) mag (fun y => y 1) false (EuclideanSpace.single 0 1) =
      inner ℝ (mag (EuclideanSpace.single 0 1)) n - fderiv ℝ (fun y : Pt 3 => y 1) (EuclideanSpace.single 0 1) n ∧
    ∃ n : Pt 3, ‖n‖ = 1 ∧ vectorPotentialCharge (fun y : Pt 3 => ‖y‖ ^ 2) mag id false (EuclideanSpace.single 0 1) =
      WithLp.toLp 2 (crossProduct (mag (EuclideanSpace.single 0 1)).ofLp n.ofLp) -
        fderiv ℝ (id : Pt 3 → Pt 3) (EuclideanSpace.single 0 1) n := by
  have hd := (hasStrictFDerivAt_norm_sq (EuclideanSpace.single 0 1 : Pt 3)).hasFDerivAt
  have hg : gradient (fun y : Pt 3 => ‖y‖ ^ 2) (EuclideanSpace.single 0 1) ≠ 0 := by
    intro h
    have e := congrArg (fun z : Pt 3 => inner ℝ z (EuclideanSpace.single 0 1 : Pt 3)) h
    simp only [inner_zero_left] at e
    rw [gradient, InnerProductSpace.toDual_symm_apply, hd.fderiv] at e
    simp at e
  obtain ⟨n, h1, -, h2⟩ := C87_scalar_charge (fun y : Pt 3 => ‖y‖ ^ 2) mag (fun y => y 1) (EuclideanSpace.single 0 1)
    hd.differentiableAt hg (by fun_prop)
  obtain ⟨n', h1', -, h2'⟩ := C87_vector_charge (fun y : Pt 3 => ‖y‖ ^ 2) mag id (EuclideanSpace.single 0 1)
    hd.differentiableAt hg
  exact ⟨n, h1, h2, n', h1', h2'⟩

theorem fderiv_smul_normal {E : Type} [NormedAddCommGroup E] [NormedSpace ℝ E] (adf : Pt 3 → ℝ) (g : Pt 3 → E) (x : Pt 3)
    (ha : DifferentiableAt ℝ adf x) (h0 : adf x = 0) (h1 : gradient adf x ≠ 0) (hg : ContinuousAt g x) :
    fderiv ℝ (fun y => adf y • g y) x (-(‖gradient adf x‖⁻¹ • gradient adf x)) = -(‖gradient adf x‖ • g x) := by
  have h1' : ‖gradient adf x‖ ≠ 0 := norm_ne_zero_iff.mpr h1
  rw [(hasFDerivAt_smul_of_zero ha.hasFDerivAt h0 hg).fderiv]
  rw [ContinuousLinearMap.smulRight_apply, map_neg, map_smul]
  rw [ha.hasGradientAt.hasFDerivAt.fderiv, InnerProductSpace.toDual_apply_apply, real_inner_self_eq_norm_sq,
    smul_eq_mul, neg_smul]
  congr 2
  field_simp

/-- On the boundary the charges of `phi` for `normalized=True` and of `adf * phi` agree if the gradient of `adf` has
length one. -/
theorem C87_scalar (adf : Pt 3 → ℝ) (mag : Pt 3 → Pt 3) (phi : Pt 3 → ℝ) (x : Pt 3) (ha : DifferentiableAt ℝ adf x)
    (h0 : adf x = 0) (h1 : ‖gradient adf x‖ = 1) (hp : ContinuousAt phi x) :
    scalarPotentialCharge adf mag phi true x = scalarPotentialCharge adf mag (fun y => adf y * phi y) false x := by
  have hne : gradient adf x ≠ 0 := by rw [← norm_ne_zero_iff, h1]; norm_num
  have hd : DifferentiableAt ℝ (fun y => adf y * phi y) x := (hasFDerivAt_smul_of_zero ha.hasFDerivAt h0 hp).differentiableAt
  have h := fderiv_smul_normal adf phi x ha h0 hne hp
  simp only [scalarPotentialCharge, chargeNormal_eq adf x ha, jacVec_eq_gradient hd, Bool.false_eq_true, if_false, if_true]
  rw [inner_gradient_left]
  simp only [smul_eq_mul, h1] at h ⊢
  rw [h]
  ring

theorem C87_vector (adf : Pt 3 → ℝ) (mag A : Pt 3 → Pt 3) (x : Pt 3) (ha : DifferentiableAt ℝ adf x)
    (h0 : adf x = 0) (h1 : ‖gradient adf x‖ = 1) (hA : ContinuousAt A x) :
    vectorPotentialCharge adf mag A true x = vectorPotentialCharge adf mag (fun y => adf y • A y) false x := by
  have hne : gradient adf x ≠ 0 := by rw [← norm_ne_zero_iff, h1]; norm_num
  have h := fderiv_smul_normal adf A x ha h0 hne hA
  simp only [vectorPotentialCharge, chargeNormal_eq adf x ha, mulVec_jacMatrix, Bool.false_eq_true, if_false, if_true]
  rw [h, h1, one_smul, sub_neg_eq_add]

/-- If the length of the gradient is not one, the two charges differ by that factor. -/
theorem C87_not_normalised (adf : Pt 3 → ℝ) (mag : Pt 3 → Pt 3) (phi : Pt 3 → ℝ) (x : Pt 3) (ha : DifferentiableAt ℝ adf x)
    (h0 : adf x = 0) (h1 : gradient adf x ≠ 0) (hp : ContinuousAt phi x) :
    scalarPotentialCharge adf mag (fun y => adf y * phi y) false x =
      scalarPotentialCharge adf mag phi true x + (‖gradient adf x‖ - 1) * phi x := by
  have hd : DifferentiableAt ℝ (fun y => adf y * phi y) x := (hasFDerivAt_smul_of_zero ha.hasFDerivAt h0 hp).differentiableAt
  have h := fderiv_smul_normal adf phi x ha h0 h1 hp
  simp only [scalarPotentialCharge, chargeNormal_eq adf x ha, jacVec_eq_gradient hd, Bool.false_eq_true, if_false, if_true]
  rw [inner_gradient_left]
  simp only [smul_eq_mul] at h ⊢
  rw [h]
  ring

/-! ## Examples -/

/-- A half space: the gradient has length one and the function vanishes on the boundary. -/
example (mag : Pt 3 → Pt 3) : scalarPotentialCharge (fun y => y 0) mag (fun y => y 1) true 0 =
    scalarPotentialCharge (fun y => y 0) mag (fun y => y 0 * y 1) false 0 := by
  have hL : HasFDerivAt (fun y : Pt 3 => y 0) (EuclideanSpace.proj 0 : Pt 3 →L[ℝ] ℝ) 0 :=
    (EuclideanSpace.proj 0 : Pt 3 →L[ℝ] ℝ).hasFDerivAt
  refine C87_scalar _ mag _ 0 hL.differentiableAt rfl ?_ (by fun_prop)
  rw [← jacVec_eq_gradient hL.differentiableAt]
  have : jacVec (fun y : Pt 3 => y 0) 0 = EuclideanSpace.single 0 1 := by
    ext i
    simp only [jacVec]
    rw [hL.fderiv]
    fin_cases i <;> simp
  rw [this]
  simp

/-- The unit square with Simpson's rule: the area is one. -/
example : integrateSurface (fun _ => (1 : ℝ)) (fun x => 0 + x 0 • unitVec 0 + x 1 • unitVec 1) [0, 1] [0, 1] simpson = 1 := by
  have hm : ExactRule simpson 0 := fun l h h2 => ⟨(C45_exactRule_simpson l h h2).1, fun p hp =>
    (C45_exactRule_simpson l h h2).2 p (hp.trans (by norm_num))⟩
  rw [C86_planar (1 : ℝ) 0 (unitVec 0) (unitVec 1) [0, 1] [0, 1] simpson hm (by simp) (by simp) 0 1 0 1 rfl rfl rfl rfl]
  simp [gramArea, EuclideanSpace.inner_single_left]

/-- A quadratic charge on the unit square. -/
example (x : Pt 3) : (sourceTensor_ x (fun x => 0 + x 0 • unitVec 0 + x 1 • unitVec 1) [0, 1, 2] [0, 1] simpson 2).bind
    (fun S => singleLayerPotential S (chargeTensor (fun y : Pt 3 => y 0 * y 1) (fun x => 0 + x 0 • unitVec 0 + x 1 • unitVec 1)
      [0, 1, 2] [0, 1] 2)) =
    .ok ((1 / (4 * Real.pi)) • gridSum [0, 1, 2] [0, 1] fun u0 u1 v0 v1 =>
      surfaceQuad (simpson [u0, u1]) (simpson [v0, v1]) (fun x => 0 + x 0 • unitVec 0 + x 1 • unitVec 1)
        fun y => ‖x - y‖⁻¹ • (y 0 * y 1)) := by
  refine C85_polynomial (fun y : Pt 3 => y 0 * y 1) 2 ⟨{![1, 1, 0]}, fun _ => 1, ?_, ?_⟩ _ (by fun_prop) x _ _ simpson
    (fun a b => simpson_length _) (by simp) (by simp)
  · simp [Fin.sum_univ_three]
  · simp [Fin.prod_univ_three]

/-- The vector potential of a constant vector charge on the unit square, away from the square. -/
example (q : Pt 3) (A : Pt 3 → Pt 3) (r : Pt 2 → Pt 3) (hr : ∀ x, r x = 0 + x 0 • unitVec 0 + x 1 • unitVec 1)
    (hA : ∀ x, A x = (1 / (4 * Real.pi)) • gridSum [0, 1, 2] [0, 1] fun u0 u1 v0 v1 =>
      surfaceQuad (simpson [u0, u1]) (simpson [v0, v1]) r fun y => ‖x - y‖⁻¹ • q) :
    ∃ S dS c, sourceTensorJac !₂[0, 0, 1] r [0, 1, 2] [0, 1] simpson 0 = .ok (S, dS) ∧
      sourceTensor_ !₂[0, 0, 1] r [0, 1, 2] [0, 1] simpson 0 = .ok S ∧
      curlSingleLayerPotential dS (chargeTensor (fun _ => q) r [0, 1, 2] [0, 1] 0) = .ok c ∧
      curl A !₂[0, 0, 1] = .ok (.inr c) := by
  have e : r = fun x => 0 + x 0 • unitVec 0 + x 1 • unitVec 1 := funext hr
  have hd : Differentiable ℝ r := by rw [e]; fun_prop
  refine C93_curl r [0, 1, 2] [0, 1] simpson 0 (by simp) (by simp) _ A (fun x => ?_) _ ?_
  · rw [hA, C85_polynomial (fun _ : Pt 3 => q) 0 ⟨{0}, fun _ => q, by simp, by simp⟩ r hd x _ _ simpson
      (fun a b => simpson_length _) (by simp) (by simp)]
  · intro i _ j _ s _ t _ h
    have := congrArg (fun z : Pt 3 => z 2) (h.trans (hr _))
    simp at this

/-- A grid with fewer than two nodes is rejected. -/
theorem C85_short_grid (x : Pt 3) (r : Pt 2 → Pt 3) (u v : List ℝ) (method : QuadRule) (order : ℕ)
    (h : u.length < 2 ∨ v.length < 2) : sourceTensor_ x r u v method order = .error .assertion := by
  rw [sourceTensor_, integrateSurfaceElements]
  by_cases hu : u.length < 2
  · rw [if_pos hu]; rfl
  · rw [if_neg hu, if_pos (h.resolve_left hu)]; rfl

example (x : Pt 3) (r : Pt 2 → Pt 3) : sourceTensor_ x r [0, 1, 2] [0] simpson 1 = .error .assertion :=
  C85_short_grid x r _ _ simpson 1 (Or.inr (by simp))

end Verif
