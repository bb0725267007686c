import Verif.Props.MumagField
import Verif.Props.CalcExtra
import Mathlib.Analysis.InnerProductSpace.Harmonic.Basic

/-! # C127: the computed potentials are harmonic, the computed fields have no divergence -/

namespace Verif

open InnerProductSpace Laplacian Topology

/-! ## The kernel -/

section
variable {V : Type*} [NormedAddCommGroup V] [InnerProductSpace ℝ V]

theorem hasFDerivAt_norm_sub {x y : V} (h : x ≠ y) :
    HasFDerivAt (fun z : V => ‖z - y‖) (‖x - y‖⁻¹ • innerSL ℝ (x - y)) x := by
  have h0 : ‖x - y‖ ≠ 0 := norm_ne_zero_iff.mpr (sub_ne_zero.mpr h)
  have h1 : HasFDerivAt (fun z : V => ‖z - y‖ ^ 2) (2 • innerSL ℝ (x - y)) x := by
    have := (hasStrictFDerivAt_norm_sq (x - y)).hasFDerivAt.comp x ((hasFDerivAt_id x).sub_const y)
    rw [ContinuousLinearMap.comp_id] at this
    exact this
  have h2 := h1.sqrt (by positivity)
  simp only [Real.sqrt_sq (norm_nonneg _)] at h2
  refine h2.congr_fderiv ?_
  ext v
  simp
  field_simp

theorem hasFDerivAt_newton {x y : V} (h : x ≠ y) :
    HasFDerivAt (fun z : V => ‖z - y‖⁻¹) (-(‖x - y‖ ^ 3)⁻¹ • innerSL ℝ (x - y)) x := by
  have h0 : ‖x - y‖ ≠ 0 := norm_ne_zero_iff.mpr (sub_ne_zero.mpr h)
  have h1 := (hasDerivAt_inv h0).comp_hasFDerivAt x (hasFDerivAt_norm_sub h)
  refine h1.congr_fderiv ?_
  ext v
  simp
  field_simp

theorem contDiffAt_newton {x y : V} (h : x ≠ y) : ContDiffAt ℝ 2 (fun z : V => ‖z - y‖⁻¹) x := by
  have h0 : x - y ≠ 0 := sub_ne_zero.mpr h
  exact ((contDiffAt_id.sub contDiffAt_const).norm ℝ h0).inv (norm_ne_zero_iff.mpr h0)

theorem fderiv_fderiv_newton {x y : V} (h : x ≠ y) (v : V) :
    fderiv ℝ (fderiv ℝ fun z : V => ‖z - y‖⁻¹) x v v =
      3 * (‖x - y‖ ^ 5)⁻¹ * inner ℝ (x - y) v ^ 2 - (‖x - y‖ ^ 3)⁻¹ * inner ℝ v v := by
  have h0 : ‖x - y‖ ≠ 0 := norm_ne_zero_iff.mpr (sub_ne_zero.mpr h)
  have he : fderiv ℝ (fun z : V => ‖z - y‖⁻¹) =ᶠ[𝓝 x] fun z => -(‖z - y‖ ^ 3)⁻¹ • innerSL ℝ (z - y) := by
    filter_upwards [isOpen_ne.mem_nhds h] with z hz
    exact (hasFDerivAt_newton hz).fderiv
  rw [he.fderiv_eq]
  have hd : HasFDerivAt (fun z : V => -(‖z - y‖ ^ 3)⁻¹) ((3 * (‖x - y‖ ^ 5)⁻¹) • innerSL ℝ (x - y)) x := by
    have h1 := (((hasDerivAt_pow 3 ‖x - y‖).fun_inv (pow_ne_zero 3 h0)).fun_neg).comp_hasFDerivAt x (hasFDerivAt_norm_sub h)
    refine h1.congr_fderiv ?_
    ext v
    simp
    field_simp
  have hi : HasFDerivAt (fun z : V => innerSL ℝ (z - y)) (innerSL ℝ : V →L[ℝ] V →L[ℝ] ℝ) x :=
    (innerSL ℝ : V →L[ℝ] V →L[ℝ] ℝ).hasFDerivAt.comp x ((hasFDerivAt_id x).sub_const y)
  rw [(hd.fun_smul hi).fderiv]
  show -(‖x - y‖ ^ 3)⁻¹ * inner ℝ v v + 3 * (‖x - y‖ ^ 5)⁻¹ * inner ℝ (x - y) v * inner ℝ (x - y) v = _
  ring

end

theorem laplacian_newton {x y : Pt 3} (h : x ≠ y) : (Δ fun z : Pt 3 => ‖z - y‖⁻¹) x = 0 := by
  have h0 : ‖x - y‖ ≠ 0 := norm_ne_zero_iff.mpr (sub_ne_zero.mpr h)
  rw [laplacian_eq_iteratedFDeriv_orthonormalBasis _ (EuclideanSpace.basisFun (Fin 3) ℝ)]
  simp only [iteratedFDeriv_two_apply]
  have hn : ‖x - y‖ ^ 2 = (x 0 - y 0) ^ 2 + (x 1 - y 1) ^ 2 + (x 2 - y 2) ^ 2 := by
    rw [EuclideanSpace.norm_sq_eq, Fin.sum_univ_three]
    simp
  have hs : ∀ i : Fin 3, inner ℝ (x - y) (EuclideanSpace.single i (1 : ℝ)) = x i - y i := fun i => by
    rw [EuclideanSpace.inner_single_right]
    simp
  have hv : ∀ i : Fin 3, inner ℝ (EuclideanSpace.single i (1 : ℝ)) (EuclideanSpace.single i (1 : ℝ)) = (1 : ℝ) := fun i => by
    simp
  have key : ∀ i : Fin 3, fderiv ℝ (fderiv ℝ fun z : Pt 3 => ‖z - y‖⁻¹) x (EuclideanSpace.single i 1)
      (EuclideanSpace.single i 1) = 3 * (‖x - y‖ ^ 5)⁻¹ * (x i - y i) ^ 2 - (‖x - y‖ ^ 3)⁻¹ := fun i => by
    rw [fderiv_fderiv_newton h, hs, hv, mul_one]
  simp only [EuclideanSpace.basisFun_apply, Matrix.cons_val_zero, Matrix.cons_val_one, key, Fin.sum_univ_three]
  have : (‖x - y‖ ^ 3)⁻¹ = (‖x - y‖ ^ 5)⁻¹ * ‖x - y‖ ^ 2 := by field_simp
  rw [this, hn]
  ring

/-- Newton's kernel is harmonic away from its pole. -/
theorem harmonicAt_newton {x y : Pt 3} (h : x ≠ y) : HarmonicAt (fun z : Pt 3 => ‖z - y‖⁻¹) x := by
  refine ⟨contDiffAt_newton h, ?_⟩
  filter_upwards [isOpen_ne.mem_nhds h] with z hz
  exact laplacian_newton hz

theorem harmonicAt_list_sum {ι : Type} {E : Type} [NormedAddCommGroup E] [NormedSpace ℝ E] (l : List ι) (f : ι → Pt 3 → E)
    (x : Pt 3) (h : ∀ i ∈ l, HarmonicAt (f i) x) : HarmonicAt (fun y => (l.map fun i => f i y).sum) x := by
  induction l with
  | nil => simp
  | cons a l ih =>
    simp only [List.map_cons, List.sum_cons]
    exact (h a (by simp)).add (ih fun i hi => h i (by simp [hi]))

theorem harmonicAt_tensordot {E : Type} [NormedAddCommGroup E] [NormedSpace ℝ E] (W : List ℝ) (X : List (List ℝ))
    (g : List ℝ → Pt 3 → E) (x : Pt 3)
    (h : ∀ p ∈ X, HarmonicAt (g p) x) : HarmonicAt (fun x => tensordot W (X.map fun p => g p x)) x := by
  simp only [tensordot]
  induction W generalizing X with
  | nil => simp
  | cons w W ih =>
    cases X with
    | nil => simp
    | cons p X =>
      simp only [List.map_cons, List.zipWith_cons_cons, List.sum_cons]
      exact (HarmonicAt.const_smul (c := w) (h p (by simp))).add (ih X fun q hq => h q (by simp [hq]))

theorem harmonicAt_sourceFuns (r : Pt 2 → Pt 3) (u v : List ℝ) (method : QuadRule) (order : ℕ) (x : Pt 3)
    (hx : ∀ a ∈ gridCells u, ∀ b ∈ gridCells v, ∀ s ∈ (method [a.1, a.2]).2, ∀ t ∈ (method [b.1, b.2]).2, x ≠ r !₂[s, t]) :
    ∀ g ∈ sourceFuns r u v method order, HarmonicAt g x := by
  intro g hg
  simp only [sourceFuns, List.mem_flatMap, List.mem_ofFn] at hg
  obtain ⟨a, ha, b, hb, k, rfl⟩ := hg
  have h := fun x => C48_map (LinearMap.proj k : (Fin (tensorSize order) → ℝ) →ₗ[ℝ] ℝ)
    (fun p => integrateSurface.integrand (fun y => sourceTensor.integrand order y (surfaceCenter r a b) x) r (pt2 p))
    [[a.1, a.2], [b.1, b.2]] method
  rw [show (fun x => integrateSurface (fun y => sourceTensor.integrand order y (surfaceCenter r a b) x) r [a.1, a.2]
    [b.1, b.2] method k) = _ from funext h]
  simp only [integrateN]
  refine harmonicAt_tensordot _ _ _ x ?_
  intro p hp
  simp only [List.map_cons, List.map_nil, meshgrid, product, List.mem_flatMap, List.mem_singleton] at hp
  obtain ⟨t, ht, s, hs, _, rfl, rfl⟩ := hp
  have key : HarmonicAt (fun x => ‖crossPt (jacfwd r (pt2 [s, t]) 0) (jacfwd r (pt2 [s, t]) 1)‖ *
      ((sourceTerms (r (pt2 [s, t]) - surfaceCenter r a b) order).getD k 0 / ‖x - r (pt2 [s, t])‖)) x := by
    simp only [div_eq_mul_inv]
    exact HarmonicAt.const_smul (HarmonicAt.const_smul (harmonicAt_newton (hx a ha b hb s hs t ht)))
  exact key

theorem harmonicAt_tensordot_charges {E : Type} [NormedAddCommGroup E] [NormedSpace ℝ E] (G : List (Pt 3 → ℝ)) (Q : List E)
    (x : Pt 3) (hG : ∀ g ∈ G, HarmonicAt g x) : HarmonicAt (fun x => tensordot (G.map fun g => g x) Q) x := by
  simp only [tensordot]
  induction G generalizing Q with
  | nil => simp
  | cons g G ih =>
    cases Q with
    | nil => simp
    | cons q Q =>
      simp only [List.map_cons, List.zipWith_cons_cons, List.sum_cons]
      exact ((hG g (by simp)).comp_CLM (ContinuousLinearMap.toSpanSingleton ℝ q)).add (ih Q fun g' hg' => hG g' (by simp [hg']))

/-- **C127**. For all charges, surfaces, grids, rules and orders the single layer potential which is computed is harmonic at every
point which is not a quadrature node. -/
theorem C127_potential {E : Type} [NormedAddCommGroup E] [NormedSpace ℝ E] (r : Pt 2 → Pt 3) (u v : List ℝ) (method : QuadRule)
    (order : ℕ) (hu : 2 ≤ u.length) (hv : 2 ≤ v.length) (Q : List E) (A : Pt 3 → E)
    (hA : ∀ x, (sourceTensor_ x r u v method order).bind (fun S => singleLayerPotential S Q) = .ok (A x)) (x : Pt 3)
    (hx : ∀ i < u.length - 1, ∀ j < v.length - 1, ∀ s ∈ (method [u.getD i 0, u.getD (i + 1) 0]).2,
      ∀ t ∈ (method [v.getD j 0, v.getD (j + 1) 0]).2, x ≠ r !₂[s, t]) :
    HarmonicAt A x ∧ laplace A x = 0 := by
  have hd := harmonicAt_sourceFuns r u v method order x (by
    intro a ha b hb
    obtain ⟨i, hi, rfl⟩ := mem_gridCells u a ha
    obtain ⟨j, hj, rfl⟩ := mem_gridCells v b hb
    exact hx i hi j hj)
  have hS := fun x => sourceTensor_eq x r u v method order hu hv
  set G := sourceFuns r u v method order
  have hlen : Q.length = G.length := by
    by_contra hne
    have := hA x
    rw [hS] at this
    simp only [Except.bind, singleLayerPotential, List.length_map, if_neg hne] at this
    cases this
  have hAe : A = fun x => (1 / (4 * Real.pi)) • tensordot (G.map fun g => g x) Q := by
    funext x
    have := hA x
    rw [hS] at this
    simp only [Except.bind, singleLayerPotential, List.length_map, if_pos hlen] at this
    exact (Except.ok.inj this).symm
  have hh : HarmonicAt A x := by
    rw [hAe]
    exact HarmonicAt.const_smul (harmonicAt_tensordot_charges G Q x hd)
  exact ⟨hh, by rw [C81_laplace A x hh.1]; exact hh.2.self_of_nhds⟩

theorem eventually_forall_mem {α : Type} (l : List α) {p : α → Pt 3 → Prop} {x : Pt 3} (h : ∀ a ∈ l, ∀ᶠ y in 𝓝 x, p a y) :
    ∀ᶠ y in 𝓝 x, ∀ a ∈ l, p a y :=
  (Filter.eventually_all_finite (List.finite_toSet l)).mpr h

theorem eventually_forall_lt (n : ℕ) {p : ℕ → Pt 3 → Prop} {x : Pt 3} (h : ∀ i < n, ∀ᶠ y in 𝓝 x, p i y) :
    ∀ᶠ y in 𝓝 x, ∀ i < n, p i y :=
  (Filter.eventually_all_finite (Set.finite_lt_nat n)).mpr h

/-- **C127, fields**. The field computed by `curl_single_layer_potential` has no divergence at every point which is not a
quadrature node. -/
theorem C127_curl (r : Pt 2 → Pt 3) (u v : List ℝ) (method : QuadRule) (order : ℕ) (hu : 2 ≤ u.length) (hv : 2 ≤ v.length)
    (Q : List (Pt 3)) (B : Pt 3 → Pt 3)
    (hB : ∀ x, (sourceTensorJac x r u v method order).bind (fun S => curlSingleLayerPotential S.2 Q) = .ok (B x)) (x : Pt 3)
    (hx : ∀ i < u.length - 1, ∀ j < v.length - 1, ∀ s ∈ (method [u.getD i 0, u.getD (i + 1) 0]).2,
      ∀ t ∈ (method [v.getD j 0, v.getD (j + 1) 0]).2, x ≠ r !₂[s, t]) :
    divergence B x = 0 := by
  have hS := fun x => sourceTensor_eq x r u v method order hu hv
  obtain ⟨-, hb2, hb3⟩ := C93_broadcast (sourceFuns r u v method order).length Q
  obtain ⟨Q', hlen, -, -, -, hQ'⟩ := hb3 (by
    have := hB x
    rw [sourceTensorJac] at this
    simp only [hS] at this
    simp only [bind, Except.bind, pure, Except.pure] at this
    exact (hb2 _ (by simp)).mp ⟨_, this⟩)
  replace hB : ∀ x, (sourceTensorJac x r u v method order).bind (fun S => curlSingleLayerPotential S.2 Q') = .ok (B x) := by
    intro y
    rw [← hB y, sourceTensorJac]
    simp only [hS]
    simp only [bind, Except.bind, pure, Except.pure]
    exact (hQ' _ (by simp)).symm
  clear hQ' hb2 hb3
  clear Q
  rename' Q' => Q
  have hA : ∀ x, (sourceTensor_ x r u v method order).bind (fun S => singleLayerPotential S Q) =
      .ok ((1 / (4 * Real.pi)) • tensordot ((sourceFuns r u v method order).map fun g => g x) Q) := fun x => by
    rw [hS]
    simp only [Except.bind, singleLayerPotential, List.length_map, if_pos hlen]
  have hh := (C127_potential r u v method order hu hv Q _ hA x hx).1
  obtain ⟨c, hc, hdiv⟩ := C82_div_curl _ x hh.1
  have hev : ∀ᶠ y in 𝓝 x, ∀ i < u.length - 1, ∀ j < v.length - 1, ∀ s ∈ (method [u.getD i 0, u.getD (i + 1) 0]).2,
      ∀ t ∈ (method [v.getD j 0, v.getD (j + 1) 0]).2, y ≠ r !₂[s, t] :=
    eventually_forall_lt _ fun i hi => eventually_forall_lt _ fun j hj => eventually_forall_mem _ fun s hs =>
      eventually_forall_mem _ fun t ht => isOpen_ne.mem_nhds (hx i hi j hj s hs t ht)
  have hBc : B =ᶠ[𝓝 x] c := by
    filter_upwards [hev] with y hy
    obtain ⟨S, dS, b, h1, -, h3, h4⟩ := C93_curl r u v method order hu hv Q _ hA y hy
    have h5 := hB y
    rw [h1] at h5
    have h6 : B y = b := (Except.ok.inj (h3.symm.trans h5)).symm
    rw [hc] at h4
    rw [h6]
    exact (Sum.inr.inj (Except.ok.inj h4)).symm
  rw [← hdiv, C92_trace, C92_trace, hBc.fderiv_eq]

/-- Vector charges on the plane, above the plane: potential and field. -/
example (r : Pt 2 → Pt 3) (hr : ∀ x, r x = x 0 • unitVec 0 + x 1 • unitVec 1) (Q : List (Pt 3)) (A B : Pt 3 → Pt 3)
    (hA : ∀ x, (sourceTensor_ x r [0, 1, 2] [0, 1] simpson 1).bind (fun S => singleLayerPotential S Q) = .ok (A x))
    (hB : ∀ x, (sourceTensorJac x r [0, 1, 2] [0, 1] simpson 1).bind (fun S => curlSingleLayerPotential S.2 Q) = .ok (B x)) :
    laplace A !₂[0, 0, 1] = 0 ∧ divergence B !₂[0, 0, 1] = 0 := by
  have h : ∀ s t : ℝ, (!₂[0, 0, 1] : Pt 3) ≠ r !₂[s, t] := by
    intro s t h
    have := congrArg (fun z : Pt 3 => z 2) (h.trans (hr _))
    simp at this
  exact ⟨(C127_potential r _ _ simpson 1 (by simp) (by simp) Q A hA _ fun _ _ _ _ _ _ _ _ => h _ _).2,
    C127_curl r _ _ simpson 1 (by simp) (by simp) Q B hB _ fun _ _ _ _ _ _ _ _ => h _ _⟩

/-! ## The stray field -/

theorem harmonicAt_entryFun (method : QuadRule) (n : ℕ) (F : Face) (hF : F.IsSide) (d1 d2 : ℝ × ℝ) (k : Fin 6) (x : Pt 3)
    (hx : ∀ s ∈ (method (linspace d1.1 d1.2 (n + 1))).2, ∀ t ∈ (method (linspace d2.1 d2.2 (n + 1))).2,
      x ≠ planePoint F.const_axis F.const_val s t) : HarmonicAt (entryFun method n F d1 d2 k) x := by
  have h := fun x => C48_map (LinearMap.proj k : (Fin 6 → ℝ) →ₗ[ℝ] ℝ)
    (fun y => integrand_ y x (F.point ((d1.1 + d1.2) / 2) ((d2.1 + d2.2) / 2)) F)
    [linspace d1.1 d1.2 (n + 1), linspace d2.1 d2.2 (n + 1)] method
  rw [show entryFun method n F d1 d2 k = _ from funext h]
  simp only [integrateN]
  refine harmonicAt_tensordot _ _ _ x ?_
  intro p hp
  simp only [List.map_cons, List.map_nil, meshgrid, product, List.mem_flatMap, List.mem_singleton] at hp
  obtain ⟨t, ht, s, hs, _, rfl, rfl⟩ := hp
  have hne : x ≠ F.point s t := by
    rw [hF.point]
    exact hx s hs t ht
  simp only [integrand_, LinearMap.proj_apply, div_eq_mul_inv]
  exact HarmonicAt.const_smul (harmonicAt_newton hne)

section
variable {N k r : ℕ}

/-- **C127, stray field**. The second potential of the stray field solver is harmonic at every point which is not a quadrature
node. -/
theorem C127_phi2 (xs ys zs : List ℝ) (s : StrayField N k r) (hD : Cuboid.init xs ys zs = .ok s.domain) (n : ℕ)
    (hn : s.subintervals = .int n) (m : Pt 3 → Pt 3) :
    ∃ φ : Pt 3 → ℝ, (∀ y, s.phi2 m y = .ok (φ y)) ∧ ∀ x : Pt 3,
      (∀ F ∈ s.domain.faces, ∀ i, i + 1 < F.axis1_vals.length → ∀ j, j + 1 < F.axis2_vals.length →
        ∀ u ∈ (s.method (linspace (F.axis1_vals.getD i 0) (F.axis1_vals.getD (i + 1) 0) (n + 1))).2,
        ∀ v ∈ (s.method (linspace (F.axis2_vals.getD j 0) (F.axis2_vals.getD (j + 1) 0) (n + 1))).2,
          x ≠ planePoint F.const_axis F.const_val u v) → HarmonicAt φ x := by
  have hside : ∀ F ∈ s.domain.faces, F.IsSide := by
    obtain ⟨-, -, -, h⟩ := init_inv hD
    rw [h]
    exact fun F hF => isSide_of_mem hF
  refine ⟨fun y => 1 / (4 * Real.pi) * (s.domain.faces.map fun F => ((gridCells F.axis1_vals).map fun d1 =>
    ((gridCells F.axis2_vals).map fun d2 => ∑ k, cellCoefs (s.g m) F d1 d2 k • entryFun s.method n F d1 d2 k y).sum).sum).sum,
    fun y => ?_, fun x hx => ?_⟩
  · rw [StrayField.phi2, singleLayerPotentialBox, integrateSurfaceBox, hn, surfaceTensors_eq]
    simp only [bind, Except.bind]
    rw [charges_eq _ hside, solve_tabulate]
    rfl
  · refine HarmonicAt.const_smul (c := 1 / (4 * Real.pi)) (harmonicAt_list_sum _ _ x fun F hF => harmonicAt_list_sum _ _ x
      fun d1 h1 => harmonicAt_list_sum _ _ x fun d2 h2 => ?_)
    obtain ⟨i, hi, rfl⟩ := (mem_gridCells_iff _ _).mp h1
    obtain ⟨j, hj, rfl⟩ := (mem_gridCells_iff _ _).mp h2
    have he : ∀ k, HarmonicAt (entryFun s.method n F (F.axis1_vals.getD i 0, F.axis1_vals.getD (i + 1) 0)
        (F.axis2_vals.getD j 0, F.axis2_vals.getD (j + 1) 0) k) x := fun k =>
      harmonicAt_entryFun s.method n F (hside F hF) _ _ k x (hx F hF i hi j hj)
    simp only [Fin.sum_univ_six]
    exact (((((HarmonicAt.const_smul (he 0)).add (HarmonicAt.const_smul (he 1))).add (HarmonicAt.const_smul (he 2))).add
      (HarmonicAt.const_smul (he 3))).add (HarmonicAt.const_smul (he 4))).add (HarmonicAt.const_smul (he 5))

theorem off_nodes_of_interior {xs ys zs : List ℝ} {D : Cuboid} (hD : Cuboid.init xs ys zs = .ok D) {x : Pt 3}
    (hx : x.ofLp ∈ interior (Set.Icc (gridLo ![xs, ys, zs]) (gridHi ![xs, ys, zs]))) {F : Face} (hF : F ∈ D.faces) (u v : ℝ) :
    x ≠ planePoint F.const_axis F.const_val u v := by
  intro e
  have hx' : ∀ i, gridLo ![xs, ys, zs] i < x i ∧ x i < gridHi ![xs, ys, zs] i := by
    rw [← Set.pi_univ_Icc, interior_pi_set Set.finite_univ] at hx
    simpa [interior_Icc] using hx
  have h1 : x F.const_axis = F.const_val := by
    rw [e]
    simp [planePoint]
  have h2 : F.const_val = gridLo ![xs, ys, zs] F.const_axis ∨ F.const_val = gridHi ![xs, ys, zs] F.const_axis := by
    obtain ⟨-, -, -, h⟩ := init_inv hD
    rw [h] at hF
    simp only [sides, List.mem_cons, List.not_mem_nil, or_false] at hF
    rcases hF with rfl | rfl | rfl | rfl | rfl | rfl <;> simp [faces_.face]
  have h3 := hx' F.const_axis
  rcases h2 with h2 | h2 <;> linarith

/-- **C127, divergence of the stray field**. In the interior of the cuboid the divergence of the stray field is minus the
Laplacian of the first potential, whatever the quadrature. -/
theorem C127_divergence (xs ys zs : List ℝ) (s : StrayField N k r) (hD : Cuboid.init xs ys zs = .ok s.domain) (n : ℕ)
    (hn : s.subintervals = .int n) (m : Pt 3 → Pt 3) (h : Pt 3 → Pt 3) (hh : ∀ y, s.hs m y = .ok (h y)) (x : Pt 3)
    (hlt : ∀ i, gridLo ![xs, ys, zs] i < gridHi ![xs, ys, zs] i)
    (hx : x.ofLp ∈ interior (Set.Icc (gridLo ![xs, ys, zs]) (gridHi ![xs, ys, zs]))) :
    DifferentiableAt ℝ h x ∧ divergence h x = -(Δ (s.phi1 m)) x := by
  obtain ⟨φ, hφ, hharm⟩ := C127_phi2 xs ys zs s hD n hn m
  have hφx := hharm x fun F hF i _ j _ u _ v _ => off_nodes_of_interior hD hx hF u v
  have h1 : ContDiffAt ℝ 2 (s.phi1 m) x := by
    have h2 : ∀ a, ContDiffAt ℝ 2 (fun y => s.u_elm y a) x := contDiffAt_pi.mp (u_elm_contDiff s hD hlt hx 2)
    unfold StrayField.phi1
    exact ContDiffAt.sum fun a _ => (h2 a).mul contDiffAt_const
  have h3 : ContDiffAt ℝ 2 (fun y => s.phi1 m y + φ y) x := h1.add hφx.1
  have he : ∀ y, h y = -jacVec (fun y => s.phi1 m y + φ y) y := fun y => by
    have := hh y
    rw [StrayField.hs] at this
    simp only [hφ] at this
    exact (Except.ok.inj this).symm
  have hev : h =ᶠ[𝓝 x] fun y => -gradient (fun y => s.phi1 m y + φ y) y := by
    filter_upwards [h3.eventually (by simp)] with y hy
    rw [he, jacVec_eq_gradient (hy.differentiableAt (by norm_num))]
  have hdiff : DifferentiableAt ℝ (gradient fun y => s.phi1 m y + φ y) x := by
    have h4 := (hasFDerivAt_jacfwd (differentiableAt_fderiv h3)).differentiableAt
    have h5 := (PiLp.continuousLinearEquiv 2 ℝ (fun _ : Fin 3 => ℝ)).symm.differentiableAt.comp x h4
    refine h5.congr_of_eventuallyEq ?_
    filter_upwards [h3.eventually (by simp)] with y hy
    rw [← jacVec_eq_gradient (hy.differentiableAt (by norm_num))]
    rfl
  refine ⟨hdiff.neg.congr_of_eventuallyEq hev, ?_⟩
  have h6 : divergence h x = -divergence (gradient fun y => s.phi1 m y + φ y) x := by
    rw [C92_trace, C92_trace, hev.fderiv_eq, fderiv_fun_neg]
    simp
  rw [h6, ← C81_div_grad _ x h3, C81_laplace _ x h3]
  have h7 := h1.laplacian_add hφx.1
  rw [show (fun y => s.phi1 m y + φ y) = s.phi1 m + φ from rfl, h7, hφx.2.self_of_nhds]
  simp

example : ∃ s : StrayField 1 1 1, ∀ m h : Pt 3 → Pt 3, (∀ y, s.hs m y = .ok (h y)) →
    DifferentiableAt ℝ h (s.X_dom 0) ∧ divergence h (s.X_dom 0) = -(Δ (s.phi1 m)) (s.X_dom 0) := by
  obtain ⟨s, hD, hn, hlt, hin, -⟩ := exists_strayField
  exact ⟨s, fun m h hh => C127_divergence _ _ _ s hD 1 hn m h hh _ hlt (hin 0)⟩

/-- **C127, no magnetic charge**. With as many singular values as collocation points, the induction `h + m` has no divergence at the
collocation points. -/
theorem C127_collocation (xs ys zs : List ℝ) (s : StrayField N k N) (hD : Cuboid.init xs ys zs = .ok s.domain) (n : ℕ)
    (hn : s.subintervals = .int n) (hlt : ∀ i, gridLo ![xs, ys, zs] i < gridHi ![xs, ys, zs] i)
    (hin : ∀ n, (s.X_dom n).ofLp ∈ interior (Set.Icc (gridLo ![xs, ys, zs]) (gridHi ![xs, ys, zs])))
    (hQ : s.Q_phi1 = s.U * Matrix.diagonal s.S * s.VT) (hU : s.U.transpose * s.U = 1) (hV : s.VT * s.VT.transpose = 1)
    (hS : ∀ i, s.S i ≠ 0) (m : Pt 3 → Pt 3) (h : Pt 3 → Pt 3) (hh : ∀ y, s.hs m y = .ok (h y)) (a : Fin N)
    (hm : DifferentiableAt ℝ m (s.X_dom a)) :
    divergence (fun y => h y + m y) (s.X_dom a) = 0 := by
  obtain ⟨h1, h2⟩ := C127_divergence xs ys zs s hD n hn m h hh (s.X_dom a) hlt (hin a)
  have h3 := C98_collocation xs ys zs s hD hlt hin hQ hU hV hS m a
  rw [h3, ← C92_trace] at h2
  rw [C92_trace, fderiv_fun_add h1 hm, ContinuousLinearMap.toLinearMap_add, map_add, ← C92_trace, ← C92_trace, h2]
  ring

/-- Non-vacuity: the cube `[-1, 1]³` with one collocation point. -/
example : ∃ s : StrayField 1 1 1, ∀ m h : Pt 3 → Pt 3, DifferentiableAt ℝ m (s.X_dom 0) → (∀ y, s.hs m y = .ok (h y)) →
    divergence (fun y => h y + m y) (s.X_dom 0) = 0 := by
  obtain ⟨s, hD, hn, hlt, hin, hQ, hU, hV, hS⟩ := exists_strayField
  exact ⟨s, fun m h hm hh => C127_collocation _ _ _ s hD 1 hn hlt hin hQ hU hV hS m h hh 0 hm⟩

/-- The field exists. -/
example : ∃ s : StrayField 1 1 1, ∀ m : Pt 3 → Pt 3, ∃ h : Pt 3 → Pt 3, ∀ y, s.hs m y = .ok (h y) := by
  obtain ⟨s, hD, hn, -⟩ := exists_strayField
  refine ⟨s, fun m => ?_⟩
  obtain ⟨φ, hφ, -⟩ := C127_phi2 _ _ _ s hD 1 hn m
  refine ⟨fun y => -jacVec (fun y => s.phi1 m y + φ y) y, fun y => ?_⟩
  rw [StrayField.hs]
  simp only [hφ]
  rfl

end

end Verif
