import Verif.Props.BC

/-! # Property C129: constraints stacked on each other -/

namespace Verif

open XR

section
variable {A K : Type} {n : ℕ}

theorem imposeDirichletBc_fin (adf : List A → XR) (g : List A → Fin n → ℝ) (argnums_adf argnums_g : Argnums)
    (model : List A → K → Vec n) (args : List A) (kwargs : K) (xs ys : List A) (l : ℝ) (v : Fin n → ℝ)
    (hxs : SelArgs args argnums_adf xs) (hys : SelArgs args argnums_g ys)
    (hadf : adf xs = fin l) (hm : model args kwargs = vfin v) :
    imposeDirichletBc adf (some fun a => vfin (g a)) argnums_adf argnums_g model args kwargs =
      .ok (vfin fun i => l * v i + g ys i) := by
  simp only [imposeDirichletBc, pick_of_forall₂ hxs, pick_of_forall₂ hys, bind, Except.bind, pure, Except.pure, hadf, hm]
  congr 1

theorem imposeIc_val (num : A → XR) (m0 : List A → Fin n → ℝ) (t0 decay_rate : ℝ) (argnums_m0 : Argnums)
    (argnum_t : ℤ) (model : List A → K → Vec n) (args : List A) (kwargs : K) (xs : List A) (a : A) (t : ℝ) (v : Fin n → ℝ)
    (hxs : SelArgs args argnums_m0 xs) (ha : PyAt args argnum_t a) (ht : num a = fin t)
    (hm : model args kwargs = vfin v) :
    imposeIc num (fun a => vfin (m0 a)) t0 decay_rate argnums_m0 argnum_t model args kwargs =
      .ok (vfin fun i => Real.exp (-decay_rate * (t - t0)) * m0 xs i + (1 - Real.exp (-decay_rate * (t - t0))) * v i) := by
  have h1 := imposeIc_fin num m0 t0 decay_rate argnums_m0 argnum_t (fun _ (_ : K) => v) args kwargs xs a t hxs ha ht
  rw [← h1]
  unfold imposeIc
  rw [hm]

/-- C129. An initial condition on top of a boundary condition: on the boundary the result is a mixture of both, and it is the
boundary value exactly if initial and boundary value agree there. -/
theorem C129_ic_over_dirichlet (adf : List A → XR) (g : List A → Fin n → ℝ) (argnums_adf argnums_g : Argnums)
    (model inner : List A → K → Fin n → ℝ) (num : A → XR) (m0 : List A → Fin n → ℝ) (t0 decay_rate : ℝ) (argnums_m0 : Argnums)
    (argnum_t : ℤ) (args : List A) (kwargs : K) (xs ys zs : List A) (a : A) (t : ℝ)
    (hxs : SelArgs args argnums_adf xs) (hys : SelArgs args argnums_g ys)
    (hzs : SelArgs args argnums_m0 zs) (ha : PyAt args argnum_t a) (ht : num a = fin t)
    (hadf : adf xs = fin 0)
    (hin : imposeDirichletBc adf (some fun a => vfin (g a)) argnums_adf argnums_g (fun a k => vfin (model a k)) args kwargs =
      .ok (vfin (inner args kwargs))) :
    ∃ w : Fin n → ℝ,
      imposeIc num (fun a => vfin (m0 a)) t0 decay_rate argnums_m0 argnum_t (fun a k => vfin (inner a k)) args kwargs =
        .ok (vfin w) ∧
      (∀ i, w i = Real.exp (-decay_rate * (t - t0)) * m0 zs i + (1 - Real.exp (-decay_rate * (t - t0))) * g ys i) ∧
      (w = g ys ↔ m0 zs = g ys) := by
  rw [imposeDirichletBc_fin adf g argnums_adf argnums_g _ args kwargs xs ys 0 (model args kwargs) hxs hys hadf rfl] at hin
  have h1 : inner args kwargs = g ys := by
    have h2 := Except.ok.inj hin
    funext i
    have h3 := congrFun h2 i
    rw [vfin_apply, vfin_apply, fin_inj] at h3
    linarith
  refine ⟨_, imposeIc_val num m0 t0 decay_rate argnums_m0 argnum_t _ args kwargs zs a t (g ys) hzs ha ht (by rw [h1]),
    fun i => rfl, ⟨fun h => ?_, fun h => ?_⟩⟩
  · funext i
    have h4 := congrFun h i
    have h5 : Real.exp (-decay_rate * (t - t0)) * (m0 zs i - g ys i) = 0 := by
      beta_reduce at h4
      linarith
    rcases mul_eq_zero.mp h5 with h6 | h6
    · exact absurd h6 (Real.exp_ne_zero _)
    · linarith
  · rw [h]
    funext i
    ring

/-- Position `1` on the boundary, time `2`: boundary value `5` and initial value `5` are compatible, and only then. -/
example (c : ℝ) (inner : List ℝ → Unit → Fin 1 → ℝ)
    (hin : imposeDirichletBc (fun a => fin (a.sum - 1)) (some fun _ => vfin ![5]) (.int 0) (.int 0) (fun _ _ => vfin ![7]) [1, 2] () =
      .ok (vfin (inner [1, 2] ()))) :
    ∃ w : Fin 1 → ℝ, imposeIc fin (fun _ => vfin ![c]) 0 10 (.int 0) 1 (fun a k => vfin (inner a k)) [1, 2] () = .ok (vfin w) ∧
      (w = ![5] ↔ ![c] = ![5]) := by
  obtain ⟨w, h1, -, h2⟩ := C129_ic_over_dirichlet (fun a => fin (a.sum - 1)) (fun _ => ![5]) (.int 0) (.int 0)
    (fun _ _ => ![7]) inner fin (fun _ => ![c]) 0 10 (.int 0) 1 [1, 2] () [1] [1] [1] 2 2
    ⟨_, rfl, (by left; simp)⟩ ⟨_, rfl, (by left; simp)⟩ ⟨_, rfl, (by left; simp)⟩ (by left; simp) rfl (by simp) hin
  exact ⟨w, h1, h2⟩

/-- C129. The other order: the boundary condition holds, and at `t0` the initial condition does exactly if `g` is the part
`1 - adf` of it. -/
theorem C129_dirichlet_over_ic (adf : List A → XR) (g : List A → Fin n → ℝ) (argnums_adf argnums_g : Argnums)
    (model inner : List A → K → Fin n → ℝ) (num : A → XR) (m0 : List A → Fin n → ℝ) (t0 decay_rate : ℝ) (argnums_m0 : Argnums)
    (argnum_t : ℤ) (args : List A) (kwargs : K) (xs ys zs : List A) (a : A) (l : ℝ)
    (hxs : SelArgs args argnums_adf xs) (hys : SelArgs args argnums_g ys)
    (hzs : SelArgs args argnums_m0 zs) (ha : PyAt args argnum_t a) (ht : num a = fin t0)
    (hadf : adf xs = fin l)
    (hin : imposeIc num (fun a => vfin (m0 a)) t0 decay_rate argnums_m0 argnum_t (fun a k => vfin (model a k)) args kwargs =
      .ok (vfin (inner args kwargs))) :
    ∃ w : Fin n → ℝ,
      imposeDirichletBc adf (some fun a => vfin (g a)) argnums_adf argnums_g (fun a k => vfin (inner a k)) args kwargs =
        .ok (vfin w) ∧
      (∀ i, w i = l * m0 zs i + g ys i) ∧ (w = m0 zs ↔ ∀ i, g ys i = (1 - l) * m0 zs i) := by
  rw [C78_initial num m0 t0 decay_rate argnums_m0 argnum_t model args kwargs zs a hzs ha ht] at hin
  have h1 : vfin (inner args kwargs) = vfin (m0 zs) := (Except.ok.inj hin).symm
  refine ⟨_, imposeDirichletBc_fin adf g argnums_adf argnums_g _ args kwargs xs ys l (m0 zs) hxs hys hadf h1, fun i => rfl,
    ⟨fun h i => ?_, fun h => ?_⟩⟩
  · have := congrFun h i
    beta_reduce at this
    linarith
  · funext i
    rw [h i]
    ring

/-- At time `0` and position `3`, with ADF `2`, boundary value `-4` fits the initial value `4`. -/
example (inner : List ℝ → Unit → Fin 1 → ℝ)
    (hin : imposeIc fin (fun _ => vfin ![4]) 0 10 (.int 0) 1 (fun _ _ => vfin ![7]) [3, 0] () = .ok (vfin (inner [3, 0] ()))) :
    ∃ w : Fin 1 → ℝ, imposeDirichletBc (fun a => fin (a.sum - 1)) (some fun _ => vfin ![-4]) (.int 0) (.int 0)
      (fun a k => vfin (inner a k)) [3, 0] () = .ok (vfin w) ∧ w = ![4] := by
  obtain ⟨w, h1, -, h2⟩ := C129_dirichlet_over_ic (fun a => fin (a.sum - 1)) (fun _ => ![-4]) (.int 0) (.int 0)
    (fun _ _ => ![7]) inner fin (fun _ => ![4]) 0 10 (.int 0) 1 [3, 0] () [3] [3] [3] 0 2
    ⟨_, rfl, (by left; simp)⟩ ⟨_, rfl, (by left; simp)⟩ ⟨_, rfl, (by left; simp)⟩ (by left; simp) rfl
    (by simp; norm_num) hin
  exact ⟨w, h1, h2.mpr fun i => by fin_cases i; norm_num⟩

/-- C129. Two boundary conditions: the outer one holds, the inner one is scaled by the outer ADF and shifted by the outer
boundary value. -/
theorem C129_dirichlet_over_dirichlet (adf adf' : List A → XR) (g g' : List A → Fin n → ℝ)
    (argnums_adf argnums_g argnums_adf' argnums_g' : Argnums) (model inner : List A → K → Fin n → ℝ) (args : List A) (kwargs : K)
    (xs ys xs' ys' : List A) (l l' : ℝ) (hxs : SelArgs args argnums_adf xs)
    (hys : SelArgs args argnums_g ys) (hxs' : SelArgs args argnums_adf' xs')
    (hys' : SelArgs args argnums_g' ys') (hadf : adf xs = fin l) (hadf' : adf' xs' = fin l')
    (hin : imposeDirichletBc adf (some fun a => vfin (g a)) argnums_adf argnums_g (fun a k => vfin (model a k)) args kwargs =
      .ok (vfin (inner args kwargs))) :
    ∃ w : Fin n → ℝ,
      imposeDirichletBc adf' (some fun a => vfin (g' a)) argnums_adf' argnums_g' (fun a k => vfin (inner a k)) args kwargs =
        .ok (vfin w) ∧
      (l' = 0 → w = g' ys') ∧ (l = 0 → (∀ i, w i = l' * g ys i + g' ys' i) ∧ (w = g ys ↔ ∀ i, g' ys' i = (1 - l') * g ys i)) := by
  rw [imposeDirichletBc_fin adf g argnums_adf argnums_g _ args kwargs xs ys l (model args kwargs) hxs hys hadf rfl] at hin
  have h1 := (Except.ok.inj hin).symm
  refine ⟨_, imposeDirichletBc_fin adf' g' argnums_adf' argnums_g' _ args kwargs xs' ys' l' _ hxs' hys' hadf' h1, ?_, ?_⟩
  · rintro rfl
    funext i
    ring
  · rintro rfl
    refine ⟨fun i => by ring, fun h i => ?_, fun h => ?_⟩
    · have := congrFun h i
      beta_reduce at this
      linarith
    · funext i
      rw [h i]
      ring

/-- Boundaries `x = 1` and `x = 3`: at `3` the outer condition holds, at `1` the value is `-2 * 5 + 6`. -/
example (inner : List ℝ → Unit → Fin 1 → ℝ)
    (hin : imposeDirichletBc (fun a => fin (a.sum - 1)) (some fun _ => vfin ![5]) (.int 0) (.int 0) (fun _ _ => vfin ![7]) [1] () =
      .ok (vfin (inner [1] ()))) :
    ∃ w : Fin 1 → ℝ, imposeDirichletBc (fun a => fin (a.sum - 3)) (some fun _ => vfin ![6]) (.int 0) (.int 0)
      (fun a k => vfin (inner a k)) [1] () = .ok (vfin w) ∧ w 0 = -4 := by
  obtain ⟨w, h1, -, h2⟩ := C129_dirichlet_over_dirichlet (fun a => fin (a.sum - 1)) (fun a => fin (a.sum - 3)) (fun _ => ![5])
    (fun _ => ![6]) (.int 0) (.int 0) (.int 0) (.int 0) (fun _ _ => ![7]) inner [1] () [1] [1] [1] [1] 0 (-2)
    ⟨_, rfl, (by left; simp)⟩ ⟨_, rfl, (by left; simp)⟩ ⟨_, rfl, (by left; simp)⟩ ⟨_, rfl, (by left; simp)⟩
    (by simp) (by simp; norm_num) hin
  refine ⟨w, h1, ?_⟩
  rw [(h2 rfl).1 0]
  norm_num

/-- C129. Completeness: exactly the functions with the right boundary values are of the form `adf * model + g`. -/
theorem C129_complete (adf : List A → ℝ) (g : List A → Fin n → ℝ) (argnums_adf argnums_g : Argnums) (D : Set (List A))
    (xs ys : List A → List A) (hxs : ∀ args ∈ D, SelArgs args argnums_adf (xs args))
    (hys : ∀ args ∈ D, SelArgs args argnums_g (ys args)) (u : List A → K → Fin n → ℝ) :
    (∃ model : List A → K → Fin n → ℝ, ∀ args ∈ D, ∀ kwargs,
      imposeDirichletBc (fun a => fin (adf a)) (some fun a => vfin (g a)) argnums_adf argnums_g (fun a k => vfin (model a k)) args
        kwargs = .ok (vfin (u args kwargs))) ↔
    ∀ args ∈ D, adf (xs args) = 0 → ∀ kwargs, u args kwargs = g (ys args) := by
  constructor
  · rintro ⟨model, h⟩ args ha h0 kwargs
    have h1 := h args ha kwargs
    rw [imposeDirichletBc_fin _ g argnums_adf argnums_g _ args kwargs _ _ 0 (model args kwargs) (hxs args ha) (hys args ha)
      (by rw [h0]) rfl] at h1
    funext i
    have h2 := congrFun (Except.ok.inj h1) i
    rw [vfin_apply, vfin_apply, fin_inj] at h2
    linarith
  · intro h
    refine ⟨fun args kwargs i => (u args kwargs i - g (ys args) i) / adf (xs args), fun args ha kwargs => ?_⟩
    rw [imposeDirichletBc_fin _ g argnums_adf argnums_g _ args kwargs _ _ (adf (xs args)) _ (hxs args ha) (hys args ha) rfl rfl]
    congr 2
    funext i
    by_cases h0 : adf (xs args) = 0
    · rw [h args ha h0 kwargs, h0]
      simp
    · field_simp
      ring

/-- Every function on the line with value `4` at `0` is attained. -/
example (u : ℝ → ℝ) (hu : u 0 = 4) : ∃ model : List ℝ → Unit → Fin 1 → ℝ, ∀ args ∈ Set.range fun x : ℝ => [x], ∀ kwargs,
    imposeDirichletBc (fun a => fin a.sum) (some fun _ => vfin ![4]) (.int 0) (.int 0) (fun a k => vfin (model a k)) args kwargs =
      .ok (vfin ![u args.sum]) := by
  refine (C129_complete List.sum (fun _ => ![4]) (.int 0) (.int 0) (Set.range fun x : ℝ => [x]) id id ?_ ?_
    fun a _ => ![u a.sum]).mpr ?_
  · rintro _ ⟨x, rfl⟩
    exact ⟨_, rfl, (by left; simp)⟩
  · rintro _ ⟨x, rfl⟩
    exact ⟨_, rfl, (by left; simp)⟩
  · rintro _ ⟨x, rfl⟩ h kwargs
    rw [id] at h
    rw [h, hu]

end

/-- C129. A Neumann condition on top of a Dirichlet condition with the same ADF: both hold. -/
theorem C129_cauchy {K : Type} {n d : ℕ} (adf : List Arg → ℝ) (g h : List Arg → Fin n → ℝ) (argnums_adf argnums_g argnums_h : Argnums)
    (i : ℕ) (model inner : List Arg → K → Fin n → ℝ) (args : List Arg) (kwargs : K) (x0 : Pt d) (ys : List Arg)
    (ws zs : Pt d → List Arg) (hi : i < args.length)
    (hadf : ∀ x : Pt d, SelArgs (args.set i (.vec d x)) argnums_adf (.vec d x :: ys))
    (hg : ∀ x : Pt d, SelArgs (args.set i (.vec d x)) argnums_g (ws x))
    (hh : ∀ x : Pt d, SelArgs (args.set i (.vec d x)) argnums_h (zs x))
    (hin : ∀ args kwargs v, imposeDirichletBc (fun a => fin (adf a)) (some fun a => vfin (g a)) argnums_adf argnums_g
      (fun a k => vfin (model a k)) args kwargs = .ok v → v = vfin (inner args kwargs))
    (sa : ContDiffAt ℝ 1 (fun x => adf (.vec d x :: ys)) x0)
    (sm : ContDiffAt ℝ 1 (fun x => model (args.set i (.vec d x)) kwargs) x0)
    (sg : ContDiffAt ℝ 1 (fun x => g (ws x)) x0) (sh : ContinuousAt (fun x => h (zs x)) x0)
    (h0 : adf (.vec d x0 :: ys) = 0) (h1 : ‖gradient (fun x => adf (.vec d x :: ys)) x0‖ = 1) :
    ∃ u : Pt d → Fin n → ℝ,
      (∀ x, imposeNeumannBc adf (some h) argnums_adf i argnums_h inner (args.set i (.vec d x)) kwargs = .ok (u x)) ∧
      u x0 = g (ws x0) ∧ DifferentiableAt ℝ u x0 ∧
      fderiv ℝ u x0 (-gradient (fun x => adf (.vec d x :: ys)) x0) = h (zs x0) := by
  have hinner : ∀ x : Pt d, inner (args.set i (.vec d x)) kwargs =
      adf (.vec d x :: ys) • model (args.set i (.vec d x)) kwargs + g (ws x) := fun x => by
    have h2 := hin _ _ _ (imposeDirichletBc_fin _ g argnums_adf argnums_g _ (args.set i (.vec d x)) kwargs _ _ _ _ (hadf x) (hg x)
      rfl rfl)
    funext j
    have h3 := congrFun h2 j
    rw [vfin_apply, vfin_apply, fin_inj] at h3
    rw [← h3]
    rfl
  have si : ContDiffAt ℝ 1 (fun x => inner (args.set i (.vec d x)) kwargs) x0 := by
    simp only [hinner]
    exact (sa.smul sm).add sg
  obtain ⟨u, hu, hd, hn⟩ := C79_neumann adf (some h) argnums_adf argnums_h i inner args kwargs x0 ys zs hi hadf hh sa si
    (fun h' e => by cases e; exact sh) h0 h1
  refine ⟨u, hu, ?_, hd, hn⟩
  have h2 := hu x0
  have hx : pyIndex (args.set i (.vec d x0)) (i : ℤ) = .ok (.vec d x0) := by
    rw [pyIndex_iff]
    left
    exact ⟨by omega, by simp [hi]⟩
  have hset : ∀ y : Arg, pySliceTo (args.set i (.vec d x0)) (i : ℤ) ++ y :: pySliceFrom (args.set i (.vec d x0)) ((i : ℤ) + 1) =
      args.set i y := by
    intro y
    rw [pySlices _ i (by simpa using hi), List.set_set]
  simp only [imposeNeumannBc, hx, pick_of_forall₂ (hadf x0), pick_of_forall₂ (hh x0), hset, bind, Except.bind, pure,
    Except.pure, dif_pos, h0, zero_smul, sub_zero] at h2
  rw [← Except.ok.inj h2, hinner, h0, zero_smul, zero_add]

/-- Value `4` and outward derivative `6` at the end `0` of the half line. -/
example (adf : List Arg → ℝ) (hadf : ∀ x : Pt 1, adf [.vec 1 x] = x 0) (model : List Arg → Unit → Fin 1 → ℝ)
    (sm : ContDiffAt ℝ 1 (fun x : Pt 1 => model [.vec 1 x] ()) 0) (inner : List Arg → Unit → Fin 1 → ℝ)
    (hin : ∀ args kwargs v, imposeDirichletBc (fun a => fin (adf a)) (some fun _ => vfin ![4]) (.int 0) (.int 0)
      (fun a k => vfin (model a k)) args kwargs = .ok v → v = vfin (inner args kwargs)) :
    ∃ u : Pt 1 → Fin 1 → ℝ,
      (∀ x, imposeNeumannBc adf (some fun _ => ![6]) (.int 0) (0 : ℕ) (.int 0) inner [.vec 1 x] () = .ok (u x)) ∧
      u 0 = ![4] ∧ fderiv ℝ u 0 (-EuclideanSpace.single 0 1) = ![6] := by
  have ha : (fun x : Pt 1 => adf [.vec 1 x]) = fun x => EuclideanSpace.proj (𝕜 := ℝ) 0 x := funext hadf
  have hgrad : gradient (fun x : Pt 1 => adf [.vec 1 x]) 0 = EuclideanSpace.single 0 1 := by
    refine HasGradientAt.gradient ?_
    rw [hasGradientAt_iff_hasFDerivAt, ha]
    refine (EuclideanSpace.proj (𝕜 := ℝ) (0 : Fin 1)).hasFDerivAt.congr_fderiv ?_
    ext v
    simp [EuclideanSpace.inner_single_left]
  obtain ⟨u, h1, h2, -, h3⟩ := C129_cauchy adf (fun _ => ![4]) (fun _ => ![6]) (.int 0) (.int 0) (.int 0) 0 model inner
    [.vec 1 0] () (0 : Pt 1) [] (fun x => [.vec 1 x]) (fun x => [.vec 1 x]) (by simp) (fun x => ⟨_, rfl, (by left; simp)⟩)
    (fun x => ⟨_, rfl, (by left; simp)⟩) (fun x => ⟨_, rfl, (by left; simp)⟩) hin
    (by rw [ha]; exact (EuclideanSpace.proj (𝕜 := ℝ) (0 : Fin 1)).contDiff.contDiffAt) sm contDiffAt_const continuousAt_const
    (by rw [hadf]; rfl) (by rw [hgrad]; simp)
  rw [hgrad] at h3
  exact ⟨u, h1, h2, h3⟩

end Verif
