import Verif.Props.Transforms

/-! # Property C128: gradients under transformations of ADFs, composition of transformations -/

namespace Verif

open XR Topology Matrix InnerProductSpace

/-! ## Gradients -/

/-- The chain rule for computed functions. -/
theorem HasGrad.comp_map {m n : ℕ} {F : ADF m} {G : ADF n} {T : Pt n → Pt m} {A : Pt n →L[ℝ] Pt m} {u : Pt m} {u' x : Pt n}
    (h : HasGrad F u (T x)) (hT : HasFDerivAt T A x) (hG : ∀ᶠ z in 𝓝 x, G (efin z) = F (efin (T z)))
    (hu : ∀ v, ⟪u', v⟫_ℝ = ⟪u, A v⟫_ℝ) : HasGrad G u' x := by
  obtain ⟨f, h1, h2⟩ := h
  refine ⟨fun z => f (T z), ?_, ?_⟩
  · filter_upwards [hT.continuousAt.eventually h1, hG] with z h3 h4
    rw [h4, h3]
  · rw [hasGradientAt_iff_hasFDerivAt] at h2 ⊢
    refine (h2.comp x hT).congr_fderiv ?_
    ext v
    exact (hu v).symm

theorem inner_eq_dot {n : ℕ} (x y : Pt n) : ⟪x, y⟫_ℝ = x.ofLp ⬝ᵥ y.ofLp := by
  rw [EuclideanSpace.inner_eq_star_dotProduct, dotProduct_comm]
  rfl

/-- Gradients under an affine change of variables `z ↦ L (z - o) + o`. -/
theorem HasGrad.comp_affine {n : ℕ} {F G : ADF n} (L : (Fin n → ℝ) →ₗ[ℝ] Fin n → ℝ) (o : Fin n → ℝ) {u u' x : Pt n}
    (h : HasGrad F u (WithLp.toLp 2 (L (x.ofLp - o) + o))) (hG : ∀ z : Fin n → ℝ, G (vfin z) = F (vfin (L (z - o) + o)))
    (hu : ∀ v, u'.ofLp ⬝ᵥ v = u.ofLp ⬝ᵥ L v) : HasGrad G u' x := by
  let A : Pt n →L[ℝ] Pt n := ((WithLp.linearEquiv 2 ℝ (Fin n → ℝ)).symm.toLinearMap ∘ₗ L ∘ₗ
    (WithLp.linearEquiv 2 ℝ (Fin n → ℝ)).toLinearMap).toContinuousLinearMap
  have hA : ∀ v : Pt n, A v = WithLp.toLp 2 (L v.ofLp) := fun v => rfl
  refine h.comp_map (T := fun z => WithLp.toLp 2 (L (z.ofLp - o) + o)) (A := A) ?_ (.of_forall fun z => hG _) fun v => ?_
  · have h1 : (fun z : Pt n => WithLp.toLp 2 (L (z.ofLp - o) + o)) =
        fun z => A (z - WithLp.toLp 2 o) + WithLp.toLp 2 o := rfl
    rw [h1]
    exact (A.hasFDerivAt.comp x ((hasFDerivAt_id x).sub_const _)).add_const _
  · rw [inner_eq_dot, inner_eq_dot, hA]
    exact hu _

theorem norm_eq_of_adjoint {n : ℕ} {L L' : (Fin n → ℝ) → Fin n → ℝ} (h1 : ∀ u v, L' u ⬝ᵥ v = u ⬝ᵥ L v)
    (h2 : ∀ u, L (L' u) = u) (u : Pt n) : ‖(WithLp.toLp 2 (L' u.ofLp) : Pt n)‖ = ‖u‖ := by
  have : ‖(WithLp.toLp 2 (L' u.ofLp) : Pt n)‖ ^ 2 = ‖u‖ ^ 2 := by
    rw [← real_inner_self_eq_norm_sq, ← real_inner_self_eq_norm_sq, inner_eq_dot, inner_eq_dot]
    change L' u.ofLp ⬝ᵥ L' u.ofLp = _
    rw [h1, h2]
  exact (pow_left_inj₀ (norm_nonneg _) (norm_nonneg _) two_ne_zero).mp this

/-- `turn2` as a linear map. -/
noncomputable def turn2L (t : ℝ) : (Fin 2 → ℝ) →ₗ[ℝ] Fin 2 → ℝ where
  toFun := turn2 t
  map_add' x y := by ext i; fin_cases i <;> simp [turn2] <;> ring
  map_smul' c x := by ext i; fin_cases i <;> simp [turn2] <;> ring

theorem turn2_adjoint (t : ℝ) (u v : Fin 2 → ℝ) : turn2 t u ⬝ᵥ v = u ⬝ᵥ turn2 (-t) v := by
  simp [turn2, dotProduct, Fin.sum_univ_two]
  ring

/-- C128. A rotated function has at the rotated point the rotated gradient, of the same length. -/
theorem C128_rotate2d (f : ADF 2) (t : ℝ) (o u x : Pt 2) (h : HasGrad f u x) :
    HasGrad (rotate2d f (.float (fin t)) (efin o)) (WithLp.toLp 2 (turn2 t u.ofLp))
      (o + WithLp.toLp 2 (turn2 t (x - o).ofLp)) ∧
    ‖(WithLp.toLp 2 (turn2 t u.ofLp) : Pt 2)‖ = ‖u‖ := by
  refine ⟨?_, norm_eq_of_adjoint (turn2_adjoint t) (turn2_neg t) u⟩
  refine HasGrad.comp_affine (F := f) (u := u) (turn2L (-t)) o.ofLp ?_ (fun z => rotate2d_float t o.ofLp z) fun v => turn2_adjoint t _ _
  convert h using 1
  have : (o + WithLp.toLp 2 (turn2 t (x - o).ofLp)).ofLp - o.ofLp = turn2 t (x - o).ofLp := by
    rw [WithLp.ofLp_add, add_sub_cancel_left]
  rw [this]
  change WithLp.toLp 2 (turn2 (-t) (turn2 t (x - o).ofLp) + o.ofLp) = x
  rw [turn2_neg]
  ext i
  simp

/-- Coordinates have the unit vectors as gradients. -/
theorem hasGrad_coord {n : ℕ} (i : Fin n) (x : Pt n) : HasGrad (fun y : Vec n => y i) (EuclideanSpace.single i 1) x := by
  refine ⟨fun y => y i, .of_forall fun y => rfl, ?_⟩
  rw [hasGradientAt_iff_hasFDerivAt]
  refine (EuclideanSpace.proj (𝕜 := ℝ) i).hasFDerivAt.congr_fderiv ?_
  ext v
  simp [EuclideanSpace.inner_single_left]

/-- The half plane `x₀ > 0` turned by one about the point `(2, 3)`. -/
example : HasGrad (rotate2d (fun y => y 0) (.float (fin 1)) (efin !₂[2, 3])) (WithLp.toLp 2 (turn2 1 (EuclideanSpace.single 0 1 : Pt 2).ofLp))
    (!₂[2, 3] + WithLp.toLp 2 (turn2 1 (!₂[5, 7] - !₂[2, 3] : Pt 2).ofLp)) :=
  (C128_rotate2d _ 1 _ _ _ (hasGrad_coord 0 _)).1

/-- `rodrigues` as a linear map. -/
noncomputable def rodriguesL (u : Fin 3 → ℝ) (t : ℝ) : (Fin 3 → ℝ) →ₗ[ℝ] Fin 3 → ℝ where
  toFun := rodrigues u t
  map_add' x y := by
    simp only [rodrigues, map_add, dotProduct_add, smul_add, mul_add, add_smul]
    abel
  map_smul' c x := by
    simp only [rodrigues, map_smul, dotProduct_smul, smul_add, smul_eq_mul, RingHom.id_apply, smul_smul]
    rw [mul_comm c (Real.cos t), mul_comm c (Real.sin t), mul_left_comm c]

theorem rodrigues_zero (a : Fin 3 → ℝ) (t : ℝ) (x : Fin 3 → ℝ) : rodrigues a t x 0 =
    Real.cos t * x 0 + Real.sin t * (a 1 * x 2 - a 2 * x 1) + (1 - Real.cos t) * (a 0 * x 0 + a 1 * x 1 + a 2 * x 2) * a 0 := by
  simp [rodrigues, dotProduct, Fin.sum_univ_three, cross_apply, vecHead, vecTail]

theorem rodrigues_one (a : Fin 3 → ℝ) (t : ℝ) (x : Fin 3 → ℝ) : rodrigues a t x 1 =
    Real.cos t * x 1 + Real.sin t * (a 2 * x 0 - a 0 * x 2) + (1 - Real.cos t) * (a 0 * x 0 + a 1 * x 1 + a 2 * x 2) * a 1 := by
  simp [rodrigues, dotProduct, Fin.sum_univ_three, cross_apply, vecHead, vecTail]

theorem rodrigues_two (a : Fin 3 → ℝ) (t : ℝ) (x : Fin 3 → ℝ) : rodrigues a t x 2 =
    Real.cos t * x 2 + Real.sin t * (a 0 * x 1 - a 1 * x 0) + (1 - Real.cos t) * (a 0 * x 0 + a 1 * x 1 + a 2 * x 2) * a 2 := by
  simp [rodrigues, dotProduct, Fin.sum_univ_three, cross_apply, vecHead, vecTail]

theorem rodrigues_adjoint (a : Fin 3 → ℝ) (t : ℝ) (u v : Fin 3 → ℝ) :
    rodrigues a (-t) u ⬝ᵥ v = u ⬝ᵥ rodrigues a t v := by
  simp only [dotProduct, Fin.sum_univ_three, rodrigues_zero, rodrigues_one, rodrigues_two, Real.cos_neg, Real.sin_neg]
  ring

/-- C128. The same for rotations in space, about an axis ... -/
theorem C128_rotate3d (f : ADF 3) (t : ℝ) (a : Fin 3 → ℝ) (ha : a ⬝ᵥ a = 1) (o u x : Pt 3) (h : HasGrad f u x) :
    ∃ F, rotate3d f (.scalar (fin t)) (some (vfin a)) (efin o) = .ok F ∧
      HasGrad F (WithLp.toLp 2 (rodrigues a (-t) u.ofLp)) (o + WithLp.toLp 2 (rodrigues a (-t) (x - o).ofLp)) ∧
      ‖(WithLp.toLp 2 (rodrigues a (-t) u.ofLp) : Pt 3)‖ = ‖u‖ := by
  obtain ⟨F, h1, h2⟩ := rotate3d_axis f t ha o.ofLp
  refine ⟨F, h1, ?_, norm_eq_of_adjoint (rodrigues_adjoint a t) (rodrigues_neg ha t) u⟩
  refine HasGrad.comp_affine (F := f) (u := u) (rodriguesL a t) o.ofLp ?_ h2 fun v => rodrigues_adjoint a t _ _
  convert h using 1
  have : (o + WithLp.toLp 2 (rodrigues a (-t) (x - o).ofLp)).ofLp - o.ofLp = rodrigues a (-t) (x - o).ofLp := by
    rw [WithLp.ofLp_add, add_sub_cancel_left]
  rw [this]
  change WithLp.toLp 2 (rodrigues a t (rodrigues a (-t) (x - o).ofLp) + o.ofLp) = x
  rw [rodrigues_neg ha]
  ext i
  simp

/-- C128. ... and by Euler angles. -/
theorem C128_rotate3d_euler (f : ADF 3) (a b c : ℝ) (o u x : Pt 3) (h : HasGrad f u x) :
    ∃ F, rotate3d f (.euler (vfin ![a, b, c])) none (efin o) = .ok F ∧
      HasGrad F (WithLp.toLp 2 (rodrigues ez (-c) (rodrigues ey (-b) (rodrigues ex (-a) u.ofLp))))
        (o + WithLp.toLp 2 (rodrigues ez (-c) (rodrigues ey (-b) (rodrigues ex (-a) (x - o).ofLp)))) ∧
      ‖(WithLp.toLp 2 (rodrigues ez (-c) (rodrigues ey (-b) (rodrigues ex (-a) u.ofLp))) : Pt 3)‖ = ‖u‖ := by
  obtain ⟨F, h1, h2⟩ := rotate3d_euler f a b c o.ofLp
  have hadj : ∀ u v, rodrigues ez (-c) (rodrigues ey (-b) (rodrigues ex (-a) u)) ⬝ᵥ v =
      u ⬝ᵥ rodrigues ex a (rodrigues ey b (rodrigues ez c v)) := fun u v => by
    rw [rodrigues_adjoint, rodrigues_adjoint, rodrigues_adjoint]
  have hinv : ∀ u, rodrigues ex a (rodrigues ey b (rodrigues ez c
      (rodrigues ez (-c) (rodrigues ey (-b) (rodrigues ex (-a) u))))) = u := fun u => by
    rw [rodrigues_neg unit_ez, rodrigues_neg unit_ey, rodrigues_neg unit_ex]
  refine ⟨F, h1, ?_, norm_eq_of_adjoint (L := fun v => rodrigues ex a (rodrigues ey b (rodrigues ez c v)))
    (L' := fun v => rodrigues ez (-c) (rodrigues ey (-b) (rodrigues ex (-a) v))) hadj hinv u⟩
  refine HasGrad.comp_affine (F := f) (u := u) (rodriguesL ex a ∘ₗ rodriguesL ey b ∘ₗ rodriguesL ez c) o.ofLp ?_ h2
    fun v => hadj _ _
  convert h using 1
  have : ∀ y : Fin 3 → ℝ, (o + WithLp.toLp 2 y).ofLp - o.ofLp = y := fun y => by
    rw [WithLp.ofLp_add, add_sub_cancel_left]
  rw [this]
  change WithLp.toLp 2 (rodrigues ex a (rodrigues ey b (rodrigues ez c (rodrigues ez (-c) (rodrigues ey (-b) (rodrigues ex (-a)
    (x - o).ofLp))))) + o.ofLp) = x
  rw [hinv]
  ext i
  simp

/-- The half space `x₀ > 0`, turned about the third axis and by Euler angles. -/
example : (∃ F, rotate3d (fun y => y 0) (.scalar (fin 2)) (some (vfin ez)) (efin 0) = .ok F ∧
      HasGrad F (WithLp.toLp 2 (rodrigues ez (-2) (EuclideanSpace.single 0 1 : Pt 3).ofLp))
        (0 + WithLp.toLp 2 (rodrigues ez (-2) (!₂[1, 2, 3] - 0 : Pt 3).ofLp))) ∧
    ∃ F u x, rotate3d (fun y => y 0) (.euler (vfin ![1, 2, 3])) none (efin 0) = .ok F ∧ HasGrad F u x ∧ ‖u‖ = 1 := by
  obtain ⟨F, h1, h2, -⟩ := C128_rotate3d _ 2 ez unit_ez 0 _ !₂[1, 2, 3] (hasGrad_coord 0 _)
  obtain ⟨G, g1, g2, g3⟩ := C128_rotate3d_euler _ 1 2 3 0 _ !₂[1, 2, 3] (hasGrad_coord 0 _)
  exact ⟨⟨F, h1, h2⟩, G, _, _, g1, g2, g3.trans (by simp)⟩

/-- `y ↦ y - k (y · v) / (v · v) v`: a projection for `k = 1`, a reflection for `k = 2`. -/
noncomputable def mirrorL {n : ℕ} (k : ℝ) (v : Fin n → ℝ) : (Fin n → ℝ) →ₗ[ℝ] Fin n → ℝ where
  toFun y := y - (k * (y ⬝ᵥ v) / (v ⬝ᵥ v)) • v
  map_add' x y := by
    rw [add_dotProduct, mul_add, add_div, add_smul]
    abel
  map_smul' c x := by
    rw [smul_dotProduct, RingHom.id_apply, smul_sub, smul_smul, smul_eq_mul]
    congr 2
    ring

theorem mirrorL_apply {n : ℕ} (k : ℝ) (v y : Fin n → ℝ) : mirrorL k v y = y - (k * (y ⬝ᵥ v) / (v ⬝ᵥ v)) • v := rfl

theorem mirrorL_adjoint {n : ℕ} (k : ℝ) (w u v : Fin n → ℝ) : mirrorL k w u ⬝ᵥ v = u ⬝ᵥ mirrorL k w v := by
  rw [mirrorL_apply, mirrorL_apply, sub_dotProduct, dotProduct_sub, smul_dotProduct, dotProduct_smul, smul_eq_mul, smul_eq_mul,
    dotProduct_comm w v]
  ring

theorem mirrorL_two {n : ℕ} {w : Fin n → ℝ} (hw : w ≠ 0) (u : Fin n → ℝ) : mirrorL 2 w (mirrorL 2 w u) = u := by
  have hww := dot_self_ne_zero hw
  rw [mirrorL_apply, mirrorL_apply, sub_dotProduct, smul_dotProduct, smul_eq_mul]
  have : 2 * (u ⬝ᵥ w - 2 * (u ⬝ᵥ w) / (w ⬝ᵥ w) * (w ⬝ᵥ w)) / (w ⬝ᵥ w) = -(2 * (u ⬝ᵥ w) / (w ⬝ᵥ w)) := by
    field_simp
    ring
  rw [this, neg_smul]
  abel

theorem mirror_isMirror {n : ℕ} {w : Fin n → ℝ} {x y : Fin n → ℝ} (hw : w ≠ 0) (h : IsMirror w x y) : y = mirrorL 2 w x := by
  obtain ⟨⟨c, hc⟩, h2⟩ := h
  have hww := dot_self_ne_zero hw
  have hy : y = x + c • w := by rw [← hc]; abel
  subst hy
  rw [dotProduct_add, dotProduct_add, dotProduct_smul, smul_eq_mul] at h2
  rw [mirrorL_apply, sub_eq_add_neg, ← neg_smul]
  congr 2
  rw [dotProduct_comm x, eq_comm, ← neg_div, div_eq_iff hww]
  linarith

/-- C128. A reflected function has at the mirror image the mirrored gradient, of the same length. -/
theorem C128_reflect {n : ℕ} (f : ADF n) (v : Fin n → ℝ) (hv : v ≠ 0) (o u u' x x' : Pt n) (h : HasGrad f u x)
    (hx : IsMirror v (x - o).ofLp (x' - o).ofLp) (hu : IsMirror v u.ofLp u'.ofLp) :
    HasGrad (reflect f (vfin v) (efin o)) u' x' ∧ ‖u'‖ = ‖u‖ := by
  have hu' : u' = WithLp.toLp 2 (mirrorL 2 v u.ofLp) := by
    rw [← mirror_isMirror hv hu]
  have hx' := mirror_isMirror hv hx
  refine ⟨?_, ?_⟩
  · refine HasGrad.comp_affine (F := f) (u := u) (mirrorL 2 v) o.ofLp ?_ (fun z => ?_) fun w => ?_
    · convert h using 1
      have h3 : x'.ofLp - o.ofLp = mirrorL 2 v (x - o).ofLp := hx'
      rw [h3, mirrorL_two hv]
      ext i
      simp
    · change reflect f (vfin v) (vfin o.ofLp) (vfin z) = _
      rw [reflect_fin f hv, mirrorL_apply]
      congr 2
      abel
    · rw [hu']
      exact mirrorL_adjoint 2 v _ _
  · rw [hu']
    exact norm_eq_of_adjoint (mirrorL_adjoint 2 v) (mirrorL_two hv) u

/-- The half plane `x₀ > 0` reflected in the diagonal is the half plane `x₁ > 0`. -/
example : HasGrad (reflect (fun y => y 0) (vfin ![1, -1]) (efin 0)) !₂[0, 1] !₂[3, 2] := by
  refine (C128_reflect (fun y => y 0) ![1, -1] (fun h => by simpa using congrFun h 0) 0 (EuclideanSpace.single 0 1) _ !₂[2, 3] _
    (hasGrad_coord 0 _) ⟨⟨1, ?_⟩, ?_⟩ ⟨⟨-1, ?_⟩, ?_⟩).1
  · funext i; fin_cases i <;> simp <;> norm_num
  · simp [dotProduct, Fin.sum_univ_two]; norm_num
  · funext i; fin_cases i <;> simp
  · simp [dotProduct, Fin.sum_univ_two]

/-- C128. A projected function has at all points above `p` the part of the gradient at `p` orthogonal to the direction of
projection. -/
theorem C128_project {n : ℕ} (f : ADF n) (v : Fin n → ℝ) (hv : v ≠ 0) (o u p : Pt n) (c : ℝ) (h : HasGrad f u p)
    (hp : (p - o).ofLp ⬝ᵥ v = 0) :
    HasGrad (project f (vfin v) (efin o)) (WithLp.toLp 2 (u.ofLp - ((u.ofLp ⬝ᵥ v) / (v ⬝ᵥ v)) • v))
      (p + c • WithLp.toLp 2 v) := by
  have hvv := dot_self_ne_zero hv
  have h1 : ∀ y : Fin n → ℝ, mirrorL 1 v y = y - ((y ⬝ᵥ v) / (v ⬝ᵥ v)) • v := fun y => by rw [mirrorL_apply, one_mul]
  rw [← h1]
  refine HasGrad.comp_affine (F := f) (u := u) (mirrorL 1 v) o.ofLp ?_ (fun z => ?_) fun w => mirrorL_adjoint 1 v _ _
  · convert h using 1
    have h2 : (p + c • WithLp.toLp 2 v).ofLp - o.ofLp = (p - o).ofLp + c • v := by
      ext i
      simp
      ring
    rw [h2, h1, add_dotProduct, hp, smul_dotProduct, smul_eq_mul, zero_add, mul_div_assoc, div_self hvv, mul_one]
    ext i
    simp
  · change project f (vfin v) (vfin o.ofLp) (vfin z) = _
    rw [project_fin f hv, h1]
    congr 2
    abel

/-- The half space `x₀ > 0` projected along the third axis keeps its gradient. -/
example : HasGrad (project (fun y => y 0) (vfin ez) (efin 0))
    (WithLp.toLp 2 ((EuclideanSpace.single 0 1 : Pt 3).ofLp - (((EuclideanSpace.single 0 1 : Pt 3).ofLp ⬝ᵥ ez) / (ez ⬝ᵥ ez)) • ez))
    (!₂[1, 2, 0] + (5 : ℝ) • WithLp.toLp 2 ez) :=
  C128_project _ ez (fun h => by simpa [ez] using congrFun h 2) 0 _ !₂[1, 2, 0] 5 (hasGrad_coord 0 _)
    (by simp [ez, dotProduct, Fin.sum_univ_three])

/-- C128. A function of revolution has a gradient of the same length as the function in the half plane: along the axis the first
component, in radial direction the second. -/
theorem C128_revolution (f : ADF 2) (u : Pt 2) (x : Pt 3) (hr : 0 < Real.sqrt (x 1 ^ 2 + x 2 ^ 2))
    (h : HasGrad f u !₂[x 0, Real.sqrt (x 1 ^ 2 + x 2 ^ 2)]) :
    ∃ F : ADF 3, (∀ z, revolution f 0 z = .ok (F z)) ∧
      HasGrad F !₂[u 0, u 1 * (x 1 / Real.sqrt (x 1 ^ 2 + x 2 ^ 2)), u 1 * (x 2 / Real.sqrt (x 1 ^ 2 + x 2 ^ 2))] x ∧
      ‖(!₂[u 0, u 1 * (x 1 / Real.sqrt (x 1 ^ 2 + x 2 ^ 2)), u 1 * (x 2 / Real.sqrt (x 1 ^ 2 + x 2 ^ 2))] : Pt 3)‖ = ‖u‖ := by
  set r := Real.sqrt (x 1 ^ 2 + x 2 ^ 2) with hrdef
  have hrr : r ^ 2 = x 1 ^ 2 + x 2 ^ 2 := Real.sq_sqrt (by positivity)
  refine ⟨fun z => f ![z 0, sqrt (z 1 ^ 2 + z 2 ^ 2)], fun z => by simp [revolution], ?_, ?_⟩
  · let P : Fin 3 → Pt 3 →L[ℝ] ℝ := fun i => EuclideanSpace.proj i
    have hP : ∀ i, HasFDerivAt (fun z : Pt 3 => z i) (P i) x := fun i => (P i).hasFDerivAt
    have hs : HasFDerivAt (fun z : Pt 3 => Real.sqrt (z 1 ^ 2 + z 2 ^ 2))
        ((1 / (2 * r)) • ((2 * x 1) • P 1 + (2 * x 2) • P 2)) x := by
      have h1 : HasFDerivAt (fun z : Pt 3 => z 1 ^ 2 + z 2 ^ 2) ((2 * x 1) • P 1 + (2 * x 2) • P 2) x := by
        refine (((hP 1).pow 2).fun_add ((hP 2).pow 2)).congr_fderiv ?_
        ext v
        simp
      exact h1.sqrt (by rw [← hrr]; positivity)
    let A : Pt 3 →L[ℝ] Pt 2 := (PiLp.continuousLinearEquiv 2 ℝ (fun _ : Fin 2 => ℝ)).symm.toContinuousLinearMap.comp
      (ContinuousLinearMap.pi ![P 0, (1 / (2 * r)) • ((2 * x 1) • P 1 + (2 * x 2) • P 2)])
    refine h.comp_map (T := fun z => !₂[z 0, Real.sqrt (z 1 ^ 2 + z 2 ^ 2)]) (A := A) ?_ (.of_forall fun z => ?_) fun v => ?_
    · refine ((PiLp.continuousLinearEquiv 2 ℝ (fun _ : Fin 2 => ℝ)).symm.toContinuousLinearMap.hasFDerivAt.comp x
        (hasFDerivAt_pi.mpr fun i => ?_) : HasFDerivAt
          ((PiLp.continuousLinearEquiv 2 ℝ (fun _ : Fin 2 => ℝ)).symm.toContinuousLinearMap ∘
            fun z : Pt 3 => ![z 0, Real.sqrt (z 1 ^ 2 + z 2 ^ 2)]) _ x)
      fin_cases i
      · exact hP 0
      · exact hs
    · beta_reduce
      congr 1
      funext i
      fin_cases i
      · rfl
      · show sqrt (fin (z 1) ^ 2 + fin (z 2) ^ 2) = fin _
        rw [fin_npow, fin_npow, fin_add, fin_sqrt (by positivity)]
        rfl
    · rw [inner_eq_dot, inner_eq_dot]
      have hA0 : (A v).ofLp 0 = v 0 := rfl
      have hA1 : (A v).ofLp 1 = 1 / (2 * r) * (2 * x 1 * v 1 + 2 * x 2 * v 2) := rfl
      simp only [dotProduct, Fin.sum_univ_three, Fin.sum_univ_two, hA0, hA1]
      show u 0 * v 0 + u 1 * (x 1 / r) * v 1 + u 1 * (x 2 / r) * v 2 = _
      field_simp
      ring
  · have : ‖(!₂[u 0, u 1 * (x 1 / r), u 1 * (x 2 / r)] : Pt 3)‖ ^ 2 = ‖u‖ ^ 2 := by
      rw [EuclideanSpace.real_norm_sq_eq, EuclideanSpace.real_norm_sq_eq, Fin.sum_univ_three, Fin.sum_univ_two]
      show u 0 ^ 2 + (u 1 * (x 1 / r)) ^ 2 + (u 1 * (x 2 / r)) ^ 2 = _
      field_simp
      rw [hrr]
      ring
    exact (pow_left_inj₀ (norm_nonneg _) (norm_nonneg _) two_ne_zero).mp this

/-- Revolving the half plane `x₁ > 0`. -/
example : ∃ F : ADF 3, (∀ z, revolution (fun y => y 1) 0 z = .ok (F z)) ∧ ∃ u, HasGrad F u !₂[1, 3, 4] ∧ ‖u‖ = 1 := by
  obtain ⟨F, h1, h2, h3⟩ := C128_revolution (fun y => y 1) (EuclideanSpace.single 1 1) !₂[1, 3, 4]
    (Real.sqrt_pos.mpr (by simp; norm_num)) (hasGrad_coord 1 _)
  exact ⟨F, h1, _, h2, h3.trans (by simp)⟩

/-! ## Composition -/

/-- C128. Rotations of the plane about a point add up. -/
theorem C128_rotate2d_add (f : ADF 2) (s t : ℝ) (o x : Fin 2 → ℝ) :
    rotate2d (rotate2d f (.float (fin s)) (vfin o)) (.float (fin t)) (vfin o) (vfin x) =
      rotate2d f (.float (fin (s + t))) (vfin o) (vfin x) := by
  rw [rotate2d_float, rotate2d_float, rotate2d_float, add_sub_cancel_right]
  congr 3
  funext i
  fin_cases i <;> simp [turn2, Real.sin_add, Real.cos_add] <;> ring

/-- C128. Rotations of space about an axis add up. -/
theorem C128_rotate3d_add (f : ADF 3) (s t : ℝ) (a : Fin 3 → ℝ) (ha : a ⬝ᵥ a = 1) (o : Fin 3 → ℝ) :
    ∃ F G H, rotate3d f (.scalar (fin s)) (some (vfin a)) (vfin o) = .ok F ∧
      rotate3d F (.scalar (fin t)) (some (vfin a)) (vfin o) = .ok G ∧
      rotate3d f (.scalar (fin (s + t))) (some (vfin a)) (vfin o) = .ok H ∧ ∀ x : Fin 3 → ℝ, G (vfin x) = H (vfin x) := by
  obtain ⟨F, h1, h2⟩ := rotate3d_axis f s ha o
  obtain ⟨G, h3, h4⟩ := rotate3d_axis F t ha o
  obtain ⟨H, h5, h6⟩ := rotate3d_axis f (s + t) ha o
  refine ⟨F, G, H, h1, h3, h5, fun x => ?_⟩
  rw [h4, h2, h6, add_sub_cancel_right]
  congr 3
  have ha' : a 0 * a 0 + a 1 * a 1 + a 2 * a 2 = 1 := by
    simpa [dotProduct, Fin.sum_univ_three] using ha
  generalize x - o = y
  funext i
  fin_cases i
  · show rodrigues a s (rodrigues a t y) 0 = rodrigues a (s + t) y 0
    simp only [rodrigues_zero, rodrigues_one, rodrigues_two, Real.sin_add, Real.cos_add]
    linear_combination (a 0 * (a 0 * y 0 + a 1 * y 1 + a 2 * y 2) * (1 - Real.cos s) * (1 - Real.cos t) - Real.sin s * Real.sin t * y 0) * ha'
  · show rodrigues a s (rodrigues a t y) 1 = rodrigues a (s + t) y 1
    simp only [rodrigues_zero, rodrigues_one, rodrigues_two, Real.sin_add, Real.cos_add]
    linear_combination (a 1 * (a 0 * y 0 + a 1 * y 1 + a 2 * y 2) * (1 - Real.cos s) * (1 - Real.cos t) - Real.sin s * Real.sin t * y 1) * ha'
  · show rodrigues a s (rodrigues a t y) 2 = rodrigues a (s + t) y 2
    simp only [rodrigues_zero, rodrigues_one, rodrigues_two, Real.sin_add, Real.cos_add]
    linear_combination (a 2 * (a 0 * y 0 + a 1 * y 1 + a 2 * y 2) * (1 - Real.cos s) * (1 - Real.cos t) - Real.sin s * Real.sin t * y 2) * ha'

example (f : ADF 3) : ∃ F G H, rotate3d f (.scalar (fin 1)) (some (vfin ![0, 3 / 5, 4 / 5])) (vfin ![1, 0, 0]) = .ok F ∧
    rotate3d F (.scalar (fin 2)) (some (vfin ![0, 3 / 5, 4 / 5])) (vfin ![1, 0, 0]) = .ok G ∧
    rotate3d f (.scalar (fin (1 + 2))) (some (vfin ![0, 3 / 5, 4 / 5])) (vfin ![1, 0, 0]) = .ok H ∧
    ∀ x : Fin 3 → ℝ, G (vfin x) = H (vfin x) :=
  C128_rotate3d_add f 1 2 ![0, 3 / 5, 4 / 5] (by simp; norm_num) ![1, 0, 0]

/-- C128. Reflecting in a line with normal angle `a`, then in one with normal angle `b`, is rotating by `2 (b - a)`. -/
theorem C128_reflect_reflect (f : ADF 2) (a b : ℝ) (o x : Fin 2 → ℝ) :
    reflect (reflect f (vfin ![Real.cos a, Real.sin a]) (vfin o)) (vfin ![Real.cos b, Real.sin b]) (vfin o) (vfin x) =
      rotate2d f (.float (fin (2 * (b - a)))) (vfin o) (vfin x) := by
  have hn : ∀ a : ℝ, (![Real.cos a, Real.sin a] : Fin 2 → ℝ) ⬝ᵥ ![Real.cos a, Real.sin a] = 1 := fun a => by
    have := Real.cos_sq_add_sin_sq a
    simp only [dotProduct, Fin.sum_univ_two]
    show Real.cos a * Real.cos a + Real.sin a * Real.sin a = 1
    linarith
  have h0 : ∀ a : ℝ, (![Real.cos a, Real.sin a] : Fin 2 → ℝ) ≠ 0 := fun a h => by
    have := hn a
    rw [h] at this
    simp at this
  rw [reflect_fin _ (h0 b), reflect_fin _ (h0 a), rotate2d_float, hn, hn, div_one, div_one]
  congr 2
  have ha := Real.cos_sq_add_sin_sq a
  have hb := Real.cos_sq_add_sin_sq b
  have hc : Real.cos (2 * (b - a)) = 2 * (Real.cos b * Real.cos a + Real.sin b * Real.sin a) ^ 2 - 1 := by
    rw [Real.cos_two_mul, Real.cos_sub]
  have hs : Real.sin (2 * (b - a)) = 2 * (Real.sin b * Real.cos a - Real.cos b * Real.sin a) *
      (Real.cos b * Real.cos a + Real.sin b * Real.sin a) := by
    rw [Real.sin_two_mul, Real.cos_sub, Real.sin_sub]
  have hdot : ∀ (y : Fin 2 → ℝ) (p q : ℝ), y ⬝ᵥ ![p, q] = y 0 * p + y 1 * q := fun y p q => by
    simp [dotProduct, Fin.sum_univ_two]
  simp only [hdot]
  generalize Real.cos a = p at *
  generalize Real.sin a = q at *
  generalize Real.cos b = P at *
  generalize Real.sin b = Q at *
  funext i
  fin_cases i
  · show x 0 - 2 * ((x 0 - o 0) * P + (x 1 - o 1) * Q) * P -
      2 * ((x 0 - 2 * ((x 0 - o 0) * P + (x 1 - o 1) * Q) * P - o 0) * p +
        (x 1 - 2 * ((x 0 - o 0) * P + (x 1 - o 1) * Q) * Q - o 1) * q) * p =
      Real.cos (-(2 * (b - a))) * (x 0 - o 0) - Real.sin (-(2 * (b - a))) * (x 1 - o 1) + o 0
    rw [Real.cos_neg, Real.sin_neg, hc, hs]
    linear_combination ((x 0 - o 0) * (-2 * Q ^ 2) + (x 1 - o 1) * (2 * P * Q)) * ha +
      ((x 0 - o 0) * (-2 * (1 - p ^ 2)) + (x 1 - o 1) * (2 * p * q)) * hb
  · show x 1 - 2 * ((x 0 - o 0) * P + (x 1 - o 1) * Q) * Q -
      2 * ((x 0 - 2 * ((x 0 - o 0) * P + (x 1 - o 1) * Q) * P - o 0) * p +
        (x 1 - 2 * ((x 0 - o 0) * P + (x 1 - o 1) * Q) * Q - o 1) * q) * q =
      Real.sin (-(2 * (b - a))) * (x 0 - o 0) + Real.cos (-(2 * (b - a))) * (x 1 - o 1) + o 1
    rw [Real.cos_neg, Real.sin_neg, hc, hs]
    linear_combination ((x 1 - o 1) * (-2 * P ^ 2) + (x 0 - o 0) * (2 * P * Q)) * ha +
      ((x 1 - o 1) * (-2 * (1 - q ^ 2)) + (x 0 - o 0) * (2 * p * q)) * hb

/-! ## Shapes -/

/-- C128. Revolving a disk gives the ball of the same radius, and projecting a ball along the third axis gives the cylinder. -/
theorem C128_shapes (r : ℝ) (x : Fin 3 → ℝ) :
    revolution (sphere (fin r)) 0 (vfin x) = .ok (sphere (fin r) (vfin x)) ∧
    revolution (sphere (fin r)) 1 (vfin x) = .ok (sphere (fin r) (vfin x)) ∧
    project (sphere (fin r)) (vfin ez) (vfin 0) (vfin x) = cylinder (n := 1) (fin r) (vfin x) := by
  have hs2 : ∀ y : Fin 2 → ℝ, sphere (fin r) (vfin y) = (fin r ^ 2 - fin (y 0 ^ 2 + y 1 ^ 2)) / (2 * fin r) := fun y => by
    rw [sphere, vnorm_sq_fin]
    simp [dotProduct, Fin.sum_univ_two, sq]
  have hs3 : ∀ y : Fin 3 → ℝ, sphere (fin r) (vfin y) = (fin r ^ 2 - fin (y 0 ^ 2 + y 1 ^ 2 + y 2 ^ 2)) / (2 * fin r) := fun y => by
    rw [sphere, vnorm_sq_fin]
    simp [dotProduct, Fin.sum_univ_three, sq]
  refine ⟨?_, ?_, ?_⟩
  · rw [hs3]
    have h : (![vfin x 0, sqrt (vfin x 1 ^ 2 + vfin x 2 ^ 2)] : Vec 2) = vfin ![x 0, Real.sqrt (x 1 ^ 2 + x 2 ^ 2)] := by
      funext i
      fin_cases i
      · rfl
      · show sqrt (fin (x 1) ^ 2 + fin (x 2) ^ 2) = fin _
        rw [fin_npow, fin_npow, fin_add, fin_sqrt (by positivity)]
        rfl
    rw [revolution, if_pos rfl, h, hs2]
    show Except.ok ((fin r ^ 2 - fin (x 0 ^ 2 + Real.sqrt (x 1 ^ 2 + x 2 ^ 2) ^ 2)) / (2 * fin r)) = _
    rw [Real.sq_sqrt (by positivity), add_assoc]
  · rw [hs3]
    have h : (![sqrt (vfin x 0 ^ 2 + vfin x 2 ^ 2), vfin x 1] : Vec 2) = vfin ![Real.sqrt (x 0 ^ 2 + x 2 ^ 2), x 1] := by
      funext i
      fin_cases i
      · show sqrt (fin (x 0) ^ 2 + fin (x 2) ^ 2) = fin _
        rw [fin_npow, fin_npow, fin_add, fin_sqrt (by positivity)]
        rfl
      · rfl
    rw [revolution, if_neg one_ne_zero, if_pos rfl, h, hs2]
    show Except.ok ((fin r ^ 2 - fin (Real.sqrt (x 0 ^ 2 + x 2 ^ 2) ^ 2 + x 1 ^ 2)) / (2 * fin r)) = _
    rw [Real.sq_sqrt (by positivity), add_right_comm]
  · have h0 : ez ≠ 0 := fun h => by simpa [ez] using congrFun h 2
    rw [project_fin _ h0, hs3]
    have h1 : (fun i => vfin x (Fin.castLE (by omega) i) : Vec 2) = vfin ![x 0, x 1] := by
      funext i
      fin_cases i <;> rfl
    rw [cylinder, h1, hs2]
    simp [ez, dotProduct, Fin.sum_univ_three]

/-! ## Scaling -/

theorem scaleBy_val {n : ℕ} (f : ADF n) {s : ℝ} (hs : s ≠ 0) (x : Fin n → ℝ) {a : ℝ} (h : f (vfin (s⁻¹ • x)) = fin a) :
    scaleBy f (fin s) (vfin x) = fin (a * s) := by
  rw [scaleBy_fin f hs, h, fin_mul]

/-- C128. For the R-alpha and R-p systems scaling a combined solid by `s > 0` is combining the scaled solids; for `s < 0`
conjunction and disjunction change places. -/
theorem C128_scale {n : ℕ} (f g : ADF n) (α s : ℝ) (h1 : -1 < α) (h2 : α ≤ 1) (p : ℕ) (hp : p % 2 = 0) (hp0 : p ≠ 0) (x : Fin n → ℝ)
    (a b : ℝ) (ha : f (vfin (s⁻¹ • x)) = fin a) (hb : g (vfin (s⁻¹ • x)) = fin b) :
    (0 < s →
      scaleBy ((RAlpha.sys α).intersection f g) (fin s) (vfin x) =
        (RAlpha.sys α).intersection (scaleBy f (fin s)) (scaleBy g (fin s)) (vfin x) ∧
      scaleBy ((RAlpha.sys α).union f g) (fin s) (vfin x) =
        (RAlpha.sys α).union (scaleBy f (fin s)) (scaleBy g (fin s)) (vfin x) ∧
      scaleBy ((RP.sys p).intersection f g) (fin s) (vfin x) =
        (RP.sys p).intersection (scaleBy f (fin s)) (scaleBy g (fin s)) (vfin x) ∧
      scaleBy ((RP.sys p).union f g) (fin s) (vfin x) =
        (RP.sys p).union (scaleBy f (fin s)) (scaleBy g (fin s)) (vfin x)) ∧
    (s < 0 →
      scaleBy ((RAlpha.sys α).intersection f g) (fin s) (vfin x) =
        (RAlpha.sys α).union (scaleBy f (fin s)) (scaleBy g (fin s)) (vfin x) ∧
      scaleBy ((RAlpha.sys α).union f g) (fin s) (vfin x) =
        (RAlpha.sys α).intersection (scaleBy f (fin s)) (scaleBy g (fin s)) (vfin x) ∧
      scaleBy ((RP.sys p).intersection f g) (fin s) (vfin x) =
        (RP.sys p).union (scaleBy f (fin s)) (scaleBy g (fin s)) (vfin x) ∧
      scaleBy ((RP.sys p).union f g) (fin s) (vfin x) =
        (RP.sys p).intersection (scaleBy f (fin s)) (scaleBy g (fin s)) (vfin x)) := by
  have hsqrt : ∀ s a b : ℝ, Real.sqrt ((a * s) ^ 2 + (b * s) ^ 2 - 2 * α * (a * s) * (b * s)) =
      |s| * Real.sqrt (a ^ 2 + b ^ 2 - 2 * α * a * b) := fun s a b => by
    rw [show (a * s) ^ 2 + (b * s) ^ 2 - 2 * α * (a * s) * (b * s) = s ^ 2 * (a ^ 2 + b ^ 2 - 2 * α * a * b) by ring,
      Real.sqrt_mul (sq_nonneg s), Real.sqrt_sq_eq_abs]
  have hroot : ∀ s a b : ℝ, pRoot p (a * s) (b * s) = |s| * pRoot p a b := fun s a b => by
    have he : Even p := Nat.even_iff.mpr hp
    rw [pRoot, pRoot, mul_pow, mul_pow, ← add_mul, ← he.pow_abs s, Real.mul_rpow (add_nonneg (he.pow_nonneg a) (he.pow_nonneg b))
      (pow_nonneg (abs_nonneg s) p), mul_comm, one_div, Real.pow_rpow_inv_natCast (abs_nonneg s) hp0]
  have hC : (RAlpha.sys α).intersection f g (vfin (s⁻¹ • x)) = _ :=
    (congrArg₂ (RAlpha.conj α) ha hb).trans (RAlpha.conj_fin h1 h2 a b)
  have hD : (RAlpha.sys α).union f g (vfin (s⁻¹ • x)) = _ :=
    (congrArg₂ (RAlpha.disj α) ha hb).trans (RAlpha.disj_fin h1 h2 a b)
  have hE : (RP.sys p).intersection f g (vfin (s⁻¹ • x)) = _ := (congrArg₂ (RP.conj p) ha hb).trans (RP.conj_fin hp a b)
  have hF : (RP.sys p).union f g (vfin (s⁻¹ • x)) = _ := (congrArg₂ (RP.disj p) ha hb).trans (RP.disj_fin hp a b)
  have key : ∀ hs : s ≠ 0,
      (RAlpha.sys α).intersection (scaleBy f (fin s)) (scaleBy g (fin s)) (vfin x) =
        fin (1 / (1 + α) * (a * s + b * s - |s| * Real.sqrt (a ^ 2 + b ^ 2 - 2 * α * a * b))) ∧
      (RAlpha.sys α).union (scaleBy f (fin s)) (scaleBy g (fin s)) (vfin x) =
        fin (1 / (1 + α) * (a * s + b * s + |s| * Real.sqrt (a ^ 2 + b ^ 2 - 2 * α * a * b))) ∧
      (RP.sys p).intersection (scaleBy f (fin s)) (scaleBy g (fin s)) (vfin x) = fin (a * s + b * s - |s| * pRoot p a b) ∧
      (RP.sys p).union (scaleBy f (fin s)) (scaleBy g (fin s)) (vfin x) = fin (a * s + b * s + |s| * pRoot p a b) := fun hs => by
    have e1 := scaleBy_val f hs x ha
    have e2 := scaleBy_val g hs x hb
    refine ⟨?_, ?_, ?_, ?_⟩
    · rw [← hsqrt, ← RAlpha.conj_fin h1 h2, ← e1, ← e2]; rfl
    · rw [← hsqrt, ← RAlpha.disj_fin h1 h2, ← e1, ← e2]; rfl
    · rw [← hroot, ← RP.conj_fin hp, ← e1, ← e2]; rfl
    · rw [← hroot, ← RP.disj_fin hp, ← e1, ← e2]; rfl
  constructor
  · intro hs
    obtain ⟨k1, k2, k3, k4⟩ := key hs.ne'
    rw [abs_of_pos hs] at k1 k2 k3 k4
    rw [k1, k2, k3, k4, scaleBy_val _ hs.ne' x hC, scaleBy_val _ hs.ne' x hD, scaleBy_val _ hs.ne' x hE, scaleBy_val _ hs.ne' x hF]
    refine ⟨?_, ?_, ?_, ?_⟩ <;> rw [fin_inj] <;> ring
  · intro hs
    obtain ⟨k1, k2, k3, k4⟩ := key hs.ne
    rw [abs_of_neg hs] at k1 k2 k3 k4
    rw [k1, k2, k3, k4, scaleBy_val _ hs.ne x hC, scaleBy_val _ hs.ne x hD, scaleBy_val _ hs.ne x hE, scaleBy_val _ hs.ne x hF]
    refine ⟨?_, ?_, ?_, ?_⟩ <;> rw [fin_inj] <;> ring

/-- Two half planes scaled by `-2`. -/
example : scaleBy ((RAlpha.sys 0).intersection (fun y : Vec 2 => y 0) fun y => y 1) (fin (-2)) (vfin ![1, 3]) =
    (RAlpha.sys 0).union (scaleBy (fun y : Vec 2 => y 0) (fin (-2))) (scaleBy (fun y => y 1) (fin (-2))) (vfin ![1, 3]) :=
  ((C128_scale (fun y : Vec 2 => y 0) (fun y => y 1) 0 (-2) (by norm_num) (by norm_num) 2 rfl two_ne_zero ![1, 3] _ _ rfl rfl).2
    (by norm_num)).1

end Verif
