import Verif.Model.Mumag3
import Verif.Spec.Box
import Verif.Props.Surface
import Verif.Props.Cuboid
import Verif.Props.Transforms

/-! # The cuboid of `mumag3.py` (C94 - C99) -/

namespace Verif

open XR

/-! ## Construction -/

theorem pyIndex_zero {l : List ℝ} (h : 0 < l.length) : pyIndex l 0 = .ok (l.headD 0) := by
  cases l with
  | nil => simp at h
  | cons a l => simp [pyIndex]

theorem pyIndex_neg_one {l : List ℝ} (h : 0 < l.length) : pyIndex l (-1) = .ok (l.getLastD 0) := by
  have hne : l ≠ [] := List.ne_nil_of_length_pos h
  have e : ((-1 : ℤ) + l.length).toNat = l.length - 1 := by omega
  have h1 : l[l.length - 1]? = some (l.getLastD 0) := by
    rw [← List.getLast?_eq_getElem?, List.getLast?_eq_some_getLast hne, List.getLastD_eq_getLast?,
      List.getLast?_eq_some_getLast hne]
    rfl
  simp only [pyIndex]
  rw [if_pos (show (-1 : ℤ) < 0 by norm_num), if_pos (by omega), e, h1]

/-- The grids of the three axes. -/
abbrev grids (xs ys zs : List ℝ) : Fin 3 → List ℝ := ![xs, ys, zs]

theorem validate_ok {l : List ℝ} (h : IsGrid l) : Cuboid.validate l = .ok () := by
  rw [Cuboid.validate, if_neg (by have := h.1; omega), if_neg (by rw [h.2.insertionSort_eq]; simp)]
  rfl

theorem validate_error {l : List ℝ} (h : ¬ IsGrid l) : Cuboid.validate l = .error .assertion := by
  rw [Cuboid.validate]
  by_cases h1 : 1 < l.length
  · rw [if_neg (by omega), if_pos (fun e => h ⟨h1, by
      rw [← e]; exact List.pairwise_insertionSort _ _⟩)]
    rfl
  · rw [if_pos h1]
    rfl

/-- The sides as listed by the code. -/
noncomputable def sides (xs ys zs : List ℝ) : List Face :=
  let G := grids xs ys zs
  [faces_.face 0 1 2 xs ys (gridLo G 2), faces_.face 0 1 2 xs ys (gridHi G 2), faces_.face 0 2 1 xs zs (gridLo G 1),
    faces_.face 0 2 1 xs zs (gridHi G 1), faces_.face 1 2 0 ys zs (gridLo G 0), faces_.face 1 2 0 ys zs (gridHi G 0)]

theorem init_ok {xs ys zs : List ℝ} (hx : IsGrid xs) (hy : IsGrid ys) (hz : IsGrid zs) :
    Cuboid.init xs ys zs = .ok ⟨xs, ys, zs, ⟨vfin (gridLo (grids xs ys zs)), vfin (gridHi (grids xs ys zs))⟩,
      sides xs ys zs⟩ := by
  have px : 0 < xs.length := by have := hx.1; omega
  have py : 0 < ys.length := by have := hy.1; omega
  have pz : 0 < zs.length := by have := hz.1; omega
  have hf : faces_ xs ys zs = .ok (sides xs ys zs) := by
    rw [faces_, pyIndex_zero pz, pyIndex_neg_one pz, pyIndex_zero py, pyIndex_neg_one py, pyIndex_zero px, pyIndex_neg_one px]
    rfl
  rw [Cuboid.init, validate_ok hx, validate_ok hy, validate_ok hz, hf, pyIndex_zero pz, pyIndex_neg_one pz, pyIndex_zero py,
    pyIndex_neg_one py, pyIndex_zero px, pyIndex_neg_one px]
  change Except.ok _ = Except.ok _
  congr 3 <;>
  · funext i
    fin_cases i <;> rfl

/-- A cuboid can be made exactly from three grids; anything else is rejected by the assertions. Its corners are the first
and the last entries of the grids. -/
theorem C94_construct (xs ys zs : List ℝ) :
    (IsGrid xs ∧ IsGrid ys ∧ IsGrid zs → ∃ D, Cuboid.init xs ys zs = .ok D ∧
      D.dom.lb = vfin (gridLo ![xs, ys, zs]) ∧ D.dom.ub = vfin (gridHi ![xs, ys, zs])) ∧
    (¬ (IsGrid xs ∧ IsGrid ys ∧ IsGrid zs) → Cuboid.init xs ys zs = .error .assertion) := by
  constructor
  · rintro ⟨hx, hy, hz⟩
    exact ⟨_, init_ok hx hy hz, rfl, rfl⟩
  · intro h
    rw [Cuboid.init]
    by_cases hx : IsGrid xs
    · by_cases hy : IsGrid ys
      · have hz : ¬ IsGrid zs := fun hz => h ⟨hx, hy, hz⟩
        rw [validate_ok hx, validate_ok hy, validate_error hz]
        rfl
      · rw [validate_ok hx, validate_error hy]
        rfl
    · rw [validate_error hx]
      rfl

/-- Non-vacuity: accepted and rejected grids. -/
example : IsGrid [0, 1, 3] ∧ ¬ IsGrid [0, 2, 1] ∧ ¬ IsGrid [5] := by
  refine ⟨⟨by simp, by simp⟩, fun h => ?_, fun h => ?_⟩
  · have := h.2
    simp at this
  · have := h.1
    simp at this

theorem init_inv {xs ys zs : List ℝ} {D : Cuboid} (hD : Cuboid.init xs ys zs = .ok D) :
    IsGrid xs ∧ IsGrid ys ∧ IsGrid zs ∧ D = ⟨xs, ys, zs, ⟨vfin (gridLo (grids xs ys zs)), vfin (gridHi (grids xs ys zs))⟩,
      sides xs ys zs⟩ := by
  have h : IsGrid xs ∧ IsGrid ys ∧ IsGrid zs := by
    by_contra h
    rw [(C94_construct xs ys zs).2 h] at hD
    cases hD
  refine ⟨h.1, h.2.1, h.2.2, ?_⟩
  rw [init_ok h.1 h.2.1 h.2.2] at hD
  exact (Except.ok.inj hD).symm

/-! ## Normalisation -/

theorem normalize_fin (D : Cuboid) (lo hi : Fin 3 → ℝ) (h1 : D.dom.lb = vfin lo) (h2 : D.dom.ub = vfin hi)
    (h : ∀ i, lo i < hi i) (x : Fin 3 → ℝ) :
    D.normalize (vfin x) = vfin fun i => 2 * (x i - lo i) / (hi i - lo i) - 1 := by
  funext i
  have : hi i - lo i ≠ 0 := sub_ne_zero.mpr (h i).ne'
  simp only [Cuboid.normalize, h1, h2, vfin]
  rw [show (2 : XR) = fin 2 from rfl, one_eq, fin_sub, fin_sub, fin_mul, fin_div _ this, fin_sub]

/-- `normalize` maps the cuboid one-to-one onto the cube `[-1, 1]³`, its boundary onto the boundary, and keeps the orientation of
every axis. -/
theorem C94_normalize (xs ys zs : List ℝ) (D : Cuboid) (hD : Cuboid.init xs ys zs = .ok D)
    (h : ∀ i, gridLo ![xs, ys, zs] i < gridHi ![xs, ys, zs] i) :
    ∃ φ : (Fin 3 → ℝ) → Fin 3 → ℝ, (∀ x, D.normalize (vfin x) = vfin (φ x)) ∧
      Set.BijOn φ (Set.Icc (gridLo ![xs, ys, zs]) (gridHi ![xs, ys, zs])) (Set.Icc (fun _ => -1) fun _ => 1) ∧
      φ (gridLo ![xs, ys, zs]) = (fun _ => -1) ∧ φ (gridHi ![xs, ys, zs]) = (fun _ => 1) ∧
      (∀ i, ∃ a > 0, ∃ b, ∀ x, φ x i = a * x i + b) := by
  obtain ⟨-, -, -, rfl⟩ := init_inv hD
  set lo := gridLo ![xs, ys, zs]
  set hi := gridHi ![xs, ys, zs]
  have hs : ∀ i, 0 < hi i - lo i := fun i => sub_pos.mpr (h i)
  refine ⟨fun x i => 2 * (x i - lo i) / (hi i - lo i) - 1, normalize_fin _ lo hi rfl rfl h, ⟨?_, ?_, ?_⟩, ?_, ?_, ?_⟩
  · rintro x ⟨h1, h2⟩
    constructor
    · intro i
      have : 0 ≤ 2 * (x i - lo i) / (hi i - lo i) := div_nonneg (by linarith [h1 i]) (hs i).le
      show (-1 : ℝ) ≤ _
      linarith
    · intro i
      have : 2 * (x i - lo i) / (hi i - lo i) ≤ 2 := by rw [div_le_iff₀ (hs i)]; linarith [h2 i]
      show _ ≤ (1 : ℝ)
      linarith
  · intro x _ y _ hxy
    funext i
    have h1 := congrFun hxy i
    have h2 := hs i
    simp only at h1
    have h3 : 2 * (x i - lo i) / (hi i - lo i) = 2 * (y i - lo i) / (hi i - lo i) := by linarith
    rw [div_left_inj' h2.ne'] at h3
    linarith
  · rintro y ⟨h1, h2⟩
    refine ⟨fun i => lo i + (y i + 1) / 2 * (hi i - lo i), ⟨fun i => ?_, fun i => ?_⟩, ?_⟩
    · have := h1 i
      have h3 := mul_nonneg (by linarith : 0 ≤ (y i + 1) / 2) (hs i).le
      show lo i ≤ _
      linarith
    · have := h2 i
      have h3 := mul_nonneg (by linarith : 0 ≤ 1 - (y i + 1) / 2) (hs i).le
      show _ ≤ hi i
      linarith
    · funext i
      have := (hs i).ne'
      simp only
      field_simp
      ring
  · funext i
    simp
  · funext i
    have := (hs i).ne'
    field_simp
    norm_num
  · intro i
    refine ⟨2 / (hi i - lo i), div_pos two_pos (hs i), -(2 * lo i) / (hi i - lo i) - 1, fun x => ?_⟩
    have := (hs i).ne'
    field_simp
    ring

/-- Grids with two equal entries are accepted, but the cuboid has no normalised coordinates then: they are `nan` or infinite
everywhere. -/
theorem C94_degenerate : ∃ D, Cuboid.init [0, 0] [0, 1] [0, 1] = .ok D ∧
    ∀ (x : Fin 3 → ℝ), ∀ r : ℝ, D.normalize (vfin x) 0 ≠ fin r := by
  have h0 : IsGrid [0, 0] := ⟨by simp, by simp⟩
  have h1 : IsGrid [0, 1] := ⟨by simp, by simp⟩
  refine ⟨_, init_ok h0 h1 h1, fun x r => ?_⟩
  have e : gridLo (grids [0, 0] [0, 1] [0, 1]) 0 = 0 := rfl
  have e' : gridHi (grids [0, 0] [0, 1] [0, 1]) 0 = 0 := rfl
  simp only [Cuboid.normalize, vfin, e, e']
  rw [show (2 : XR) = fin 2 from rfl, one_eq, fin_sub, fin_sub, fin_mul, sub_self, fin_div_zero,
    infSign]
  split_ifs
  · exact fun h => by cases h
  · exact fun h => by cases h
  · simp

/-! ## The approximate distance function -/

/-- The ADF classifies the points. -/
theorem C94_adf (xs ys zs : List ℝ) (D : Cuboid) (hD : Cuboid.init xs ys zs = .ok D) (x : Fin 3 → ℝ) :
    ∃ c : ℝ, D.adf (vfin x) = fin c ∧
      (0 < c ↔ x ∈ interior (Set.Icc (gridLo ![xs, ys, zs]) (gridHi ![xs, ys, zs]))) ∧
      (c = 0 ↔ x ∈ frontier (Set.Icc (gridLo ![xs, ys, zs]) (gridHi ![xs, ys, zs]))) ∧
      (c < 0 ↔ x ∉ Set.Icc (gridLo ![xs, ys, zs]) (gridHi ![xs, ys, zs])) := by
  obtain ⟨-, -, -, rfl⟩ := init_inv hD
  set lo := gridLo ![xs, ys, zs] with hlo
  set hi := gridHi ![xs, ys, zs] with hhi
  have hside : (fun i => vfin hi i - vfin lo i) = vfin (hi - lo) := by
    funext i
    simp [vfin]
  obtain ⟨⟨c, h1, h2, h3, h4⟩, -⟩ := C10_cuboid_classifies (by norm_num : 0 < 3) (RAlpha.sys 0)
    ((C01_ralpha_sign_law 0).1 _ (by simp [RAlpha])) (hi - lo) false (x - lo)
  have e : Set.Icc lo hi = (fun y => y - lo) ⁻¹' Set.Icc (boxLo (hi - lo) false) (boxHi (hi - lo) false) := by
    ext y
    simp only [Set.mem_preimage, Set.mem_Icc, Pi.le_def, boxLo, boxHi, Pi.sub_apply]
    simp
  let T : (Fin 3 → ℝ) ≃ₜ (Fin 3 → ℝ) := Homeomorph.subRight lo
  have hT : (fun y : Fin 3 → ℝ => y - lo) = T := rfl
  refine ⟨c, ?_, ?_, ?_, ?_⟩
  · rw [← h1]
    simp only [Cuboid.adf]
    rw [hside, translate_fin]
  · rw [h2, e, hT, ← T.preimage_interior]
    rfl
  · rw [h3, e, hT, ← T.preimage_frontier]
    rfl
  · rw [h4, e]
    rfl

example : ∃ D, Cuboid.init [0, 1] [0, 2, 3] [-1, 1] = .ok D ∧
    (∃ φ : (Fin 3 → ℝ) → Fin 3 → ℝ, (∀ x, D.normalize (vfin x) = vfin (φ x)) ∧
      φ (gridLo ![[0, 1], [0, 2, 3], [-1, 1]]) = (fun _ => -1) ∧ φ (gridHi ![[0, 1], [0, 2, 3], [-1, 1]]) = fun _ => 1) ∧
    ∃ c < 0, D.adf (vfin ![0, 4, 0]) = fin c := by
  have h : ∀ i, gridLo ![[0, 1], [0, 2, 3], [-1, 1]] i < gridHi ![[0, 1], [0, 2, 3], [-1, 1]] i := by
    intro i
    fin_cases i <;> simp [gridLo, gridHi]
  have hD := init_ok (xs := [0, 1]) (ys := [0, 2, 3]) (zs := [-1, 1]) ⟨by simp, by simp⟩ ⟨by simp, by simp; norm_num⟩
    ⟨by simp, by simp⟩
  obtain ⟨φ, h1, -, h2, h3, -⟩ := C94_normalize _ _ _ _ hD h
  obtain ⟨c, h4, -, -, h5⟩ := C94_adf _ _ _ _ hD ![0, 4, 0]
  refine ⟨_, hD, ⟨φ, h1, h2, h3⟩, c, h5.mpr fun hm => ?_, h4⟩
  have := hm.2 1
  simp [gridHi] at this
  norm_num at this

/-- The gradient of the ADF on the open sides. -/
theorem adf_hasGradientAt (xs ys zs : List ℝ) (D : Cuboid) (hD : Cuboid.init xs ys zs = .ok D) (x : Pt 3) (k : Fin 3)
    (upper : Bool) (hk : x k = if upper then gridHi ![xs, ys, zs] k else gridLo ![xs, ys, zs] k)
    (hlt : ∀ i, gridLo ![xs, ys, zs] i < gridHi ![xs, ys, zs] i)
    (hx : ∀ i ≠ k, gridLo ![xs, ys, zs] i < x i ∧ x i < gridHi ![xs, ys, zs] i) :
    HasGradientAt D.adfReal (EuclideanSpace.single k (if upper then (-1 : ℝ) else 1)) x := by
  have hg : HasGrad D.adf (EuclideanSpace.single k (if upper then (-1 : ℝ) else 1)) x := by
    obtain ⟨-, -, -, rfl⟩ := init_inv hD
    set lo := gridLo ![xs, ys, zs] with hlo
    set hi := gridHi ![xs, ys, zs] with hhi
    have hside : (fun i => vfin hi i - vfin lo i) = vfin (hi - lo) := by
      funext i
      simp [vfin]
    have h1 := C11_cuboid_face_gradient (RAlpha.sys 0) (.ralpha 0 _ (by simp [RAlpha])) (hi - lo) false
      (x - WithLp.toLp 2 lo) k upper (by
        cases upper
        · simp only [Bool.false_eq_true, if_false] at hk ⊢
          simp only [boxLo, boxHi, PiLp.sub_apply, Pi.sub_apply, hk]
          simpa using hlt k
        · simp only [if_true] at hk ⊢
          simp only [boxLo, boxHi, PiLp.sub_apply, Pi.sub_apply, hk]
          simpa using hlt k) (by
        intro j hj
        have := hx j hj
        simp only [boxLo, boxHi, PiLp.sub_apply, Pi.sub_apply]
        simp
        exact this)
    have h2 := (C15_translate _).2.2 _ _ (WithLp.toLp 2 lo) h1
    rw [sub_add_cancel] at h2
    simp only [Cuboid.adf]
    rw [hside]
    exact h2
  obtain ⟨f, hf, hgrad⟩ := hg
  have hev : D.adfReal =ᶠ[nhds x] f := by
    filter_upwards [hf] with y hy
    rw [Cuboid.adfReal, hy]
    rfl
  exact hgrad.congr_of_eventuallyEq hev

/-- On the open sides `normal_vec` is the outward unit normal. -/
theorem C94_normal_vec (xs ys zs : List ℝ) (D : Cuboid) (hD : Cuboid.init xs ys zs = .ok D) (x : Pt 3) (k : Fin 3)
    (upper : Bool) (hk : x k = if upper then gridHi ![xs, ys, zs] k else gridLo ![xs, ys, zs] k)
    (hlt : ∀ i, gridLo ![xs, ys, zs] i < gridHi ![xs, ys, zs] i)
    (hx : ∀ i ≠ k, gridLo ![xs, ys, zs] i < x i ∧ x i < gridHi ![xs, ys, zs] i) :
    D.normalVec x = EuclideanSpace.single k (if upper then (1 : ℝ) else -1) := by
  have h3 := adf_hasGradientAt xs ys zs D hD x k upper hk hlt hx
  rw [Cuboid.normalVec, jacVec_eq_gradient h3.differentiableAt, h3.gradient]
  ext i
  cases upper <;> by_cases hi : i = k <;> simp [hi]

/-- Non-vacuity: a cuboid with its two corners and a point of the interior of a side. -/
example : ∃ D, Cuboid.init [0, 1] [0, 2, 3] [-1, 1] = .ok D ∧
    (∀ i, gridLo ![[0, 1], [0, 2, 3], [-1, 1]] i < gridHi ![[0, 1], [0, 2, 3], [-1, 1]] i) ∧
    D.normalVec (WithLp.toLp 2 ![0, 1, 0]) = EuclideanSpace.single 0 (-1) := by
  have h : ∀ i, gridLo ![[0, 1], [0, 2, 3], [-1, 1]] i < gridHi ![[0, 1], [0, 2, 3], [-1, 1]] i := by
    intro i
    fin_cases i <;> simp [gridLo, gridHi]
  have hD := init_ok (xs := [0, 1]) (ys := [0, 2, 3]) (zs := [-1, 1]) ⟨by simp, by simp⟩ ⟨by simp, by simp; norm_num⟩
    ⟨by simp, by simp⟩
  refine ⟨_, hD, h, ?_⟩
  rw [C94_normal_vec _ _ _ _ hD _ 0 false (by simp [gridLo]) h ?_]
  · simp
  · intro i hi
    fin_cases i
    · simp at hi
    · simp [gridLo, gridHi]
    · simp [gridLo, gridHi]

end Verif
