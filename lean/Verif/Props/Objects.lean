import Verif.Model.Objects
import Verif.Props.Round

/-! # Properties C119, C120: the constructors of the round domains and of quaternions -/

namespace Verif

open XR

theorem pyAssert_bind {α : Type} (c : Bool) (k : Except Err α) :
    (pyAssert c >>= fun _ => k) = if c then k else .error .assertion := by
  cases c <;> rfl

/-- The array of a real number. -/
def arrScalar (r : ℝ) : Arr := ⟨"float32", [], [fin r]⟩

/-- The array of a tuple of real numbers. -/
def arrVec {n : ℕ} (o : Fin n → ℝ) : Arr := ⟨"float32", [n], List.ofFn fun i => fin (o i)⟩

@[simp] theorem arrScalar_item (r : ℝ) : (arrScalar r).item = fin r := rfl

@[simp] theorem arrVec_vec {n : ℕ} (o : Fin n → ℝ) : (arrVec o).vec n = vfin o := by
  funext i
  simp [Arr.vec, arrVec, List.getD_eq_getElem?_getD]

/-! ## C119 -/

/-- **C119, constructor**. A quaternion is built exactly from a number and a triple of the same type. -/
theorem C119_constructor (a q : Arr) :
    QuatObj.init a q = if a.shape = [] ∧ q.shape = [3] ∧ a.dtype = q.dtype then .ok ⟨a, q⟩ else .error .assertion := by
  unfold QuatObj.init
  simp only [pyAssert_bind, beq_iff_eq]
  split_ifs with h1 h2 h3 h4 h4 h4 <;> simp_all <;> rfl

/-- An integer real part and a floating point imaginary part are rejected. -/
example : QuatObj.init ⟨"int32", [], [1]⟩ ⟨"float32", [3], [0, 0, 0]⟩ = .error .assertion := by
  rw [C119_constructor]; simp

/-- **C119, equality**. Quaternions of numbers are equal for `==` exactly if they are the same quaternion; a quaternion with a
component which is not a number is not equal to anything, not even to itself. -/
theorem C119_equality :
    (∀ (a b : ℝ) (u v : Fin 3 → ℝ), Quat.PyEq ⟨fin a, vfin u⟩ ⟨fin b, vfin v⟩ ↔ a = b ∧ u = v) ∧
    (∀ p q : Quat, Quat.PyEq p q → Quat.PyEq q p) ∧
    (∀ p q r : Quat, Quat.PyEq p q → Quat.PyEq q r → Quat.PyEq p r) ∧
    (∀ p : Quat, Quat.PyEq p p ↔ p.re ≠ nan ∧ ∀ i, p.im i ≠ nan) ∧
    (∀ p q : Quat, Quat.PyEq p q → p = q) := by
  have key : ∀ p q : Quat, Quat.PyEq p q → p = q := fun p q h => by
    ext i
    · exact h.1.2
    · exact (h.2 i).2
  refine ⟨fun a b u v => ?_, fun p q h => ?_, fun p q r h h' => ?_, fun p => ?_, key⟩
  · simp [Quat.PyEq, XR.PyEq, funext_iff]
  · rw [← key p q h]; rw [← key p q h] at h; exact h
  · rw [← key q r h']; exact h
  · simp [Quat.PyEq, XR.PyEq]

/-- Two different quaternions, and one which is not equal to itself. -/
example : ¬ Quat.PyEq ⟨fin 1, vfin ![0, 0, 0]⟩ ⟨fin 1, vfin ![0, 0, 1]⟩ ∧
    ¬ Quat.PyEq ⟨nan, vfin ![0, 0, 0]⟩ ⟨nan, vfin ![0, 0, 0]⟩ := by
  rw [C119_equality.1, C119_equality.2.2.2.1]
  simp

/-- **C119, pytree**. Rebuilding a quaternion from its flattened form gives the quaternion back. -/
theorem C119_roundtrip (a q : Arr) (p : QuatObj) (h : QuatObj.init a q = .ok p) :
    QuatObj.treeUnflatten p.treeFlatten = .ok p ∧ p.treeFlatten = (a, q) := by
  have h' := h
  rw [C119_constructor] at h
  split_ifs at h
  cases h
  exact ⟨h', rfl⟩

example : QuatObj.treeUnflatten (QuatObj.treeFlatten ⟨arrScalar 1, arrVec ![1, 2, 3]⟩) =
    .ok ⟨arrScalar 1, arrVec ![1, 2, 3]⟩ :=
  (C119_roundtrip (arrScalar 1) (arrVec ![1, 2, 3]) _ (by rw [C119_constructor, if_pos ⟨rfl, rfl, rfl⟩])).1

/-- **C119, batches**. Because the constructor insists on the shapes of a single quaternion, `vmap` of a function with
quaternion values always raises an exception, whatever the function and the size of the batch. -/
theorem C119_vmap {X : Type} (dtype : String) (f : X → QuatObj) (xs : List X) :
    QuatObj.vmap dtype f xs = .error .assertion := by
  unfold QuatObj.vmap QuatObj.treeUnflatten
  rw [C119_constructor, if_neg]
  simp [Arr.stack]

/-- The constant function on a batch of two. -/
example : QuatObj.vmap "float32" (fun _ : ℕ => ⟨arrScalar 1, arrVec ![1, 2, 3]⟩) [0, 1] = .error .assertion :=
  C119_vmap _ _ _

/-! ## C120 -/

/-- **C120, constructors**. `Sphere`, `Disk` and `Annulus` accept radii which are single numbers and any tuple as origin. -/
theorem C120_constructor :
    (∀ r o : Arr, SphericalObj.init r o =
      if r.shape = [] ∧ o.shape.length = 1 then .ok ⟨r, o⟩ else .error .assertion) ∧
    (∀ r1 r2 o : Arr, AnnulusObj.init r1 r2 o =
      if r1.shape = [] ∧ r2.shape = [] ∧ o.shape.length = 1 then .ok ⟨r1, r2, o⟩ else .error .assertion) := by
  refine ⟨fun r o => ?_, fun r1 r2 o => ?_⟩
  · unfold SphericalObj.init
    simp only [pyAssert_bind, beq_iff_eq, List.length_eq_zero_iff]
    split_ifs <;> simp_all <;> rfl
  · unfold AnnulusObj.init
    simp only [pyAssert_bind, beq_iff_eq, List.length_eq_zero_iff]
    split_ifs <;> simp_all <;> rfl

/-- An origin which is not a tuple. -/
example : SphericalObj.init (arrScalar 1) (arrScalar 0) = .error .assertion := by
  rw [C120_constructor.1]; simp [arrScalar]

/-- **C120, sphere**. The methods of a sphere with three coordinates as origin are those of the ball and its boundary: the samples
lie in the ball, or on its boundary. With another number of coordinates the sphere can be built, but both methods
raise an `AssertionError`; so do samples with a wrong number of coordinates. -/
theorem C120_sphere {n k : ℕ} (r : ℝ) (hr : 0 < r) (o : Fin n → ℝ) (x : Fin k → ℝ) :
    ∃ s, SphericalObj.init (arrScalar r) (arrVec o) = .ok s ∧ s.sphereSupport = fin (4 / 3 * r ^ 3 * Real.pi) ∧
      (∀ (hn : n = 3), k = 3 → ∃ p : Fin 3 → ℝ, s.sphereTransform (arrVec x) = .ok (vfin p) ∧
        edist2 p (fun i => o (i.cast hn.symm)) < r) ∧
      (∀ (hn : n = 3), k = 2 → ∃ p : Fin 3 → ℝ, s.sphereTransformBnd (arrVec x) = .ok (vfin p) ∧
        edist2 p (fun i => o (i.cast hn.symm)) = r) ∧
      (n ≠ 3 ∨ k ≠ 3 → s.sphereTransform (arrVec x) = .error .assertion) ∧
      (n ≠ 3 ∨ k ≠ 2 → s.sphereTransformBnd (arrVec x) = .error .assertion) := by
  refine ⟨⟨arrScalar r, arrVec o⟩, by rw [C120_constructor.1, if_pos ⟨rfl, rfl⟩], ?_, ?_, ?_, ?_, ?_⟩
  · simp only [SphericalObj.sphereSupport, arrScalar_item, sphereSupport, lit_eq, fin_npow]
    rw [fin_div _ (by norm_num), fin_mul, fin_mul]
  · rintro rfl rfl
    obtain ⟨p, hp, hlt, -⟩ := ((C35_sphere_circle_transform hr).1 o).1 x
    refine ⟨p, ?_, hlt⟩
    rw [← hp, ← arrVec_vec o, ← arrVec_vec x]
    rfl
  · rintro rfl rfl
    obtain ⟨p, hp, hlt⟩ := ((C35_sphere_circle_transform hr).1 o).2.2.1 x
    refine ⟨p, ?_, hlt⟩
    rw [← hp, ← arrVec_vec o, ← arrVec_vec x]
    rfl
  · intro h
    show (pyAssert (k == 3) >>= fun _ => pyAssert true >>= fun _ => pyAssert (n == 3) >>= fun _ => _) = _
    simp only [pyAssert_bind]
    rcases h with h | h <;> simp [h]
  · intro h
    show (pyAssert (k == 2) >>= fun _ => pyAssert true >>= fun _ => pyAssert (n == 3) >>= fun _ => _) = _
    simp only [pyAssert_bind]
    rcases h with h | h <;> simp [h]

/-- A sphere whose origin has two coordinates can be built but not sampled. -/
example : ∃ s, SphericalObj.init (arrScalar 1) (arrVec ![0, 0]) = .ok s ∧
    s.sphereTransform (arrVec ![0, 0, 1 / 2]) = .error .assertion := by
  obtain ⟨s, h, -, -, -, h2, -⟩ := C120_sphere 1 one_pos ![0, 0] ![0, 0, 1 / 2]
  exact ⟨s, h, h2 (Or.inl (by norm_num))⟩

/-- **C120, disk and annulus**. The same for `Disk` and `Annulus`. -/
theorem C120_annulus {n k : ℕ} (r1 r2 : ℝ) (h1 : 0 ≤ r1) (h12 : r1 < r2) (o : Fin n → ℝ) (x : Fin k → ℝ) (t : ℝ) :
    ∃ s a, SphericalObj.init (arrScalar r2) (arrVec o) = .ok s ∧
      AnnulusObj.init (arrScalar r1) (arrScalar r2) (arrVec o) = .ok a ∧
      s.diskSupport = fin (r2 ^ 2 * Real.pi) ∧ a.support = fin ((r2 ^ 2 - r1 ^ 2) * Real.pi) ∧
      (∀ (hn : n = 2), k = 2 → ∃ p q : Fin 2 → ℝ, s.diskTransform (arrVec x) = .ok (vfin p) ∧
        a.transform (arrVec x) = .ok (vfin q) ∧ edist2 p (fun i => o (i.cast hn.symm)) < r2 ∧
        r1 ≤ edist2 q (fun i => o (i.cast hn.symm)) ∧ edist2 q (fun i => o (i.cast hn.symm)) < r2) ∧
      (∀ (hn : n = 2), ∃ p : Fin 2 → ℝ, s.diskTransformBnd (fin t) = .ok (vfin p) ∧
        edist2 p (fun i => o (i.cast hn.symm)) = r2) ∧
      (n ≠ 2 ∨ k ≠ 2 → s.diskTransform (arrVec x) = .error .assertion ∧ a.transform (arrVec x) = .error .assertion) ∧
      (n ≠ 2 → s.diskTransformBnd (fin t) = .error .assertion) := by
  have hr2 : 0 < r2 := by linarith
  refine ⟨⟨arrScalar r2, arrVec o⟩, ⟨arrScalar r1, arrScalar r2, arrVec o⟩, by rw [C120_constructor.1, if_pos ⟨rfl, rfl⟩],
    by rw [C120_constructor.2, if_pos ⟨rfl, rfl, rfl⟩], ?_, ?_, ?_, ?_, ?_, ?_⟩
  · simp only [SphericalObj.diskSupport, arrScalar_item, diskSupport, fin_npow, fin_mul]
  · simp only [AnnulusObj.support, arrScalar_item, annulusSupport, fin_npow, fin_sub, fin_mul]
  · rintro rfl rfl
    obtain ⟨p, hp, -, hlt, -⟩ := (C34_annulus_transform le_rfl hr2.le o).1 x
    obtain ⟨q, hq, hle, hlt', -⟩ := (C34_annulus_transform h1 h12.le o).1 x
    refine ⟨p, q, ?_, ?_, hlt hr2, hle, hlt' h12⟩
    · rw [← hp, ← arrVec_vec o, ← arrVec_vec x, ← zero_eq]
      rfl
    · rw [← hq, ← arrVec_vec o, ← arrVec_vec x]
      rfl
  · rintro rfl
    obtain ⟨p, hp, hlt⟩ := ((C35_sphere_circle_transform hr2).2 o).1 t
    refine ⟨p, ?_, hlt⟩
    rw [← hp, ← arrVec_vec o]
    rfl
  · intro h
    constructor
    · show (pyAssert (k == 2) >>= fun _ => pyAssert true >>= fun _ => pyAssert (n == 2) >>= fun _ => _) = _
      simp only [pyAssert_bind]
      rcases h with h | h <;> simp [h]
    · show (pyAssert (k == 2) >>= fun _ => pyAssert true >>= fun _ => pyAssert (n == 2) >>= fun _ => _) = _
      simp only [pyAssert_bind]
      rcases h with h | h <;> simp [h]
  · intro h
    show (pyAssert true >>= fun _ => pyAssert (true && n == 2) >>= fun _ => _) = _
    simp only [pyAssert_bind]
    simp [h]

/-- The annulus with radii one and two. -/
example : (0 : ℝ) ≤ 1 ∧ (1 : ℝ) < 2 := by norm_num

/-- **C120, negative radii**. The sign of a radius is not checked: a sphere of negative radius has negative support and
includes no point, and an annulus whose radii are exchanged has negative support. -/
theorem C120_negative (r : ℝ) (hr : r < 0) (o : Fin 3 → ℝ) :
    ∃ s V, SphericalObj.init (arrScalar r) (arrVec o) = .ok s ∧ s.sphereSupport = fin V ∧ V < 0 ∧
      ∀ p : Fin 3 → ℝ, ¬ spherical.includes s.radius.item (s.origin.vec 3) (vfin p) := by
  refine ⟨⟨arrScalar r, arrVec o⟩, 4 / 3 * r ^ 3 * Real.pi, by rw [C120_constructor.1, if_pos ⟨rfl, rfl⟩], ?_, ?_,
    fun p => ?_⟩
  · simp only [SphericalObj.sphereSupport, arrScalar_item, sphereSupport, lit_eq, fin_npow]
    rw [fin_div _ (by norm_num), fin_mul, fin_mul]
  · have : r ^ 3 < 0 := Odd.pow_neg (by decide) hr
    nlinarith [Real.pi_pos]
  · rw [arrVec_vec, arrScalar_item, includes_fin]
    have : 0 ≤ edist2 p o := Real.sqrt_nonneg _
    linarith

example : (-1 : ℝ) < 0 := by norm_num

end Verif
