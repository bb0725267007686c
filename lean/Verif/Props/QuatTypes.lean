import Verif.Model.QuatTypes
import Verif.Props.Objects
import Verif.Props.Quaternions

/-! # Property C136: types and shapes of the arguments of the quaternion functions -/

namespace Verif

open XR Quat

open scoped Quaternion

/-- `quaternion_rotation` accepts triples of every type and nothing else. -/
theorem C136_rotation (x : Arr) (q : QuatObj) :
    quaternionRotationObj x q =
      if x.shape = [3] then .ok (quaternionRotation (x.vec 3) q.toQuat) else .error .assertion := by
  unfold quaternionRotationObj
  rw [C119_constructor]
  by_cases h : x.shape = [3]
  · rw [if_pos ⟨rfl, h, rfl⟩, if_pos h]; rfl
  · rw [if_neg (fun h' => h h'.2.1), if_neg h]; rfl

theorem normalize_vec (dflt : String) (n : Arr) (hw : n.WellFormed) (hs : n.shape = [3]) :
    (n.normalize dflt).vec 3 = fun i => n.vec 3 i / vnorm (n.vec 3) := by
  have hl : n.data.length = 3 := by rw [hw, hs]; rfl
  obtain ⟨dt, sh, data⟩ := n
  match data, hl with
  | [a, b, c], _ =>
    have hr : ([a, b, c].map fun a => a * a).sum = ∑ i, (Arr.vec ⟨dt, sh, [a, b, c]⟩ 3 i) * (Arr.vec ⟨dt, sh, [a, b, c]⟩ 3 i) := by
      rw [Fin.sum_univ_three]
      show a * a + (b * b + (c * c + 0)) = a * a + b * b + c * c
      rw [add_zero, add_assoc]
    unfold vnorm
    rw [← hr]
    funext i
    fin_cases i <;> rfl

/-- `quaternion_reflection` accepts two triples provided that the first has the type of the normalised second one. -/
theorem C136_reflection (dflt : String) (x n : Arr) (hw : n.WellFormed) :
    quaternionReflectionObj dflt x n =
      if x.shape = [3] ∧ n.shape = [3] ∧ x.dtype = inexactType dflt n.dtype then
        .ok (quaternionReflection (x.vec 3) (n.vec 3)) else .error .assertion := by
  unfold quaternionReflectionObj
  simp only [C119_constructor]
  by_cases h : x.shape = [3] ∧ n.shape = [3] ∧ x.dtype = inexactType dflt n.dtype
  · obtain ⟨h1, h2, h3⟩ := h
    rw [if_pos ⟨trivial, h1, trivial⟩, if_pos ⟨trivial, h2, h3⟩, if_pos ⟨h1, h2, h3⟩]
    show Except.ok _ = _
    simp only [QuatObj.toQuat, normalize_vec dflt n hw h2]
    rfl
  · rw [if_neg h]
    by_cases h1 : x.shape = [3]
    · rw [if_pos ⟨trivial, h1, trivial⟩]
      show (if _ then Except.ok _ else _) >>= _ = _
      rw [if_neg (fun h' => h ⟨h1, h'.2.1, h'.2.2⟩)]
      rfl
    · rw [if_neg (fun h' => h1 h'.2.1)]
      rfl

/-- A triple of integers is rejected, whatever the normal. -/
theorem C136_reflection_integers (dflt : String) (hd : dflt ∈ floatTypes) (x n : Arr) (hw : n.WellFormed)
    (hx : x.dtype ∉ floatTypes) : quaternionReflectionObj dflt x n = .error .assertion := by
  rw [C136_reflection dflt x n hw, if_neg]
  rintro ⟨-, -, h⟩
  apply hx
  rw [h, inexactType]
  split_ifs with h'
  · exact h'
  · exact hd

/-- Reflecting `(1, 2, 3)`: floating point numbers are accepted, integers are not, although they can be rotated. -/
example : quaternionReflectionObj "float32" ⟨"float32", [3], [1, 2, 3]⟩ ⟨"int32", [3], [0, 0, 1]⟩ =
      .ok (quaternionReflection (Arr.vec ⟨"float32", [3], [1, 2, 3]⟩ 3) (Arr.vec ⟨"int32", [3], [0, 0, 1]⟩ 3)) ∧
    quaternionReflectionObj "float32" ⟨"int32", [3], [1, 2, 3]⟩ ⟨"int32", [3], [0, 0, 1]⟩ = .error .assertion ∧
    quaternionRotationObj ⟨"int32", [3], [1, 2, 3]⟩ ⟨arrScalar 1, arrVec ![1, 2, 3]⟩ =
      .ok (quaternionRotation (Arr.vec ⟨"int32", [3], [1, 2, 3]⟩ 3) ⟨fin 1, vfin ![1, 2, 3]⟩) := by
  refine ⟨?_, ?_, ?_⟩
  · rw [C136_reflection _ _ _ (by rfl), if_pos ⟨rfl, rfl, by decide⟩]
  · exact C136_reflection_integers _ (by decide) _ _ rfl (by decide)
  · rw [C136_rotation, if_pos rfl]
    simp [QuatObj.toQuat]

/-- `from_axis_angle` accepts a triple whose type does not change the type of the angle; a Python number as the angle
counts as a number of the default type. -/
theorem C136_axis_angle (dflt : String) (angle : QuatAngle) (axis : Arr) (hw : axis.WellFormed) :
    (axis.shape = [3] ∧ angle.cosType dflt = angle.mulType dflt axis.dtype →
      ∃ q, fromAxisAngleObj dflt angle axis = .ok q ∧ q.toQuat = fromAxisAngle angle.val (axis.vec 3)) ∧
    (¬ (axis.shape = [3] ∧ angle.cosType dflt = angle.mulType dflt axis.dtype) →
      fromAxisAngleObj dflt angle axis = .error .assertion) := by
  unfold fromAxisAngleObj
  simp only [C119_constructor]
  constructor
  · rintro ⟨h1, h2⟩
    refine ⟨_, if_pos ⟨trivial, h1, h2⟩, ?_⟩
    have hl : axis.data.length = 3 := by rw [hw, h1]; rfl
    obtain ⟨dt, sh, data⟩ := axis
    match data, hl with
    | [a, b, c], _ =>
      ext i
      · rfl
      · fin_cases i <;> rfl
  · intro h
    exact if_neg fun h' => h ⟨h'.2.1, h'.2.2⟩

/-- The types which are accepted with a Python number as angle: the default type and all types which are not floating
point types. -/
theorem C136_axis_angle_python (dflt : String) (t : XR) (axis : Arr) (hw : axis.WellFormed) :
    (∃ q, fromAxisAngleObj dflt (.py t) axis = .ok q) ↔
      axis.shape = [3] ∧ (axis.dtype = dflt ∨ axis.dtype ∉ floatTypes) := by
  obtain ⟨h1, h2⟩ := C136_axis_angle dflt (.py t) axis hw
  have key : QuatAngle.cosType dflt (.py t) = QuatAngle.mulType dflt axis.dtype (.py t) ↔
      (axis.dtype = dflt ∨ axis.dtype ∉ floatTypes) := by
    show dflt = inexactType dflt axis.dtype ↔ _
    unfold inexactType
    split_ifs with h
    · exact ⟨fun e => Or.inl e.symm, fun e => e.elim Eq.symm (absurd h)⟩
    · exact ⟨fun _ => Or.inr h, fun _ => rfl⟩
  rw [← key]
  constructor
  · rintro ⟨q, hq⟩
    by_contra h
    rw [h2 h] at hq
    cases hq
  · intro h
    obtain ⟨q, hq, -⟩ := h1 h
    exact ⟨q, hq⟩

/-- With an array as the angle: types which are not floating point types, the type of the angle, and types of lower
precision. -/
theorem C136_axis_angle_array (dflt d : String) (hd : dflt ∈ floatTypes) (t : XR) (axis : Arr) (hw : axis.WellFormed) :
    (∃ q, fromAxisAngleObj dflt (.arr d t) axis = .ok q) ↔ axis.shape = [3] ∧ (axis.dtype ∉ floatTypes ∨
      axis.dtype = inexactType dflt d ∨ inexactType dflt d = "float64" ∨
      (inexactType dflt d = "float32" ∧ axis.dtype ≠ "float64")) := by
  obtain ⟨h1, h2⟩ := C136_axis_angle dflt (.arr d t) axis hw
  have he : inexactType dflt d ∈ floatTypes := by
    unfold inexactType
    split_ifs with h
    exacts [h, hd]
  have key : QuatAngle.cosType dflt (.arr d t) = QuatAngle.mulType dflt axis.dtype (.arr d t) ↔ (axis.dtype ∉ floatTypes ∨
      axis.dtype = inexactType dflt d ∨ inexactType dflt d = "float64" ∨
      (inexactType dflt d = "float32" ∧ axis.dtype ≠ "float64")) := by
    show inexactType dflt d = promoteFloat axis.dtype (inexactType dflt d) ↔ _
    generalize inexactType dflt d = e at he
    generalize axis.dtype = a
    unfold promoteFloat
    by_cases ha : a ∈ floatTypes
    · simp only [floatTypes, List.mem_cons, List.not_mem_nil, or_false] at he ha
      rcases he with rfl | rfl | rfl | rfl <;> rcases ha with rfl | rfl | rfl | rfl <;> decide
    · simp [ha]
  rw [← key]
  constructor
  · rintro ⟨q, hq⟩
    by_contra h
    rw [h2 h] at hq
    cases hq
  · intro h
    obtain ⟨q, hq, -⟩ := h1 h
    exact ⟨q, hq⟩

/-- A double precision axis changes the type of a single precision angle and is rejected; the converse is accepted. -/
example : (¬ ∃ q, fromAxisAngleObj "float64" (.arr "float32" (fin 1)) ⟨"float64", [3], [0, 0, 1]⟩ = .ok q) ∧
    ∃ q, fromAxisAngleObj "float64" (.arr "float64" (fin 1)) ⟨"float32", [3], [0, 0, 1]⟩ = .ok q := by
  rw [C136_axis_angle_array _ _ (by decide) _ _ (by rfl), C136_axis_angle_array _ _ (by decide) _ _ (by rfl)]
  exact ⟨fun h => absurd h.2 (by decide), rfl, by decide⟩

/-- A single precision axis with a Python number as angle, with JAX set to 64 bits. -/
example : fromAxisAngleObj "float64" (.py (fin 1)) ⟨"float32", [3], [0, 0, 1]⟩ = .error .assertion ∧
    ∃ q, fromAxisAngleObj "float32" (.py (fin 1)) ⟨"float32", [3], [0, 0, 1]⟩ = .ok q := by
  refine ⟨(C136_axis_angle _ _ _ (by rfl)).2 (by decide), ?_⟩
  exact (C136_axis_angle_python _ _ _ (by rfl)).2 ⟨rfl, Or.inl rfl⟩

/-- `from_euler_angles` of three real numbers of any type is the quaternion of the rest of the model. -/
theorem C136_euler (dflt d : String) (u : Fin 3 → ℝ) :
    ∃ q, fromEulerAnglesObj dflt ⟨d, [3], [fin (u 0), fin (u 1), fin (u 2)]⟩ = .ok q ∧
      q.toQuat = fromEulerAngles (vfin u) := by
  refine ⟨_, (C119_constructor _ _).trans (if_pos ⟨rfl, rfl, rfl⟩), ?_⟩
  ext i
  · simp [QuatObj.toQuat, Arr.item, fromEulerAngles, fin_div, one_eq, mul_assoc]
  · fin_cases i <;> simp [QuatObj.toQuat, Arr.vec, fromEulerAngles, Arr.entry, fin_div]

/-- More than three angles are not rejected: for `(0, 0, 0, π)` the result is the quaternion zero, which is no rotation. -/
theorem C136_euler_four (dflt d : String) :
    ∃ q, fromEulerAnglesObj dflt ⟨d, [4], [fin 0, fin 0, fin 0, fin Real.pi]⟩ = .ok q ∧ q.toQuat = ofH 0 ∧
      ∀ x : Fin 3 → ℝ, quaternionRotation (vfin x) q.toQuat = fun _ => nan := by
  have h : ∃ q, fromEulerAnglesObj dflt ⟨d, [4], [fin 0, fin 0, fin 0, fin Real.pi]⟩ = .ok q ∧ q.toQuat = ofH 0 := by
    refine ⟨_, (C119_constructor _ _).trans (if_pos ⟨rfl, rfl, rfl⟩), ?_⟩
    ext i
    · simp [QuatObj.toQuat, Arr.item, fin_div, one_eq, ofH]
    · fin_cases i <;> simp [QuatObj.toQuat, Arr.vec, Arr.entry, fin_div, ofH]
  obtain ⟨q, h1, h2⟩ := h
  exact ⟨q, h1, h2, fun x => by rw [h2]; exact (C25_rotation 0).2.2 x⟩

/-- A number or a matrix of angles is rejected. -/
theorem C136_euler_shapes (dflt : String) (angles : Arr) :
    (angles.shape = [] → fromEulerAnglesObj dflt angles = .error .indexError) ∧
    (∀ m k rest, angles.shape = m :: k :: rest → fromEulerAnglesObj dflt angles = .error .assertion) := by
  constructor
  · intro h
    unfold fromEulerAnglesObj
    simp only [h]
  · intro m k rest h
    unfold fromEulerAnglesObj
    simp only [h, C119_constructor]
    exact if_neg fun h' => by simp at h'

example (dflt : String) : fromEulerAnglesObj dflt ⟨"float32", [1, 3], [fin 1, fin 2, fin 3]⟩ = .error .assertion :=
  (C136_euler_shapes dflt _).2 1 3 [] rfl

/-- Exponentials, logarithms and powers of quaternions of integers raise a `ValueError`; for floating point types they are
those of the rest of the model, with the distance from `1` to the next number of the type as threshold. -/
theorem C136_exp_log (q : QuatObj) (s : XR) :
    (q.q.dtype ∉ floatTypes → q.exp = .error .valueError ∧ q.log = .error .valueError ∧ q.pow s = .error .valueError) ∧
    (q.q.dtype ∈ floatTypes → ∃ eps : ℝ, 0 < eps ∧ q.exp = .ok (Quat.exp eps q.toQuat) ∧
      q.log = .ok (Quat.log eps q.toQuat) ∧ q.pow s = .ok (Quat.pow eps q.toQuat s) ∧
      ∀ m ∈ [("float16", 11), ("bfloat16", 8), ("float32", 24), ("float64", 53)], q.q.dtype = m.1 →
        eps = 2 / 2 ^ (m.2 : ℕ)) := by
  have hno : q.q.dtype ∉ floatTypes → finfoEps q.q.dtype = .error .valueError := by
    intro h
    simp only [floatTypes, List.mem_cons, List.not_mem_nil, or_false, not_or] at h
    unfold finfoEps
    rw [if_neg h.1, if_neg h.2.1, if_neg h.2.2.1, if_neg h.2.2.2]
  have hyes : q.q.dtype ∈ floatTypes → ∃ eps : ℝ, 0 < eps ∧ finfoEps q.q.dtype = .ok eps ∧
      ∀ m ∈ [("float16", 11), ("bfloat16", 8), ("float32", 24), ("float64", 53)], q.q.dtype = m.1 → eps = 2 / 2 ^ (m.2 : ℕ) := by
    intro h
    simp only [floatTypes, List.mem_cons, List.not_mem_nil, or_false] at h
    unfold finfoEps
    split_ifs with h1 h2 h3 h4
    · exact ⟨_, by positivity, rfl, by rw [h1]; simp; norm_num⟩
    · exact ⟨_, by positivity, rfl, by rw [h2]; simp; norm_num⟩
    · exact ⟨_, by positivity, rfl, by rw [h3]; simp; norm_num⟩
    · exact ⟨_, by positivity, rfl, by rw [h4]; simp; norm_num⟩
    · exact absurd h (by simp [h1, h2, h3, h4])
  constructor
  · intro h
    unfold QuatObj.exp QuatObj.log QuatObj.pow
    rw [hno h]
    exact ⟨rfl, rfl, rfl⟩
  · intro h
    obtain ⟨eps, he, hf, hm⟩ := hyes h
    refine ⟨eps, he, ?_⟩
    unfold QuatObj.exp QuatObj.log QuatObj.pow
    rw [hf]
    exact ⟨rfl, rfl, rfl, hm⟩

/-- The square of the quaternion `1` of integers. -/
example : QuatObj.pow ⟨⟨"int32", [], [1]⟩, ⟨"int32", [3], [0, 0, 0]⟩⟩ 2 = .error .valueError :=
  ((C136_exp_log _ _).1 (by decide)).2.2

end Verif
