import Verif.Props.Shapes
import Verif.Props.Quaternions
import Mathlib.Analysis.Real.Pi.Irrational

/-! # Properties C15 - C21: transformations of ADFs -/

namespace Verif

open XR Topology Matrix

/-! ## C15 -/

theorem translate_fin {n : ℕ} (f : ADF n) (y x : Fin n → ℝ) :
    translate f (vfin y) (vfin x) = f (vfin (x - y)) := congrArg f (funext fun _ => fin_sub _ _)

theorem translate_neg_fin {n : ℕ} (f : ADF n) (o x : Fin n → ℝ) :
    translate f (fun i => -vfin o i) (vfin x) = f (vfin (x + o)) := by
  simp only [translate]
  congr 1
  funext i
  simp

theorem efin_sub {n : ℕ} (x y : Pt n) : efin (x - y) = vfin ((fun i => x i) - fun i => y i) := rfl

/-- Gradients move with a translated function. -/
theorem HasGrad.translate {n : ℕ} {F : ADF n} {u x : Pt n} (h : HasGrad F u x) (y : Pt n) :
    HasGrad (translate F (efin y)) u (x + y) := by
  obtain ⟨f, h1, h2⟩ := h
  have hx : x + y - y = x := by simp
  refine ⟨fun z => f (z - y), ?_, ?_⟩
  · have hc : Filter.Tendsto (fun z : Pt n => z - y) (𝓝 (x + y)) (𝓝 x) := by
      have : ContinuousAt (fun z : Pt n => z - y) (x + y) := by fun_prop
      rw [ContinuousAt, hx] at this
      exact this
    filter_upwards [hc.eventually h1] with z hz
    rw [← hz]
    exact translate_fin F _ _
  · rw [hasGradientAt_iff_hasFDerivAt] at h2 ⊢
    rw [← hx] at h2
    have h3 := h2.comp (x + y) ((hasFDerivAt_id (x + y)).sub_const y)
    exact h3

/-- C15. The translated ADF takes at `x + y` the value of `f` at `x`; translations add up; gradients are
carried along. -/
theorem C15_translate {n : ℕ} (f : ADF n) :
    (∀ x y : Fin n → ℝ, translate f (vfin y) (vfin (x + y)) = f (vfin x)) ∧
    (∀ x y z : Fin n → ℝ, translate (translate f (vfin y)) (vfin z) (vfin x) =
      translate f (vfin (y + z)) (vfin x)) ∧
    (∀ u x y : Pt n, HasGrad f u x → HasGrad (translate f (efin y)) u (x + y)) := by
  refine ⟨fun x y => ?_, fun x y z => ?_, fun u x y h => h.translate y⟩
  · rw [translate_fin, add_sub_cancel_right]
  · rw [translate_fin, translate_fin, translate_fin]
    congr 2; abel

/-- Non-vacuity: a half plane has a gradient everywhere. -/
example : HasGrad (fun y : Vec 2 => y 0) (EuclideanSpace.single 0 1) 0 :=
  ⟨fun y => y 0, .of_forall fun _ => rfl, hasGradientAt_coord 0 0⟩

/-! ## C16 -/

theorem scaleBy_fin {n : ℕ} (f : ADF n) {s : ℝ} (hs : s ≠ 0) (x : Fin n → ℝ) :
    scaleBy f (fin s) (vfin x) = f (vfin (s⁻¹ • x)) * fin s := by
  simp only [scaleBy]
  congr 2
  funext i
  simp only [vfin_apply, fin_div _ hs, Pi.smul_apply, smul_eq_mul, fin_inj]
  field_simp

/-- C16. A single finite factor `s` is accepted and everything else rejected. For `s ≠ 0` the value at
`s • x` is `s` times the value at `x` (so the sign is kept for `s > 0` and flipped for `s < 0`) and the
gradient at `s • x` is the gradient of `f` at `x`, in particular its norm. For `s = 0` the ADF is evaluated
at a point without finite coordinates. -/
theorem C16_scale {n : ℕ} (f : ADF n) :
    (∀ l : List XR, (∃ F, scale f l = .ok F) ↔ l.length = 1) ∧
    (∀ l : List XR, l.length ≠ 1 → scale f l = .error .assertion) ∧
    (∀ s : ℝ, s ≠ 0 → ∃ F, scale f [fin s] = .ok F ∧
      (∀ (x : Fin n → ℝ) (v : ℝ), f (vfin x) = fin v → F (vfin (s • x)) = fin (s * v) ∧
        SignType.sign (s * v) = SignType.sign s * SignType.sign v) ∧
      (∀ u x : Pt n, HasGrad f u x → HasGrad F u (s • x))) ∧
    (∃ F, scale f [0] = .ok F ∧ ∀ x : Fin n → ℝ, ∃ w : Vec n, (∀ i, ¬ IsFin (w i)) ∧
      F (vfin x) = f w * 0) := by
  have hbad : ∀ l : List XR, l.length ≠ 1 → scale f l = .error .assertion := by
    intro l hl
    match l with
    | [] => rfl
    | [s] => simp at hl
    | _ :: _ :: _ => rfl
  refine ⟨fun l => ⟨?_, ?_⟩, hbad, fun s hs => ⟨_, rfl, ?_, ?_⟩, ⟨_, rfl, fun x => ?_⟩⟩
  · rintro ⟨F, hF⟩
    by_contra h
    rw [hbad l h] at hF; cases hF
  · intro h
    match l, h with
    | [s], _ => exact ⟨_, rfl⟩
  · intro x v hv
    refine ⟨?_, sign_mul s v⟩
    rw [scaleBy_fin f hs, smul_smul, inv_mul_cancel₀ hs, one_smul, hv, fin_mul, mul_comm]
  · intro u x ⟨g, h1, h2⟩
    have hx : s⁻¹ • (s • x) = x := by rw [smul_smul, inv_mul_cancel₀ hs, one_smul]
    refine ⟨fun z => g (s⁻¹ • z) * s, ?_, ?_⟩
    · have hc : Filter.Tendsto (fun z : Pt n => s⁻¹ • z) (𝓝 (s • x)) (𝓝 x) := by
        have : ContinuousAt (fun z : Pt n => s⁻¹ • z) (s • x) := by fun_prop
        rw [ContinuousAt, hx] at this
        exact this
      filter_upwards [hc.eventually h1] with z hz
      have h3 : scaleBy f (fin s) (efin z) = f (efin (s⁻¹ • z)) * fin s := scaleBy_fin f hs _
      rw [h3, hz, fin_mul]
    · rw [hasGradientAt_iff_hasFDerivAt] at h2 ⊢
      rw [← hx] at h2
      have h4 := (h2.comp (s • x) ((hasFDerivAt_id (s • x)).const_smul s⁻¹)).mul_const s
      have e : s • (InnerProductSpace.toDual ℝ (Pt n) u).comp (s⁻¹ • ContinuousLinearMap.id ℝ (Pt n)) =
          InnerProductSpace.toDual ℝ (Pt n) u := by
        ext v
        simp only [_root_.smul_apply, ContinuousLinearMap.comp_apply, ContinuousLinearMap.id_apply, map_smul,
          smul_eq_mul]
        field_simp
      rw [e] at h4
      exact h4
  · refine ⟨fun i => fin (x i) / 0, fun i => ?_, rfl⟩
    beta_reduce
    rw [zero_eq, fin_div_zero, infSign]
    split_ifs <;> simp [IsFin]

/-- The half plane `x₀ > 0` scaled by `-2`: the point `(-6, 0)` gets the value `-6`. -/
example : ∃ F, scale (fun x : Vec 2 => x 0) [fin (-2)] = .ok F ∧ F (vfin ((-2 : ℝ) • ![3, 0])) = fin (-2 * 3) := by
  obtain ⟨F, h1, h2, -⟩ := (C16_scale fun x : Vec 2 => x 0).2.2.1 (-2) (by norm_num)
  exact ⟨F, h1, (h2 ![3, 0] 3 rfl).1⟩

/-! ## C17 -/

theorem rotate2d_float {f : ADF 2} (t : ℝ) (o z : Fin 2 → ℝ) :
    rotate2d f (.float (fin t)) (vfin o) (vfin z) = f (vfin (turn2 (-t) (z - o) + o)) := by
  have h : (fun i => vdot (rotate2d.M (.float (fin t)) i) (vfin (z - o))) = vfin (turn2 (-t) (z - o)) := by
    funext i
    fin_cases i <;>
      simp [vdot, rotate2d.M, NumArg.cast, NumArg.val, turn2, Fin.sum_univ_two]
  rw [rotate2d, translate_fin]
  simp only [h]
  exact translate_neg_fin f o _

theorem turn2_neg (t : ℝ) (x : Fin 2 → ℝ) : turn2 (-t) (turn2 t x) = x := by
  have h := Real.cos_sq_add_sin_sq t
  funext i
  fin_cases i
  · simp [turn2]; linear_combination x 0 * h
  · simp [turn2]; linear_combination x 1 * h

/-- C17 (partial). For a floating point angle the value at the point turned counter-clockwise about `o`
is the value of `f` at the original point; an integer angle `0` changes nothing. Missing: non-zero angles
of integer dtype, for which the statement is false (next theorem). -/
theorem C17_rotate2d_partial (f : ADF 2) (o x : Fin 2 → ℝ) :
    (∀ t : ℝ, rotate2d f (.float (fin t)) (vfin o) (vfin (o + turn2 t (x - o))) = f (vfin x)) ∧
    rotate2d f (.int 0) (vfin o) (vfin x) = f (vfin x) := by
  constructor
  · intro t
    rw [rotate2d_float, add_sub_cancel_left, turn2_neg, sub_add_cancel]
  · have h : (fun i => vdot (rotate2d.M (.int 0) i) (vfin (x - o))) = vfin (x - o) := by
      funext i
      fin_cases i <;>
        simp [vdot, rotate2d.M, NumArg.cast, NumArg.val, Fin.sum_univ_two, trunc]
    rw [rotate2d, translate_fin]
    simp only [h]
    rw [translate_neg_fin, sub_add_cancel]

/-- A quarter turn about `(1, 0)`. -/
example (f : ADF 2) : rotate2d f (.float (fin (Real.pi / 2))) (vfin ![1, 0])
    (vfin (![1, 0] + turn2 (Real.pi / 2) (![2, 0] - ![1, 0]))) = f (vfin ![2, 0]) :=
  (C17_rotate2d_partial f ![1, 0] ![2, 0]).1 _

theorem trunc_of_abs_lt_one {a : ℝ} (h : |a| < 1) : trunc (fin a) = fin 0 := by
  rw [abs_lt] at h
  simp only [trunc]
  split
  · have : ⌊a⌋ = 0 := by rw [Int.floor_eq_iff]; constructor <;> simp <;> linarith
    simp [this]
  · have : ⌈a⌉ = 0 := by rw [Int.ceil_eq_iff]; constructor <;> simp <;> linarith
    simp [this]

theorem abs_cos_sin_int_lt {k : ℤ} (hk : k ≠ 0) : |Real.cos k| < 1 ∧ |Real.sin k| < 1 := by
  have hpi := irrational_pi
  have hsin : Real.sin k ≠ 0 := by
    intro h
    obtain ⟨n, hn⟩ := Real.sin_eq_zero_iff.mp h
    rcases eq_or_ne n 0 with rfl | hn0
    · apply hk; simpa using hn.symm
    · apply hpi
      refine ⟨(k : ℚ) / n, ?_⟩
      push_cast
      rw [← hn]
      have : (n : ℝ) ≠ 0 := by exact_mod_cast hn0
      field_simp
  have hcos : Real.cos k ≠ 0 := by
    intro h
    obtain ⟨n, hn⟩ := Real.cos_eq_zero_iff.mp h
    apply hpi
    refine ⟨2 * (k : ℚ) / (2 * n + 1), ?_⟩
    push_cast
    rw [hn]
    have h2 : (2 * (n : ℝ) + 1) ≠ 0 := by
      have : (2 * n + 1 : ℤ) ≠ 0 := by omega
      exact_mod_cast this
    field_simp
  have h := Real.cos_sq_add_sin_sq k
  have h1 : 0 < Real.sin k ^ 2 := by positivity
  have h2 : 0 < Real.cos k ^ 2 := by positivity
  constructor
  · rw [← sq_lt_one_iff_abs_lt_one]; linarith
  · rw [← sq_lt_one_iff_abs_lt_one]; linarith

/-- C17 is false for integer dtypes: for every non-zero integer angle the matrix is truncated to zero, so
the result is the constant `f o`; with `f` a coordinate, the turned point gets a wrong value. -/
theorem C17_integer_angle_counterexample (k : ℤ) (hk : k ≠ 0) :
    (∀ (f : ADF 2) (o x : Fin 2 → ℝ), rotate2d f (.int k) (vfin o) (vfin x) = f (vfin o)) ∧
    ∃ (f : ADF 2) (o x : Fin 2 → ℝ),
      rotate2d f (.int k) (vfin o) (vfin (o + turn2 k (x - o))) ≠ f (vfin x) := by
  have key : ∀ (f : ADF 2) (o x : Fin 2 → ℝ), rotate2d f (.int k) (vfin o) (vfin x) = f (vfin o) := by
    intro f o x
    obtain ⟨h1, h2⟩ := abs_cos_sin_int_lt hk
    have h2' : |-Real.sin k| < 1 := by rwa [abs_neg]
    have h : (fun i => vdot (rotate2d.M (.int k) i) (vfin (x - o))) = vfin 0 := by
      funext i
      fin_cases i <;>
        simp [vdot, rotate2d.M, NumArg.cast, NumArg.val, Fin.sum_univ_two, trunc_of_abs_lt_one h1,
          trunc_of_abs_lt_one h2, trunc_of_abs_lt_one h2']
    rw [rotate2d, translate_fin]
    simp only [h]
    rw [translate_neg_fin, zero_add]
  refine ⟨key, fun y => y 0, 0, ![1, 0], ?_⟩
  rw [key]
  simp

example (f : ADF 2) : rotate2d f (.int 1) (vfin ![0, 0]) (vfin ![3, 4]) = f (vfin ![0, 0]) :=
  (C17_integer_angle_counterexample 1 one_ne_zero).1 f _ _

/-! ## C18 -/

theorem rodrigues_neg {u : Fin 3 → ℝ} (hu : u ⬝ᵥ u = 1) (t : ℝ) (x : Fin 3 → ℝ) :
    rodrigues u t (rodrigues u (-t) x) = x := by
  have h := Real.cos_sq_add_sin_sq t
  have hu' : u 0 * u 0 + u 1 * u 1 + u 2 * u 2 = 1 := by
    simpa [dotProduct, Fin.sum_univ_three] using hu
  simp only [rodrigues, Real.cos_neg, Real.sin_neg]
  generalize Real.cos t = c at *
  generalize Real.sin t = s at *
  have hs : s ^ 2 = 1 - c ^ 2 := by linarith
  funext i
  fin_cases i
  · simp [cross_apply, dotProduct, Fin.sum_univ_three, vecHead, vecTail]
    linear_combination (exp := 1) (x 0) * h +
      ((1 - c) ^ 2 * (u 0 * x 0 + u 1 * x 1 + u 2 * x 2) * u 0 + s ^ 2 * x 0) * hu' - (u 0 * (u 0 * x 0 + u 1 * x 1 + u 2 * x 2)) * h
  · simp [cross_apply, dotProduct, Fin.sum_univ_three, vecHead, vecTail]
    linear_combination (exp := 1) (x 1) * h +
      ((1 - c) ^ 2 * (u 0 * x 0 + u 1 * x 1 + u 2 * x 2) * u 1 + s ^ 2 * x 1) * hu' - (u 1 * (u 0 * x 0 + u 1 * x 1 + u 2 * x 2)) * h
  · simp [cross_apply, dotProduct, Fin.sum_univ_three, vecHead, vecTail]
    linear_combination (exp := 1) (x 2) * h +
      ((1 - c) ^ 2 * (u 0 * x 0 + u 1 * x 1 + u 2 * x 2) * u 2 + s ^ 2 * x 2) * hu' - (u 2 * (u 0 * x 0 + u 1 * x 1 + u 2 * x 2)) * h

theorem rotate3d_axis (f : ADF 3) (t : ℝ) {u : Fin 3 → ℝ} (hu : u ⬝ᵥ u = 1) (o : Fin 3 → ℝ) :
    ∃ F, rotate3d f (.scalar (fin t)) (some (vfin u)) (vfin o) = .ok F ∧
      ∀ z : Fin 3 → ℝ, F (vfin z) = f (vfin (rodrigues u t (z - o) + o)) := by
  refine ⟨_, rfl, fun z => ?_⟩
  rw [translate_fin, fin_neg, (C26_axis_angle (-t) u (z - o) hu).2, translate_neg_fin, neg_neg]

/-- The three coordinate axes. -/
def ex : Fin 3 → ℝ := ![1, 0, 0]
/-- The three coordinate axes. -/
def ey : Fin 3 → ℝ := ![0, 1, 0]
/-- The three coordinate axes. -/
def ez : Fin 3 → ℝ := ![0, 0, 1]

theorem unit_ex : ex ⬝ᵥ ex = 1 := by simp [ex, dotProduct, Fin.sum_univ_three]
theorem unit_ey : ey ⬝ᵥ ey = 1 := by simp [ey, dotProduct, Fin.sum_univ_three]
theorem unit_ez : ez ⬝ᵥ ez = 1 := by simp [ez, dotProduct, Fin.sum_univ_three]

theorem quatRot_mul {p q : Quat} {P Q : (Fin 3 → ℝ) → Fin 3 → ℝ} (hp : p.abs = fin 1) (hq : q.abs = fin 1)
    {p' q' : Quaternion ℝ} (ep : p = Quat.ofH p') (eq : q = Quat.ofH q')
    (hP : ∀ x : Fin 3 → ℝ, quaternionRotation (vfin x) p = vfin (P x))
    (hQ : ∀ x : Fin 3 → ℝ, quaternionRotation (vfin x) q = vfin (Q x)) (x : Fin 3 → ℝ) :
    quaternionRotation (vfin x) (p.mul q) = vfin (Q (P x)) := by
  subst ep eq
  have hp0 : p' ≠ 0 := by
    rintro rfl; rw [Quat.abs_ofH, norm_zero, fin_inj] at hp; norm_num at hp
  have hq0 : q' ≠ 0 := by
    rintro rfl; rw [Quat.abs_ofH, norm_zero, fin_inj] at hq; norm_num at hq
  rw [← (C25_rotation q').2.1 p' hp0 hq0, hP, hQ]

/-- The rotation of the body induced by Euler angles `a, b, c` in `rotate3d`. -/
theorem rotate3d_euler (f : ADF 3) (a b c : ℝ) (o : Fin 3 → ℝ) :
    ∃ F, rotate3d f (.euler (vfin ![a, b, c])) none (vfin o) = .ok F ∧
      ∀ z : Fin 3 → ℝ, F (vfin z) =
        f (vfin (rodrigues ex a (rodrigues ey b (rodrigues ez c (z - o))) + o)) := by
  have hneg : (fun i => -vfin ![a, b, c] i) = vfin ![-a, -b, -c] := by
    funext i; fin_cases i <;> simp
  refine ⟨_, rfl, fun z => ?_⟩
  rw [translate_fin, hneg, (C27_euler (-a) (-b) (-c)).1]
  have key (t : ℝ) {u : Fin 3 → ℝ} (hu : u ⬝ᵥ u = 1) := C26_axis_angle (-t) u (hu := hu)
  obtain ⟨qa, ha⟩ : ∃ q : Quaternion ℝ, fromAxisAngle (fin (-a)) (vfin ex) = Quat.ofH q :=
    ⟨_, fromAxisAngle_fin (-a) ex⟩
  obtain ⟨qb, hb⟩ : ∃ q : Quaternion ℝ, fromAxisAngle (fin (-b)) (vfin ey) = Quat.ofH q :=
    ⟨_, fromAxisAngle_fin (-b) ey⟩
  obtain ⟨qc, hc⟩ : ∃ q : Quaternion ℝ, fromAxisAngle (fin (-c)) (vfin ez) = Quat.ofH q :=
    ⟨_, fromAxisAngle_fin (-c) ez⟩
  have e1 := quatRot_mul (key c unit_ez 0).1 (key b unit_ey 0).1 hc hb
    (fun x => (key c unit_ez x).2) (fun x => (key b unit_ey x).2)
  have e2 : ((fromAxisAngle (fin (-c)) (vfin ez)).mul (fromAxisAngle (fin (-b)) (vfin ey))).abs = fin 1 := by
    have h1 := (key c unit_ez 0).1
    have h2 := (key b unit_ey 0).1
    rw [hc, Quat.abs_ofH, fin_inj] at h1
    rw [hb, Quat.abs_ofH, fin_inj] at h2
    rw [hc, hb, Quat.mul_ofH, Quat.abs_ofH, norm_mul, h1, h2, mul_one]
  have e3 := quatRot_mul e2 (key a unit_ex 0).1 (p' := qc * qb)
    (by rw [hc, hb, Quat.mul_ofH]) ha e1 (fun x => (key a unit_ex x).2) (z - o)
  rw [neg_neg, neg_neg, neg_neg] at e3
  rw [← translate_neg_fin f o, ← e3]
  rfl

/-- C18 (partial). Accepted calls: scalar angle with an axis, or three Euler angles without one; all other
calls raise `ValueError`. For a unit axis the value at the point turned about the axis through `o` by
MINUS the angle is `f x`; likewise for Euler angles (turns about x, y, z by the negative angles). Missing:
the sign of the angle claimed by the property, which is false (next theorem), and axes that are not unit
vectors. -/
theorem C18_rotate3d_partial (f : ADF 3) (o x : Fin 3 → ℝ) :
    (∀ (t : ℝ) (u : Fin 3 → ℝ), u ⬝ᵥ u = 1 → ∃ F,
      rotate3d f (.scalar (fin t)) (some (vfin u)) (vfin o) = .ok F ∧
      F (vfin (o + rodrigues u (-t) (x - o))) = f (vfin x)) ∧
    (∀ a b c : ℝ, ∃ F, rotate3d f (.euler (vfin ![a, b, c])) none (vfin o) = .ok F ∧
      F (vfin (o + rodrigues ez (-c) (rodrigues ey (-b) (rodrigues ex (-a) (x - o))))) = f (vfin x)) ∧
    (∀ t, rotate3d f (.scalar t) none (vfin o) = .error .valueError) ∧
    (∀ t u, rotate3d f (.euler t) (some u) (vfin o) = .error .valueError) ∧
    (∀ u, rotate3d f .other u (vfin o) = .error .valueError) := by
  refine ⟨fun t u hu => ?_, fun a b c => ?_, fun t => rfl, fun t u => rfl, fun u => rfl⟩
  · obtain ⟨F, h1, h2⟩ := rotate3d_axis f t hu o
    refine ⟨F, h1, ?_⟩
    rw [h2, add_sub_cancel_left, rodrigues_neg hu, sub_add_cancel]
  · obtain ⟨F, h1, h2⟩ := rotate3d_euler f a b c o
    refine ⟨F, h1, ?_⟩
    rw [h2, add_sub_cancel_left, rodrigues_neg unit_ez, rodrigues_neg unit_ey, rodrigues_neg unit_ex,
      sub_add_cancel]

/-- A turn about the unit vector `(0, 3/5, 4/5)`. -/
example (f : ADF 3) (x : Fin 3 → ℝ) : ∃ F, rotate3d f (.scalar (fin 1)) (some (vfin ![0, 3/5, 4/5])) (vfin 0) = .ok F ∧
    F (vfin (0 + rodrigues ![0, 3/5, 4/5] (-1) (x - 0))) = f (vfin x) :=
  (C18_rotate3d_partial f 0 x).1 1 ![0, 3/5, 4/5] (by simp [dotProduct, Fin.sum_univ_three]; norm_num)

/-- C18 is false as stated: with the right hand rule the quarter turn of the half space `x₀ > 0` about the
third axis gives `-1` instead of `1` at the turned point. -/
theorem C18_direction_counterexample : ∃ (f F : ADF 3) (x : Fin 3 → ℝ),
    rotate3d f (.scalar (fin (Real.pi / 2))) (some (vfin ez)) (vfin 0) = .ok F ∧
    f (vfin x) = fin 1 ∧ F (vfin (0 + rodrigues ez (Real.pi / 2) (x - 0))) = fin (-1) := by
  obtain ⟨F, h1, h2⟩ := rotate3d_axis (fun y => y 0) (Real.pi / 2) unit_ez 0
  refine ⟨_, F, ex, h1, by simp [ex], ?_⟩
  rw [h2]
  simp [rodrigues, ex, ez, cross_apply, dotProduct, Fin.sum_univ_three]

/-! ## C19 -/

theorem vnorm_sq_fin {n : ℕ} (v : Fin n → ℝ) : vnorm (vfin v) ^ 2 = fin (v ⬝ᵥ v) := by
  rw [vnorm_fin, fin_npow, Real.sq_sqrt (Finset.sum_nonneg fun i _ => mul_self_nonneg _)]
  rfl

theorem dot_self_ne_zero {n : ℕ} {v : Fin n → ℝ} (hv : v ≠ 0) : v ⬝ᵥ v ≠ 0 := fun h =>
  hv (funext fun i => by
    have := (Finset.sum_eq_zero_iff_of_nonneg fun i _ => mul_self_nonneg (v i)).mp h i (Finset.mem_univ i)
    simpa using this)

theorem reflect_fin {n : ℕ} (f : ADF n) {v : Fin n → ℝ} (hv : v ≠ 0) (o x : Fin n → ℝ) :
    reflect f (vfin v) (vfin o) (vfin x) =
      f (vfin (x - (2 * ((x - o) ⬝ᵥ v) / (v ⬝ᵥ v)) • v)) := by
  rw [reflect, translate_fin]
  have h : (fun i => vfin (x - o) i - 2 * vdot (vfin (x - o)) (vfin v) / vnorm (vfin v) ^ 2 * vfin v i) =
      vfin ((x - o) - (2 * ((x - o) ⬝ᵥ v) / (v ⬝ᵥ v)) • v) := by
    funext i
    rw [vnorm_sq_fin, vdot_fin, lit_eq, fin_mul, fin_div _ (dot_self_ne_zero hv)]
    rfl
  simp only [h]
  rw [translate_neg_fin]
  congr 2
  abel

/-- C19. For `v ≠ 0`: the value at the mirror image `y` of `x` in the plane through `o` with normal `v` is
`f x`; the result depends neither on length nor on sign of `v`; reflecting twice restores `f`; points of
the plane keep their value. For `v = 0` (and positive dimension) `f` is evaluated at a point all of whose
coordinates are no numbers. -/
theorem C19_reflect {n : ℕ} (f : ADF n) (v o : Fin n → ℝ) :
    (v ≠ 0 →
      (∀ x y : Fin n → ℝ, IsMirror v (x - o) (y - o) →
        reflect f (vfin v) (vfin o) (vfin y) = f (vfin x)) ∧
      (∀ (c : ℝ) (x : Fin n → ℝ), c ≠ 0 →
        reflect f (vfin (c • v)) (vfin o) (vfin x) = reflect f (vfin v) (vfin o) (vfin x)) ∧
      (∀ x : Fin n → ℝ, reflect (reflect f (vfin v) (vfin o)) (vfin v) (vfin o) (vfin x) = f (vfin x)) ∧
      (∀ x : Fin n → ℝ, (x - o) ⬝ᵥ v = 0 → reflect f (vfin v) (vfin o) (vfin x) = f (vfin x))) ∧
    (∀ x : Fin n → ℝ, reflect f (vfin 0) (vfin o) (vfin x) = f fun _ => nan) := by
  constructor
  · intro hv
    have hvv := dot_self_ne_zero hv
    refine ⟨fun x y h => ?_, fun c x hc => ?_, fun x => ?_, fun x hx => ?_⟩
    · obtain ⟨⟨c, hc⟩, h2⟩ := h
      rw [reflect_fin f hv]
      congr 2
      have hy : y = x + c • v := by
        rw [← hc]; abel
      have h3 : 2 * ((y - o) ⬝ᵥ v) = c * (v ⬝ᵥ v) := by
        have h4 : v ⬝ᵥ (x - o) + v ⬝ᵥ (y - o) = 0 := by rw [← dotProduct_add]; exact h2
        have h5 : v ⬝ᵥ (y - o) - v ⬝ᵥ (x - o) = c * (v ⬝ᵥ v) := by
          rw [← dotProduct_sub, hc, dotProduct_smul, smul_eq_mul]
        rw [dotProduct_comm]
        linarith
      rw [h3, mul_div_assoc, div_self hvv, mul_one, hy]
      abel
    · rw [reflect_fin f hv, reflect_fin f (smul_ne_zero hc hv)]
      congr 3
      rw [smul_smul]
      congr 1
      simp only [dotProduct_smul, smul_dotProduct, smul_eq_mul]
      field_simp
    · rw [reflect_fin _ hv, reflect_fin f hv]
      congr 2
      have h3 : (x - (2 * ((x - o) ⬝ᵥ v) / (v ⬝ᵥ v)) • v - o) ⬝ᵥ v = -((x - o) ⬝ᵥ v) := by
        rw [sub_right_comm, sub_dotProduct, smul_dotProduct, smul_eq_mul]
        field_simp
        ring
      rw [h3, mul_neg, neg_div, neg_smul]
      abel
    · rw [reflect_fin f hv, hx]; simp
  · intro x
    simp only [reflect, translate]
    congr 1
    funext i
    have h : vnorm (vfin (0 : Fin n → ℝ)) ^ 2 = fin 0 := by rw [vnorm_sq_fin]; simp
    have h2 : vdot (fun i => vfin x i - vfin o i) (vfin 0) = fin 0 := by
      have : (fun i => vfin x i - vfin o i) = vfin (x - o) := by funext i; simp
      rw [this, vdot_fin]; simp
    rw [h, h2]
    simp

/-- Non-vacuity: mirror images exist for every `v ≠ 0`. -/
example : IsMirror (![1, 1] : Fin 2 → ℝ) (![1, 0] - ![0, 0]) (![0, -1] - ![0, 0]) := by
  refine ⟨⟨-1, ?_⟩, ?_⟩
  · funext i; fin_cases i <;> simp
  · simp [dotProduct, Fin.sum_univ_two]

/-! ## C20 -/

theorem project_fin {n : ℕ} (f : ADF n) {v : Fin n → ℝ} (hv : v ≠ 0) (o x : Fin n → ℝ) :
    project f (vfin v) (vfin o) (vfin x) = f (vfin (x - (((x - o) ⬝ᵥ v) / (v ⬝ᵥ v)) • v)) := by
  rw [project, translate_fin]
  have h : (fun i => vfin (x - o) i - vdot (vfin (x - o)) (vfin v) / vnorm (vfin v) ^ 2 * vfin v i) =
      vfin ((x - o) - (((x - o) ⬝ᵥ v) / (v ⬝ᵥ v)) • v) := by
    funext i
    rw [vnorm_sq_fin, vdot_fin, fin_div _ (dot_self_ne_zero hv)]
    rfl
  simp only [h]
  rw [translate_neg_fin]
  congr 2
  abel

/-- C20. For `v ≠ 0`: the projected ADF is constant along `v`, agrees with `f` on the plane through `o`
orthogonal to `v`, takes at every point the value of `f` at the foot of the perpendicular, and projecting
twice is projecting once. -/
theorem C20_project {n : ℕ} (f : ADF n) (v o : Fin n → ℝ) (hv : v ≠ 0) :
    (∀ (x : Fin n → ℝ) (c : ℝ),
      project f (vfin v) (vfin o) (vfin (x + c • v)) = project f (vfin v) (vfin o) (vfin x)) ∧
    (∀ x : Fin n → ℝ, (x - o) ⬝ᵥ v = 0 → project f (vfin v) (vfin o) (vfin x) = f (vfin x)) ∧
    (∀ (p : Fin n → ℝ) (c : ℝ), (p - o) ⬝ᵥ v = 0 →
      project f (vfin v) (vfin o) (vfin (p + c • v)) = f (vfin p)) ∧
    (∀ x : Fin n → ℝ, project (project f (vfin v) (vfin o)) (vfin v) (vfin o) (vfin x) =
      project f (vfin v) (vfin o) (vfin x)) := by
  have hvv := dot_self_ne_zero hv
  have h1 : ∀ (x : Fin n → ℝ) (c : ℝ),
      project f (vfin v) (vfin o) (vfin (x + c • v)) = project f (vfin v) (vfin o) (vfin x) := by
    intro x c
    rw [project_fin f hv, project_fin f hv]
    congr 2
    have h3 : (x + c • v - o) ⬝ᵥ v = (x - o) ⬝ᵥ v + c * (v ⬝ᵥ v) := by
      rw [add_sub_right_comm, add_dotProduct, smul_dotProduct, smul_eq_mul]
    rw [h3, add_div, mul_div_assoc, div_self hvv, mul_one, add_smul]
    abel
  have h2 : ∀ x : Fin n → ℝ, (x - o) ⬝ᵥ v = 0 → project f (vfin v) (vfin o) (vfin x) = f (vfin x) := by
    intro x hx
    rw [project_fin f hv, hx]; simp
  refine ⟨h1, h2, fun p c hp => by rw [h1, h2 p hp], fun x => ?_⟩
  rw [project_fin _ hv, sub_eq_add_neg, ← neg_smul, h1]

/-- Non-vacuity. -/
example : (![0, 0, 1] : Fin 3 → ℝ) ≠ 0 ∧ (![1, 2, 5] - ![0, 0, 5] : Fin 3 → ℝ) ⬝ᵥ ![0, 0, 1] = 0 := by
  refine ⟨fun h => by simpa using congrFun h 2, ?_⟩
  simp [dotProduct, Fin.sum_univ_three]

/-! ## C21 -/

/-- C21. Revolution about the first (second) axis is invariant under all rotations about it and agrees
with `f` on the half plane of non-negative radius; another axis raises `ValueError` at every point. -/
theorem C21_revolution (f : ADF 2) :
    (∀ (t : ℝ) (x : Fin 3 → ℝ), revolution f 0 (vfin (rodrigues ex t x)) = revolution f 0 (vfin x)) ∧
    (∀ (t : ℝ) (x : Fin 3 → ℝ), revolution f 1 (vfin (rodrigues ey t x)) = revolution f 1 (vfin x)) ∧
    (∀ a r : ℝ, 0 ≤ r → revolution f 0 (vfin ![a, r, 0]) = .ok (f (vfin ![a, r]))) ∧
    (∀ a r : ℝ, 0 ≤ r → revolution f 1 (vfin ![r, a, 0]) = .ok (f (vfin ![r, a]))) ∧
    (∀ (k : ℤ) (x : Vec 3), k ≠ 0 → k ≠ 1 → revolution f k x = .error .valueError) := by
  refine ⟨fun t x => ?_, fun t x => ?_, fun a r hr => ?_, fun a r hr => ?_, fun k x h0 h1 => ?_⟩
  · simp only [revolution, if_true]
    have h := Real.cos_sq_add_sin_sq t
    have e : vfin (rodrigues ex t x) 1 ^ 2 + vfin (rodrigues ex t x) 2 ^ 2 = vfin x 1 ^ 2 + vfin x 2 ^ 2 := by
      simp [rodrigues, ex, cross_apply, dotProduct, Fin.sum_univ_three, vecHead, vecTail]
      linear_combination (x 1 ^ 2 + x 2 ^ 2) * h
    have e0 : vfin (rodrigues ex t x) 0 = vfin x 0 := by
      simp [rodrigues, ex, cross_apply, dotProduct, Fin.sum_univ_three, vecHead, vecTail]
      ring
    rw [e, e0]
  · simp only [revolution, one_ne_zero, if_false, if_true]
    have h := Real.cos_sq_add_sin_sq t
    have e : vfin (rodrigues ey t x) 0 ^ 2 + vfin (rodrigues ey t x) 2 ^ 2 = vfin x 0 ^ 2 + vfin x 2 ^ 2 := by
      simp [rodrigues, ey, cross_apply, dotProduct, Fin.sum_univ_three, vecHead, vecTail]
      linear_combination (x 0 ^ 2 + x 2 ^ 2) * h
    have e0 : vfin (rodrigues ey t x) 1 = vfin x 1 := by
      simp [rodrigues, ey, cross_apply, dotProduct, Fin.sum_univ_three, vecHead, vecTail]
      ring
    rw [e, e0]
  · simp only [revolution, if_true]
    congr 2
    have h : sqrt (vfin ![a, r, 0] 1 ^ 2 + vfin ![a, r, 0] 2 ^ 2) = fin r := by
      simp
      rw [fin_sqrt (by positivity), Real.sqrt_sq hr]
    rw [h]
    funext i
    fin_cases i <;> rfl
  · simp only [revolution, one_ne_zero, if_false, if_true]
    congr 2
    have h : sqrt (vfin ![r, a, 0] 0 ^ 2 + vfin ![r, a, 0] 2 ^ 2) = fin r := by
      simp
      rw [fin_sqrt (by positivity), Real.sqrt_sq hr]
    rw [h]
    funext i
    fin_cases i <;> rfl
  · simp [revolution, h0, h1]

/-- The half plane `x₁ < 2` gives a cylinder of radius `2`. -/
example : revolution (fun x => fin 2 - x 1) 0 (vfin ![5, 1, 0]) = .ok (fin 2 - fin 1) :=
  (C21_revolution fun x => fin 2 - x 1).2.2.1 5 1 (by norm_num)

end Verif
