import Verif.Model.FloatOde
import Verif.Props.FloatQuad
import Verif.Props.Ode
import Mathlib.Analysis.Complex.ExponentialBounds
import Mathlib.Analysis.Normed.Group.Constructions

/-! # Property C155: integration of ordinary differential equations in floating point arithmetic (`/repo/magpi/ode.py`)

Arrays of numbers carry the maximum norm. -/

namespace Verif

open XR

/-- Unit roundoff. -/
noncomputable abbrev Fmt.u (F : Fmt) : ℝ := 2 ^ (-(F.p : ℤ))

/-- Error of an underflow. -/
noncomputable abbrev Fmt.η (F : Fmt) : ℝ := 2 ^ (F.emin - 1)

section
variable (F : Fmt)

theorem Fmt.u_pos : 0 < F.u := by positivity

theorem Fmt.η_pos : 0 < F.η := by positivity

theorem Fmt.u_le : F.u ≤ 1 / 4 := by
  have hp := F.hp
  calc F.u ≤ 2 ^ (-2 : ℤ) := zpow_le_zpow_right₀ (by norm_num) (by omega)
    _ = 1 / 4 := by norm_num

theorem mulE {a b X : ℝ} (h : |a * b| ≤ X) (hX : X ≤ 2 ^ F.emax) :
    ∃ z, F.mul (fin a) (fin b) = fin z ∧ F.Rep z ∧ |z - a * b| ≤ F.u * X + F.η ∧ |z| ≤ (1 + F.u) * X + F.η := by
  refine ⟨F.rndR (a * b), by rw [Fmt.mul, fin_mul, F.rnd_fin (h.trans hX)], F.rep_rndR _, ?_⟩
  have h1 := rndR_mixed F (a * b)
  have h2 : |a * b| * F.u ≤ X * F.u := mul_le_mul_of_nonneg_right h F.u_pos.le
  have h3 : |F.rndR (a * b) - a * b| ≤ F.u * X + F.η := by linarith
  refine ⟨h3, ?_⟩
  have := abs_sub_abs_le_abs_sub (F.rndR (a * b)) (a * b)
  linarith

theorem addE {a b X : ℝ} (ha : F.Rep a) (hb : F.Rep b) (h : |a + b| ≤ X) (hX : X ≤ 2 ^ F.emax) :
    ∃ z, F.add (fin a) (fin b) = fin z ∧ F.Rep z ∧ |z - (a + b)| ≤ F.u * X ∧ |z| ≤ (1 + F.u) * X := by
  refine ⟨F.rndR (a + b), by rw [Fmt.add, fin_add, F.rnd_fin (h.trans hX)], F.rep_rndR _, ?_⟩
  have h1 := F.rndR_add ha hb
  have h2 : |a + b| * F.u ≤ X * F.u := mul_le_mul_of_nonneg_right h F.u_pos.le
  have h3 : |F.rndR (a + b) - (a + b)| ≤ F.u * X := by linarith
  refine ⟨h3, ?_⟩
  have := abs_sub_abs_le_abs_sub (F.rndR (a + b)) (a + b)
  linarith

/-- Doubling is exact. -/
theorem twoE {a : ℝ} (ha : F.Rep a) (h : |2 * a| ≤ 2 ^ F.emax) : F.mul (fin 2) (fin a) = fin (2 * a) := by
  rw [Fmt.mul, fin_mul, F.rnd_rep (rep_two_mul F ha) (lt_of_le_of_lt h (zpow_lt_zpow_right₀ (by norm_num) (by omega)))]

theorem Fmt.η_le : F.η ≤ F.u / 2 := by
  have := F.hmin
  calc F.η ≤ 2 ^ (-(F.p : ℤ) - 1) := zpow_le_zpow_right₀ (by norm_num) (by omega)
    _ = F.u / 2 := by rw [zpow_sub₀ (by norm_num), zpow_one]

theorem Fmt.const_sixth : ∃ c, F.const (1 / 6) = fin c ∧ |c - 1 / 6| ≤ 2 / 3 * F.u ∧ |c| ≤ 1 / 3 := by
  have h1 : |(1 / 6 : ℝ)| ≤ 2 ^ F.emax := by
    rw [abs_of_pos (by norm_num)]
    have := one_le_zpow₀ (by norm_num : (1 : ℝ) ≤ 2) (show 0 ≤ F.emax by have := F.hmax; omega)
    linarith
  have h2 := rndR_mixed F (1 / 6)
  rw [abs_of_pos (show (0 : ℝ) < 1 / 6 by norm_num)] at h2
  have h3 := F.η_le
  have h4 := F.u_le
  have h5 : |F.rndR (1 / 6) - 1 / 6| ≤ 2 / 3 * F.u := by linarith
  refine ⟨_, F.rnd_fin h1, h5, ?_⟩
  have := abs_sub_abs_le_abs_sub (F.rndR (1 / 6)) (1 / 6)
  rw [abs_of_pos (show (0 : ℝ) < 1 / 6 by norm_num)] at this
  linarith

/-- The quantities of one step: `h` bounds the steps, `M` the dynamics, `R` the state, `E` the errors of the dynamics. -/
structure StepFl (h M R E : ℝ) : Prop where
  h0 : 0 ≤ h
  M0 : 0 ≤ M
  R0 : 0 ≤ R
  E0 : 0 ≤ E
  big : 2 * (R + 8 * (h * M + F.η)) ≤ 2 ^ F.emax

variable {F} {h M R E : ℝ}

/-- `dt * df(..)`. -/
theorem StepFl.stage (hs : StepFl F h M R E) {d d' k k' : ℝ} (hd0 : 0 ≤ d) (hd : d ≤ h) (hd0' : 0 ≤ d') (hd' : d' ≤ h)
    (hdd : |d - d'| ≤ F.u * d') (hk : |k| ≤ M) (hk' : |k'| ≤ M) (hkk : |k - k'| ≤ E) :
    ∃ z, F.mul (fin d) (fin k) = fin z ∧ F.Rep z ∧ |z| ≤ 5 / 4 * (h * M + F.η) ∧ |z - d' * k'| ≤ h * E + 2 * (F.u * (h * M)) + F.η ∧
      |d' * k'| ≤ h * M := by
  have hu := F.u_pos
  have hu4 := F.u_le
  have hη := F.η_pos
  have hM := hs.M0
  have hE := hs.E0
  have hR := hs.R0
  have hhM : 0 ≤ h * M := mul_nonneg hs.h0 hs.M0
  have h1 : |d * k| ≤ h * M := by
    rw [abs_mul, abs_of_nonneg hd0]; exact mul_le_mul hd hk (abs_nonneg _) hs.h0
  have h1' : |d' * k'| ≤ h * M := by
    rw [abs_mul, abs_of_nonneg hd0']; exact mul_le_mul hd' hk' (abs_nonneg _) hs.h0
  obtain ⟨z, hz, hr, he, hb⟩ := mulE F h1 (by have := hs.big; linarith)
  refine ⟨z, hz, hr, ?_, ?_, h1'⟩
  · have : F.u * (h * M) ≤ 1 / 4 * (h * M) := mul_le_mul_of_nonneg_right hu4 hhM
    linarith
  · have e : z - d' * k' = (z - d * k) + (d * (k - k') + (d - d') * k') := by ring
    have e1 : |d * (k - k')| ≤ h * E := by
      rw [abs_mul, abs_of_nonneg hd0]; exact mul_le_mul hd hkk (abs_nonneg _) hs.h0
    have e2 : |(d - d') * k'| ≤ F.u * (h * M) := by
      rw [abs_mul]
      calc |d - d'| * |k'| ≤ (F.u * d') * M := mul_le_mul hdd hk' (abs_nonneg _) (by positivity)
        _ ≤ (F.u * h) * M := mul_le_mul_of_nonneg_right (mul_le_mul_of_nonneg_left hd' hu.le) hM
        _ = _ := by ring
    rw [e]
    have := abs_add_le (z - d * k) (d * (k - k') + (d - d') * k')
    have := abs_add_le (d * (k - k')) ((d - d') * k')
    linarith

/-- `y + 1 / 2 * y1`. -/
theorem StepFl.half (hs : StepFl F h M R E) {y z Y a : ℝ} (hy : F.Rep y) (hyR : |y| ≤ R)
    (hz : |z| ≤ 5 / 4 * (h * M + F.η)) (he : |z - Y| ≤ a) :
    ∃ x, F.add (fin y) (F.mul (fin (1 / 2)) (fin z)) = fin x ∧ F.Rep x ∧ |x| ≤ (1 + F.u) * (R + 2 * (h * M + F.η)) ∧
      |x - (y + 1 / 2 * Y)| ≤ a + F.u * (R + 3 * (h * M + F.η)) + F.η := by
  have hu := F.u_pos
  have hu4 := F.u_le
  have hη := F.η_pos
  have hR := hs.R0
  have hhM : 0 ≤ h * M := mul_nonneg hs.h0 hs.M0
  have hbig := hs.big
  set m := h * M + F.η with hm
  have hm0 : 0 ≤ m := by positivity
  have hum : F.u * m ≤ 1 / 4 * m := mul_le_mul_of_nonneg_right hu4 hm0
  have hum0 : 0 ≤ F.u * m := by positivity
  have hηm : F.η ≤ m := by linarith
  obtain ⟨w, hw, hwr, hwe, hwb⟩ := mulE F (a := 1 / 2) (b := z) (X := 5 / 8 * m) (by
    rw [abs_mul, abs_of_pos (by norm_num)]; linarith) (by linarith)
  have hw2 : |w| ≤ 2 * m := by linarith
  obtain ⟨x, hx, hxr, hxe, hxb⟩ := addE F hy hwr (X := R + 2 * m) ((abs_add_le _ _).trans (by linarith)) (by linarith)
  refine ⟨x, by rw [hw, hx], hxr, hxb, ?_⟩
  have e : x - (y + 1 / 2 * Y) = (x - (y + w)) + ((w - 1 / 2 * z) + 1 / 2 * (z - Y)) := by ring
  rw [e]
  have t1 := abs_add_le (x - (y + w)) ((w - 1 / 2 * z) + 1 / 2 * (z - Y))
  have t2 := abs_add_le (w - 1 / 2 * z) (1 / 2 * (z - Y))
  have t3 : |1 / 2 * (z - Y)| ≤ 1 / 2 * a := by rw [abs_mul, abs_of_pos (by norm_num)]; linarith
  have ha : 0 ≤ a := (abs_nonneg _).trans he
  have t4 : F.u * (R + 3 * m) = F.u * (R + 2 * m) + F.u * m := by ring
  rw [t4]
  linarith

/-- `y + y3`. -/
theorem StepFl.full (hs : StepFl F h M R E) {y z Y a : ℝ} (hy : F.Rep y) (hyR : |y| ≤ R)
    (hzr : F.Rep z) (hz : |z| ≤ 5 / 4 * (h * M + F.η)) (he : |z - Y| ≤ a) :
    ∃ x, F.add (fin y) (fin z) = fin x ∧ F.Rep x ∧ |x| ≤ (1 + F.u) * (R + 2 * (h * M + F.η)) ∧
      |x - (y + Y)| ≤ a + F.u * (R + 3 * (h * M + F.η)) + F.η := by
  have hu := F.u_pos
  have hη := F.η_pos
  have hR := hs.R0
  have hhM : 0 ≤ h * M := mul_nonneg hs.h0 hs.M0
  have hbig := hs.big
  set m := h * M + F.η with hm
  have hm0 : 0 ≤ m := by positivity
  have hum0 : 0 ≤ F.u * m := by positivity
  obtain ⟨x, hx, hxr, hxe, hxb⟩ := addE F hy hzr (X := R + 2 * m) ((abs_add_le _ _).trans (by linarith)) (by linarith)
  refine ⟨x, hx, hxr, hxb, ?_⟩
  have e : x - (y + Y) = (x - (y + z)) + (z - Y) := by ring
  rw [e]
  have t1 := abs_add_le (x - (y + z)) (z - Y)
  have t4 : F.u * (R + 3 * m) = F.u * (R + 2 * m) + F.u * m := by ring
  rw [t4]
  linarith

/-- The last line of `rk4`. -/
theorem StepFl.final (hs : StepFl F h M R E) {y z1 z2 z3 z4 Y1 Y2 Y3 Y4 a : ℝ} (hy : F.Rep y) (hyR : |y| ≤ R)
    (r1 : F.Rep z1) (r2 : F.Rep z2) (r3 : F.Rep z3) (r4 : F.Rep z4)
    (b1 : |z1| ≤ 5 / 4 * (h * M + F.η)) (b2 : |z2| ≤ 5 / 4 * (h * M + F.η)) (b3 : |z3| ≤ 5 / 4 * (h * M + F.η)) (b4 : |z4| ≤ 5 / 4 * (h * M + F.η))
    (e1 : |z1 - Y1| ≤ a) (e2 : |z2 - Y2| ≤ a) (e3 : |z3 - Y3| ≤ a) (e4 : |z4 - Y4| ≤ a)
    (c1 : |Y1| ≤ h * M) (c2 : |Y2| ≤ h * M) (c3 : |Y3| ≤ h * M) (c4 : |Y4| ≤ h * M) :
    ∃ x, F.add (fin y) (F.mul (F.const (1 / 6))
        (F.add (F.add (F.add (fin z1) (F.mul (fin 2) (fin z2))) (F.mul (fin 2) (fin z3))) (fin z4))) = fin x ∧ F.Rep x ∧
      |x - (y + 1 / 6 * (Y1 + 2 * Y2 + 2 * Y3 + Y4))| ≤ 2 * a + F.u * (R + 24 * (h * M + F.η)) + F.η := by
  have hu := F.u_pos
  have hu4 := F.u_le
  have hη := F.η_pos
  have hR := hs.R0
  have hhM : 0 ≤ h * M := mul_nonneg hs.h0 hs.M0
  have hbig := hs.big
  have ha : 0 ≤ a := (abs_nonneg _).trans e1
  have hmM : h * M ≤ h * M + F.η := by linarith
  set m := h * M + F.η with hm
  have hm0 : 0 ≤ m := by positivity
  have hum : F.u * m ≤ 1 / 4 * m := mul_le_mul_of_nonneg_right hu4 hm0
  have hum0 : 0 ≤ F.u * m := by positivity
  have hηm : F.η ≤ m := by linarith
  have two : ∀ z : ℝ, |z| ≤ 5 / 4 * m → |2 * z| ≤ 5 / 2 * m := fun z hz => by
    rw [abs_mul, abs_of_pos (by norm_num : (0 : ℝ) < 2)]; linarith
  rw [twoE F r2 ((two _ b2).trans (by linarith)), twoE F r3 ((two _ b3).trans (by linarith))]
  obtain ⟨s1, hs1, rs1, es1, bs1⟩ := addE F r1 (rep_two_mul F r2) (X := 15 / 4 * m) ((abs_add_le _ _).trans (by linarith [two _ b2])) (by linarith)
  have bs1' : |s1| ≤ 5 * m := by nlinarith
  obtain ⟨s2, hs2, rs2, es2, bs2⟩ := addE F rs1 (rep_two_mul F r3) (X := 15 / 2 * m) ((abs_add_le _ _).trans (by linarith [two _ b3])) (by linarith)
  have bs2' : |s2| ≤ 19 / 2 * m := by nlinarith
  obtain ⟨s3, hs3, rs3, es3, bs3⟩ := addE F rs2 r4 (X := 43 / 4 * m) ((abs_add_le _ _).trans (by linarith)) (by linarith)
  have bs3' : |s3| ≤ 27 / 2 * m := by nlinarith
  obtain ⟨c, hc, ec, bc⟩ := F.const_sixth
  have hS : |s3 - (Y1 + 2 * Y2 + 2 * Y3 + Y4)| ≤ 6 * a + 22 * (F.u * m) := by
    have e : s3 - (Y1 + 2 * Y2 + 2 * Y3 + Y4) = (s3 - (s2 + z4)) + (s2 - (s1 + 2 * z3)) + (s1 - (z1 + 2 * z2)) +
        ((z1 - Y1) + 2 * (z2 - Y2) + 2 * (z3 - Y3) + (z4 - Y4)) := by ring
    rw [abs_le] at *
    constructor <;> linarith [es1.1, es1.2, es2.1, es2.2, es3.1, es3.2]
  have hY : |Y1 + 2 * Y2 + 2 * Y3 + Y4| ≤ 6 * m := by
    rw [abs_le] at *
    constructor <;> linarith
  have hcs : |c * s3| ≤ 9 / 2 * m := by
    rw [abs_mul]
    calc |c| * |s3| ≤ 1 / 3 * (27 / 2 * m) := mul_le_mul bc bs3' (abs_nonneg _) (by norm_num)
      _ = _ := by ring
  obtain ⟨w, hw, rw', ew, bw⟩ := mulE F hcs (by linarith)
  have bw' : |w| ≤ 27 / 4 * m := by linarith
  obtain ⟨x, hx, rx, ex, -⟩ := addE F hy rw' (X := R + 27 / 4 * m) ((abs_add_le _ _).trans (by linarith)) (by linarith)
  refine ⟨x, by rw [hs1, hs2, hs3, hc, hw, hx], rx, ?_⟩
  have e : x - (y + 1 / 6 * (Y1 + 2 * Y2 + 2 * Y3 + Y4)) = (x - (y + w)) + ((w - c * s3) + (c * (s3 - (Y1 + 2 * Y2 + 2 * Y3 + Y4)) +
      (c - 1 / 6) * (Y1 + 2 * Y2 + 2 * Y3 + Y4))) := by ring
  have t1 : |c * (s3 - (Y1 + 2 * Y2 + 2 * Y3 + Y4))| ≤ 1 / 3 * (6 * a + 22 * (F.u * m)) := by
    rw [abs_mul]; exact mul_le_mul bc hS (abs_nonneg _) (by norm_num)
  have t2 : |(c - 1 / 6) * (Y1 + 2 * Y2 + 2 * Y3 + Y4)| ≤ 2 / 3 * F.u * (6 * m) := by
    rw [abs_mul]; exact mul_le_mul ec hY (abs_nonneg _) (by positivity)
  rw [e]
  have t3 := abs_add_le (x - (y + w)) ((w - c * s3) + (c * (s3 - (Y1 + 2 * Y2 + 2 * Y3 + Y4)) + (c - 1 / 6) * (Y1 + 2 * Y2 + 2 * Y3 + Y4)))
  have t4 := abs_add_le (w - c * s3) (c * (s3 - (Y1 + 2 * Y2 + 2 * Y3 + Y4)) + (c - 1 / 6) * (Y1 + 2 * Y2 + 2 * Y3 + Y4))
  have t5 := abs_add_le (c * (s3 - (Y1 + 2 * Y2 + 2 * Y3 + Y4))) ((c - 1 / 6) * (Y1 + 2 * Y2 + 2 * Y3 + Y4))
  have t6 : F.u * (R + 24 * m) = F.u * R + 24 * (F.u * m) := by ring
  have t7 : F.u * (R + 27 / 4 * m) = F.u * R + 27 / 4 * (F.u * m) := by ring
  have t8 : F.u * (9 / 2 * m) = 9 / 2 * (F.u * m) := by ring
  rw [t6]
  rw [t7] at ex
  rw [t8] at ew
  linarith


/-- What is known about the dynamics `f` and its computed version `fl`, for states of norm at most `B` and times up to `S`. -/
structure DynFl (F : Fmt) {n : ℕ} (f : (Fin n → ℝ) → ℝ → (Fin n → ℝ)) (fl : Vec n → XR → Vec n) (B S M L K ε : ℝ) : Prop where
  bound : ∀ z s, ‖z‖ ≤ B → |s| ≤ S → ‖f z s‖ ≤ M
  lip : ∀ z z' s s', ‖z‖ ≤ B → ‖z'‖ ≤ B → |s| ≤ S → |s'| ≤ S → ‖f z s - f z' s'‖ ≤ L * ‖z - z'‖ + K * |s - s'|
  comp : ∀ z s, (∀ i, F.Rep (z i)) → F.Rep s → ‖z‖ ≤ B → |s| ≤ S →
    ∃ w, fl (vfin z) (fin s) = vfin w ∧ ‖w - f z s‖ ≤ ε ∧ ‖w‖ ≤ M

/-- The parameters of the integration: steps up to `h`, states up to `R`, times up to `T`. -/
structure OdeFl (F : Fmt) (B S M L K ε h R T : ℝ) : Prop where
  h0 : 0 ≤ h
  M0 : 0 ≤ M
  L0 : 0 ≤ L
  K0 : 0 ≤ K
  ε0 : 0 ≤ ε
  R0 : 0 ≤ R
  T0 : 0 ≤ T
  small : h * L ≤ 1 / 2
  ball : (1 + F.u) * (R + 2 * (h * M + F.η)) ≤ B
  time : (1 + F.u) * (T + h + F.η) ≤ S
  big : 2 * (R + 8 * (h * M + F.η)) ≤ 2 ^ F.emax
  big' : T + h + F.η ≤ 2 ^ F.emax

/-- The error of the time in the evaluations of the dynamics. -/
noncomputable def timeErr (F : Fmt) (h T : ℝ) : ℝ := F.u * (T + 2 * h + F.η) + F.η

/-- The error of the evaluations of the dynamics. -/
noncomputable def dynErr (F : Fmt) (M L K ε h R T : ℝ) : ℝ :=
  2 * (ε + K * timeErr F h T + F.u * M + L * (F.u * (R + 3 * (h * M + F.η)) + 2 * F.η))

/-- The error of `dt * df(..)`. -/
noncomputable def stageErr (F : Fmt) (M L K ε h R T : ℝ) : ℝ := h * dynErr F M L K ε h R T + 2 * (F.u * (h * M)) + F.η

/-- The error of one step. -/
noncomputable def stepErr (F : Fmt) (M L K ε h R T : ℝ) : ℝ :=
  2 * stageErr F M L K ε h R T + F.u * (R + 24 * (h * M + F.η)) + F.η

section
variable {B S L K ε T : ℝ}

theorem timeErr_nonneg (hT : 0 ≤ T) (hh : 0 ≤ h) : 0 ≤ timeErr F h T := by
  have := F.η_pos
  have := F.u_pos
  unfold timeErr
  positivity

theorem OdeFl.step (ho : OdeFl F B S M L K ε h R T) : StepFl F h M R (dynErr F M L K ε h R T) := by
  have := ho.h0; have := ho.M0; have := ho.L0; have := ho.K0; have := ho.ε0; have := ho.R0
  have := F.η_pos; have := F.u_pos
  have h1 := timeErr_nonneg (F := F) ho.T0 ho.h0
  refine ⟨ho.h0, ho.M0, ho.R0, ?_, ho.big⟩
  unfold dynErr
  positivity

theorem OdeFl.half_time (ho : OdeFl F B S M L K ε h R T) {t d d' : ℝ} (ht : F.Rep t) (htT : |t| ≤ T) (hd0 : 0 ≤ d) (hd : d ≤ h) (hd' : d' ≤ h)
    (hdd : |d - d'| ≤ F.u * d') :
    ∃ s, F.add (fin t) (F.div (fin d) (fin 2)) = fin s ∧ F.Rep s ∧ |s| ≤ S ∧ |s - (t + d' / 2)| ≤ timeErr F h T := by
  have hu := F.u_pos
  have hu4 := F.u_le
  have hη := F.η_pos
  have hh := ho.h0
  have hb := ho.big'
  have hT := ho.T0
  have h1 : |d / 2| ≤ 2 ^ F.emax := by rw [abs_of_nonneg (by linarith)]; linarith
  have h2 := rndR_mixed F (d / 2)
  rw [abs_of_nonneg (show 0 ≤ d / 2 by linarith)] at h2
  have hdu : d * F.u ≤ h * F.u := mul_le_mul_of_nonneg_right hd hu.le
  have hhu : F.u * h ≤ 1 / 4 * h := mul_le_mul_of_nonneg_right hu4 hh
  have hdu' : F.u * d' ≤ F.u * h := mul_le_mul_of_nonneg_left hd' hu.le
  have h3 : |F.rndR (d / 2) - d' / 2| ≤ F.u * h + F.η := by
    have e : F.rndR (d / 2) - d' / 2 = (F.rndR (d / 2) - d / 2) + (d - d') / 2 := by ring
    rw [e]
    have := abs_add_le (F.rndR (d / 2) - d / 2) ((d - d') / 2)
    rw [abs_div, abs_of_pos (show (0 : ℝ) < 2 by norm_num)] at this
    linarith
  have h4 : |F.rndR (d / 2)| ≤ h + F.η := by
    have := abs_sub_abs_le_abs_sub (F.rndR (d / 2)) (d / 2)
    rw [abs_of_nonneg (show 0 ≤ d / 2 by linarith)] at this
    linarith
  obtain ⟨s, hs, hsr, hse, hsb⟩ := addE F ht (F.rep_rndR (d / 2)) (X := T + h + F.η) ((abs_add_le _ _).trans (by linarith)) hb
  refine ⟨s, ?_, hsr, hsb.trans ho.time, ?_⟩
  · rw [Fmt.div, fin_div _ (by norm_num), F.rnd_fin h1, hs]
  · have e : s - (t + d' / 2) = (s - (t + F.rndR (d / 2))) + (F.rndR (d / 2) - d' / 2) := by ring
    rw [e]
    have := abs_add_le (s - (t + F.rndR (d / 2))) (F.rndR (d / 2) - d' / 2)
    unfold timeErr
    linarith

theorem OdeFl.full_time (ho : OdeFl F B S M L K ε h R T) {t d d' : ℝ} (ht : F.Rep t) (htT : |t| ≤ T) (hdr : F.Rep d) (hd0 : 0 ≤ d) (hd : d ≤ h)
    (hd' : d' ≤ h) (hdd : |d - d'| ≤ F.u * d') :
    ∃ s, F.add (fin t) (fin d) = fin s ∧ F.Rep s ∧ |s| ≤ S ∧ |s - (t + d')| ≤ timeErr F h T := by
  have hu := F.u_pos
  have hη := F.η_pos
  have hb := ho.big'
  have hdu' : F.u * d' ≤ F.u * h := mul_le_mul_of_nonneg_left hd' hu.le
  obtain ⟨s, hs, hsr, hse, hsb⟩ := addE F ht hdr (X := T + h + F.η) ((abs_add_le _ _).trans (by rw [abs_of_nonneg hd0]; linarith)) hb
  refine ⟨s, hs, hsr, hsb.trans ho.time, ?_⟩
  have e : s - (t + d') = (s - (t + d)) + (d - d') := by ring
  rw [e]
  have := abs_add_le (s - (t + d)) (d - d')
  unfold timeErr
  linarith

theorem OdeFl.time_le (ho : OdeFl F B S M L K ε h R T) {t c : ℝ} (htT : |t| ≤ T) (hc0 : 0 ≤ c) (hc : c ≤ h) : |t + c| ≤ S := by
  have hu := F.u_pos
  have hη := F.η_pos
  have hh := ho.h0
  have hT := ho.T0
  have h1 := ho.time
  have h2 : 0 ≤ F.u * (T + h + F.η) := by positivity
  refine (abs_add_le _ _).trans ?_
  rw [abs_of_nonneg hc0]
  linarith

theorem OdeFl.ball_le (ho : OdeFl F B S M L K ε h R T) : R + h * M ≤ B := by
  have hu := F.u_pos
  have hη := F.η_pos
  have hR := ho.R0
  have hhM : 0 ≤ h * M := mul_nonneg ho.h0 ho.M0
  have h1 := ho.ball
  have h2 : 0 ≤ F.u * (R + 2 * (h * M + F.η)) := by positivity
  linarith

/-- The error of the dynamics from the errors of its arguments. -/
theorem OdeFl.dyn (ho : OdeFl F B S M L K ε h R T) {n : ℕ} {f : (Fin n → ℝ) → ℝ → (Fin n → ℝ)} {fl : Vec n → XR → Vec n}
    (hf : DynFl F f fl B S M L K ε) {z z' : Fin n → ℝ} {s s' : ℝ} (hz : ∀ i, F.Rep (z i)) (hs : F.Rep s) (hzB : ‖z‖ ≤ B) (hzB' : ‖z'‖ ≤ B)
    (hsS : |s| ≤ S) (hsS' : |s'| ≤ S) (ez : ‖z - z'‖ ≤ stageErr F M L K ε h R T + F.u * (R + 3 * (h * M + F.η)) + F.η)
    (es : |s - s'| ≤ timeErr F h T) :
    ∃ w, fl (vfin z) (fin s) = vfin w ∧ (∀ i, |w i| ≤ M) ∧ (∀ i, |f z' s' i| ≤ M) ∧ ∀ i, |w i - f z' s' i| ≤ dynErr F M L K ε h R T := by
  obtain ⟨w, hw, he, hb⟩ := hf.comp z s hz hs hzB hsS
  refine ⟨w, hw, fun i => (norm_le_pi_norm w i).trans hb, fun i => (norm_le_pi_norm _ i).trans (hf.bound z' s' hzB' hsS'), fun i => ?_⟩
  have h1 := hf.lip z z' s s' hzB hzB' hsS hsS'
  have h2 : ‖w - f z' s'‖ ≤ ε + (L * ‖z - z'‖ + K * |s - s'|) := by
    have : w - f z' s' = (w - f z s) + (f z s - f z' s') := by abel
    rw [this]
    exact (norm_add_le _ _).trans (add_le_add he h1)
  refine (norm_le_pi_norm (w - f z' s') i).trans (h2.trans ?_)
  have h3 : L * ‖z - z'‖ ≤ L * (stageErr F M L K ε h R T + F.u * (R + 3 * (h * M + F.η)) + F.η) := mul_le_mul_of_nonneg_left ez ho.L0
  have h4 : K * |s - s'| ≤ K * timeErr F h T := mul_le_mul_of_nonneg_left es ho.K0
  have hE : 0 ≤ dynErr F M L K ε h R T := ho.step.E0
  have h5 : L * (h * dynErr F M L K ε h R T) ≤ 1 / 2 * dynErr F M L K ε h R T := by
    calc L * (h * dynErr F M L K ε h R T) = h * L * dynErr F M L K ε h R T := by ring
      _ ≤ _ := mul_le_mul_of_nonneg_right ho.small hE
  have h6 : L * (2 * (F.u * (h * M))) ≤ F.u * M := by
    calc L * (2 * (F.u * (h * M))) = 2 * (h * L) * (F.u * M) := by ring
      _ ≤ 1 * (F.u * M) := mul_le_mul_of_nonneg_right (by linarith [ho.small]) (mul_nonneg F.u_pos.le ho.M0)
      _ = _ := one_mul _
  have h7 : L * (stageErr F M L K ε h R T + F.u * (R + 3 * (h * M + F.η)) + F.η) = L * (h * dynErr F M L K ε h R T) + L * (2 * (F.u * (h * M))) +
      L * (F.u * (R + 3 * (h * M + F.η)) + 2 * F.η) := by rw [stageErr]; ring
  have h8 : dynErr F M L K ε h R T = 2 * (ε + K * timeErr F h T + F.u * M + L * (F.u * (R + 3 * (h * M + F.η)) + 2 * F.η)) := rfl
  linarith

variable {n : ℕ} {f : (Fin n → ℝ) → ℝ → (Fin n → ℝ)} {fl : Vec n → XR → Vec n}

theorem pi_le {x : Fin n → ℝ} {c : ℝ} (hc : 0 ≤ c) (h : ∀ i, |x i| ≤ c) : ‖x‖ ≤ c := (pi_norm_le_iff_of_nonneg hc).mpr h

theorem OdeFl.stageErr_nonneg (ho : OdeFl F B S M L K ε h R T) : 0 ≤ stageErr F M L K ε h R T := by
  have := ho.h0; have := ho.M0; have := ho.step.E0
  have := F.η_pos; have := F.u_pos
  unfold stageErr
  positivity

theorem OdeFl.argErr_nonneg (ho : OdeFl F B S M L K ε h R T) : 0 ≤ stageErr F M L K ε h R T + F.u * (R + 3 * (h * M + F.η)) + F.η := by
  have := ho.h0; have := ho.M0; have := ho.stageErr_nonneg; have := ho.R0
  have := F.η_pos; have := F.u_pos
  positivity

theorem OdeFl.stepErr_nonneg (ho : OdeFl F B S M L K ε h R T) : 0 ≤ stepErr F M L K ε h R T := by
  have := ho.h0; have := ho.M0; have := ho.stageErr_nonneg; have := ho.R0
  have := F.η_pos; have := F.u_pos
  unfold stepErr
  positivity

/-- All entries of `dt * df(..)`. -/
theorem OdeFl.stage (ho : OdeFl F B S M L K ε h R T) {d d' : ℝ} (hd0 : 0 ≤ d) (hd : d ≤ h) (hd0' : 0 ≤ d') (hd' : d' ≤ h)
    (hdd : |d - d'| ≤ F.u * d') {w k : Fin n → ℝ} (hw : ∀ i, |w i| ≤ M) (hk : ∀ i, |k i| ≤ M) (hwk : ∀ i, |w i - k i| ≤ dynErr F M L K ε h R T) :
    ∃ z : Fin n → ℝ, F.smul (fin d) (vfin w) = vfin z ∧ (∀ i, F.Rep (z i)) ∧ (∀ i, |z i| ≤ 5 / 4 * (h * M + F.η)) ∧
      (∀ i, |z i - (d' • k) i| ≤ stageErr F M L K ε h R T) ∧ ∀ i, |(d' • k) i| ≤ h * M := by
  choose z h1 h2 h3 h4 h5 using fun i => ho.step.stage hd0 hd hd0' hd' hdd (hw i) (hk i) (hwk i)
  exact ⟨z, funext h1, h2, h3, h4, h5⟩

theorem OdeFl.half (ho : OdeFl F B S M L K ε h R T) {y z Y : Fin n → ℝ} (hy : ∀ i, F.Rep (y i)) (hyR : ‖y‖ ≤ R)
    (hz : ∀ i, |z i| ≤ 5 / 4 * (h * M + F.η)) (he : ∀ i, |z i - Y i| ≤ stageErr F M L K ε h R T) (hY : ∀ i, |Y i| ≤ h * M) :
    ∃ x : Fin n → ℝ, F.vadd (vfin y) (F.smul (fin (1 / 2)) (vfin z)) = vfin x ∧ (∀ i, F.Rep (x i)) ∧ ‖x‖ ≤ B ∧ ‖y + (1 / 2 : ℝ) • Y‖ ≤ B ∧
      ‖x - (y + (1 / 2 : ℝ) • Y)‖ ≤ stageErr F M L K ε h R T + F.u * (R + 3 * (h * M + F.η)) + F.η := by
  choose x h1 h2 h3 h4 using fun i => ho.step.half (hy i) ((norm_le_pi_norm y i).trans hyR) (hz i) (he i)
  have hhM : 0 ≤ h * M := mul_nonneg ho.h0 ho.M0
  have hB : 0 ≤ B := le_trans (add_nonneg ho.R0 hhM) ho.ball_le
  refine ⟨x, funext h1, h2, pi_le hB fun i => (h3 i).trans ho.ball, pi_le hB fun i => ?_, pi_le ho.argErr_nonneg h4⟩
  refine (abs_add_le _ _).trans (le_trans (add_le_add ((norm_le_pi_norm y i).trans hyR) ?_) ho.ball_le)
  rw [Pi.smul_apply, smul_eq_mul, abs_mul, abs_of_pos (by norm_num)]
  linarith [hY i]

theorem OdeFl.full (ho : OdeFl F B S M L K ε h R T) {y z Y : Fin n → ℝ} (hy : ∀ i, F.Rep (y i)) (hyR : ‖y‖ ≤ R) (hzr : ∀ i, F.Rep (z i))
    (hz : ∀ i, |z i| ≤ 5 / 4 * (h * M + F.η)) (he : ∀ i, |z i - Y i| ≤ stageErr F M L K ε h R T) (hY : ∀ i, |Y i| ≤ h * M) :
    ∃ x : Fin n → ℝ, F.vadd (vfin y) (vfin z) = vfin x ∧ (∀ i, F.Rep (x i)) ∧ ‖x‖ ≤ B ∧ ‖y + Y‖ ≤ B ∧
      ‖x - (y + Y)‖ ≤ stageErr F M L K ε h R T + F.u * (R + 3 * (h * M + F.η)) + F.η := by
  choose x h1 h2 h3 h4 using fun i => ho.step.full (hy i) ((norm_le_pi_norm y i).trans hyR) (hzr i) (hz i) (he i)
  have hhM : 0 ≤ h * M := mul_nonneg ho.h0 ho.M0
  have hB : 0 ≤ B := le_trans (add_nonneg ho.R0 hhM) ho.ball_le
  refine ⟨x, funext h1, h2, pi_le hB fun i => (h3 i).trans ho.ball, pi_le hB fun i => ?_, pi_le ho.argErr_nonneg h4⟩
  exact (abs_add_le _ _).trans (le_trans (add_le_add ((norm_le_pi_norm y i).trans hyR) (hY i)) ho.ball_le)

theorem OdeFl.R_le (ho : OdeFl F B S M L K ε h R T) : R ≤ B :=
  le_trans (le_add_of_nonneg_right (mul_nonneg ho.h0 ho.M0)) ho.ball_le

theorem OdeFl.dyn1 (ho : OdeFl F B S M L K ε h R T) (hf : DynFl F f fl B S M L K ε) {y : Fin n → ℝ} (hy : ∀ i, F.Rep (y i)) (hyR : ‖y‖ ≤ R)
    {t : ℝ} (ht : F.Rep t) (htT : |t| ≤ T) :
    ∃ w, fl (vfin y) (fin t) = vfin w ∧ (∀ i, |w i| ≤ M) ∧ (∀ i, |f y t i| ≤ M) ∧ ∀ i, |w i - f y t i| ≤ dynErr F M L K ε h R T := by
  have hT : |t| ≤ S := by simpa using ho.time_le htT le_rfl ho.h0
  exact ho.dyn hf hy ht (hyR.trans ho.R_le) (hyR.trans ho.R_le) hT hT (by rw [sub_self, norm_zero]; exact ho.argErr_nonneg)
    (by rw [sub_self, abs_zero]; exact timeErr_nonneg ho.T0 ho.h0)

/-- One step of `rk4`. -/
theorem OdeFl.rk4 (ho : OdeFl F B S M L K ε h R T) (hf : DynFl F f fl B S M L K ε) {y : Fin n → ℝ} (hy : ∀ i, F.Rep (y i)) (hyR : ‖y‖ ≤ R)
    {t d d' : ℝ} (ht : F.Rep t) (htT : |t| ≤ T) (hdr : F.Rep d) (hd0 : 0 ≤ d) (hd : d ≤ h) (hd0' : 0 ≤ d') (hd' : d' ≤ h)
    (hdd : |d - d'| ≤ F.u * d') :
    ∃ x : Fin n → ℝ, rk4Fl F fl (vfin y) (fin t) (fin d) = vfin x ∧ (∀ i, F.Rep (x i)) ∧
      ‖x - Verif.rk4 f y t d'‖ ≤ stepErr F M L K ε h R T := by
  obtain ⟨s2, hs2, rs2, bs2, es2⟩ := ho.half_time ht htT hd0 hd hd' hdd
  obtain ⟨s4, hs4, rs4, bs4, es4⟩ := ho.full_time ht htT hdr hd0 hd hd' hdd
  have ts2 : |t + d' / 2| ≤ S := ho.time_le htT (by linarith) (by linarith)
  have ts4 : |t + d'| ≤ S := ho.time_le htT hd0' hd'
  obtain ⟨w1, hw1, bw1, bk1, e1⟩ := ho.dyn1 hf hy hyR ht htT
  obtain ⟨z1, hz1, rz1, bz1, ez1, bY1⟩ := ho.stage hd0 hd hd0' hd' hdd bw1 bk1 e1
  obtain ⟨x2, hx2, rx2, bx2, bx2', ex2⟩ := ho.half hy hyR bz1 ez1 bY1
  obtain ⟨w2, hw2, bw2, bk2, e2⟩ := ho.dyn hf rx2 rs2 bx2 bx2' bs2 ts2 ex2 es2
  obtain ⟨z2, hz2, rz2, bz2, ez2, bY2⟩ := ho.stage hd0 hd hd0' hd' hdd bw2 bk2 e2
  obtain ⟨x3, hx3, rx3, bx3, bx3', ex3⟩ := ho.half hy hyR bz2 ez2 bY2
  obtain ⟨w3, hw3, bw3, bk3, e3⟩ := ho.dyn hf rx3 rs2 bx3 bx3' bs2 ts2 ex3 es2
  obtain ⟨z3, hz3, rz3, bz3, ez3, bY3⟩ := ho.stage hd0 hd hd0' hd' hdd bw3 bk3 e3
  obtain ⟨x4, hx4, rx4, bx4, bx4', ex4⟩ := ho.full hy hyR rz3 bz3 ez3 bY3
  obtain ⟨w4, hw4, bw4, bk4, e4⟩ := ho.dyn hf rx4 rs4 bx4 bx4' bs4 ts4 ex4 es4
  obtain ⟨z4, hz4, rz4, bz4, ez4, bY4⟩ := ho.stage hd0 hd hd0' hd' hdd bw4 bk4 e4
  choose x g1 g2 g3 using fun i => ho.step.final (hy i) ((norm_le_pi_norm y i).trans hyR) (rz1 i) (rz2 i) (rz3 i) (rz4 i) (bz1 i) (bz2 i) (bz3 i) (bz4 i)
    (ez1 i) (ez2 i) (ez3 i) (ez4 i) (bY1 i) (bY2 i) (bY3 i) (bY4 i)
  refine ⟨x, ?_, g2, pi_le ho.stepErr_nonneg fun i => ?_⟩
  · unfold rk4Fl
    simp only [hw1, hz1, hx2, hs2, hw2, hz2, hx3, hw3, hz3, hx4, hs4, hw4, hz4]
    funext i
    exact g1 i
  · exact g3 i

/-- One step of `explicit_euler`. -/
theorem OdeFl.euler (ho : OdeFl F B S M L K ε h R T) (hf : DynFl F f fl B S M L K ε) {y : Fin n → ℝ} (hy : ∀ i, F.Rep (y i)) (hyR : ‖y‖ ≤ R)
    {t d d' : ℝ} (ht : F.Rep t) (htT : |t| ≤ T) (hd0 : 0 ≤ d) (hd : d ≤ h) (hd0' : 0 ≤ d') (hd' : d' ≤ h)
    (hdd : |d - d'| ≤ F.u * d') :
    ∃ x : Fin n → ℝ, explicitEulerFl F fl (vfin y) (fin t) (fin d) = vfin x ∧ (∀ i, F.Rep (x i)) ∧
      ‖x - explicitEuler f y t d'‖ ≤ stepErr F M L K ε h R T := by
  obtain ⟨w1, hw1, bw1, bk1, e1⟩ := ho.dyn1 hf hy hyR ht htT
  obtain ⟨z1, hz1, rz1, bz1, ez1, bY1⟩ := ho.stage hd0 hd hd0' hd' hdd bw1 bk1 e1
  obtain ⟨x, hx, rx, -, -, ex⟩ := ho.full hy hyR rz1 bz1 ez1 bY1
  refine ⟨x, ?_, rx, ex.trans ?_⟩
  · unfold explicitEulerFl
    simp only [hw1, hz1, hx]
  · have h1 := ho.stageErr_nonneg
    have h2 : 0 ≤ F.u * (h * M + F.η) := mul_nonneg F.u_pos.le (add_nonneg (mul_nonneg ho.h0 ho.M0) F.η_pos.le)
    have h3 : F.u * (R + 24 * (h * M + F.η)) = F.u * (R + 3 * (h * M + F.η)) + 21 * (F.u * (h * M + F.η)) := by ring
    unfold stepErr
    linarith

/-- The exact step depends on the state with the factor `exp(L dt)`. -/
theorem OdeFl.rk4_lip (ho : OdeFl F B S M L K ε h R T) (hf : DynFl F f fl B S M L K ε) {y z : Fin n → ℝ} (hy : ‖y‖ ≤ R) (hz : ‖z‖ ≤ R)
    {t d : ℝ} (htT : |t| ≤ T) (hd0 : 0 ≤ d) (hd : d ≤ h) :
    ‖Verif.rk4 f y t d - Verif.rk4 f z t d‖ ≤ Real.exp (L * d) * ‖y - z‖ := by
  have hL := ho.L0
  set e := ‖y - z‖ with he
  have he0 : 0 ≤ e := norm_nonneg _
  have bnd : ∀ {v : Fin n → ℝ} {s c : ℝ} {x : Fin n → ℝ}, ‖x‖ ≤ R → ‖v‖ ≤ B → |s| ≤ S → 0 ≤ c → c ≤ 1 → ‖x + c • d • f v s‖ ≤ B := by
    intro v s c x hx hv hs hc0 hc1
    refine le_trans ?_ ho.ball_le
    refine (norm_add_le _ _).trans (add_le_add hx ?_)
    rw [norm_smul, norm_smul, Real.norm_of_nonneg hc0, Real.norm_of_nonneg hd0]
    have h1 : d * ‖f v s‖ ≤ h * M := mul_le_mul hd (hf.bound v s hv hs) (norm_nonneg _) ho.h0
    have h2 : 0 ≤ d * ‖f v s‖ := by positivity
    nlinarith
  have lip : ∀ {v v' : Fin n → ℝ} {s c : ℝ}, ‖v‖ ≤ B → ‖v'‖ ≤ B → |s| ≤ S → ‖v - v'‖ ≤ c → ‖d • f v s - d • f v' s‖ ≤ L * d * c := by
    intro v v' s c hv hv' hs hc
    have h1 := hf.lip v v' s s hv hv' hs hs
    rw [sub_self, abs_zero, mul_zero, add_zero] at h1
    rw [← smul_sub, norm_smul, Real.norm_of_nonneg hd0]
    calc d * ‖f v s - f v' s‖ ≤ d * (L * c) := mul_le_mul_of_nonneg_left (h1.trans (mul_le_mul_of_nonneg_left hc hL)) hd0
      _ = _ := by ring
  set x := L * d with hx
  have hx0 : 0 ≤ x := by positivity
  have t0 : |t| ≤ S := by simpa using ho.time_le htT le_rfl ho.h0
  have t2 : |t + d / 2| ≤ S := ho.time_le htT (by linarith) (by linarith)
  have t4 : |t + d| ≤ S := ho.time_le htT hd0 hd
  have hyB := hy.trans ho.R_le
  have hzB := hz.trans ho.R_le
  have l1 := lip hyB hzB t0 he.ge
  have arg : ∀ {c b : ℝ} {a a' : Fin n → ℝ}, 0 ≤ c → ‖a - a'‖ ≤ b → ‖(y + c • a) - (z + c • a')‖ ≤ e + c * b := by
    intro c b a a' hc hab
    have : (y + c • a) - (z + c • a') = (y - z) + c • (a - a') := by rw [smul_sub]; abel
    rw [this]
    refine (norm_add_le _ _).trans (add_le_add le_rfl ?_)
    rw [norm_smul, Real.norm_of_nonneg hc]
    exact mul_le_mul_of_nonneg_left hab hc
  have l2 := lip (bnd hy hyB t0 (c := 1 / 2) (by norm_num) (by norm_num)) (bnd hz hzB t0 (c := 1 / 2) (by norm_num) (by norm_num)) t2
    (arg (by norm_num) l1)
  have l3 := lip (bnd hy (bnd hy hyB t0 (c := 1 / 2) (by norm_num) (by norm_num)) t2 (c := 1 / 2) (by norm_num) (by norm_num))
    (bnd hz (bnd hz hzB t0 (c := 1 / 2) (by norm_num) (by norm_num)) t2 (c := 1 / 2) (by norm_num) (by norm_num)) t2 (arg (by norm_num) l2)
  have l4 := lip (bnd hy (bnd hy (bnd hy hyB t0 (c := 1 / 2) (by norm_num) (by norm_num)) t2 (c := 1 / 2) (by norm_num) (by norm_num)) t2
      (c := 1) (by norm_num) le_rfl)
    (bnd hz (bnd hz (bnd hz hzB t0 (c := 1 / 2) (by norm_num) (by norm_num)) t2 (c := 1 / 2) (by norm_num) (by norm_num)) t2
      (c := 1) (by norm_num) le_rfl) t4 (arg (by norm_num) l3)
  simp only [one_smul] at l4
  have comb : ∀ {a1 a2 a3 a4 b1 b2 b3 b4 : Fin n → ℝ} {c1 c2 c3 c4 : ℝ}, ‖a1 - b1‖ ≤ c1 → ‖a2 - b2‖ ≤ c2 → ‖a3 - b3‖ ≤ c3 → ‖a4 - b4‖ ≤ c4 →
      ‖(y + (1 / 6 : ℝ) • (a1 + (2 : ℝ) • a2 + (2 : ℝ) • a3 + a4)) - (z + (1 / 6 : ℝ) • (b1 + (2 : ℝ) • b2 + (2 : ℝ) • b3 + b4))‖ ≤
        e + 1 / 6 * (c1 + 2 * c2 + 2 * c3 + c4) := by
    intro a1 a2 a3 a4 b1 b2 b3 b4 c1 c2 c3 c4 h1 h2 h3 h4
    refine arg (by norm_num) ?_
    have : a1 + (2 : ℝ) • a2 + (2 : ℝ) • a3 + a4 - (b1 + (2 : ℝ) • b2 + (2 : ℝ) • b3 + b4) =
        (a1 - b1) + (2 : ℝ) • (a2 - b2) + (2 : ℝ) • (a3 - b3) + (a4 - b4) := by simp only [smul_sub]; abel
    rw [this]
    refine (norm_add_le _ _).trans (add_le_add ((norm_add_le _ _).trans (add_le_add ((norm_add_le _ _).trans (add_le_add h1 ?_)) ?_)) h4)
    · rw [norm_smul, Real.norm_of_nonneg (by norm_num)]; linarith
    · rw [norm_smul, Real.norm_of_nonneg (by norm_num)]; linarith
  have l5 := comb l1 l2 l3 l4
  unfold Verif.rk4
  refine l5.trans ?_
  have hexp : 1 + x + x ^ 2 / 2 + x ^ 3 / 6 + x ^ 4 / 24 ≤ Real.exp x := by
    have := Real.sum_le_exp_of_nonneg hx0 5
    simp [Finset.sum_range_succ, Nat.factorial] at this
    linarith
  calc e + 1 / 6 * (x * e + 2 * (x * (e + 1 / 2 * (x * e))) + 2 * (x * (e + 1 / 2 * (x * (e + 1 / 2 * (x * e))))) +
        x * (e + 1 * (x * (e + 1 / 2 * (x * (e + 1 / 2 * (x * e)))))))
      = (1 + x + x ^ 2 / 2 + x ^ 3 / 6 + x ^ 4 / 24) * e := by ring
    _ ≤ Real.exp x * e := mul_le_mul_of_nonneg_right hexp he0

theorem OdeFl.euler_lip (ho : OdeFl F B S M L K ε h R T) (hf : DynFl F f fl B S M L K ε) {y z : Fin n → ℝ} (hy : ‖y‖ ≤ R) (hz : ‖z‖ ≤ R)
    {t d : ℝ} (htT : |t| ≤ T) (hd0 : 0 ≤ d) :
    ‖explicitEuler f y t d - explicitEuler f z t d‖ ≤ Real.exp (L * d) * ‖y - z‖ := by
  have t0 : |t| ≤ S := by simpa using ho.time_le htT le_rfl ho.h0
  have h1 := hf.lip y z t t (hy.trans ho.R_le) (hz.trans ho.R_le) t0 t0
  rw [sub_self, abs_zero, mul_zero, add_zero] at h1
  have h2 : explicitEuler f y t d - explicitEuler f z t d = (y - z) + d • (f y t - f z t) := by
    show (y + d • f y t) - (z + d • f z t) = _
    rw [smul_sub]
    abel
  rw [h2]
  refine (norm_add_le _ _).trans ?_
  rw [norm_smul, Real.norm_of_nonneg hd0]
  have h3 : d * ‖f y t - f z t‖ ≤ d * (L * ‖y - z‖) := mul_le_mul_of_nonneg_left h1 hd0
  have h4 : (L * d + 1) * ‖y - z‖ ≤ Real.exp (L * d) * ‖y - z‖ := mul_le_mul_of_nonneg_right (Real.add_one_le_exp _) (norm_nonneg _)
  linarith

/-- The two methods with and without rounding. -/
inductive OdePair (F : Fmt) (n : ℕ) : ((Vec n → XR → Vec n) → Vec n → XR → XR → Vec n) → OdeMethod (Fin n → ℝ) → Prop
  | euler : OdePair F n (explicitEulerFl F) explicitEuler
  | rk4 : OdePair F n (rk4Fl F) Verif.rk4

/-- Time stamps of the format, up to `T`, in order and with steps up to `h`. -/
structure TimesFl (F : Fmt) (h T : ℝ) (ts : List ℝ) : Prop where
  rep : ∀ t ∈ ts, F.Rep t
  bound : ∀ t ∈ ts, |t| ≤ T
  chain : ts.IsChain fun a b => a ≤ b ∧ b ≤ a + h

theorem OdePair.main {mFl : (Vec n → XR → Vec n) → Vec n → XR → XR → Vec n} {m : OdeMethod (Fin n → ℝ)} (hm : OdePair F n mFl m)
    (ho : OdeFl F B S M L K ε h R T) (hh : F.Rep h) (hf : DynFl F f fl B S M L K ε) {r D Te : ℝ} (hrD : r + D ≤ R) :
    ∀ (rest : List ℝ) (t0 : ℝ) (x y : Fin n → ℝ) (e : ℝ), TimesFl F h T (t0 :: rest) → (∀ i, F.Rep (x i)) → ‖x - y‖ ≤ e →
      (∀ z ∈ odeint f y (t0 :: rest) m, ‖z‖ ≤ r) → (∀ t ∈ t0 :: rest, t ≤ Te) →
      (e + rest.length * stepErr F M L K ε h R T) * Real.exp (L * (Te - t0)) ≤ D →
      ∃ xs : List (Fin n → ℝ), odeintFl F fl (vfin x) ((t0 :: rest).map fin) mFl = xs.map vfin ∧
        List.Forall₂ (fun x y => (∀ i, F.Rep (x i)) ∧ ‖x - y‖ ≤ D) xs (odeint f y (t0 :: rest) m) := by
  have hδ := ho.stepErr_nonneg
  have hL := ho.L0
  set δ := stepErr F M L K ε h R T with hδ'
  have first : ∀ {e t0 : ℝ} {k : ℕ}, 0 ≤ e → t0 ≤ Te → (e + k * δ) * Real.exp (L * (Te - t0)) ≤ D → e ≤ D := by
    intro e t0 k he ht hD
    have h1 : 1 ≤ Real.exp (L * (Te - t0)) := Real.one_le_exp (mul_nonneg hL (by linarith))
    have h2 : 0 ≤ k * δ := by positivity
    nlinarith
  intro rest
  induction rest with
  | nil =>
    intro t0 x y e ht hx hxy hr hTe hD
    have he : 0 ≤ e := (norm_nonneg _).trans hxy
    exact ⟨[x], by simp [odeintFl, scan], by
      simpa [odeint, scan] using And.intro hx (hxy.trans (first he (hTe t0 (by simp)) hD))⟩
  | cons t1 rest ih =>
    intro t0 x y e ht hx hxy hr hTe hD
    have he : 0 ≤ e := (norm_nonneg _).trans hxy
    have heD := first he (hTe t0 (by simp)) hD
    obtain ⟨hc1, hc2⟩ : (t0 ≤ t1 ∧ t1 ≤ t0 + h) ∧ (t1 :: rest).IsChain fun a b => a ≤ b ∧ b ≤ a + h := by
      have := ht.chain
      rwa [List.isChain_cons_cons] at this
    have ht' : TimesFl F h T (t1 :: rest) := ⟨fun t h => ht.rep t (List.mem_cons_of_mem _ h), fun t h => ht.bound t (List.mem_cons_of_mem _ h), hc2⟩
    have hyr : ‖y‖ ≤ r := hr y (by rw [odeint_cons]; simp)
    have hyR : ‖y‖ ≤ R := hyr.trans (by linarith)
    have hxR : ‖x‖ ≤ R := by
      have : ‖x‖ ≤ ‖x - y‖ + ‖y‖ := by simpa using norm_add_le (x - y) y
      linarith
    have r0 := ht.rep t0 (by simp)
    have r1 := ht.rep t1 (by simp)
    have b1 := ht.bound t1 (by simp)
    have hd0 : 0 ≤ t1 - t0 := by linarith
    have hdh : t1 - t0 ≤ h := by linarith
    set d := F.rndR (t1 - t0) with hd
    have hsub : F.sub (fin t1) (fin t0) = fin d := by
      rw [Fmt.sub, fin_sub, F.rnd_fin]
      rw [abs_of_nonneg hd0]
      have h1 := ho.big'
      have h2 := ho.T0
      have h3 := F.η_pos
      linarith
    have hdd : |d - (t1 - t0)| ≤ F.u * (t1 - t0) := by
      have := F.rndR_add r1 r0.neg
      rw [← sub_eq_add_neg, abs_of_nonneg hd0] at this
      linarith
    have hstep : ∃ x' : Fin n → ℝ, mFl fl (vfin x) (fin t1) (fin d) = vfin x' ∧ (∀ i, F.Rep (x' i)) ∧ ‖x' - m f x t1 (t1 - t0)‖ ≤ δ ∧
        ‖m f x t1 (t1 - t0) - m f y t1 (t1 - t0)‖ ≤ Real.exp (L * (t1 - t0)) * ‖x - y‖ := by
      have q1 : 0 ≤ d := F.rndR_nonneg hd0
      have q2 : d ≤ h := F.rndR_le hh hdh
      cases hm with
      | euler =>
        obtain ⟨x', h1, h2, h3⟩ := ho.euler hf hx hxR r1 b1 q1 q2 hd0 hdh hdd
        exact ⟨x', h1, h2, h3, ho.euler_lip hf hxR hyR b1 hd0⟩
      | rk4 =>
        obtain ⟨x', h1, h2, h3⟩ := ho.rk4 hf hx hxR r1 b1 (F.rep_rndR _) q1 q2 hd0 hdh hdd
        exact ⟨x', h1, h2, h3, ho.rk4_lip hf hxR hyR b1 hd0 hdh⟩
    obtain ⟨x', h1, h2, h3, h4⟩ := hstep
    have h5 : ‖x' - m f y t1 (t1 - t0)‖ ≤ Real.exp (L * (t1 - t0)) * e + δ := by
      have e1 : x' - m f y t1 (t1 - t0) = (x' - m f x t1 (t1 - t0)) + (m f x t1 (t1 - t0) - m f y t1 (t1 - t0)) := by abel
      rw [e1]
      refine (norm_add_le _ _).trans ?_
      have := mul_le_mul_of_nonneg_left hxy (Real.exp_pos (L * (t1 - t0))).le
      linarith
    obtain ⟨xs, h6, h7⟩ := ih t1 x' (m f y t1 (t1 - t0)) _ ht' h2 h5 (fun z hz => hr z (by rw [odeint_cons]; exact List.mem_cons_of_mem _ hz))
      (fun t h => hTe t (List.mem_cons_of_mem _ h)) (by
        refine le_trans ?_ hD
        have e2 : Real.exp (L * (Te - t0)) = Real.exp (L * (t1 - t0)) * Real.exp (L * (Te - t1)) := by rw [← Real.exp_add]; congr 1; ring
        rw [e2, ← mul_assoc]
        refine mul_le_mul_of_nonneg_right ?_ (Real.exp_pos _).le
        have h8 : 1 ≤ Real.exp (L * (t1 - t0)) := Real.one_le_exp (mul_nonneg hL hd0)
        have h9 : 0 ≤ (rest.length + 1 : ℝ) * δ := by positivity
        rw [List.length_cons]
        push_cast
        nlinarith)
    refine ⟨x :: xs, ?_, ?_⟩
    · have : odeintFl F fl (vfin x) ((t0 :: t1 :: rest).map fin) mFl =
          vfin x :: odeintFl F fl (mFl fl (vfin x) (fin t1) (F.sub (fin t1) (fin t0))) ((t1 :: rest).map fin) mFl := rfl
      rw [this, hsub, h1, h6, List.map_cons]
    · rw [odeint_cons]
      exact .cons ⟨hx, hxy.trans heD⟩ h7

/-! ## C155 -/

/-- Integration of ordinary differential equations in floating point arithmetic. Let the dynamics be bounded by `M` and Lipschitz (`L` in
the state, `K` in time) on a ball and be computed with an absolute error `ε`. Then all values computed by `odeint`, with explicit Euler or
the Runge-Kutta method, on time stamps of the format with `N` steps of length at most `h`, `h L ≤ 1/2`, are finite and differ from those of
the exact method at most by `N exp(L (t_N - t_0))` times the error `stepErr` of one step, which is about `u R + 2 h E` with the unit roundoff
`u`, the norm `R` of the states and the error `E` of the dynamics, including that of its arguments. -/
theorem C155_odeint {mFl : (Vec n → XR → Vec n) → Vec n → XR → XR → Vec n} {m : OdeMethod (Fin n → ℝ)} (hm : OdePair F n mFl m)
    (ho : OdeFl F B S M L K ε h R T) (hh : F.Rep h) (hf : DynFl F f fl B S M L K ε) {t0 : ℝ} {rest : List ℝ} (ht : TimesFl F h T (t0 :: rest))
    {y : Fin n → ℝ} (hy : ∀ i, F.Rep (y i)) {r D Te : ℝ} (hr : ∀ z ∈ odeint f y (t0 :: rest) m, ‖z‖ ≤ r) (hTe : ∀ t ∈ t0 :: rest, t ≤ Te)
    (hD : D = rest.length * stepErr F M L K ε h R T * Real.exp (L * (Te - t0))) (hrD : r + D ≤ R) :
    ∃ xs : List (Fin n → ℝ), odeintFl F fl (vfin y) ((t0 :: rest).map fin) mFl = xs.map vfin ∧
      List.Forall₂ (fun x z => (∀ i, F.Rep (x i)) ∧ ‖x - z‖ ≤ D) xs (odeint f y (t0 :: rest) m) :=
  hm.main ho hh hf hrD rest t0 y y 0 ht hy (by rw [sub_self, norm_zero]) hr hTe (by rw [zero_add, hD])

end

end

/-- The decay `y' = -y` in single precision. -/
theorem dynFl_example : DynFl Fmt.single (fun (y : Fin 1 → ℝ) _ => -y) (fun y _ i => -y i) 2 2 2 1 0 0 := by
  refine ⟨fun z s hz _ => by rw [norm_neg]; exact hz, fun z z' s s' _ _ _ _ => ?_, fun z s _ _ hz _ => ?_⟩
  · rw [← neg_sub', norm_neg]
    simp
  · refine ⟨-z, by funext i; simp, by simp, by rw [norm_neg]; exact hz⟩

theorem odeFl_example : OdeFl Fmt.single 2 2 2 1 0 0 (1 / 16) (5 / 4) 1 := by
  have hη : Fmt.single.η ≤ 1 / 2 ^ 30 := by
    calc Fmt.single.η ≤ 2 ^ (-30 : ℤ) := zpow_le_zpow_right₀ (by norm_num) (by simp [Fmt.single])
      _ = 1 / 2 ^ 30 := by norm_num
  have hη0 := Fmt.single.η_pos
  have hu : Fmt.single.u = 1 / 16777216 := by norm_num [Fmt.u, Fmt.single]
  have hbig : (16 : ℝ) ≤ 2 ^ Fmt.single.emax := by
    calc (16 : ℝ) = 2 ^ (4 : ℤ) := by norm_num
      _ ≤ _ := zpow_le_zpow_right₀ (by norm_num) (by simp [Fmt.single])
  refine ⟨by norm_num, by norm_num, by norm_num, le_rfl, le_rfl, by norm_num, by norm_num, by norm_num, ?_, ?_, ?_, ?_⟩
  · rw [hu]; linarith
  · rw [hu]; linarith
  · linarith
  · linarith

/-- Two steps of the Runge-Kutta method: the rounding error is at most `10^-5`. -/
example : ∃ xs : List (Fin 1 → ℝ), odeintFl Fmt.single (fun y _ i => -y i) (vfin fun _ => 1) ([0, 1 / 16, 1 / 8].map fin) (rk4Fl Fmt.single) = xs.map vfin ∧
    List.Forall₂ (fun x z => (∀ i, Fmt.single.Rep (x i)) ∧ ‖x - z‖ ≤ 1 / 10 ^ 5) xs
      (odeint (fun (y : Fin 1 → ℝ) _ => -y) (fun _ => 1) [0, 1 / 16, 1 / 8] rk4) := by
  have rep : ∀ k : ℤ, -149 ≤ k → Fmt.single.Rep (2 ^ k) := fun k hk => Fmt.single.rep_two_zpow (by simpa [Fmt.single] using hk)
  have r1 : Fmt.single.Rep 1 := by simpa using rep 0 (by norm_num)
  have r16 : Fmt.single.Rep (1 / 16) := by
    rw [show (1 / 16 : ℝ) = 2 ^ (-4 : ℤ) by norm_num]; exact rep _ (by norm_num)
  have r8 : Fmt.single.Rep (1 / 8) := by
    rw [show (1 / 8 : ℝ) = 2 ^ (-3 : ℤ) by norm_num]; exact rep _ (by norm_num)
  have ht : TimesFl Fmt.single (1 / 16) 1 [0, 1 / 16, 1 / 8] := by
    refine ⟨?_, ?_, ?_⟩
    · intro t ht
      simp only [List.mem_cons, List.not_mem_nil, or_false] at ht
      rcases ht with rfl | rfl | rfl
      exacts [Fmt.single.rep_zero, r16, r8]
    · intro t ht
      simp only [List.mem_cons, List.not_mem_nil, or_false] at ht
      rcases ht with rfl | rfl | rfl <;> norm_num [abs_of_pos]
    · simp only [List.isChain_cons_cons, List.isChain_singleton, and_true]
      norm_num
  have hstep : ∀ (c t : ℝ), rk4 (fun (y : Fin 1 → ℝ) _ => -y) (fun _ => c) t (1 / 16) = fun _ => 492523 / 524288 * c := by
    intro c t
    funext i
    simp [rk4]
    ring
  have hr : ∀ z ∈ odeint (fun (y : Fin 1 → ℝ) _ => -y) (fun _ => 1) [0, 1 / 16, 1 / 8] rk4, ‖z‖ ≤ 1 := by
    rw [odeint_cons, odeint_cons, show (1 / 16 : ℝ) - 0 = 1 / 16 by norm_num, show (1 / 8 : ℝ) - 1 / 16 = 1 / 16 by norm_num, hstep, hstep]
    intro z hz
    simp only [odeint, scan, List.mem_cons, List.not_mem_nil, or_false] at hz
    rcases hz with rfl | rfl | rfl <;>
    · refine pi_le zero_le_one fun i => ?_
      norm_num [abs_of_pos]
  have hη : Fmt.single.η ≤ 1 / 2 ^ 30 := by
    calc Fmt.single.η ≤ 2 ^ (-30 : ℤ) := zpow_le_zpow_right₀ (by norm_num) (by simp [Fmt.single])
      _ = 1 / 2 ^ 30 := by norm_num
  have hη0 := Fmt.single.η_pos
  have hu : Fmt.single.u = 1 / 16777216 := by norm_num [Fmt.u, Fmt.single]
  have hδ : stepErr Fmt.single 2 1 0 0 (1 / 16) (5 / 4) 1 ≤ 1 / 10 ^ 6 := by
    unfold stepErr stageErr dynErr
    rw [hu, zero_mul]
    linarith
  have hexp : Real.exp (1 * (1 / 8 - 0)) ≤ 5 := by
    have h1 : Real.exp (1 * (1 / 8 - 0)) ≤ Real.exp 1 := Real.exp_le_exp.mpr (by norm_num)
    have h2 := Real.exp_one_lt_d9
    linarith
  have hD : (([1 / 16, 1 / 8] : List ℝ).length : ℝ) * stepErr Fmt.single 2 1 0 0 (1 / 16) (5 / 4) 1 * Real.exp (1 * (1 / 8 - 0)) ≤ 1 / 10 ^ 5 := by
    have h0 := odeFl_example.stepErr_nonneg
    calc (([1 / 16, 1 / 8] : List ℝ).length : ℝ) * stepErr Fmt.single 2 1 0 0 (1 / 16) (5 / 4) 1 * Real.exp (1 * (1 / 8 - 0))
        ≤ 2 * (1 / 10 ^ 6) * 5 := mul_le_mul (mul_le_mul (by simp) hδ h0 (by norm_num)) hexp (Real.exp_pos _).le (by norm_num)
      _ = 1 / 10 ^ 5 := by norm_num
  obtain ⟨xs, h1, h2⟩ := C155_odeint .rk4 odeFl_example r16 dynFl_example ht (y := fun _ => 1) (fun _ => r1) (Te := 1 / 8) hr (by
    intro t ht
    simp only [List.mem_cons, List.not_mem_nil, or_false] at ht
    rcases ht with rfl | rfl | rfl <;> norm_num) rfl (by linarith)
  exact ⟨xs, h1, h2.imp fun _ _ h => ⟨h.1, h.2.trans hD⟩⟩

/-- The error grows with the number of steps: for `y' = 1` and `y(t0) = 1` the steps of explicit Euler get lost if they are short; all
computed values are `1`, whereas the exact ones are `1 + t - t0`. -/
theorem C155_stagnation_counterexample (F : Fmt) (hF : F.emin + F.p < 0) (t0 : ℝ) (rest : List ℝ) (hrep : ∀ t ∈ t0 :: rest, F.Rep t)
    (hc : (t0 :: rest).IsChain fun a b => a ≤ b ∧ b ≤ a + 2 ^ (-(F.p : ℤ) - 1)) :
    odeintFl F (n := 1) (fun _ _ _ => fin 1) (fun _ => fin 1) ((t0 :: rest).map fin) (explicitEulerFl F) =
      List.replicate (rest.length + 1) (fun _ => fin 1) ∧
    odeint (fun (_ : Fin 1 → ℝ) _ => (fun _ => 1 : Fin 1 → ℝ)) (fun _ => 1) (t0 :: rest) explicitEuler =
      (t0 :: rest).map fun t _ => 1 + (t - t0) := by
  constructor
  · induction rest generalizing t0 with
    | nil => simp [odeintFl, scan]
    | cons t1 rest ih =>
      rw [List.isChain_cons_cons] at hc
      obtain ⟨⟨h1, h2⟩, h3⟩ := hc
      have ih := ih t1 (fun t h => hrep t (List.mem_cons_of_mem _ h)) h3
      have e : odeintFl F (n := 1) (fun _ _ _ => fin 1) (fun _ => fin 1) ((t0 :: t1 :: rest).map fin) (explicitEulerFl F) =
          (fun _ => fin 1) :: odeintFl F (n := 1) (fun _ _ _ => fin 1)
            (explicitEulerFl F (fun _ _ _ => fin 1) (fun _ => fin 1) (fin t1) (F.sub (fin t1) (fin t0))) ((t1 :: rest).map fin) (explicitEulerFl F) := rfl
      have hp := F.hp
      have hmin := F.hmin
      have hmax := F.hmax
      have hbig : (2 : ℝ) ≤ 2 ^ F.emax := by
        calc (2 : ℝ) = 2 ^ (1 : ℤ) := by norm_num
          _ ≤ _ := zpow_le_zpow_right₀ (by norm_num) hmax
      have hsmall : (2 : ℝ) ^ (-(F.p : ℤ) - 1) ≤ 1 / 2 := by
        calc (2 : ℝ) ^ (-(F.p : ℤ) - 1) ≤ 2 ^ (-1 : ℤ) := zpow_le_zpow_right₀ (by norm_num) (by omega)
          _ = 1 / 2 := by norm_num
      set d := F.rndR (t1 - t0) with hd
      have hd0 : 0 ≤ d := F.rndR_nonneg (by linarith)
      have hd1 : d ≤ 2 ^ (-(F.p : ℤ) - 1) := F.rndR_le (F.rep_two_zpow (by omega)) (by linarith)
      have hsub : F.sub (fin t1) (fin t0) = fin d := by
        rw [Fmt.sub, fin_sub, F.rnd_fin (by rw [abs_of_nonneg (by linarith)]; linarith)]
      have hmul : F.mul (fin d) (fin 1) = fin d := by
        rw [Fmt.mul, fin_mul, mul_one, F.rnd_fin (by rw [abs_of_nonneg hd0]; linarith), F.rndR_rep (F.rep_rndR _)]
      have hadd : F.add (fin 1) (fin d) = fin 1 := by
        have habs : |1 + d| = 1 + d := abs_of_pos (by linarith)
        rw [Fmt.add, fin_add, F.rnd_fin (by rw [habs]; linarith)]
        have hhalf : (2 : ℝ) ^ ((0 : ℤ) - ((F.p : ℤ) - 1)) = 4 * 2 ^ (-(F.p : ℤ) - 1) := by
          rw [show (0 : ℤ) - ((F.p : ℤ) - 1) = -(F.p : ℤ) - 1 + 1 + 1 by ring, zpow_add_one₀ (by norm_num), zpow_add_one₀ (by norm_num)]; ring
        have hone : ((2 ^ (F.p - 1) : ℤ) : ℝ) * 2 ^ ((0 : ℤ) - ((F.p : ℤ) - 1)) = 1 := by
          push_cast
          rw [← zpow_natCast, ← zpow_add₀ (by norm_num)]
          rw [show ((F.p - 1 : ℕ) : ℤ) + (0 - ((F.p : ℤ) - 1)) = 0 by omega, zpow_zero]
        have hpos : (0 : ℝ) < 2 ^ (-(F.p : ℤ) - 1) := by positivity
        have := F.rndR_eq (x := 1 + d) (k := 0) (m := 2 ^ (F.p - 1)) (by rw [habs, zpow_zero]; linarith) (by rw [habs]; norm_num; linarith) (by omega)
          (by rw [hone, hhalf, show 1 - (1 + d) = -d by ring, abs_neg, abs_of_nonneg hd0]; linarith)
        rw [this, hone]
      have hstep : explicitEulerFl F (n := 1) (fun _ _ _ => fin 1) (fun _ => fin 1) (fin t1) (fin d) = fun _ => fin 1 := by
        funext i
        show F.add (fin 1) (F.mul (fin d) (fin 1)) = fin 1
        rw [hmul, hadd]
      rw [e, hsub, hstep, ih, List.length_cons, List.replicate_succ (n := rest.length + 1)]
  · have key : ∀ (rest : List ℝ) (t0 c : ℝ), odeint (fun (_ : Fin 1 → ℝ) _ => (fun _ => 1 : Fin 1 → ℝ)) (fun _ => c) (t0 :: rest) explicitEuler =
        (t0 :: rest).map fun t _ => c + (t - t0) := by
      intro rest
      induction rest with
      | nil => intro t0 c; simp [odeint, scan]
      | cons t1 rest ih =>
        intro t0 c
        have e : explicitEuler (fun (_ : Fin 1 → ℝ) _ => (fun _ => 1 : Fin 1 → ℝ)) (fun _ => c) t1 (t1 - t0) = fun _ => c + (t1 - t0) := by
          funext i; simp [explicitEuler]
        rw [odeint_cons, e, ih]
        simp only [List.map_cons, sub_self, add_zero, List.cons.injEq, true_and]
        refine List.map_congr_left fun a _ => ?_
        funext _
        ring
    exact key rest t0 1

/-- Instance: `2^10` steps of length `2^-30` in single precision. -/
example : Fmt.single.emin + Fmt.single.p < 0 ∧ ∃ ts : List ℝ, ts.length = 2 ^ 10 ∧ (∀ t ∈ (0 : ℝ) :: ts, Fmt.single.Rep t) ∧
    ((0 : ℝ) :: ts).IsChain fun a b => a ≤ b ∧ b ≤ a + 2 ^ (-(Fmt.single.p : ℤ) - 1) := by
  refine ⟨by simp [Fmt.single], ?_⟩
  obtain ⟨N, hN⟩ : ∃ N : ℕ, N = 2 ^ 10 := ⟨_, rfl⟩
  rw [← hN]
  refine ⟨(List.range N).map fun k => ((k + 1 : ℕ) : ℝ) * 2 ^ (-30 : ℤ), by simp, ?_, ?_⟩
  · intro t ht
    rw [List.mem_cons, List.mem_map] at ht
    rcases ht with rfl | ⟨k, hk, rfl⟩
    · exact Fmt.single.rep_zero
    · rw [List.mem_range] at hk
      refine ⟨(k + 1 : ℕ), -30, ?_, by simp [Fmt.single], by push_cast; ring⟩
      rw [abs_of_nonneg (by positivity)]
      have : (k + 1 : ℕ) < 2 ^ 24 := by omega
      exact_mod_cast this
  · have e : (0 : ℝ) :: (List.range N).map (fun k => ((k + 1 : ℕ) : ℝ) * 2 ^ (-30 : ℤ)) =
        (List.range (N + 1)).map fun k : ℕ => (k : ℝ) * 2 ^ (-30 : ℤ) := by
      rw [List.range_succ_eq_map, List.map_cons, List.map_map]
      simp [Function.comp_def]
    rw [e, List.isChain_map, List.isChain_iff_getElem]
    intro i hi
    simp only [List.getElem_range]
    have h1 : (2 : ℝ) ^ (-30 : ℤ) ≤ 2 ^ (-(Fmt.single.p : ℤ) - 1) := zpow_le_zpow_right₀ (by norm_num) (by simp [Fmt.single])
    have h2 : (0 : ℝ) < 2 ^ (-30 : ℤ) := by positivity
    push_cast
    constructor <;> nlinarith

end Verif
