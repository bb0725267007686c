import Verif.Props.Uniform
import Verif.Props.Box
import Mathlib.MeasureTheory.Constructions.Pi
import Mathlib.MeasureTheory.Measure.Lebesgue.Basic

/-! # The boundary transforms are uniform -/

namespace Verif

open XR MeasureTheory
open scoped Real

/-! ## C105 -/

/-- Spec: the points of the ball of radius `r` about `o`, other than `o`, whose radial projection to the sphere lies
in `A`. -/
def coneOver {n : ℕ} (r : ℝ) (o : Fin n → ℝ) (A : Set (Fin n → ℝ)) : Set (Fin n → ℝ) :=
  {p | 0 < edist2 p o ∧ edist2 p o < r ∧ (fun i => (p i - o i) / edist2 p o * r + o i) ∈ A}

/-- Spec: the transform `T` sends the uniform distribution on the unit cube to the uniform distribution on the sphere of
radius `r` about `o`, whose value for a set `A` is the share of the ball which is taken by the cone over `A`. -/
def IsUniformSphere {k n : ℕ} (T : Vec k → Vec n) (r : ℝ) (o : Fin n → ℝ) : Prop :=
  (∀ x ∈ unitCube k, ∃ p, edist2 p o = r ∧ T (vfin x) = vfin p) ∧
  ∀ A : Set (Fin n → ℝ), MeasurableSet A →
    volume (ballRegion r o) * volume {x ∈ unitCube k | ∃ p ∈ A, T (vfin x) = vfin p} = volume (coneOver r o A)

theorem measurable_edist2 {n : ℕ} (o : Fin n → ℝ) : Measurable fun p : Fin n → ℝ => edist2 p o := by
  unfold edist2
  exact (Finset.measurable_sum _ fun i _ => ((measurable_pi_apply i).sub_const _).pow_const 2).sqrt

theorem measurableSet_coneOver {n : ℕ} (r : ℝ) (o : Fin n → ℝ) {A : Set (Fin n → ℝ)} (hA : MeasurableSet A) :
    MeasurableSet (coneOver r o A) := by
  have h := measurable_edist2 o
  refine (measurableSet_lt measurable_const h).inter ((measurableSet_lt h measurable_const).inter ?_)
  have : Measurable fun p : Fin n → ℝ => fun i => (p i - o i) / edist2 p o * r + o i :=
    measurable_pi_lambda _ fun i => ((((measurable_pi_apply i).sub_const _).div h).mul_const _).add_const _
  exact this hA

/-- The volume of a set of points whose last coordinate and whose other coordinates are independent. -/
theorem volume_last {n : ℕ} (B : Set (Fin n → ℝ)) (S : Set ℝ) :
    volume {x : Fin (n + 1) → ℝ | x (Fin.last n) ∈ S ∧ (fun i : Fin n => x i.castSucc) ∈ B} = volume S * volume B := by
  have h := volume_preserving_piFinSuccAbove (fun _ : Fin (n + 1) => ℝ) (Fin.last n)
  have e : {x : Fin (n + 1) → ℝ | x (Fin.last n) ∈ S ∧ (fun i : Fin n => x i.castSucc) ∈ B} =
      (MeasurableEquiv.piFinSuccAbove (fun _ : Fin (n + 1) => ℝ) (Fin.last n)) ⁻¹' (S ×ˢ B) := by
    ext x
    simp only [Set.mem_ofPred_eq, Set.mem_preimage, Set.mem_prod, MeasurableEquiv.piFinSuccAbove_apply,
      Fin.insertNthEquiv_symm_apply]
    have : (fun i : Fin n => x i.castSucc) = fun j => x ((Fin.last n).succAbove j) := by
      funext j; simp
    rw [this]
    rfl
  rw [e, h.measure_preimage_equiv, Measure.volume_eq_prod, Measure.prod_prod]

theorem sphere_bnd_uniform {r : ℝ} (hr : 0 < r) (o : Fin 3 → ℝ) :
    IsUniformSphere (fun x => transformSphereBnd x (fin r) (vfin o)) r o := by
  obtain ⟨-, -, hbnd, -⟩ := (C35_sphere_circle_transform hr).1 o
  refine ⟨fun x _ => ?_, fun A hA => ?_⟩
  · obtain ⟨p, h1, h2⟩ := hbnd x
    exact ⟨p, h2, h1⟩
  · obtain ⟨-, hV, -, hU⟩ := isUniform_sphere hr o
    have hsub : coneOver r o A ∩ ballRegion r o = coneOver r o A := Set.inter_eq_left.mpr fun p hp => hp.2.1
    rw [hV, ← hsub, ← hU _ (measurableSet_coneOver r o hA)]
    congr 1
    have e : {x ∈ unitCube 3 | ∃ p ∈ coneOver r o A, transformSphere (vfin x) (fin r) (vfin o) = vfin p} =
        {x : Fin 3 → ℝ | x (Fin.last 2) ∈ Set.Ioo (0 : ℝ) 1 ∧ (fun i : Fin 2 => x i.castSucc) ∈
          {x ∈ unitCube 2 | ∃ p ∈ A, transformSphereBnd (vfin x) (fin r) (vfin o) = vfin p}} := by
      ext x
      simp only [Set.mem_ofPred_eq]
      have key : x ∈ unitCube 3 → ((∃ p ∈ coneOver r o A, transformSphere (vfin x) (fin r) (vfin o) = vfin p) ↔
          0 < x 2 ∧ ∃ p ∈ A, transformSphereBnd (vfin fun i : Fin 2 => x i.castSucc) (fin r) (vfin o) = vfin p) := by
        intro hx
        have hf : ∀ i, Int.fract (x i) = x i := fun i => Int.fract_eq_self.mpr (hx i)
        have hd := edist2_ball r _ (2 * π * x 1) _ hr.le (Real.rpow_nonneg (Int.fract_nonneg (x 2)) (1 / 3)) (u_sq (x 0)) o
        rw [sphere_transform_fin, sphere_bnd_fin]
        have hlt : Int.fract (x 2) ^ (1 / 3 : ℝ) < 1 :=
          Real.rpow_lt_one (Int.fract_nonneg _) (Int.fract_lt_one _) (by norm_num)
        have hproj : 0 < x 2 → (fun i => ((![Int.fract (x 2) ^ (1 / 3 : ℝ) * Real.cos (2 * π * x 1) *
              √(1 - (2 * Int.fract (x 0) - 1) ^ 2), Int.fract (x 2) ^ (1 / 3 : ℝ) * Real.sin (2 * π * x 1) *
              √(1 - (2 * Int.fract (x 0) - 1) ^ 2), Int.fract (x 2) ^ (1 / 3 : ℝ) * (2 * Int.fract (x 0) - 1)] i * r +
              o i) - o i) / (Int.fract (x 2) ^ (1 / 3 : ℝ) * r) * r + o i) =
            fun i => ![Real.cos (2 * π * x 1) * √(1 - (2 * Int.fract (x 0) - 1) ^ 2),
              Real.sin (2 * π * x 1) * √(1 - (2 * Int.fract (x 0) - 1) ^ 2), 2 * Int.fract (x 0) - 1] i * r + o i := by
          intro h2
          have hp : 0 < Int.fract (x 2) ^ (1 / 3 : ℝ) := Real.rpow_pos_of_pos (by rw [hf]; exact h2) _
          funext i
          fin_cases i <;> · simp; field_simp; simp
        constructor
        · rintro ⟨p, ⟨h1, -, h3⟩, hp⟩
          obtain rfl := vfin_inj hp
          rw [hd] at h1 h3
          have h2 : 0 < x 2 := by
            rcases (hx 2).1.lt_or_eq with h | h
            · exact h
            · rw [hf, ← h, Real.zero_rpow (by norm_num), zero_mul] at h1
              exact absurd h1 (lt_irrefl _)
          rw [hproj h2] at h3
          exact ⟨h2, _, h3, rfl⟩
        · rintro ⟨h2, p, hpA, hp⟩
          obtain rfl := vfin_inj hp
          have hpos : 0 < Int.fract (x 2) ^ (1 / 3 : ℝ) := Real.rpow_pos_of_pos (by rw [hf]; exact h2) _
          refine ⟨_, ⟨?_, ?_, ?_⟩, rfl⟩
          · rw [hd]; positivity
          · rw [hd]; nlinarith
          · rw [hd, hproj h2]; exact hpA
      constructor
      · rintro ⟨hx, hp⟩
        obtain ⟨h2, hp⟩ := (key hx).mp hp
        exact ⟨⟨h2, (hx 2).2⟩, fun i => hx i.castSucc, hp⟩
      · rintro ⟨h2, hx, hp⟩
        have hx' : x ∈ unitCube 3 := by
          intro i
          fin_cases i
          · exact hx 0
          · exact hx 1
          · exact ⟨h2.1.le, h2.2⟩
        exact ⟨hx', (key hx').mpr ⟨h2.1, hp⟩⟩
    rw [e, volume_last]
    simp

/-- The doubling map of the circle preserves lengths. -/
theorem volume_double {P : ℝ → Prop} (hm : MeasurableSet {t | P t}) (hP : ∀ t, P (t + 1) ↔ P t) :
    volume {s : ℝ | s ∈ Set.Ico (0 : ℝ) 1 ∧ P (2 * s)} = volume {s : ℝ | s ∈ Set.Ico (0 : ℝ) 1 ∧ P s} := by
  have h1 : {s : ℝ | s ∈ Set.Ico (0 : ℝ) 1 ∧ P (2 * s)} =
      (fun s : ℝ => 2 * s) ⁻¹' {t : ℝ | t ∈ Set.Ico (0 : ℝ) 2 ∧ P t} := by
    ext s
    simp only [Set.mem_ofPred_eq, Set.mem_preimage, Set.mem_Ico]
    constructor <;> rintro ⟨⟨a, b⟩, c⟩ <;> exact ⟨⟨by linarith, by linarith⟩, c⟩
  have h2 : {t : ℝ | t ∈ Set.Ico (0 : ℝ) 2 ∧ P t} = {s : ℝ | s ∈ Set.Ico (0 : ℝ) 1 ∧ P s} ∪
      (fun t : ℝ => t + -1) ⁻¹' {s : ℝ | s ∈ Set.Ico (0 : ℝ) 1 ∧ P s} := by
    ext t
    have := hP (t + -1)
    rw [neg_add_cancel_right] at this
    simp only [Set.mem_ofPred_eq, Set.mem_preimage, Set.mem_Ico, Set.mem_union, this]
    constructor
    · rintro ⟨⟨a, b⟩, c⟩
      rcases lt_or_ge t 1 with h | h
      · exact .inl ⟨⟨a, h⟩, c⟩
      · exact .inr ⟨⟨by linarith, by linarith⟩, c⟩
    · rintro (⟨⟨a, b⟩, c⟩ | ⟨⟨a, b⟩, c⟩)
      · exact ⟨⟨a, by linarith⟩, c⟩
      · exact ⟨⟨by linarith, by linarith⟩, c⟩
  have hM : MeasurableSet {s : ℝ | s ∈ Set.Ico (0 : ℝ) 1 ∧ P s} := measurableSet_Ico.inter hm
  have h3 : Disjoint {s : ℝ | s ∈ Set.Ico (0 : ℝ) 1 ∧ P s}
      ((fun t : ℝ => t + -1) ⁻¹' {s : ℝ | s ∈ Set.Ico (0 : ℝ) 1 ∧ P s}) := by
    rw [Set.disjoint_left]
    rintro t ⟨⟨a, b⟩, -⟩ ⟨⟨a', b'⟩, -⟩
    linarith
  rw [h1, Real.volume_preimage_mul_left two_ne_zero, h2, measure_union h3 (hM.preimage (measurable_add_const _)),
    measure_preimage_add_right, ← two_mul, ← mul_assoc]
  rw [← ENNReal.ofReal_ofNat 2, ← ENNReal.ofReal_mul (by positivity)]
  norm_num

theorem circle_bnd_uniform {r : ℝ} (hr : 0 < r) (o : Fin 2 → ℝ) :
    IsUniformSphere (fun x : Vec 1 => transformCircleBnd (x 0) (fin r) (vfin o)) r o := by
  obtain ⟨hbnd, -⟩ := (C35_sphere_circle_transform hr).2 o
  have hpi := Real.pi_pos
  refine ⟨fun x _ => ?_, fun A hA => ?_⟩
  · obtain ⟨p, h1, h2⟩ := hbnd (x 0)
    exact ⟨p, h2, h1⟩
  · obtain ⟨-, hV, -, hU⟩ := isUniform_annulus le_rfl hr o
    have hball : annulusRegion 0 r o = ballRegion r o := by
      ext p
      simp only [annulusRegion, ballRegion, Set.mem_ofPred_eq, and_iff_right_iff_imp]
      exact fun _ => Real.sqrt_nonneg _
    rw [hball] at hV hU
    have hsub : coneOver r o A ∩ ballRegion r o = coneOver r o A := Set.inter_eq_left.mpr fun p hp => hp.2.1
    rw [hV, ← hsub, ← hU _ (measurableSet_coneOver r o hA)]
    congr 1
    set P : ℝ → Prop := fun t => (fun i => ![Real.cos (2 * π * t), Real.sin (2 * π * t)] i * r + o i) ∈ A with hPdef
    have hPm : MeasurableSet {t | P t} := by
      have : Measurable fun t : ℝ => (fun i => ![Real.cos (2 * π * t), Real.sin (2 * π * t)] i * r + o i) := by
        refine measurable_pi_lambda _ fun i => ?_
        fin_cases i
        · exact ((Real.measurable_cos.comp (measurable_const_mul _)).mul_const _).add_const _
        · exact ((Real.measurable_sin.comp (measurable_const_mul _)).mul_const _).add_const _
      exact this hA
    have hP1 : ∀ t, P (t + 1) ↔ P t := by
      intro t
      simp only [hPdef, mul_add, mul_one, Real.cos_add_two_pi, Real.sin_add_two_pi]
    have e1 : {x ∈ unitCube 1 | ∃ p ∈ A, transformCircleBnd (vfin x 0) (fin r) (vfin o) = vfin p} =
        {x : Fin 1 → ℝ | x (Fin.last 0) ∈ {s : ℝ | s ∈ Set.Ico (0 : ℝ) 1 ∧ P (2 * s)} ∧
          (fun i : Fin 0 => x i.castSucc) ∈ (Set.univ : Set (Fin 0 → ℝ))} := by
      ext x
      simp only [Set.mem_ofPred_eq, Set.mem_univ, and_true, vfin_apply, circle_bnd_fin, unitCube, hPdef]
      have h4 : 2 * π * (2 * x (Fin.last 0)) = 4 * π * x 0 := by
        rw [show Fin.last 0 = 0 from rfl]; ring
      rw [h4]
      constructor
      · rintro ⟨h1, p, hp, h2⟩
        obtain rfl := vfin_inj h2
        exact ⟨h1 0, hp⟩
      · rintro ⟨h1, h2⟩
        exact ⟨fun i => by rw [Subsingleton.elim i (Fin.last 0)]; exact h1, _, h2, rfl⟩
    have e2 : {x ∈ unitCube 2 | ∃ p ∈ coneOver r o A, transformAnnulus (vfin x) (fin 0) (fin r) (vfin o) = vfin p} =
        {x : Fin 2 → ℝ | x (Fin.last 1) ∈ Set.Ioo (0 : ℝ) 1 ∧ (fun i : Fin 1 => x i.castSucc) ∈
          {x : Fin 1 → ℝ | x (Fin.last 0) ∈ {s : ℝ | s ∈ Set.Ico (0 : ℝ) 1 ∧ P s} ∧
          (fun i : Fin 0 => x i.castSucc) ∈ (Set.univ : Set (Fin 0 → ℝ))}} := by
      ext x
      simp only [Set.mem_ofPred_eq, Set.mem_univ, and_true]
      have key : x ∈ unitCube 2 → ((∃ p ∈ coneOver r o A, transformAnnulus (vfin x) (fin 0) (fin r) (vfin o) = vfin p) ↔
          0 < x 1 ∧ P (x 0)) := by
        intro hx
        have hf : Int.fract (x 1) = x 1 := Int.fract_eq_self.mpr (hx 1)
        have hx1 := hx 1
        have hs : √(x 1 * (r ^ 2 - 0 ^ 2) + 0 ^ 2) = √(x 1) * r := by
          rw [show x 1 * (r ^ 2 - 0 ^ 2) + 0 ^ 2 = x 1 * r ^ 2 by ring, Real.sqrt_mul hx1.1, Real.sqrt_sq hr.le]
        rw [annulus_fin le_rfl hr.le, hf, hs]
        have hd := edist2_annulus (2 * π * x 0) (x 1 * (r ^ 2 - 0 ^ 2) + 0 ^ 2)
          (by have := mul_nonneg hx1.1 (sq_nonneg r); linarith) o
        rw [hs] at hd
        have hlt : √(x 1) < 1 := by rw [Real.sqrt_lt' one_pos]; simpa using hx1.2
        have hproj : 0 < x 1 → (fun i => (![√(x 1) * r * Real.cos (2 * π * x 0) + o 0,
            √(x 1) * r * Real.sin (2 * π * x 0) + o 1] i - o i) / (√(x 1) * r) * r + o i) =
            fun i => ![Real.cos (2 * π * x 0), Real.sin (2 * π * x 0)] i * r + o i := by
          intro h
          have := Real.sqrt_pos.mpr h
          funext i
          fin_cases i <;> · simp; field_simp; simp
        constructor
        · rintro ⟨p, ⟨h1, -, h3⟩, hp⟩
          obtain rfl := vfin_inj hp
          rw [hd] at h1 h3
          have h2 : 0 < x 1 := Real.sqrt_pos.mp (pos_of_mul_pos_left h1 hr.le)
          rw [hproj h2] at h3
          exact ⟨h2, h3⟩
        · rintro ⟨h2, h3⟩
          have := Real.sqrt_pos.mpr h2
          refine ⟨_, ⟨?_, ?_, ?_⟩, rfl⟩
          · rw [hd]; positivity
          · rw [hd]; nlinarith
          · rw [hd, hproj h2]; exact h3
      constructor
      · rintro ⟨hx, hp⟩
        obtain ⟨h2, hp⟩ := (key hx).mp hp
        exact ⟨⟨h2, (hx 1).2⟩, hx 0, hp⟩
      · rintro ⟨h2, hx, hp⟩
        have hx' : x ∈ unitCube 2 := by
          intro i
          fin_cases i
          · exact hx
          · exact ⟨h2.1.le, h2.2⟩
        exact ⟨hx', (key hx').mpr ⟨h2.1, hp⟩⟩
    rw [e1, e2, volume_last, volume_last, volume_last, volume_double hPm hP1]
    simp

/-- Spec: the part of the measurable set `A` on the face of the box on which coordinate `i` is `c`, as a set of the
other coordinates. -/
def faceSlice {m : ℕ} (lb ub : Fin (m + 2) → ℝ) (A : Set (Fin (m + 2) → ℝ)) (i : Fin (m + 2)) (c : ℝ) :
    Set (Fin (m + 1) → ℝ) :=
  {y | (∀ j, y j ∈ Set.Icc (lb (i.succAbove j)) (ub (i.succAbove j))) ∧ Fin.insertNth (α := fun _ => ℝ) i c y ∈ A}

theorem faceArea_succAbove {m : ℕ} (lb ub : Fin (m + 2) → ℝ) (i : Fin (m + 2)) :
    faceArea lb ub i = ∏ j, (ub (i.succAbove j) - lb (i.succAbove j)) := by
  rw [faceArea]
  have : Finset.univ.erase i = Finset.univ.image i.succAbove := by
    ext j
    simp only [Finset.mem_erase, Finset.mem_univ, and_true, Finset.mem_image, true_and]
    exact Fin.exists_succAbove_eq_iff.symm
  rw [this, Finset.prod_image fun a _ b _ hab => Fin.succAbove_right_injective hab]

theorem measurable_insertNth {m : ℕ} (i : Fin (m + 2)) (c : ℝ) :
    Measurable fun y : Fin (m + 1) → ℝ => Fin.insertNth (α := fun _ => ℝ) i c y := by
  refine measurable_pi_lambda _ fun j => ?_
  refine Fin.succAboveCases i ?_ (fun k => ?_) j
  · simp only [Fin.insertNth_apply_same]; exact measurable_const
  · simp only [Fin.insertNth_apply_succAbove]; exact measurable_pi_apply k

/-- The samples which are sent to face `k`. -/
def faceSamples {m : ℕ} (lb ub : Fin (m + 2) → ℝ) (k : ℕ) : Set (Fin (m + 1) → ℝ) :=
  {x ∈ unitCube (m + 1) | faceStart lb ub k ≤ x 0 ∧ x 0 < faceStart lb ub (k + 1)}

theorem measurableSet_faceSamples {m : ℕ} (lb ub : Fin (m + 2) → ℝ) (k : ℕ) :
    MeasurableSet (faceSamples lb ub k) :=
  (measurableSet_unitCube _).inter ((measurableSet_le measurable_const (measurable_pi_apply 0)).inter
    (measurableSet_lt (measurable_pi_apply 0) measurable_const))

/-- Share of one face. -/
theorem volume_face {m : ℕ} {lb ub : Fin (m + 2) → ℝ} (h : ∀ i, lb i < ub i) {A : Set (Fin (m + 2) → ℝ)}
    (hA : MeasurableSet A) {k : ℕ} (hk : k < 2 * m + 3 + 1) :
    MeasurableSet {x ∈ faceSamples lb ub k | ∃ p ∈ A,
      Hypercube.transformBnd ⟨vfin lb, vfin ub⟩ (List.ofFn fun j => fin (x j)) = .ok (vfin p)} ∧
    ENNReal.ofReal (2 * ∑ i, faceArea lb ub i) * volume {x ∈ faceSamples lb ub k | ∃ p ∈ A,
      Hypercube.transformBnd ⟨vfin lb, vfin ub⟩ (List.ofFn fun j => fin (x j)) = .ok (vfin p)} =
    volume (faceSlice lb ub A (faceDir m k) (facePos lb ub k)) := by
  set i := faceDir m k with hi
  set l := faceStart lb ub (k + 1) - faceStart lb ub k with hl
  have hlpos : 0 < l := sub_pos.mpr (faceStart_lt h k)
  have hb0 : 0 ≤ faceStart lb ub k := by
    rw [← faceStart_zero (lb := lb) (ub := ub)]; exact faceStart_mono h (Nat.zero_le k)
  have hb1 : faceStart lb ub (k + 1) ≤ 1 := by
    rw [← faceStart_last h]; exact faceStart_mono h (by omega)
  have hw (j : Fin (m + 1)) : 0 < ub (i.succAbove j) - lb (i.succAbove j) := sub_pos.mpr (h _)
  set a : Fin (m + 1) → ℝ := fun j => if j = 0 then faceStart lb ub k else 0 with ha
  set e : Fin (m + 1) → ℝ := fun j => if j = 0 then l else 1 with he
  have hepos : ∀ j, 0 < e j := fun j => by simp only [he]; split <;> simp [hlpos]
  set G : (Fin (m + 1) → ℝ) → Fin (m + 1) → ℝ := fun x j =>
    (x j - a j) * ((ub (i.succAbove j) - lb (i.succAbove j)) / e j) + lb (i.succAbove j) with hG
  have hGm : Measurable G :=
    measurable_pi_lambda _ fun j => (((measurable_pi_apply j).sub_const _).mul_const _).add_const _
  have hmem : ∀ x, x ∈ faceSamples lb ub k ↔ ∀ j, a j ≤ x j ∧ x j < a j + e j := by
    intro x
    constructor
    · rintro ⟨hx, h1, h2⟩ j
      rcases eq_or_ne j 0 with rfl | hj
      · simp only [ha, he, hl, if_true]; exact ⟨h1, by linarith⟩
      · simp only [ha, he, hj, if_false]; exact ⟨(hx j).1, by linarith [(hx j).2]⟩
    · intro hx
      have h0 := hx 0
      simp only [ha, he, hl, if_true] at h0
      refine ⟨fun j => ?_, h0.1, by linarith [h0.2]⟩
      rcases eq_or_ne j 0 with rfl | hj
      · exact ⟨by linarith [h0.1], by linarith [h0.2]⟩
      · have := hx j
        simp only [ha, he, hj, if_false] at this
        exact ⟨this.1, by linarith [this.2]⟩
  have hset : {x ∈ faceSamples lb ub k | ∃ p ∈ A,
      Hypercube.transformBnd ⟨vfin lb, vfin ub⟩ (List.ofFn fun j => fin (x j)) = .ok (vfin p)} =
      faceSamples lb ub k ∩ G ⁻¹' {y | Fin.insertNth (α := fun _ => ℝ) i (facePos lb ub k) y ∈ A} := by
    ext x
    simp only [Set.mem_ofPred_eq, Set.mem_inter_iff, Set.mem_preimage]
    refine and_congr_right fun hx => ?_
    have hfr (j : Fin (m + 1)) : Int.fract (x j) = x j := Int.fract_eq_self.mpr (hx.1 j)
    rw [transformBnd_fin h x hk (by rw [hfr]; exact hx.2.1) (by rw [hfr]; exact hx.2.2)]
    have hGx : (fun j => lb (i.succAbove j) + stretched lb ub k x j * (ub (i.succAbove j) - lb (i.succAbove j))) =
        G x := by
      funext j
      simp only [hG, stretched, hfr, ha, he]
      split
      · next hj => rw [hj, ← hl]; ring
      · ring
    rw [← hi, hGx]
    constructor
    · rintro ⟨p, hp, heq⟩
      simp only [Except.ok.injEq] at heq
      obtain rfl := vfin_inj heq
      exact hp
    · exact fun hp => ⟨_, hp, rfl⟩
  have himg : G '' faceSamples lb ub k =
      {y | ∀ j, lb (i.succAbove j) ≤ y j ∧ y j < ub (i.succAbove j)} := by
    ext y
    simp only [Set.mem_image, hmem, Set.mem_ofPred_eq]
    constructor
    · rintro ⟨x, hx, rfl⟩ j
      have h1 := hx j
      have h2 := hw j
      have h3 := hepos j
      have h4 : 0 < (ub (i.succAbove j) - lb (i.succAbove j)) / e j := by positivity
      have h5 : e j * ((ub (i.succAbove j) - lb (i.succAbove j)) / e j) = ub (i.succAbove j) - lb (i.succAbove j) := by
        field_simp
      simp only [hG]
      constructor
      · nlinarith [mul_nonneg (sub_nonneg.mpr h1.1) h4.le]
      · have := mul_lt_mul_of_pos_right (show x j - a j < e j by linarith) h4
        linarith
    · intro hy
      refine ⟨fun j => (y j - lb (i.succAbove j)) / (ub (i.succAbove j) - lb (i.succAbove j)) * e j + a j, fun j => ?_, ?_⟩
      · have h1 := hy j
        have h2 := hw j
        have h3 := hepos j
        have h4 : 0 ≤ (y j - lb (i.succAbove j)) / (ub (i.succAbove j) - lb (i.succAbove j)) :=
          div_nonneg (by linarith) h2.le
        have h5 : (y j - lb (i.succAbove j)) / (ub (i.succAbove j) - lb (i.succAbove j)) < 1 :=
          (div_lt_one h2).mpr (by linarith)
        constructor <;> nlinarith
      · funext j
        have h2 := (hw j).ne'
        have h3 := (hepos j).ne'
        simp only [hG]
        field_simp
        ring
  have hdet : |(matCLM (Matrix.diagonal fun j => (ub (i.succAbove j) - lb (i.succAbove j)) / e j)).det| =
      2 * ∑ i, faceArea lb ub i := by
    rw [matCLM_det, Matrix.det_diagonal, Finset.prod_div_distrib, ← faceArea_succAbove]
    have : ∏ j, e j = l := by simp [he]
    rw [this, hl, faceStart_succ, ← hi]
    have h1 := (faceArea_pos h i).ne'
    have h2 := surface_pos h
    rw [div_div_cancel₀ h1, abs_of_pos h2]
  rw [hset]
  refine ⟨(measurableSet_faceSamples lb ub k).inter (hGm (measurable_insertNth i (facePos lb ub k) hA)),
    (volume_of_jacobian_ae (s := faceSamples lb ub k) (C := faceSamples lb ub k)
    (R := {y | ∀ j, y j ∈ Set.Icc (lb (i.succAbove j)) (ub (i.succAbove j))}) (measurableSet_faceSamples lb ub k) hGm
    (T' := fun _ => matCLM (Matrix.diagonal fun j => (ub (i.succAbove j) - lb (i.succAbove j)) / e j))
    (fun x _ => ?_) (fun x _ y _ hxy => ?_) (fun x _ => hdet) le_rfl (by simp) ?_ ?_
    (measurable_insertNth i (facePos lb ub k) hA)).trans ?_⟩
  · refine hasFDerivAt_matCLM fun j => ⟨_, hasFDerivAt_coord
      (f := fun t => (t - a j) * ((ub (i.succAbove j) - lb (i.succAbove j)) / e j) + lb (i.succAbove j)) j
      (((hasDerivAt_id (x j)).sub_const (a j)).mul_const _ |>.add_const _), fun v => ?_⟩
    simp [Matrix.diagonal_apply]
  · funext j
    have h1 := congrFun hxy j
    have h4 : (ub (i.succAbove j) - lb (i.succAbove j)) / e j ≠ 0 := (div_pos (hw j) (hepos j)).ne'
    simp only [hG, add_left_inj] at h1
    have := mul_right_cancel₀ h4 h1
    linarith
  · rw [himg]
    exact fun y hy j => ⟨(hy j).1, (hy j).2.le⟩
  · rw [himg]
    refine measure_mono_null (t := ⋃ j, {y : Fin (m + 1) → ℝ | y j = ub (i.succAbove j)}) (fun y hy => ?_)
      (measure_iUnion_null fun j => volume_hyperplane j _)
    rw [Set.mem_iUnion]
    by_contra hne
    push Not at hne
    exact hy.2 fun j => ⟨(hy.1 j).1, lt_of_le_of_ne (hy.1 j).2 (hne j)⟩
  · congr 1
    ext y
    exact and_comm

/-- **C105** (spheres and circles). With uniform samples of the unit square, `Sphere.transform_bnd` is uniform on the
sphere, and with uniform samples of the unit interval `Disk.transform_bnd` is uniform on the circle. -/
theorem C105_sphere_circle {r : ℝ} (hr : 0 < r) :
    (∀ o : Fin 3 → ℝ, IsUniformSphere (fun x => transformSphereBnd x (fin r) (vfin o)) r o) ∧
    (∀ o : Fin 2 → ℝ, IsUniformSphere (fun x : Vec 1 => transformCircleBnd (x 0) (fin r) (vfin o)) r o) :=
  ⟨sphere_bnd_uniform hr, circle_bnd_uniform hr⟩

/-- The boundary samples of the sphere of radius 2 about `(1, 0, 0)`: all of them are on the sphere, so the cone over the
whole space has the volume of the ball. -/
example : volume (coneOver 2 ![1, 0, 0] Set.univ) = volume (ballRegion 2 ![1, 0, 0]) := by
  obtain ⟨hin, hU⟩ := (C105_sphere_circle (r := 2) two_pos).1 ![1, 0, 0]
  rw [← hU _ MeasurableSet.univ]
  have : {x ∈ unitCube 2 | ∃ p ∈ Set.univ, transformSphereBnd (vfin x) (fin 2) (vfin ![1, 0, 0]) = vfin p} =
      unitCube 2 := by
    ext x
    simp only [Set.mem_ofPred_eq, Set.mem_univ, true_and, and_iff_left_iff_imp]
    intro hx
    obtain ⟨p, -, hp⟩ := hin x hx
    exact ⟨p, hp⟩
  rw [this, volume_unitCube, mul_one]

/-- **C105** (boxes). With uniform samples of the unit cube, the chance that `Hypercube.transform_bnd` is in the
measurable set `A` is the area of `A` on the faces of the box divided by the surface area of the box. -/
theorem C105_hypercube {m : ℕ} (lb ub : Fin (m + 2) → ℝ) (h : ∀ i, lb i < ub i) {A : Set (Fin (m + 2) → ℝ)}
    (hA : MeasurableSet A) :
    ENNReal.ofReal (2 * ∑ i, faceArea lb ub i) * volume {x ∈ unitCube (m + 1) | ∃ p ∈ A,
      Hypercube.transformBnd ⟨vfin lb, vfin ub⟩ (List.ofFn fun j => fin (x j)) = .ok (vfin p)} =
    ∑ i, (volume (faceSlice lb ub A i (lb i)) + volume (faceSlice lb ub A i (ub i))) := by
  have hpart : {x ∈ unitCube (m + 1) | ∃ p ∈ A,
      Hypercube.transformBnd ⟨vfin lb, vfin ub⟩ (List.ofFn fun j => fin (x j)) = .ok (vfin p)} =
      ⋃ k ∈ Finset.range (2 * m + 3 + 1), {x ∈ faceSamples lb ub k | ∃ p ∈ A,
      Hypercube.transformBnd ⟨vfin lb, vfin ub⟩ (List.ofFn fun j => fin (x j)) = .ok (vfin p)} := by
    ext x
    simp only [Set.mem_iUnion, Finset.mem_range, Set.mem_ofPred_eq, exists_prop]
    constructor
    · rintro ⟨hx, hp⟩
      obtain ⟨k, hk, h1, h2⟩ := exists_face h (hx 0).1 (hx 0).2
      exact ⟨k, hk, ⟨hx, h1, h2⟩, hp⟩
    · rintro ⟨k, hk, hx, hp⟩
      exact ⟨hx.1, hp⟩
  have hmeas : ∀ k ∈ Finset.range (2 * m + 3 + 1), MeasurableSet {x ∈ faceSamples lb ub k | ∃ p ∈ A,
      Hypercube.transformBnd ⟨vfin lb, vfin ub⟩ (List.ofFn fun j => fin (x j)) = .ok (vfin p)} := by
    exact fun k hk => (volume_face h hA (Finset.mem_range.mp hk)).1
  have hdisj : (↑(Finset.range (2 * m + 3 + 1)) : Set ℕ).PairwiseDisjoint fun k => {x ∈ faceSamples lb ub k | ∃ p ∈ A,
      Hypercube.transformBnd ⟨vfin lb, vfin ub⟩ (List.ofFn fun j => fin (x j)) = .ok (vfin p)} := by
    intro k _ k' _ hne
    rw [Function.onFun, Set.disjoint_left]
    rintro x ⟨hx, -⟩ ⟨hx', -⟩
    rcases lt_or_gt_of_ne hne with hlt | hlt
    · have := faceStart_mono h (show k + 1 ≤ k' from hlt)
      linarith [hx.2.2, hx'.2.1]
    · have := faceStart_mono h (show k' + 1 ≤ k from hlt)
      linarith [hx'.2.2, hx.2.1]
  rw [hpart, measure_biUnion_finset hdisj hmeas, Finset.mul_sum,
    Finset.sum_congr rfl fun k hk => (volume_face h hA (Finset.mem_range.mp hk)).2,
    show 2 * m + 3 + 1 = (m + 2) + (m + 2) by ring, Finset.sum_range_add, Finset.sum_range, Finset.sum_range,
    ← Finset.sum_add_distrib]
  refine Finset.sum_congr rfl fun i _ => ?_
  have h1 : faceDir m i = i := Fin.ext (by simp [faceDir, Nat.mod_eq_of_lt i.2])
  have h2 : faceDir m (m + 2 + i) = i := Fin.ext (by simp [faceDir, Nat.mod_eq_of_lt i.2])
  rw [facePos, facePos, h1, h2, if_pos i.2, if_neg (by omega)]

/-- **C105** (intervals). With a uniform sample of the unit interval, `Hypercube.transform_bnd` of an interval is each of
the two ends with chance one half. -/
theorem C105_interval (lb ub : Fin 1 → ℝ) :
    (∀ s : ℝ, Hypercube.transformBnd ⟨vfin lb, vfin ub⟩ [fin s] = .ok (vfin lb) ∨
      Hypercube.transformBnd ⟨vfin lb, vfin ub⟩ [fin s] = .ok (vfin ub)) ∧
    (lb ≠ ub →
      volume {s : ℝ | s ∈ Set.Ico (0 : ℝ) 1 ∧ Hypercube.transformBnd ⟨vfin lb, vfin ub⟩ [fin s] = .ok (vfin lb)} =
        ENNReal.ofReal (1 / 2) ∧
      volume {s : ℝ | s ∈ Set.Ico (0 : ℝ) 1 ∧ Hypercube.transformBnd ⟨vfin lb, vfin ub⟩ [fin s] = .ok (vfin ub)} =
        ENNReal.ofReal (1 / 2)) := by
  have key : ∀ s : ℝ, Hypercube.transformBnd ⟨vfin lb, vfin ub⟩ [fin s] =
      .ok (vfin (if 1 / 2 < Int.fract s then ub else lb)) := by
    intro s
    simp only [Hypercube.transformBnd, transformHypercubeBnd, fin_mod1, fin_lt]
    congr 1
    split
    · rw [show (fun _ : Fin 1 => (1 : XR)) = vfin fun _ => 1 from by funext i; simp [one_eq], transformHypercube_unit _ _ _ fun _ => le_rfl]
      congr 1; funext i; ring
    · rw [show (fun _ : Fin 1 => (0 : XR)) = vfin fun _ => 0 from by funext i; simp [zero_eq],
        transformHypercube_unit _ _ _ fun _ => zero_le_one]
      congr 1; funext i; ring
  refine ⟨fun s => ?_, fun hne => ?_⟩
  · rw [key]; split <;> simp
  · have e1 : {s : ℝ | s ∈ Set.Ico (0 : ℝ) 1 ∧ Hypercube.transformBnd ⟨vfin lb, vfin ub⟩ [fin s] = .ok (vfin lb)} =
        Set.Icc 0 (1 / 2) := by
      ext s
      simp only [Set.mem_ofPred_eq, key, Except.ok.injEq, Set.mem_Ico, Set.mem_Icc]
      constructor
      · rintro ⟨hs, h⟩
        rw [Int.fract_eq_self.mpr hs] at h
        split at h
        · exact absurd (vfin_inj h).symm hne
        · exact ⟨hs.1, by linarith⟩
      · rintro ⟨h0, h1⟩
        refine ⟨⟨h0, by linarith⟩, ?_⟩
        rw [Int.fract_eq_self.mpr ⟨h0, by linarith⟩, if_neg (by linarith)]
    have e2 : {s : ℝ | s ∈ Set.Ico (0 : ℝ) 1 ∧ Hypercube.transformBnd ⟨vfin lb, vfin ub⟩ [fin s] = .ok (vfin ub)} =
        Set.Ioo (1 / 2) 1 := by
      ext s
      simp only [Set.mem_ofPred_eq, key, Except.ok.injEq, Set.mem_Ico, Set.mem_Ioo]
      constructor
      · rintro ⟨hs, h⟩
        rw [Int.fract_eq_self.mpr hs] at h
        split at h
        · exact ⟨by assumption, hs.2⟩
        · exact absurd (vfin_inj h) hne
      · rintro ⟨h0, h1⟩
        refine ⟨⟨by linarith, h1⟩, ?_⟩
        rw [Int.fract_eq_self.mpr ⟨by linarith, h1⟩, if_pos h0]
    rw [e1, e2, Real.volume_Icc, Real.volume_Ioo]
    norm_num

/-- A sixth of the boundary samples of the unit cube lie on the face `x₀ = 0`. -/
example : volume {x ∈ unitCube 2 | ∃ p ∈ {p : Fin 3 → ℝ | p 0 = 0},
    Hypercube.transformBnd ⟨vfin fun _ : Fin 3 => 0, vfin fun _ => 1⟩ (List.ofFn fun j => fin (x j)) =
      .ok (vfin p)} = ENNReal.ofReal (1 / 6) := by
  have h := C105_hypercube (m := 1) (fun _ => 0) (fun _ => 1) (fun _ => one_pos)
    (measurableSet_eq_fun (measurable_pi_apply 0) measurable_const : MeasurableSet {p : Fin 3 → ℝ | p 0 = 0})
  have hz : ∀ (i : Fin 3) (c : ℝ), i ≠ 0 → volume (faceSlice (m := 1) (fun _ => 0) (fun _ => 1) {p | p 0 = 0} i c) = 0 := by
    intro i c hi
    obtain ⟨j, hj⟩ := Fin.exists_succAbove_eq_iff.mpr hi.symm
    refine measure_mono_null (t := {y : Fin 2 → ℝ | y j = 0}) (fun y hy => ?_) (volume_hyperplane j 0)
    have := hy.2
    simp only [Set.mem_ofPred_eq] at this
    rw [← hj, Fin.insertNth_apply_succAbove] at this
    exact this
  have h0 : volume (faceSlice (m := 1) (fun _ => 0) (fun _ => 1) {p | p 0 = 0} 0 0) = 1 := by
    have : faceSlice (m := 1) (fun _ => 0) (fun _ => 1) {p | p 0 = 0} 0 0 = Set.Icc (fun _ => 0) fun _ => 1 := by
      ext y
      simp [faceSlice, Pi.le_def, forall_and]
    rw [this, Real.volume_Icc_pi]
    simp
  have h1 : volume (faceSlice (m := 1) (fun _ => 0) (fun _ => 1) {p | p 0 = 0} 0 1) = 0 := by
    have : faceSlice (m := 1) (fun _ => 0) (fun _ => 1) {p | p 0 = 0} 0 1 = ∅ := by
      ext y
      simp [faceSlice]
    rw [this, measure_empty]
  have hs : ∑ i : Fin 3, (volume (faceSlice (m := 1) (fun _ => 0) (fun _ => 1) {p | p 0 = 0} i 0) +
      volume (faceSlice (m := 1) (fun _ => 0) (fun _ => 1) {p | p 0 = 0} i 1)) = 1 := by
    rw [Fin.sum_univ_three, hz 1 _ (by decide), hz 1 _ (by decide), hz 2 _ (by decide), hz 2 _ (by decide), h0, h1]
    simp
  have ha : ENNReal.ofReal (2 * ∑ i : Fin (1 + 2), faceArea (fun _ => 0) (fun _ => 1) i) = 6 := by
    simp [faceArea]; norm_num
  have h6 := h.trans hs
  rw [ha, mul_comm] at h6
  have := ENNReal.eq_div_iff (a := (6 : ENNReal)) (by simp) (by simp) |>.mpr ((mul_comm _ _).trans h6)
  rw [ENNReal.ofReal_div_of_pos (by norm_num)]
  simpa using this

end Verif
