import Verif.Props.Round
import Verif.Props.Box
import Verif.Lemmas.Measure
import Mathlib.Analysis.SpecialFunctions.Sqrt
import Mathlib.Analysis.SpecialFunctions.Pow.Deriv
import Mathlib.Analysis.SpecialFunctions.Trigonometric.Deriv

/-! # Properties C43, C44: volumes and uniformity of the transforms -/

namespace Verif

open XR Real MeasureTheory

/-- The half-open unit cube, where `jax.random.uniform` takes its values. -/
def unitCube (n : ℕ) : Set (Fin n → ℝ) := {x | ∀ i, 0 ≤ x i ∧ x i < 1}

theorem unitCube_eq (n : ℕ) : unitCube n = Set.pi Set.univ fun _ => Set.Ico (0 : ℝ) 1 := by
  ext x; simp [unitCube, Set.mem_pi]

theorem volume_unitCube (n : ℕ) : volume (unitCube n) = 1 := by
  rw [unitCube_eq, volume_pi_pi]; simp

theorem measurableSet_unitCube (n : ℕ) : MeasurableSet (unitCube n) := by
  rw [unitCube_eq]; exact MeasurableSet.univ_pi fun _ => measurableSet_Ico

/-- The transform `T` of the code sends the uniform distribution on the unit cube to the uniform
distribution on `R`, a region of volume `V`: every sample is sent to a (finite) point, and for every
measurable set `A` the probability of landing in `A`, times `V`, is the volume of `A ∩ R`. -/
def IsUniform {n : ℕ} (T : Vec n → Vec n) (R : Set (Fin n → ℝ)) (V : ℝ) : Prop :=
  0 < V ∧ volume R = ENNReal.ofReal V ∧ (∀ x ∈ unitCube n, ∃ p ∈ R, T (vfin x) = vfin p) ∧
  ∀ A : Set (Fin n → ℝ), MeasurableSet A →
    ENNReal.ofReal V * volume {x ∈ unitCube n | ∃ p ∈ A, T (vfin x) = vfin p} = volume (A ∩ R)

theorem vfin_inj {n : ℕ} {p q : Fin n → ℝ} (h : vfin p = vfin q) : p = q := by
  funext i; simpa using congrFun h i

theorem isUniform_of {n : ℕ} {T : Vec n → Vec n} {R s : Set (Fin n → ℝ)} {V : ℝ} (hV : 0 < V)
    {F : (Fin n → ℝ) → Fin n → ℝ} (hF : Measurable F) (hs : MeasurableSet s)
    (hTF : ∀ x ∈ unitCube n, T (vfin x) = vfin (F x)) (hFR : ∀ x ∈ unitCube n, F x ∈ R)
    {F' : (Fin n → ℝ) → (Fin n → ℝ) →L[ℝ] Fin n → ℝ} (hd : ∀ x ∈ s, HasFDerivAt F (F' x) x)
    (inj : Set.InjOn F s) (hc : ∀ x ∈ s, |(F' x).det| = V) (hsC : s ⊆ unitCube n)
    (hC : volume (unitCube n \ s) = 0) (hR : volume (R \ F '' s) = 0) : IsUniform T R V := by
  have key {A : Set (Fin n → ℝ)} (hA : MeasurableSet A) :
      ENNReal.ofReal V * volume (unitCube n ∩ F ⁻¹' A) = volume (A ∩ R) := by
    refine volume_of_jacobian_ae hs hF hd inj hc hsC hC ?_ hR hA
    rintro _ ⟨x, hx, rfl⟩
    exact hFR x (hsC hx)
  refine ⟨hV, ?_, fun x hx => ⟨F x, hFR x hx, hTF x hx⟩, fun A hA => ?_⟩
  · have := key MeasurableSet.univ
    rw [Set.preimage_univ, Set.inter_univ, Set.univ_inter, volume_unitCube, mul_one] at this
    exact this.symm
  · rw [← key hA]
    congr 2
    ext x
    simp only [Set.mem_inter_iff, Set.mem_preimage]
    refine and_congr_right fun hx => ?_
    rw [hTF x hx]
    constructor
    · rintro ⟨p, hp, h⟩
      rwa [vfin_inj h]
    · exact fun h => ⟨_, h, rfl⟩

/-- The box (spec). -/
def boxRegion {n : ℕ} (lb ub : Fin n → ℝ) : Set (Fin n → ℝ) := {p | ∀ i, lb i ≤ p i ∧ p i ≤ ub i}

/-- The ball without boundary (spec). -/
def ballRegion {n : ℕ} (r : ℝ) (o : Fin n → ℝ) : Set (Fin n → ℝ) := {p | edist2 p o < r}

/-- The half-open annulus (spec). -/
def annulusRegion (r1 r2 : ℝ) (o : Fin 2 → ℝ) : Set (Fin 2 → ℝ) := {p | r1 ≤ edist2 p o ∧ edist2 p o < r2}

theorem isUniform_box {n : ℕ} (lb ub : Fin n → ℝ) (h : ∀ i, lb i < ub i) :
    IsUniform (Hypercube.transform ⟨vfin lb, vfin ub⟩) (boxRegion lb ub) (∏ i, (ub i - lb i)) := by
  have hpos : 0 < ∏ i, (ub i - lb i) := Finset.prod_pos fun i _ => sub_pos.mpr (h i)
  refine isUniform_of (s := unitCube n) hpos (F := fun x i => x i * (ub i - lb i) + lb i)
    (F' := fun _ => matCLM (Matrix.diagonal fun i => ub i - lb i))
    (measurable_pi_lambda _ fun i => ((measurable_pi_apply i).mul_const _).add_const _)
    (measurableSet_unitCube n) (fun x hx => ?_) (fun x hx i => ?_) (fun x _ => ?_)
    (fun x _ y _ hxy => ?_) (fun x _ => ?_) le_rfl (by simp) ?_
  · rw [Hypercube.transform, transformHypercube_unit lb ub x fun i => (hx i).2.le]
    congr 1; funext i; ring
  · have h1 := hx i
    have h2 := h i
    constructor <;> nlinarith
  · refine hasFDerivAt_matCLM fun i => ⟨_, hasFDerivAt_coord (f := fun t => t * (ub i - lb i) + lb i) i
        (by simpa using ((hasDerivAt_id (x i)).mul_const (ub i - lb i)).add_const (lb i)), fun v => ?_⟩
    simp [Matrix.diagonal_apply]
  · funext i
    have h1 := congrFun hxy i
    have h2 := sub_pos.mpr (h i)
    simp only [add_left_inj] at h1
    exact mul_right_cancel₀ h2.ne' h1
  · rw [matCLM_det, Matrix.det_diagonal, abs_of_pos hpos]
  · refine measure_mono_null (t := ⋃ i, {p : Fin n → ℝ | p i = ub i}) ?_
      (measure_iUnion_null fun i => volume_hyperplane i _)
    rintro p ⟨hp, hn⟩
    by_contra hcon
    simp only [Set.mem_iUnion, Set.mem_ofPred_eq, not_exists] at hcon
    refine hn ⟨fun i => (p i - lb i) / (ub i - lb i), fun i => ?_, ?_⟩
    · have h2 := sub_pos.mpr (h i)
      have h3 := hp i
      have h4 : p i < ub i := lt_of_le_of_ne h3.2 (hcon i)
      exact ⟨div_nonneg (by linarith) h2.le, (div_lt_one h2).mpr (by linarith)⟩
    · funext i
      have h2 := (sub_pos.mpr (h i)).ne'
      simp only
      field_simp
      ring

theorem volume_edist2_sphere (o : Fin 2 → ℝ) (r : ℝ) : volume {p : Fin 2 → ℝ | edist2 p o = r} = 0 := by
  have hpre : {p : Fin 2 → ℝ | edist2 p o = r} =
      (WithLp.toLp 2) ⁻¹' (Metric.sphere (WithLp.toLp 2 o : EuclideanSpace ℝ (Fin 2)) r) := by
    ext p
    simp only [Set.mem_ofPred_eq, Set.mem_preimage, Metric.mem_sphere, EuclideanSpace.dist_eq, edist2,
      Real.dist_eq, sq_abs]
  rw [hpre, (PiLp.volume_preserving_toLp (Fin 2)).measure_preimage
    (Metric.isClosed_sphere.measurableSet.nullMeasurableSet)]
  exact Measure.addHaar_sphere _ _ _

theorem angle_inj {s t : ℝ} (hs : 0 ≤ s ∧ s < 1) (ht : 0 ≤ t ∧ t < 1)
    (hc : Real.cos (2 * π * s) = Real.cos (2 * π * t)) (hs' : Real.sin (2 * π * s) = Real.sin (2 * π * t)) :
    s = t := by
  have h2 : ((2 * π * s : ℝ) : Real.Angle) = ((2 * π * t : ℝ) : Real.Angle) :=
    Real.Angle.cos_sin_inj hc hs'
  rw [Real.Angle.angle_eq_iff_two_pi_dvd_sub] at h2
  obtain ⟨k, hk⟩ := h2
  have hpi := Real.pi_pos
  have h3 : 2 * π * (s - t - k) = 0 := by linear_combination hk
  have h4 := (mul_eq_zero.mp h3).resolve_left (by positivity)
  have h5 : (k : ℝ) < 1 := by linarith
  have h6 : (-1 : ℝ) < k := by linarith
  have h7 : k < 1 := by exact_mod_cast h5
  have h8 : -1 < k := by exact_mod_cast h6
  have h9 : k = 0 := by omega
  rw [h9] at h4
  push_cast at h4; linarith

theorem isUniform_annulus {r1 r2 : ℝ} (h1 : 0 ≤ r1) (h2 : r1 < r2) (o : Fin 2 → ℝ) :
    IsUniform (fun x => transformAnnulus x (fin r1) (fin r2) (vfin o)) (annulusRegion r1 r2 o)
      ((r2 ^ 2 - r1 ^ 2) * π) := by
  have hK : 0 < r2 ^ 2 - r1 ^ 2 := by nlinarith
  have hpi := Real.pi_pos
  obtain ⟨hin, hsurj, -⟩ := C34_annulus_transform h1 h2.le o
  set F : (Fin 2 → ℝ) → Fin 2 → ℝ := fun x => ![
      √(x 1 * (r2 ^ 2 - r1 ^ 2) + r1 ^ 2) * Real.cos (2 * π * x 0) + o 0,
      √(x 1 * (r2 ^ 2 - r1 ^ 2) + r1 ^ 2) * Real.sin (2 * π * x 0) + o 1] with hF
  have hTF : ∀ x ∈ unitCube 2, transformAnnulus (vfin x) (fin r1) (fin r2) (vfin o) = vfin (F x) := by
    intro x hx
    rw [annulus_fin h1 h2.le, Int.fract_eq_self.mpr (hx 1)]
  have hdist : ∀ x ∈ unitCube 2, edist2 (F x) o = √(x 1 * (r2 ^ 2 - r1 ^ 2) + r1 ^ 2) := by
    intro x hx
    have := (hx 1).1
    exact edist2_annulus _ _ (by positivity) o
  refine isUniform_of (s := unitCube 2 ∩ {x | x 1 = 0}ᶜ) (by positivity) (F := F)
    (F' := fun x => matCLM !![
      -(2 * π) * √(x 1 * (r2 ^ 2 - r1 ^ 2) + r1 ^ 2) * Real.sin (2 * π * x 0),
      (r2 ^ 2 - r1 ^ 2) / (2 * √(x 1 * (r2 ^ 2 - r1 ^ 2) + r1 ^ 2)) * Real.cos (2 * π * x 0);
      2 * π * √(x 1 * (r2 ^ 2 - r1 ^ 2) + r1 ^ 2) * Real.cos (2 * π * x 0),
      (r2 ^ 2 - r1 ^ 2) / (2 * √(x 1 * (r2 ^ 2 - r1 ^ 2) + r1 ^ 2)) * Real.sin (2 * π * x 0)])
    ?_ ((measurableSet_unitCube 2).inter (measurableSet_eq_fun (measurable_pi_apply 1)
      measurable_const).compl) hTF ?_ (fun x hx => ?_) (fun x hx y hy hxy => ?_) (fun x hx => ?_)
      Set.inter_subset_left ?_ ?_
  · refine measurable_pi_lambda _ fun i => ?_
    fin_cases i <;> simp only [hF, Fin.zero_eta, Fin.mk_one, Matrix.cons_val_zero, Matrix.cons_val_one] <;>
      fun_prop
  · intro x hx
    obtain ⟨p, hp, ha, hb, -⟩ := hin x
    rw [hTF x hx] at hp
    rw [vfin_inj hp]
    exact ⟨ha, hb h2⟩
  · have hx1 : 0 < x 1 := lt_of_le_of_ne (hx.1 1).1 fun h => hx.2 h.symm
    have hρ : 0 < x 1 * (r2 ^ 2 - r1 ^ 2) + r1 ^ 2 := by positivity
    have d1 : HasDerivAt (fun t : ℝ => √(t * (r2 ^ 2 - r1 ^ 2) + r1 ^ 2))
        ((r2 ^ 2 - r1 ^ 2) / (2 * √(x 1 * (r2 ^ 2 - r1 ^ 2) + r1 ^ 2))) (x 1) := by
      have := (((hasDerivAt_id (x 1)).mul_const (r2 ^ 2 - r1 ^ 2)).add_const (r1 ^ 2)).sqrt hρ.ne'
      simpa using this
    have d2 : HasDerivAt (fun t : ℝ => Real.cos (2 * π * t)) (-Real.sin (2 * π * x 0) * (2 * π)) (x 0) := by
      have := ((hasDerivAt_id (x 0)).const_mul (2 * π)).cos
      simpa using this
    have d3 : HasDerivAt (fun t : ℝ => Real.sin (2 * π * t)) (Real.cos (2 * π * x 0) * (2 * π)) (x 0) := by
      have := ((hasDerivAt_id (x 0)).const_mul (2 * π)).sin
      simpa using this
    have e1 := hasFDerivAt_coord 1 d1
    have e2 := hasFDerivAt_coord 0 d2
    have e3 := hasFDerivAt_coord 0 d3
    refine hasFDerivAt_matCLM fun i => ?_
    fin_cases i
    · exact ⟨_, (e1.mul e2).add_const (o 0), fun v => by simp [Fin.sum_univ_two]; ring⟩
    · exact ⟨_, (e1.mul e3).add_const (o 1), fun v => by simp [Fin.sum_univ_two]; ring⟩
  · have hρ (z : Fin 2 → ℝ) (hz : z ∈ unitCube 2) : 0 ≤ z 1 * (r2 ^ 2 - r1 ^ 2) + r1 ^ 2 := by
      have := (hz 1).1; positivity
    have hd : √(x 1 * (r2 ^ 2 - r1 ^ 2) + r1 ^ 2) = √(y 1 * (r2 ^ 2 - r1 ^ 2) + r1 ^ 2) := by
      rw [← hdist x hx.1, ← hdist y hy.1, hxy]
    have e1 : x 1 = y 1 := by
      have := (Real.sqrt_inj (hρ x hx.1) (hρ y hy.1)).mp hd
      exact mul_right_cancel₀ hK.ne' (add_right_cancel this)
    have hx1 : 0 < x 1 := lt_of_le_of_ne (hx.1 1).1 fun h => hx.2 h.symm
    have hρ' : √(y 1 * (r2 ^ 2 - r1 ^ 2) + r1 ^ 2) ≠ 0 := by
      rw [← e1]
      exact (Real.sqrt_pos.mpr (by positivity)).ne'
    have c0 := congrFun hxy 0
    have c1 := congrFun hxy 1
    simp only [hF, Matrix.cons_val_zero, Matrix.cons_val_one, add_left_inj, hd, mul_right_inj' hρ'] at c0 c1
    have e0 := angle_inj (hx.1 0) (hy.1 0) c0 c1
    funext i
    fin_cases i
    · exact e0
    · exact e1
  · have hx1 : 0 < x 1 := lt_of_le_of_ne (hx.1 1).1 fun h => hx.2 h.symm
    have hρ : 0 < √(x 1 * (r2 ^ 2 - r1 ^ 2) + r1 ^ 2) := Real.sqrt_pos.mpr (by positivity)
    rw [matCLM_det, Matrix.det_fin_two_of]
    generalize √(x 1 * (r2 ^ 2 - r1 ^ 2) + r1 ^ 2) = ρ at hρ
    have := Real.sin_sq_add_cos_sq (2 * π * x 0)
    have e : -(2 * π) * ρ * Real.sin (2 * π * x 0) * ((r2 ^ 2 - r1 ^ 2) / (2 * ρ) * Real.sin (2 * π * x 0)) -
        (r2 ^ 2 - r1 ^ 2) / (2 * ρ) * Real.cos (2 * π * x 0) * (2 * π * ρ * Real.cos (2 * π * x 0)) =
        -((r2 ^ 2 - r1 ^ 2) * π) := by
      calc _ = -((r2 ^ 2 - r1 ^ 2) * π) * (Real.sin (2 * π * x 0) ^ 2 + Real.cos (2 * π * x 0) ^ 2) := by
            field_simp
            ring
        _ = _ := by rw [this, mul_one]
    rw [e, abs_neg, abs_of_pos (by positivity)]
  · refine measure_mono_null (t := {x : Fin 2 → ℝ | x 1 = 0}) ?_ (volume_hyperplane _ _)
    rintro x ⟨hx, hn⟩
    by_contra hcon
    exact hn ⟨hx, hcon⟩
  · refine measure_mono_null (t := {p : Fin 2 → ℝ | edist2 p o = r1}) ?_ (volume_edist2_sphere o r1)
    rintro p ⟨⟨hp1, hp2⟩, hn⟩
    by_contra hcon
    obtain ⟨x, hx, hxp⟩ := hsurj p hp1 (.inl hp2)
    have hFx : F x = p := vfin_inj ((hTF x hx).symm.trans hxp)
    refine hn ⟨x, ⟨hx, fun h0 => hcon ?_⟩, hFx⟩
    show edist2 p o = r1
    rw [← hFx, hdist x hx, show x 1 = 0 from h0, zero_mul, zero_add, Real.sqrt_sq h1]

theorem isUniform_sphere {r : ℝ} (hr : 0 < r) (o : Fin 3 → ℝ) :
    IsUniform (fun x => transformSphere x (fin r) (vfin o)) (ballRegion r o) (4 / 3 * r ^ 3 * π) := by
  have hpi := Real.pi_pos
  obtain ⟨hin, hsurj, -⟩ := (C35_sphere_circle_transform hr).1 o
  set F : (Fin 3 → ℝ) → Fin 3 → ℝ := fun x => ![
      (x 2) ^ (1 / 3 : ℝ) * Real.cos (2 * π * x 1) * √(1 - (2 * x 0 - 1) ^ 2) * r + o 0,
      (x 2) ^ (1 / 3 : ℝ) * Real.sin (2 * π * x 1) * √(1 - (2 * x 0 - 1) ^ 2) * r + o 1,
      (x 2) ^ (1 / 3 : ℝ) * (2 * x 0 - 1) * r + o 2] with hF
  have hTF : ∀ x ∈ unitCube 3, transformSphere (vfin x) (fin r) (vfin o) = vfin (F x) := by
    intro x hx
    rw [sphere_transform_fin, Int.fract_eq_self.mpr (hx 0), Int.fract_eq_self.mpr (hx 2)]
    congr 1
    funext i
    fin_cases i <;> simp [hF]
  have hdist : ∀ x ∈ unitCube 3, edist2 (F x) o = x 2 ^ (1 / 3 : ℝ) * r := by
    intro x hx
    have hu := u_sq (x 0)
    rw [Int.fract_eq_self.mpr (hx 0)] at hu
    rw [← edist2_ball r _ (2 * π * x 1) (2 * x 0 - 1) hr.le (Real.rpow_nonneg (hx 2).1 (1 / 3)) hu o]
    congr 1
    funext i
    fin_cases i <;> simp [hF]
  have hbnd (x : Fin 3 → ℝ) (hx : x ∈ unitCube 3 ∩ ({x | x 0 = 0} ∪ {x | x 2 = 0})ᶜ) :
      0 < x 0 ∧ x 0 < 1 ∧ 0 < x 2 := by
    obtain ⟨h1, h2⟩ := hx
    simp only [Set.mem_compl_iff, Set.mem_union, Set.mem_ofPred_eq, not_or] at h2
    exact ⟨lt_of_le_of_ne (h1 0).1 (Ne.symm h2.1), (h1 0).2, lt_of_le_of_ne (h1 2).1 (Ne.symm h2.2)⟩
  refine isUniform_of (s := unitCube 3 ∩ ({x | x 0 = 0} ∪ {x | x 2 = 0})ᶜ) (by positivity) (F := F)
    (F' := fun x => matCLM !![
      (x 2) ^ (1 / 3 : ℝ) * Real.cos (2 * π * x 1) * (-(2 * (2 * x 0 - 1)) / √(1 - (2 * x 0 - 1) ^ 2)) * r,
      -(2 * π) * (x 2) ^ (1 / 3 : ℝ) * Real.sin (2 * π * x 1) * √(1 - (2 * x 0 - 1) ^ 2) * r,
      (1 / 3 * (x 2) ^ (1 / 3 - 1 : ℝ)) * Real.cos (2 * π * x 1) * √(1 - (2 * x 0 - 1) ^ 2) * r;
      (x 2) ^ (1 / 3 : ℝ) * Real.sin (2 * π * x 1) * (-(2 * (2 * x 0 - 1)) / √(1 - (2 * x 0 - 1) ^ 2)) * r,
      2 * π * (x 2) ^ (1 / 3 : ℝ) * Real.cos (2 * π * x 1) * √(1 - (2 * x 0 - 1) ^ 2) * r,
      (1 / 3 * (x 2) ^ (1 / 3 - 1 : ℝ)) * Real.sin (2 * π * x 1) * √(1 - (2 * x 0 - 1) ^ 2) * r;
      (x 2) ^ (1 / 3 : ℝ) * 2 * r, 0, (1 / 3 * (x 2) ^ (1 / 3 - 1 : ℝ)) * (2 * x 0 - 1) * r])
    ?_ ((measurableSet_unitCube 3).inter ((measurableSet_eq_fun (measurable_pi_apply 0)
      measurable_const).union (measurableSet_eq_fun (measurable_pi_apply 2)
      measurable_const)).compl) hTF ?_ (fun x hx => ?_) (fun x hx y hy hxy => ?_) (fun x hx => ?_)
      Set.inter_subset_left ?_ ?_
  · refine measurable_pi_lambda _ fun i => ?_
    fin_cases i <;> simp only [hF, Fin.zero_eta, Fin.mk_one, Fin.reduceFinMk, Matrix.cons_val_zero,
      Matrix.cons_val_one, Matrix.cons_val] <;> fun_prop
  · intro x hx
    obtain ⟨p, hp, ha, -⟩ := hin x
    rw [hTF x hx] at hp
    rw [vfin_inj hp]
    exact ha
  · obtain ⟨h0, h0', h2⟩ := hbnd x hx
    have hu : 0 < 1 - (2 * x 0 - 1) ^ 2 := by nlinarith
    have d0 : HasDerivAt (fun t : ℝ => √(1 - (2 * t - 1) ^ 2))
        (-(2 * (2 * x 0 - 1)) / √(1 - (2 * x 0 - 1) ^ 2)) (x 0) := by
      have e : HasDerivAt (fun t : ℝ => 1 - (2 * t - 1) ^ 2) (-(2 * (2 * x 0 - 1) * 2)) (x 0) := by
        have := ((((hasDerivAt_id (x 0)).const_mul 2).sub_const 1).pow 2).const_sub 1
        simpa using this
      refine (e.sqrt hu.ne').congr_deriv ?_
      have := (Real.sqrt_pos.mpr hu).ne'
      field_simp
    have d1 : HasDerivAt (fun t : ℝ => t ^ (1 / 3 : ℝ)) (1 / 3 * (x 2) ^ (1 / 3 - 1 : ℝ)) (x 2) :=
      Real.hasDerivAt_rpow_const (.inl h2.ne')
    have d2 : HasDerivAt (fun t : ℝ => Real.cos (2 * π * t)) (-Real.sin (2 * π * x 1) * (2 * π)) (x 1) := by
      have := ((hasDerivAt_id (x 1)).const_mul (2 * π)).cos
      simpa using this
    have d3 : HasDerivAt (fun t : ℝ => Real.sin (2 * π * t)) (Real.cos (2 * π * x 1) * (2 * π)) (x 1) := by
      have := ((hasDerivAt_id (x 1)).const_mul (2 * π)).sin
      simpa using this
    have d4 : HasDerivAt (fun t : ℝ => 2 * t - 1) 2 (x 0) := by
      have := ((hasDerivAt_id (x 0)).const_mul 2).sub_const 1
      simpa using this
    have e0 := hasFDerivAt_coord 0 d0
    have e1 := hasFDerivAt_coord 2 d1
    have e2 := hasFDerivAt_coord 1 d2
    have e3 := hasFDerivAt_coord 1 d3
    have e4 := hasFDerivAt_coord 0 d4
    refine hasFDerivAt_matCLM fun i => ?_
    fin_cases i
    · exact ⟨_, (((e1.mul e2).mul e0).mul_const r).add_const (o 0), fun v => by
        simp [Fin.sum_univ_three]; ring⟩
    · exact ⟨_, (((e1.mul e3).mul e0).mul_const r).add_const (o 1), fun v => by
        simp [Fin.sum_univ_three]; ring⟩
    · exact ⟨_, ((e1.mul e4).mul_const r).add_const (o 2), fun v => by
        simp [Fin.sum_univ_three]; ring⟩
  · obtain ⟨hx0, hx0', hx2⟩ := hbnd x hx
    obtain ⟨hy0, hy0', hy2⟩ := hbnd y hy
    have hd : x 2 ^ (1 / 3 : ℝ) = y 2 ^ (1 / 3 : ℝ) := by
      have : x 2 ^ (1 / 3 : ℝ) * r = y 2 ^ (1 / 3 : ℝ) * r := by
        rw [← hdist x hx.1, ← hdist y hy.1, hxy]
      exact mul_right_cancel₀ hr.ne' this
    have f2 : x 2 = y 2 := (Real.rpow_left_inj hx2.le hy2.le (by norm_num)).mp hd
    have hρ : y 2 ^ (1 / 3 : ℝ) ≠ 0 := (Real.rpow_pos_of_pos hy2 _).ne'
    have c0 := congrFun hxy 0
    have c1 := congrFun hxy 1
    have c2 := congrFun hxy 2
    simp only [hF, Matrix.cons_val_zero, Matrix.cons_val_one, Matrix.cons_val, add_left_inj, hd,
      mul_left_inj' hr.ne', mul_right_inj' hρ, sub_left_inj, mul_right_inj' (two_ne_zero (α := ℝ))] at c0 c1 c2
    have hu : √(1 - (2 * y 0 - 1) ^ 2) ≠ 0 := (Real.sqrt_pos.mpr (by nlinarith)).ne'
    simp only [c2, mul_left_inj' hu, mul_right_inj' hρ] at c0 c1
    have f1 := angle_inj (hx.1 1) (hy.1 1) c0 c1
    funext i
    fin_cases i
    · exact c2
    · exact f1
    · exact f2
  · obtain ⟨h0, h0', h2⟩ := hbnd x hx
    have hu : 0 < 1 - (2 * x 0 - 1) ^ 2 := by nlinarith
    have hw : (x 2 ^ (1 / 3 : ℝ)) ^ 2 * x 2 ^ (1 / 3 - 1 : ℝ) = 1 := by
      rw [← Real.rpow_natCast, ← Real.rpow_mul h2.le, ← Real.rpow_add h2]
      norm_num
    have hs := Real.sq_sqrt hu.le
    have hsp := Real.sqrt_pos.mpr hu
    rw [matCLM_det, Matrix.det_fin_three]
    simp only [Matrix.of_apply, Matrix.cons_val', Matrix.cons_val_zero, Matrix.cons_val_one, Matrix.cons_val]
    generalize √(1 - (2 * x 0 - 1) ^ 2) = σ at hs hsp
    generalize x 2 ^ (1 / 3 : ℝ) = a at hw
    generalize x 2 ^ (1 / 3 - 1 : ℝ) = b at hw
    have hcs := Real.sin_sq_add_cos_sq (2 * π * x 1)
    generalize Real.sin (2 * π * x 1) = S at hcs
    generalize Real.cos (2 * π * x 1) = C at hcs
    generalize 2 * x 0 - 1 = u at hs
    rw [show ∀ z : ℝ, |z| = 4 / 3 * r ^ 3 * π ↔ |z| = |-(4 / 3 * r ^ 3 * π)| from fun z => by
      rw [abs_neg, abs_of_pos (by positivity : 0 < 4 / 3 * r ^ 3 * π)]]
    congr 1
    calc _ = -(4 / 3 * r ^ 3 * π) * (a ^ 2 * b) * ((S ^ 2 + C ^ 2) * (u ^ 2 + σ ^ 2)) := by
          field_simp
          ring
      _ = _ := by rw [hw, hcs, hs]; ring
  · refine measure_mono_null (t := {x : Fin 3 → ℝ | x 0 = 0} ∪ {x : Fin 3 → ℝ | x 2 = 0}) ?_
      (measure_union_null (volume_hyperplane _ _) (volume_hyperplane _ _))
    rintro x ⟨hx, hn⟩
    by_contra hcon
    exact hn ⟨hx, hcon⟩
  · refine measure_mono_null (t := {p : Fin 3 → ℝ | p 0 = o 0}) ?_ (volume_hyperplane _ _)
    rintro p ⟨hp, hn⟩
    by_contra hcon
    have hlt : p 2 - o 2 < edist2 p o := by
      rw [edist2_three]
      refine lt_of_le_of_lt (le_abs_self _) ?_
      rw [← Real.sqrt_sq_eq_abs]
      refine Real.sqrt_lt_sqrt (sq_nonneg _) ?_
      have : 0 < (p 0 - o 0) ^ 2 := by
        have := sub_ne_zero.mpr hcon
        positivity
      nlinarith [sq_nonneg (p 1 - o 1)]
    obtain ⟨x, hx, hxp⟩ := (hsurj p hp).mpr (.inr hlt)
    have hFx : F x = p := vfin_inj ((hTF x hx).symm.trans hxp)
    have hF0 : p 0 = (x 2) ^ (1 / 3 : ℝ) * Real.cos (2 * π * x 1) * √(1 - (2 * x 0 - 1) ^ 2) * r + o 0 := by
      rw [← hFx, hF]; simp
    refine hn ⟨x, ⟨hx, ?_⟩, hFx⟩
    rintro (h | h)
    · have h : x 0 = 0 := h
      apply hcon
      show p 0 = o 0
      rw [hF0, h]; norm_num
    · have h : x 2 = 0 := h
      apply hcon
      show p 0 = o 0
      rw [hF0, h, Real.zero_rpow (by norm_num)]; ring

theorem hypercube_support_fin {n : ℕ} (lb ub : Fin n → ℝ) :
    Hypercube.support ⟨vfin lb, vfin ub⟩ = fin (∏ i, (ub i - lb i)) := by
  have e (i : Fin n) : (vfin ub i - vfin lb i : XR) = fin (ub i - lb i) := by simp
  simp only [Hypercube.support, e]
  rw [one_eq, foldl_mul_fin, one_mul, ← List.prod_ofFn, List.ofFn_eq_map]

/-- C43. `support()` is the Lebesgue measure of the box (edges `≥ 0`), the disk and the ball (`r ≥ 0`) and the
annulus (`0 ≤ r1 ≤ r2`). -/
theorem C43_support_is_volume :
    (∀ {n : ℕ} (lb ub : Fin n → ℝ), (∀ i, lb i ≤ ub i) →
      ∃ V, Hypercube.support ⟨vfin lb, vfin ub⟩ = fin V ∧ 0 ≤ V ∧
        volume (boxRegion lb ub) = ENNReal.ofReal V) ∧
    (∀ (r : ℝ) (o : Fin 2 → ℝ), 0 ≤ r → ∃ V, diskSupport (fin r) = fin V ∧ 0 ≤ V ∧
        volume (ballRegion r o) = ENNReal.ofReal V) ∧
    (∀ (r1 r2 : ℝ) (o : Fin 2 → ℝ), 0 ≤ r1 → r1 ≤ r2 → ∃ V, annulusSupport (fin r1) (fin r2) = fin V ∧
        0 ≤ V ∧ volume (annulusRegion r1 r2 o) = ENNReal.ofReal V) ∧
    (∀ (r : ℝ) (o : Fin 3 → ℝ), 0 ≤ r → ∃ V, sphereSupport (fin r) = fin V ∧ 0 ≤ V ∧
        volume (ballRegion r o) = ENNReal.ofReal V) := by
  have hpi := Real.pi_pos
  have hann : ∀ (r1 r2 : ℝ) (o : Fin 2 → ℝ), 0 ≤ r1 → r1 ≤ r2 →
      volume (annulusRegion r1 r2 o) = ENNReal.ofReal ((r2 ^ 2 - r1 ^ 2) * π) := by
    intro r1 r2 o h1 h2
    rcases h2.lt_or_eq with h | rfl
    · exact (isUniform_annulus h1 h o).2.1
    · have : annulusRegion r1 r1 o = ∅ := by
        ext p; simp only [annulusRegion, Set.mem_ofPred_eq, Set.mem_empty_iff_false, iff_false]
        rintro ⟨h3, h4⟩; linarith
      rw [this]; simp
  refine ⟨fun {n} lb ub h => ⟨_, hypercube_support_fin lb ub,
    Finset.prod_nonneg fun i _ => sub_nonneg.mpr (h i), ?_⟩,
    fun r o hr => ⟨r ^ 2 * π, by simp [diskSupport], by positivity, ?_⟩,
    fun r1 r2 o h1 h2 => ⟨(r2 ^ 2 - r1 ^ 2) * π, by simp [annulusSupport], ?_, hann r1 r2 o h1 h2⟩,
    fun r o hr => ⟨4 / 3 * r ^ 3 * π, ?_, by positivity, ?_⟩⟩
  · have : boxRegion lb ub = Set.Icc lb ub := by
      ext p; simp only [boxRegion, Set.mem_ofPred_eq, Set.mem_Icc, Pi.le_def, forall_and]
    rw [this, Real.volume_Icc_pi, ENNReal.ofReal_prod_of_nonneg fun i _ => sub_nonneg.mpr (h i)]
  · have e : ballRegion r o = annulusRegion 0 r o := by
      ext p
      simp only [ballRegion, annulusRegion, Set.mem_ofPred_eq]
      exact ⟨fun h => ⟨Real.sqrt_nonneg _, h⟩, fun h => h.2⟩
    rw [e, hann 0 r o le_rfl hr]
    congr 1; ring
  · exact mul_nonneg (by nlinarith) hpi.le
  · simp only [sphereSupport, lit_eq, fin_npow]
    rw [fin_div _ (by norm_num)]
    simp
  · rcases hr.lt_or_eq with h | rfl
    · exact (isUniform_sphere h o).2.1
    · have : ballRegion 0 o = ∅ := by
        ext p; simp only [ballRegion, Set.mem_ofPred_eq, Set.mem_empty_iff_false, iff_false, not_lt]
        exact Real.sqrt_nonneg _
      rw [this]; simp

/-- Non-vacuity: a box, and an annulus, with non-degenerate parameters. -/
example : (∀ i, (![0, -1, 2] : Fin 3 → ℝ) i ≤ (![1, 1, 7] : Fin 3 → ℝ) i) ∧ (0 : ℝ) ≤ 1 ∧ (1 : ℝ) ≤ 2 :=
  ⟨fun i => by fin_cases i <;> norm_num, by norm_num, by norm_num⟩

/-- C44. The transforms of box (positive edges), annulus (`0 ≤ r1 < r2`), disk and sphere (`r > 0`) send the
uniform distribution on the unit cube to the uniform distribution on the region; the volume is what
`support()` returns. -/
theorem C44_transforms_uniform :
    (∀ {n : ℕ} (lb ub : Fin n → ℝ), (∀ i, lb i < ub i) →
      ∃ V, Hypercube.support ⟨vfin lb, vfin ub⟩ = fin V ∧
        IsUniform (Hypercube.transform ⟨vfin lb, vfin ub⟩) (boxRegion lb ub) V) ∧
    (∀ (r1 r2 : ℝ) (o : Fin 2 → ℝ), 0 ≤ r1 → r1 < r2 →
      ∃ V, annulusSupport (fin r1) (fin r2) = fin V ∧
        IsUniform (fun x => transformAnnulus x (fin r1) (fin r2) (vfin o)) (annulusRegion r1 r2 o) V) ∧
    (∀ (r : ℝ) (o : Fin 2 → ℝ), 0 < r → ∃ V, diskSupport (fin r) = fin V ∧
        IsUniform (fun x => transformCircle x (fin r) (vfin o)) (ballRegion r o) V) ∧
    (∀ (r : ℝ) (o : Fin 3 → ℝ), 0 < r → ∃ V, sphereSupport (fin r) = fin V ∧
        IsUniform (fun x => transformSphere x (fin r) (vfin o)) (ballRegion r o) V) := by
  refine ⟨fun {n} lb ub h => ⟨_, hypercube_support_fin lb ub, isUniform_box lb ub h⟩,
    fun r1 r2 o h1 h2 => ⟨(r2 ^ 2 - r1 ^ 2) * π, by simp [annulusSupport], isUniform_annulus h1 h2 o⟩,
    fun r o hr => ⟨r ^ 2 * π, by simp [diskSupport], ?_⟩,
    fun r o hr => ⟨4 / 3 * r ^ 3 * π, ?_, isUniform_sphere hr o⟩⟩
  · have e : ballRegion r o = annulusRegion 0 r o := by
      ext p
      simp only [ballRegion, annulusRegion, Set.mem_ofPred_eq]
      exact ⟨fun h => ⟨Real.sqrt_nonneg _, h⟩, fun h => h.2⟩
    have := isUniform_annulus le_rfl hr o
    rw [show (r ^ 2 - 0 ^ 2) * π = r ^ 2 * π by ring, ← e] at this
    simpa only [transformCircle, zero_eq] using this
  · simp only [sphereSupport, lit_eq, fin_npow]
    rw [fin_div _ (by norm_num)]
    simp

/-- The ball of radius `2` about `(1, 0, 0)`. -/
example : ∃ V, sphereSupport (fin 2) = fin V ∧
    IsUniform (fun x => transformSphere x (fin 2) (vfin ![1, 0, 0])) (ballRegion 2 ![1, 0, 0]) V :=
  C44_transforms_uniform.2.2.2 2 ![1, 0, 0] (by norm_num)

end Verif
