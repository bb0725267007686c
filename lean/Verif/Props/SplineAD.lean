import Verif.Model.SplineAD
import Verif.Lemmas.QuatAD
import Verif.Props.SplineSmooth

/-! # Property C159: differentiation of the splines -/

namespace Verif

open XR Set

/-! ## The derivative of the recursion -/

/-- The derivative of the recursion, the basis functions of degree zero being constant. -/
noncomputable def bsplineD (x : ℝ) (t : ℕ → ℝ) : ℕ → ℕ → ℝ
  | 0, _ => 0
  | k + 1, i => (1 / (t (i + (k + 1)) - t i) * bspline x t k i + (x - t i) / (t (i + (k + 1)) - t i) * bsplineD x t k i) +
      (-1 / (t (i + (k + 1) + 1) - t (i + 1)) * bspline x t k (i + 1) +
        (t (i + (k + 1) + 1) - x) / (t (i + (k + 1) + 1) - t (i + 1)) * bsplineD x t k (i + 1))

theorem hasDerivWithinAt_bspline (t : ℕ → ℝ) (s : Set ℝ) (x : ℝ)
    (h0 : ∀ i, ∀ᶠ y in nhdsWithin x s, bspline y t 0 i = bspline x t 0 i) (k i : ℕ) :
    HasDerivWithinAt (fun y => bspline y t k i) (bsplineD x t k i) s x := by
  induction k generalizing i with
  | zero => exact (hasDerivWithinAt_const x s (bspline x t 0 i)).congr_of_eventuallyEq (h0 i) rfl
  | succ k ih =>
    have h1 : HasDerivWithinAt (fun y : ℝ => (y - t i) / (t (i + (k + 1)) - t i)) (1 / (t (i + (k + 1)) - t i)) s x :=
      ((hasDerivWithinAt_id x s).sub_const _).div_const _
    have h2 : HasDerivWithinAt (fun y : ℝ => (t (i + (k + 1) + 1) - y) / (t (i + (k + 1) + 1) - t (i + 1)))
        (-1 / (t (i + (k + 1) + 1) - t (i + 1))) s x :=
      ((hasDerivWithinAt_id x s).const_sub _).div_const _
    exact (h1.mul (ih i)).add (h2.mul (ih (i + 1)))

theorem bspline_zero_right (t : ℕ → ℝ) (x : ℝ) (i : ℕ) :
    ∀ᶠ y in nhdsWithin x (Ici x), bspline y t 0 i = bspline x t 0 i := by
  have hx : ∀ᶠ y in nhdsWithin x (Ici x), x ≤ y := eventually_mem_nhdsWithin
  have hlt : ∀ a, x < a → ∀ᶠ y in nhdsWithin x (Ici x), y < a := fun a h =>
    Filter.Eventually.filter_mono nhdsWithin_le_nhds (gt_mem_nhds h)
  by_cases h1 : x < t i
  · filter_upwards [hlt _ h1] with y hy
    rw [bspline, bspline, if_neg (fun h => absurd h.1 (not_le.mpr hy)), if_neg (fun h => absurd h.1 (not_le.mpr h1))]
  · by_cases h2 : x < t (i + 1)
    · filter_upwards [hlt _ h2, hx] with y hy hxy
      rw [bspline, bspline, if_pos ⟨(not_lt.mp h1).trans hxy, hy⟩, if_pos ⟨not_lt.mp h1, h2⟩]
    · filter_upwards [hx] with y hxy
      rw [bspline, bspline, if_neg (fun h => h2 (hxy.trans_lt h.2)), if_neg (fun h => h2 h.2)]

theorem bspline_zero_nhds (t : ℕ → ℝ) (x : ℝ) (i : ℕ) (h1 : t i ≠ x) (h2 : t (i + 1) ≠ x) :
    ∀ᶠ y in nhds x, bspline y t 0 i = bspline x t 0 i := by
  have key : ∀ a : ℝ, a ≠ x → ∀ᶠ y in nhds x, (a ≤ y ↔ a ≤ x) ∧ (y < a ↔ x < a) := fun a ha => by
    rcases lt_or_gt_of_ne ha with h | h
    · filter_upwards [lt_mem_nhds h] with y hy
      exact ⟨⟨fun _ => h.le, fun _ => hy.le⟩, ⟨fun h' => absurd h' (not_lt.mpr hy.le), fun h' => absurd h' (not_lt.mpr h.le)⟩⟩
    · filter_upwards [gt_mem_nhds h] with y hy
      exact ⟨⟨fun h' => absurd h' (not_le.mpr hy), fun h' => absurd h' (not_le.mpr h)⟩, ⟨fun _ => h, fun _ => hy⟩⟩
  filter_upwards [key _ h1, key _ h2] with y hy1 hy2
  simp only [bspline, hy1.1, hy2.2]

theorem bsplineD_congr (x : ℝ) {t t' : ℕ → ℝ} (k i : ℕ) (h : ∀ j, i ≤ j → j ≤ i + k + 1 → t j = t' j) :
    bsplineD x t k i = bsplineD x t' k i := by
  induction k generalizing i with
  | zero => rfl
  | succ k ih =>
    rw [bsplineD, bsplineD, ih i fun j h1 h2 => h j h1 (by omega), ih (i + 1) fun j h1 h2 => h j (by omega) (by omega),
      bspline_congr x k i fun j h1 h2 => h j h1 (by omega), bspline_congr x k (i + 1) fun j h1 h2 => h j (by omega) (by omega),
      h i (by omega) (by omega), h (i + 1) (by omega) (by omega), h (i + (k + 1)) (by omega) (by omega),
      h (i + (k + 1) + 1) (by omega) (by omega)]

open Classical in
theorem baseFunD_fin (x v : ℝ) (t : ℕ → ℝ) (k i : ℕ) : baseFunD ⟨fin x, fin v⟩ (fun j => Dual.const (fin (t j))) k i =
    ⟨fin (bspline x t k i), fin (bsplineD x t k i * v)⟩ := by
  induction k generalizing i with
  | zero =>
    simp only [baseFunD, bspline, bsplineD, fin_le, fin_lt, Dual.const]
    split <;> simp [zero_eq, one_eq]
  | succ k ih =>
    have term : ∀ (a b c e w f f' : ℝ), (if fin a = fin b ∧ fin b ≠ nan then Dual.const 0 else
        (Dual.div (⟨fin c, fin e⟩ : Dual) ((Dual.const (fin a) : Dual) - Dual.const (fin b))) * (⟨fin f, fin (f' * w)⟩ : Dual)) =
        ⟨fin (c / (a - b) * f), fin (e / (a - b) * f + c / (a - b) * f' * w)⟩ := by
      intro a b c e w f f'
      by_cases h : a = b
      · rw [if_pos ⟨by rw [h], by simp⟩, h]; simp [Dual.const, zero_eq]
      · have h' := sub_ne_zero.mpr h
        rw [if_neg (by rintro ⟨h1, -⟩; exact h (fin_inj.mp h1))]
        simp only [Dual.const, Dual.sub_def, Dual.div, Dual.mul_def, zero_eq, one_eq, fin_sub, fin_npow]
        rw [fin_div _ h', fin_div _ h', fin_div _ (pow_ne_zero 2 h')]
        simp
        ring
    simp only [baseFunD, ih, bspline, bsplineD]
    have e1 : (⟨fin x, fin v⟩ - Dual.const (fin (t i)) : Dual) = ⟨fin (x - t i), fin v⟩ := by
      simp [Dual.sub_def, Dual.const, zero_eq]
    have e2 : (Dual.const (fin (t (i + (k + 1) + 1))) - ⟨fin x, fin v⟩ : Dual) = ⟨fin (t (i + (k + 1) + 1) - x), fin (-v)⟩ := by
      simp [Dual.sub_def, Dual.const, zero_eq]
    rw [e1, e2]
    show (if fin (t (i + (k + 1))) = fin (t i) ∧ fin (t i) ≠ nan then _ else _) +
      (if fin (t (i + (k + 1) + 1)) = fin (t (i + 1)) ∧ fin (t (i + 1)) ≠ nan then _ else _) = _
    rw [term, term, Dual.add_def]
    simp only [fin_add]
    congr 2
    ring

/-! ## Forward mode -/

/-- **C159, forward mode**. On every grid the tangent of a basis function is its derivative from the right, hence the derivative
at all points which are no knots, and on strictly increasing grids for degrees of two and more the derivative everywhere. -/
theorem C159_forward {m : ℕ} (t : Fin m → ℝ) (k : ℕ) (i : Fin (m - k - 1)) :
    ∃ b b' : ℝ → ℝ, (∀ x, splineBasis (fin x) (vfin t) k i = fin (b x)) ∧
      (∀ x v : ℝ, splineBasisD ⟨fin x, fin v⟩ (fun j => Dual.const (fin (t j))) k i = ⟨fin (b x), fin (b' x * v)⟩) ∧
      (∀ x, HasDerivWithinAt b (b' x) (Ici x) x) ∧ (∀ x, (∀ j, t j ≠ x) → HasDerivAt b (b' x) x) ∧
      (StrictMono t → 2 ≤ k → ∀ x, HasDerivAt b (b' x) x) := by
  have hm : 0 < m := by have := i.isLt; omega
  refine ⟨fun x => bspline x (clampReal hm t) k i, fun x => bsplineD x (clampReal hm t) k i, fun x => splineBasis_fin x t k i hm,
    fun x v => ?_, fun x => ?_, fun x hx => ?_, fun ht hk x => ?_⟩
  · rw [← baseFunD_fin]; rfl
  · exact hasDerivWithinAt_bspline _ _ _ (bspline_zero_right _ x) k i
  · rw [← hasDerivWithinAt_univ]
    refine hasDerivWithinAt_bspline _ _ _ (fun i => ?_) k i
    rw [nhdsWithin_univ]
    exact bspline_zero_nhds _ x i (hx _) (hx _)
  · have h1 : HasDerivWithinAt (fun y => bspline y (clampReal hm t) k i) (bsplineD x (clampReal hm t) k i) (Ici x) x :=
      hasDerivWithinAt_bspline _ _ _ (bspline_zero_right _ x) k i
    obtain ⟨l, rfl⟩ : ∃ l, k = l + 2 := ⟨k - 2, by omega⟩
    have h2 : ContDiff ℝ (l + 1 : ℕ) fun y => bspline y (clampReal hm t) (l + 2) i := by
      have e : (fun y => bspline y (clampReal hm t) (l + 2) i) = fun y => bspline y (extendGrid hm t) (l + 2) i :=
        funext fun y => fin_inj.mp ((splineBasis_fin y t (l + 2) i hm).symm.trans (splineBasis_extend y t (l + 2) i hm))
      rw [e]
      exact bspline_contDiff (extendGrid_strictMono hm ht) (l + 1) i
    have h3 := (h2.differentiable (by simp) x).hasDerivAt
    have h4 : deriv (fun y => bspline y (clampReal hm t) (l + 2) i) x = bsplineD x (clampReal hm t) (l + 2) i :=
      (uniqueDiffWithinAt_Ici x).eq_deriv _ h3.hasDerivWithinAt h1
    rwa [h4] at h3

/-- Knots 0, 1, 2, 3 and degree one: the hat function on `[0, 2]` has no derivative at 1; forward mode gives -1, the slope to the right. -/
example (v : ℝ) : splineBasisD ⟨fin 1, fin v⟩ (fun j : Fin 4 => Dual.const (fin (j : ℕ))) 1 ⟨0, by norm_num⟩ = ⟨fin 1, fin (-1 * v)⟩ := by
  have h := baseFunD_fin 1 v (fun j => ((min j 3 : ℕ) : ℝ)) 1 0
  have e : bspline 1 (fun j => ((min j 3 : ℕ) : ℝ)) 1 0 = 1 ∧ bsplineD 1 (fun j => ((min j 3 : ℕ) : ℝ)) 1 0 = -1 := by
    constructor <;> norm_num [bspline, bsplineD]
  rw [e.1, e.2] at h
  exact h

open Classical in
theorem baseFunD_isAD {E : Type*} [NormedAddCommGroup E] [NormedSpace ℝ E] {e : E} {z : E → Dual} {a : E → ℝ} (hz : IsAD z a e)
    {G : E → ℕ → Dual} {t : E → ℕ → ℝ} (hG : ∀ j, IsAD (fun v => G v j) (fun y => t y j) e) (k i : ℕ)
    (h1 : ∀ j, i ≤ j → j ≤ i + k + 1 → t e j ≠ a e)
    (h2 : ∀ j l, i ≤ j → j < l → l ≤ i + k + 1 → l ≤ j + k → t e j ≠ t e l) :
    IsAD (fun v => baseFunD (z v) (G v) k i) (fun y => bspline (a y) (t y) k i) e := by
  induction k generalizing i with
  | zero =>
    have hloc : ∀ᶠ y in nhds e, bspline (a y) (t y) 0 i = bspline (a e) (t e) 0 i := by
      have key : ∀ j, t e j ≠ a e → ∀ᶠ y in nhds e, (t y j ≤ a y ↔ t e j ≤ a e) ∧ (a y < t y j ↔ a e < t e j) := fun j hj => by
        have c1 : ContinuousAt (fun y => t y j) e := (hG j).choose_spec.1.continuousAt
        have c2 : ContinuousAt a e := hz.choose_spec.1.continuousAt
        rcases lt_or_gt_of_ne hj with h | h
        · filter_upwards [c1.eventually_lt c2 h] with y hy
          exact ⟨⟨fun _ => h.le, fun _ => hy.le⟩, ⟨fun h' => absurd h' (not_lt.mpr hy.le), fun h' => absurd h' (not_lt.mpr h.le)⟩⟩
        · filter_upwards [c2.eventually_lt c1 h] with y hy
          exact ⟨⟨fun h' => absurd h' (not_le.mpr hy), fun h' => absurd h' (not_le.mpr h)⟩, ⟨fun _ => h, fun _ => hy⟩⟩
      filter_upwards [key i (h1 i le_rfl (by omega)), key (i + 1) (h1 (i + 1) (by omega) (by omega))] with y hy1 hy2
      simp only [bspline, hy1.1, hy2.2]
    refine ⟨0, (hasFDerivAt_const (bspline (a e) (t e) 0 i) e).congr_of_eventuallyEq hloc, fun v => ?_⟩
    have e1 : (G v i).val = fin (t e i) := (hG i).val v
    have e2 : (G v (i + 1)).val = fin (t e (i + 1)) := (hG (i + 1)).val v
    simp only [baseFunD, hz.val v, e1, e2, fin_le, fin_lt, bspline, Dual.const]
    split <;> simp [zero_eq, one_eq]
  | succ k ih =>
    have i1 := ih i (fun j h h' => h1 j h (by omega)) fun j l h h' h'' h3 => h2 j l h h' (by omega) (by omega)
    have i2 := ih (i + 1) (fun j h h' => h1 j (by omega) (by omega)) fun j l h h' h'' h3 => h2 j l (by omega) h' (by omega) (by omega)
    have n1 : t e (i + (k + 1)) - t e i ≠ 0 := sub_ne_zero.mpr (h2 i (i + (k + 1)) le_rfl (by omega) (by omega) (by omega)).symm
    have n2 : t e (i + (k + 1) + 1) - t e (i + 1) ≠ 0 :=
      sub_ne_zero.mpr (h2 (i + 1) (i + (k + 1) + 1) (by omega) (by omega) (by omega) (by omega)).symm
    have c1 := ((hz.sub (hG i)).div ((hG (i + (k + 1))).sub (hG i)) n1).mul i1
    have c2 := (((hG (i + (k + 1) + 1)).sub hz).div ((hG (i + (k + 1) + 1)).sub (hG (i + 1))) n2).mul i2
    refine (c1.add c2).congr (fun v => ?_) fun y => rfl
    have e1 : (G v i).val = fin (t e i) := (hG i).val v
    have e2 : (G v (i + 1)).val = fin (t e (i + 1)) := (hG (i + 1)).val v
    have e3 : (G v (i + (k + 1))).val = fin (t e (i + (k + 1))) := (hG _).val v
    have e4 : (G v (i + (k + 1) + 1)).val = fin (t e (i + (k + 1) + 1)) := (hG _).val v
    rw [baseFunD]
    simp only [e1, e2, e3, e4]
    rw [if_neg (fun h => n1 (sub_eq_zero.mpr (fin_inj.mp h.1))), if_neg (fun h => n2 (sub_eq_zero.mpr (fin_inj.mp h.1)))]

/-- **C159, points and knots**. Differentiated with respect to the point and all knots at once, at points which are no knots and
where the knots in each quotient differ, the tangent is the derivative. -/
theorem C159_joint {E : Type*} [NormedAddCommGroup E] [NormedSpace ℝ E] {e : E} {z : E → Dual} {a : E → ℝ} (hz : IsAD z a e) {m : ℕ}
    {G : E → Fin m → Dual} {t : E → Fin m → ℝ} (hG : ∀ j, IsAD (fun v => G v j) (fun y => t y j) e) (k : ℕ) (i : Fin (m - k - 1))
    (h1 : ∀ j, t e j ≠ a e)
    (h2 : ∀ j l : Fin m, (i : ℕ) ≤ j → j < l → (l : ℕ) ≤ i + k + 1 → (l : ℕ) ≤ j + k → t e j ≠ t e l) :
    ∃ b : E → ℝ, (∀ y, splineBasis (fin (a y)) (vfin (t y)) k i = fin (b y)) ∧
      IsAD (fun v => splineBasisD (z v) (G v) k i) b e := by
  have hi := i.isLt
  have hm : 0 < m := by omega
  refine ⟨fun y => bspline (a y) (clampReal hm (t y)) k i, fun y => splineBasis_fin (a y) (t y) k i hm, ?_⟩
  refine (baseFunD_isAD hz (G := fun v j => G v ⟨min j (m - 1), by omega⟩) (t := fun y => clampReal hm (t y)) (fun j => hG _) k i
    (fun j _ _ => h1 _) fun j l hj hjl hl hk => ?_).congr (fun v => rfl) fun y => rfl
  rw [clampReal_of_lt hm _ (by omega), clampReal_of_lt hm _ (by omega)]
  exact h2 ⟨j, by omega⟩ ⟨l, by omega⟩ hj hjl hl hk

/-- The point 1/2 and the knots 0, 1, 2, 3, all moving along a line. -/
example : ∃ b : ℝ → ℝ, (∀ y, splineBasis (fin (1 / 2 + y)) (vfin fun j : Fin 4 => (j : ℕ) + y * (j : ℕ)) 2 ⟨0, by norm_num⟩ = fin (b y)) ∧
    IsAD (fun v : ℝ => splineBasisD ⟨fin (1 / 2), fin v⟩ (fun j : Fin 4 => ⟨fin (j : ℕ), fin (v * (j : ℕ))⟩) 2 ⟨0, by norm_num⟩) b 0 := by
  refine C159_joint (e := (0 : ℝ)) (a := fun y => 1 / 2 + y) (t := fun y (j : Fin 4) => (j : ℕ) + y * (j : ℕ)) ?_ (fun j => ?_) 2 _ (fun j => ?_)
    fun j l _ hjl _ _ => ?_
  · exact ⟨.id ℝ ℝ, (hasFDerivAt_id 0).const_add _, fun v => by simp⟩
  · refine ⟨(ContinuousLinearMap.id ℝ ℝ).smulRight ((j : ℕ) : ℝ), ?_, fun v => by simp⟩
    exact (ContinuousLinearMap.hasFDerivAt (𝕜 := ℝ) (E := ℝ) (F := ℝ) ((ContinuousLinearMap.id ℝ ℝ).smulRight ((j : ℕ) : ℝ))).const_add _
  · fin_cases j <;> norm_num
  · simp only [zero_mul, add_zero]
    exact_mod_cast (show (j : ℕ) < l from hjl).ne

/-! ## Reverse mode -/

theorem zero_mul_div_zero' (b : ℝ) : (0 : XR) * fin b / fin 0 = nan := by
  rw [zero_eq, fin_mul, fin_div_zero]; simp [infSign]

open Classical in
theorem baseFunVjp_fin (x : ℝ) (t : ℕ → ℝ) (k i : ℕ) (g : ℝ)
    (h : ∀ j l, i ≤ j → j < l → l ≤ i + k + 1 → l ≤ j + k → t j ≠ t l) :
    baseFunVjp (fin x) (fun j => fin (t j)) k i (fin g) = fin (bsplineD x t k i * g) := by
  induction k generalizing i g with
  | zero => simp [baseFunVjp, bsplineD, zero_eq]
  | succ k ih =>
    have n1 : t (i + (k + 1)) - t i ≠ 0 := sub_ne_zero.mpr (h i (i + (k + 1)) le_rfl (by omega) (by omega) (by omega)).symm
    have n2 : t (i + (k + 1) + 1) - t (i + 1) ≠ 0 :=
      sub_ne_zero.mpr (h (i + 1) (i + (k + 1) + 1) (by omega) (by omega) (by omega) (by omega)).symm
    rw [baseFunVjp]
    rw [if_neg (fun h => n1 (sub_eq_zero.mpr (fin_inj.mp h.1))), if_neg (fun h => n2 (sub_eq_zero.mpr (fin_inj.mp h.1)))]
    simp only [baseFun_fin, fin_sub, fin_mul]
    rw [fin_div _ n1, fin_div _ n1, fin_div _ n2, fin_div _ n2, fin_mul, fin_mul,
      ih i _ (fun j l h1 h2 h3 h4 => h j l h1 h2 (by omega) (by omega)),
      ih (i + 1) _ (fun j l h1 h2 h3 h4 => h j l (by omega) h2 (by omega) (by omega))]
    simp only [fin_neg, fin_add, fin_inj, bsplineD]
    ring

open Classical in
theorem baseFunVjp_nan (x : ℝ) (t : ℕ → ℝ) (k i : ℕ) (g : ℝ)
    (h : ∃ j l, i ≤ j ∧ j < l ∧ l ≤ i + k + 1 ∧ l ≤ j + k ∧ t j = t l) :
    baseFunVjp (fin x) (fun j => fin (t j)) k i (fin g) = nan := by
  induction k generalizing i g with
  | zero => obtain ⟨j, l, h1, h2, h3, h4, -⟩ := h; omega
  | succ k ih =>
    rw [baseFunVjp]
    by_cases n1 : t (i + (k + 1)) = t i
    · rw [if_pos ⟨by rw [n1], by simp⟩, baseFun_fin, fin_sub, n1, sub_self, zero_mul_div_zero']
      simp
    · by_cases n2 : t (i + (k + 1) + 1) = t (i + 1)
      · rw [if_pos (show fin (t (i + (k + 1) + 1)) = fin (t (i + 1)) ∧ fin (t (i + 1)) ≠ nan from ⟨by rw [n2], by simp⟩),
          baseFun_fin x t k (i + 1), fin_sub (t (i + (k + 1) + 1)) (t (i + 1)), n2, sub_self, zero_mul_div_zero']
        simp
      · have n1' := sub_ne_zero.mpr n1
        have n2' := sub_ne_zero.mpr n2
        rw [if_neg (fun h => n1 (fin_inj.mp h.1)), if_neg (fun h => n2 (fin_inj.mp h.1))]
        simp only [baseFun_fin, fin_sub, fin_mul]
        rw [fin_div _ n1', fin_div _ n1', fin_div _ n2', fin_div _ n2', fin_mul, fin_mul]
        obtain ⟨j, l, h1, h2, h3, h4, h5⟩ := h
        rcases Nat.lt_or_ge j (i + 1) with hj | hj
        · have hji : j = i := by omega
          by_cases hl : l = i + (k + 1)
          · exact absurd (by rw [← hl, ← hji, h5]) n1
          · rw [ih i _ ⟨j, l, h1, h2, by omega, by omega, h5⟩]; simp
        · by_cases hl : l = j + (k + 1)
          · have : j = i + 1 := by omega
            exact absurd (by rw [this] at h5 hl; rw [h5, hl]; congr 1; omega) n2
          · rw [ih (i + 1) _ ⟨j, l, hj, h2, by omega, by omega, h5⟩]; simp

/-- **C159, reverse mode**. The cotangent of the point is that of forward mode if the knots of each quotient differ. If two of
them agree, it is `nan` for every point and every cotangent, zero included. -/
theorem C159_reverse {m : ℕ} (t : Fin m → ℝ) (k : ℕ) (x : ℝ) (g : Fin (m - k - 1) → ℝ) :
    ((∀ j l : Fin m, j < l → (l : ℕ) ≤ j + k → t j ≠ t l) → ∃ b' : Fin (m - k - 1) → ℝ,
      (∀ i v, ∃ b, splineBasisD ⟨fin x, fin v⟩ (fun j => Dual.const (fin (t j))) k i = ⟨b, fin (b' i * v)⟩) ∧
      splineBasisVjp (fin x) (vfin t) k (vfin g) = fin (∑ i, b' i * g i)) ∧
    (∀ j l : Fin m, j < l → (l : ℕ) ≤ j + k → t j = t l → k + 2 ≤ m →
      splineBasisVjp (fin x) (vfin t) k (vfin g) = nan) := by
  constructor
  · intro h
    rcases Nat.eq_zero_or_pos m with hm | hm
    · subst hm
      exact ⟨fun _ => 0, fun i => by have := i.isLt; omega, by
        have : IsEmpty (Fin (0 - k - 1)) := ⟨fun i => by have := i.isLt; omega⟩
        simp [splineBasisVjp, zero_eq]⟩
    · refine ⟨fun i => bsplineD x (clampReal hm t) k i, fun i v => ⟨_, by rw [← baseFunD_fin]; rfl⟩, ?_⟩
      rw [splineBasisVjp, ← fin_sum]
      refine Finset.sum_congr rfl fun i _ => ?_
      have hi := i.isLt
      refine baseFunVjp_fin x (clampReal hm t) k i (g i) fun j l h1 h2 h3 h4 => ?_
      rw [clampReal_of_lt hm _ (by omega), clampReal_of_lt hm _ (by omega)]
      exact h ⟨j, by omega⟩ ⟨l, by omega⟩ h2 h4
  · intro j l hjl hk hjl' hm
    rw [splineBasisVjp]
    have hj := j.isLt
    have hl := l.isLt
    have hjl2 : (j : ℕ) < l := hjl
    -- a basis function whose support contains both knots
    obtain ⟨i, hi1, hi2⟩ : ∃ i : Fin (m - k - 1), (i : ℕ) ≤ j ∧ (l : ℕ) ≤ i + k + 1 :=
      ⟨⟨min j (m - k - 2), by omega⟩, by simp, by simp; omega⟩
    refine xr_sum_nan _ i ?_
    refine baseFunVjp_nan x (clampReal (by omega) t) k i (g i) ⟨j, l, hi1, hjl2, hi2, hk, ?_⟩
    rw [clampReal_of_lt _ _ hj, clampReal_of_lt _ _ hl]
    exact hjl'

/-- The usual grid with repeated end knots 0, 0, 0, 1, 2, 2, 2 and degree two: the values are finite, the cotangent of the point is `nan`. -/
example (x : ℝ) : splineBasisVjp (fin x) (vfin ![(0 : ℝ), 0, 0, 1, 2, 2, 2]) 2 (vfin fun _ => 1) = nan ∧
    ∃ b : Fin (7 - 2 - 1) → ℝ, splineBasis (fin x) (vfin ![(0 : ℝ), 0, 0, 1, 2, 2, 2]) 2 = vfin b := by
  refine ⟨(C159_reverse ![(0 : ℝ), 0, 0, 1, 2, 2, 2] 2 x fun _ => 1).2 0 1 (by decide) (by decide) rfl (by norm_num), ?_⟩
  choose b b' h using fun i => C159_forward ![(0 : ℝ), 0, 0, 1, 2, 2, 2] 2 i
  exact ⟨fun i => b i x, funext fun i => (h i).1 x⟩

/-! ## The activation function -/

/-- **C159, activation**. The layer as a function of one feature, for an activation function differentiated correctly: forward
mode gives its derivative from the right, which is the derivative where it is smooth; reverse mode gives the same number if the
knots of each quotient differ and `nan` otherwise, whatever the coefficients, the point and the cotangent. -/
theorem C159_activation {d m : ℕ} {φ φ' : ℝ → ℝ} (hφ : ∀ a, HasDerivAt φ (φ' a) a) {act : XR → XR} (hact : ∀ a, act (fin a) = fin (φ a))
    {actD : Dual → Dual} (hactD : ∀ a v, actD ⟨fin a, fin v⟩ = ⟨fin (φ a), fin (φ' a * v)⟩)
    {actV : XR → XR → XR} (hactV : ∀ a g, actV (fin a) (fin g) = fin (φ' a * g))
    (t : Fin d → Fin m → ℝ) (k : ℕ) (c : Fin d → Fin (m - k - 1) → ℝ) (j : Fin d) :
    ∃ y y' : ℝ → ℝ, (∀ x : Fin d → ℝ, splineActivation act (fun j => vfin (t j)) k (fun j => vfin (c j)) (vfin x) j = fin (y (x j))) ∧
      (∀ x v : Fin d → ℝ, splineActivationD actD (fun j => vfin (t j)) k (fun j => vfin (c j)) (fun j => ⟨fin (x j), fin (v j)⟩) j =
        ⟨fin (y (x j)), fin (y' (x j) * v j)⟩) ∧
      (∀ a, HasDerivWithinAt y (y' a) (Ici a) a) ∧ (∀ a, (∀ i, t j i ≠ a) → HasDerivAt y (y' a) a) ∧
      (StrictMono (t j) → 2 ≤ k → ∀ a, HasDerivAt y (y' a) a) ∧
      ((∀ i l : Fin m, i < l → (l : ℕ) ≤ i + k → t j i ≠ t j l) → ∀ x g : Fin d → ℝ,
        splineActivationVjp actV (fun j => vfin (t j)) k (fun j => vfin (c j)) (vfin x) (vfin g) j = fin (y' (x j) * g j)) ∧
      (∀ i l : Fin m, i < l → (l : ℕ) ≤ i + k → t j i = t j l → k + 2 ≤ m → ∀ x g : Fin d → ℝ,
        splineActivationVjp actV (fun j => vfin (t j)) k (fun j => vfin (c j)) (vfin x) (vfin g) j = nan) := by
  choose b b' h1 h2 h3 h4 h5 using fun i => C159_forward (t j) k i
  refine ⟨fun a => φ a + ∑ i, b i a * c j i, fun a => φ' a + ∑ i, b' i a * c j i, fun x => ?_, fun x v => ?_, fun a => ?_,
    fun a ha => ?_, fun ht hk a => ?_, fun h x g => ?_, fun i l hil hk h hm x g => ?_⟩
  · simp only [splineActivation, vfin_apply, hact, h1, fin_mul, fin_sum, fin_add]
  · simp only [splineActivationD, hactD, vfin_apply, h2, Dual.mulc, fin_mul, fin_sum, Dual.add_def, fin_add, add_mul, Finset.sum_mul]
    simp only [mul_right_comm]
  · exact (hφ a).hasDerivWithinAt.add (HasDerivWithinAt.fun_sum fun i _ => (h3 i a).mul_const _)
  · exact (hφ a).add (HasDerivAt.fun_sum fun i _ => (h4 i a ha).mul_const _)
  · exact (hφ a).add (HasDerivAt.fun_sum fun i _ => (h5 i ht hk a).mul_const _)
  · obtain ⟨e', e1, e2⟩ := (C159_reverse (t j) k (x j) fun i => g j * c j i).1 h
    have : ∀ i, e' i = b' i (x j) := fun i => by
      obtain ⟨q, hq⟩ := e1 i 1
      rw [h2] at hq
      have := fin_inj.mp (congrArg Dual.tan hq)
      linarith
    have e3 : (fun i => vfin g j * vfin (c j) i) = vfin fun i => g j * c j i := funext fun i => by simp [vfin_apply, fin_mul]
    simp only [splineActivationVjp]
    rw [e3, vfin_apply, vfin_apply, hactV, e2, fin_add, fin_inj]
    simp only [this, add_mul, Finset.sum_mul]
    congr 1
    exact Finset.sum_congr rfl fun i _ => by ring
  · have e3 : (fun i => vfin g j * vfin (c j) i) = vfin fun i => g j * c j i := funext fun i => by simp [vfin_apply, fin_mul]
    simp only [splineActivationVjp]
    rw [e3, vfin_apply, vfin_apply, (C159_reverse (t j) k (x j) fun i => g j * c j i).2 i l hil hk h hm]
    simp

/-- Identity as activation and zero coefficients, as at the start of training, on the knots 0, 0, 1, 2: the layer is the identity,
its gradient `nan`. -/
example (x : Fin 1 → ℝ) : splineActivation (fun a => a) (fun _ : Fin 1 => vfin ![(0 : ℝ), 0, 1, 2]) 1 (fun _ => vfin fun _ => 0) (vfin x) 0 = fin (x 0) ∧
    splineActivationVjp (fun _ g => g) (fun _ : Fin 1 => vfin ![(0 : ℝ), 0, 1, 2]) 1 (fun _ => vfin fun _ => 0) (vfin x) (vfin fun _ => 1) 0 = nan := by
  obtain ⟨y, y', h1, h2, -, -, -, -, h7⟩ := C159_activation (φ := fun a => a) (φ' := fun _ => 1) (fun a => hasDerivAt_id' a)
    (act := fun a => a) (fun a => rfl) (actD := fun a => a) (fun a v => by simp) (actV := fun _ g => g) (fun a g => by simp)
    (fun _ : Fin 1 => ![(0 : ℝ), 0, 1, 2]) 1 (fun _ _ => 0) 0
  refine ⟨?_, h7 0 1 (by decide) (by decide) rfl (by norm_num) x fun _ => 1⟩
  choose b b' h using fun i => C159_forward ![(0 : ℝ), 0, 1, 2] 1 i
  simp only [splineActivation, vfin_apply, (h _).1, fin_mul, fin_sum, fin_add, mul_zero, Finset.sum_const_zero, add_zero]

/-- **C159, coefficients**. The cotangent of the coefficients is right whatever the knots: `g` times the change of the output. -/
theorem C159_coefs {d m : ℕ} {φ : ℝ → ℝ} {act : XR → XR} (hact : ∀ a, act (fin a) = fin (φ a)) (t : Fin d → Fin m → ℝ) (k : ℕ)
    (x g : Fin d → ℝ) :
    ∃ (Y : (Fin d → Fin (m - k - 1) → ℝ) → Fin d → ℝ) (w : Fin d → Fin (m - k - 1) → ℝ),
      (∀ c, splineActivation act (fun j => vfin (t j)) k (fun j => vfin (c j)) (vfin x) = vfin (Y c)) ∧
      (∀ j i, splineCoefsVjp (fun j => vfin (t j)) k (vfin x) (vfin g) j i = fin (w j i)) ∧
      ∀ c h, ∑ j, g j * (Y (c + h) j - Y c j) = ∑ j, ∑ i, w j i * h j i := by
  choose b b' h1 h2 h3 h4 h5 using fun j i => C159_forward (t j) k i
  refine ⟨fun c j => φ (x j) + ∑ i, b j i (x j) * c j i, fun j i => b j i (x j) * g j, fun c => funext fun j => ?_, fun j i => ?_,
    fun c h => Finset.sum_congr rfl fun j _ => ?_⟩
  · simp only [splineActivation, vfin_apply, hact, h1, fin_mul, fin_sum, fin_add]
  · simp only [splineCoefsVjp, vfin_apply, h1, fin_mul]
  · have : ∑ i, b j i (x j) * (c + h) j i = ∑ i, b j i (x j) * c j i + ∑ i, b j i (x j) * h j i := by
      rw [← Finset.sum_add_distrib]; exact Finset.sum_congr rfl fun i _ => by simp [mul_add]
    beta_reduce
    rw [this, show φ (x j) + (∑ i, b j i (x j) * c j i + ∑ i, b j i (x j) * h j i) - (φ (x j) + ∑ i, b j i (x j) * c j i) =
      ∑ i, b j i (x j) * h j i by ring, Finset.mul_sum]
    exact Finset.sum_congr rfl fun i _ => by ring

/-- The hat function on the knots 0, 1, 2, 3: the cotangent of its coefficient at 1 is the cotangent of the output. -/
example (g : ℝ) : splineCoefsVjp (fun _ : Fin 1 => vfin fun j : Fin 4 => ((j : ℕ) : ℝ)) 1 (vfin fun _ => 1) (vfin fun _ => g) 0 ⟨0, by norm_num⟩ = fin g := by
  have h := splineBasis_fin 1 (fun j : Fin 4 => ((j : ℕ) : ℝ)) 1 ⟨0, by norm_num⟩ (by norm_num)
  have e : bspline 1 (clampReal (by norm_num) fun j : Fin 4 => ((j : ℕ) : ℝ)) 1 0 = 1 := by norm_num [bspline, clampReal]
  simp only [splineCoefsVjp, vfin_apply]
  rw [h, e, fin_mul, one_mul]

/-- **C159, the module with its grid**. With the knots of `make_grid` and degree at least two, forward and reverse mode both give
the derivative, at every point. -/
theorem C159_module {d : ℕ} (nodes : ℕ) (hn : 2 ≤ nodes) (node_min node_max : ℝ) (hs : node_min < node_max) (degree : ℕ)
    (hd : 2 ≤ degree) (grid_power : ℝ) (hp : 0 < grid_power)
    {φ φ' : ℝ → ℝ} (hφ : ∀ a, HasDerivAt φ (φ' a) a) {act : XR → XR} (hact : ∀ a, act (fin a) = fin (φ a))
    {actD : Dual → Dual} (hactD : ∀ a v, actD ⟨fin a, fin v⟩ = ⟨fin (φ a), fin (φ' a * v)⟩)
    {actV : XR → XR → XR} (hactV : ∀ a g, actV (fin a) (fin g) = fin (φ' a * g))
    (c : Fin d → Fin (nodes - degree - 1) → ℝ) (j : Fin d) :
    ∃ y y' : ℝ → ℝ, (∀ a, HasDerivAt y (y' a) a) ∧
      (∀ x : Fin d → ℝ, SplineActivation nodes node_min node_max degree grid_power act none (fun j => vfin (c j)) (vfin x) j =
        fin (y (x j))) ∧
      (∀ x v : Fin d → ℝ, splineActivationD actD (fun _ => makeGrid node_min node_max grid_power nodes) degree (fun j => vfin (c j))
        (fun j => ⟨fin (x j), fin (v j)⟩) j = ⟨fin (y (x j)), fin (y' (x j) * v j)⟩) ∧
      ∀ x g : Fin d → ℝ, splineActivationVjp actV (fun _ => makeGrid node_min node_max grid_power nodes) degree (fun j => vfin (c j))
        (vfin x) (vfin g) j = fin (y' (x j) * g j) := by
  obtain ⟨t, ht, hmono, -⟩ := C75_grid node_min node_max grid_power hs hp nodes hn
  obtain ⟨y, y', h1, h2, -, -, h5, h6, -⟩ := C159_activation hφ hact hactD hactV (fun _ => t) degree c j
  refine ⟨y, y', h5 hmono hd, fun x => ?_, fun x v => ?_, fun x g => ?_⟩
  · simp only [SplineActivation, ht]; exact h1 x
  · simp only [ht]; exact h2 x v
  · simp only [ht]; exact h6 (fun i l hil _ h => absurd (hmono hil) (by simp [h])) x g

/-- Ten knots on `[-1, 1]`, degree three and the sine. -/
example (c : Fin 1 → Fin (10 - 3 - 1) → ℝ) (actD : Dual → Dual) (h : ∀ a v, actD ⟨fin a, fin v⟩ = ⟨fin (Real.sin a), fin (Real.cos a * v)⟩) :
    ∃ y y' : ℝ → ℝ, (∀ a, HasDerivAt y (y' a) a) ∧ ∀ x v : Fin 1 → ℝ, splineActivationD actD (fun _ => makeGrid (-1) 1 1 10) 3
      (fun j => vfin (c j)) (fun j => ⟨fin (x j), fin (v j)⟩) 0 = ⟨fin (y (x 0)), fin (y' (x 0) * v 0)⟩ := by
  obtain ⟨y, y', h1, -, h3, -⟩ := C159_module 10 (by norm_num) (-1) 1 (by norm_num) 3 (by norm_num) 1 one_pos Real.hasDerivAt_sin
    (act := fun a => match a with | fin a => fin (Real.sin a) | _ => nan) (fun a => rfl) h
    (actV := fun a g => match a with | fin a => fin (Real.cos a) * g | _ => nan) (fun a g => fin_mul _ _) c 0
  exact ⟨y, y', h1, h3⟩

end Verif
