import Verif.Model.TR
import Verif.Spec.Geometry
import Mathlib.Analysis.InnerProductSpace.Basic
import Mathlib.Analysis.InnerProductSpace.PiL2
import Mathlib.Analysis.InnerProductSpace.Orthonormal
import Mathlib.LinearAlgebra.Dimension.Finite

/-! # Finite data in the loop of `steihaug` -/

namespace Verif

open XR

local notation "⟪" x ", " y "⟫" => inner ℝ x y

section
variable {n : ℕ}

theorem vdot_efin (x y : Pt n) : vdot (efin x) (efin y) = fin ⟪x, y⟫ := by
  rw [efin, efin, vdot_fin, PiLp.inner_apply]
  congr 1
  refine Finset.sum_congr rfl fun i _ => ?_
  simp [mul_comm]

theorem vnorm_efin' (x : Pt n) : vnorm (efin x) = fin ‖x‖ := by
  rw [efin, vnorm_fin, EuclideanSpace.norm_eq]
  congr 2
  refine Finset.sum_congr rfl fun i _ => ?_
  rw [Real.norm_eq_abs, sq_abs, sq]

theorem addScalarMul_efin (x : Pt n) (a : ℝ) (y : Pt n) : addScalarMul (efin x) (fin a) (efin y) = efin (x + a • y) := by
  funext i
  simp [addScalarMul, efin]

theorem neg_efin (x : Pt n) : (fun i => -efin x i) = efin (-x) := by
  funext i
  simp [efin]

theorem add_efin (x y : Pt n) : (fun i => efin x i + efin y i) = efin (x + y) := by
  funext i
  simp [efin]

theorem zero_efin : (fun _ : Fin n => (0 : XR)) = efin (0 : Pt n) := by
  funext i
  simp [efin]

theorem efin_inj {x y : Pt n} : efin x = efin y ↔ x = y := by
  constructor
  · intro h
    ext i
    have := congrFun h i
    simpa [efin] using this
  · rintro rfl; rfl

/-- The step to the boundary: `limit_step` from a point strictly inside of the trust region. -/
theorem limitStep_efin {Δ : ℝ} {z d : Pt n} (hz : ‖z‖ < Δ) (hd : d ≠ 0) :
    ∃ τ : ℝ, 0 < τ ∧ steihaug.limitStep (fin Δ) (efin z) (efin d) = efin (z + τ • d) ∧ ‖z + τ • d‖ = Δ := by
  have hΔ : 0 < Δ := lt_of_le_of_lt (norm_nonneg z) hz
  set a := ⟪d, d⟫ with ha
  set b := ⟪z, d⟫ with hb
  set c := ⟪z, z⟫ - Δ ^ 2 with hc
  have ha' : a = ‖d‖ ^ 2 := real_inner_self_eq_norm_sq d
  have hapos : 0 < a := by rw [ha']; have := norm_pos_iff.mpr hd; positivity
  have hzz : ⟪z, z⟫ = ‖z‖ ^ 2 := real_inner_self_eq_norm_sq z
  have hcneg : c < 0 := by rw [hc, hzz]; nlinarith [norm_nonneg z]
  have hdisc : 0 < (b / a) ^ 2 - c / a := by
    have h1 : c / a < 0 := div_neg_of_neg_of_pos hcneg hapos
    nlinarith [sq_nonneg (b / a)]
  set D := (b / a) ^ 2 - c / a with hD
  have hsq : Real.sqrt D ^ 2 = D := Real.sq_sqrt hdisc.le
  have hgt : b / a < Real.sqrt D := by
    apply Real.lt_sqrt_of_sq_lt
    rw [hD]
    have h1 : c / a < 0 := div_neg_of_neg_of_pos hcneg hapos
    linarith
  set τ := -b / a + Real.sqrt D with hτ
  have hτpos : 0 < τ := by rw [hτ, neg_div]; linarith
  refine ⟨τ, hτpos, ?_, ?_⟩
  · have e : (vdot (efin z) (efin d) / vdot (efin d) (efin d)) ^ 2 -
        (vdot (efin z) (efin z) - fin Δ ^ 2) / vdot (efin d) (efin d) = fin D := by
      simp only [vdot_efin, ← ha, ← hb]
      rw [fin_npow, fin_sub, ← hc, fin_div _ hapos.ne', fin_div _ hapos.ne', fin_npow, fin_sub, ← hD]
    have e2 : ¬ (vdot (efin z) (efin d) / vdot (efin d) (efin d)) ^ 2 -
        (vdot (efin z) (efin z) - fin Δ ^ 2) / vdot (efin d) (efin d) < 0 := by
      rw [e, zero_eq, fin_lt]; linarith
    unfold steihaug.limitStep
    simp only
    rw [if_neg e2, e, vdot_efin, vdot_efin, ← ha, ← hb, fin_sqrt hdisc.le, fin_neg, fin_div _ hapos.ne', fin_add,
      ← hτ, zero_eq, fin_max, max_eq_right hτpos.le, addScalarMul_efin]
  · have hkey : a * τ ^ 2 + 2 * b * τ + c = 0 := by
      have e1 : τ ^ 2 + 2 * (b / a) * τ + c / a = 0 := by
        have : τ = Real.sqrt D - b / a := by rw [hτ, neg_div]; ring
        rw [this]
        have : (Real.sqrt D - b / a) ^ 2 + 2 * (b / a) * (Real.sqrt D - b / a) + c / a = Real.sqrt D ^ 2 - (b / a) ^ 2 + c / a := by
          ring
        rw [this, hsq, hD]; ring
      have e2 : a * (τ ^ 2 + 2 * (b / a) * τ + c / a) = a * τ ^ 2 + 2 * b * τ + c := by
        field_simp
      rw [← e2, e1, mul_zero]
    have hnorm : ‖z + τ • d‖ ^ 2 = Δ ^ 2 := by
      rw [norm_add_sq_real, norm_smul, mul_pow, Real.norm_eq_abs, sq_abs, inner_smul_right, ← ha', ← hzz, ← hb]
      rw [hc] at hkey
      linarith
    exact (sq_eq_sq₀ (norm_nonneg _) hΔ.le).mp hnorm

/-- A state of the loop which is inside of the trust region, with finite entries. -/
structure Inside (Δ : ℝ) (s : CgState n) (z d r : Pt n) : Prop where
  hz : s.z = efin z
  hd : s.d = efin d
  hr : s.r = efin r
  norm_z : s.norm_z = fin ‖z‖
  norm_r : s.norm_r = fin ‖r‖
  curv : ¬ s.curvature ≤ 0
  lt : ‖z‖ < Δ
  rd : ⟪r, d⟫ = -‖r‖ ^ 2

/-- A state of the loop which has left the trust region or met negative curvature. -/
structure Limit (Δ : ℝ) (s : CgState n) (z : Pt n) : Prop where
  hz : s.z = efin z
  stop : s.curvature ≤ 0 ∨ fin Δ ≤ s.norm_z
  norm : ‖z‖ = Δ

theorem inside_init {Δ : ℝ} (hΔ : 0 < Δ) (g : Pt n) : Inside Δ (steihaug.init (efin g)) 0 (-g) g := by
  constructor
  · exact zero_efin
  · exact neg_efin g
  · rfl
  · simp [steihaug.init]
  · exact vnorm_efin' g
  · intro h
    rw [zero_eq] at h
    exact h
  · simpa using hΔ
  · simp only [inner_neg_right, real_inner_self_eq_norm_sq]

theorem condition_inside {Δ ε : ℝ} {s : CgState n} {z d r : Pt n} (h : Inside Δ s z d r) :
    steihaug.condition (fin Δ) (fin ε) s ↔ ε ≤ ‖r‖ := by
  unfold steihaug.condition
  rw [h.norm_z, h.norm_r, fin_le, fin_lt]
  have := h.curv
  have := h.lt
  constructor
  · intro hc
    by_contra hlt
    exact hc (Or.inr (Or.inr (not_le.mp hlt)))
  · rintro hle (h1 | h1 | h1)
    · exact h.curv h1
    · linarith
    · linarith

theorem condition_limit {Δ : ℝ} {ε : XR} {s : CgState n} {z : Pt n} (h : Limit Δ s z) :
    ¬ steihaug.condition (fin Δ) ε s := by
  unfold steihaug.condition
  rw [not_not]
  rcases h.stop with h | h
  · exact Or.inl h
  · exact Or.inr (Or.inl h)

/-- One iteration from a state inside: either to the next point of the conjugate gradient method, which is inside
again, or to the boundary. -/
theorem step_inside {Δ ε : ℝ} (hε : 0 < ε) {hvp : Vec n → Vec n} {H : Pt n → Pt n} (hH : ∀ x, hvp (efin x) = efin (H x))
    {s : CgState n} {z d r : Pt n} (h : Inside Δ s z d r) (hc : steihaug.condition (fin Δ) (fin ε) s) :
    r ≠ 0 ∧ d ≠ 0 ∧
    ((0 < ⟪d, H d⟫ ∧ ∃ α β : ℝ, α = ‖r‖ ^ 2 / ⟪d, H d⟫ ∧ β = ‖r + α • H d‖ ^ 2 / ‖r‖ ^ 2 ∧
        Inside Δ (steihaug.step hvp (fin Δ) s) (z + α • d) (-(r + α • H d) + β • d) (r + α • H d)) ∨
      ∃ τ : ℝ, 0 < τ ∧ Limit Δ (steihaug.step hvp (fin Δ) s) (z + τ • d) ∧
        (0 < ⟪d, H d⟫ → Δ ≤ ‖z + (‖r‖ ^ 2 / ⟪d, H d⟫) • d‖)) := by
  have hεr : ε ≤ ‖r‖ := (condition_inside h).mp hc
  have hrpos : 0 < ‖r‖ := lt_of_lt_of_le hε hεr
  have hr0 : r ≠ 0 := norm_pos_iff.mp hrpos
  have hd0 : d ≠ 0 := by
    rintro rfl
    have := h.rd
    rw [inner_zero_right] at this
    nlinarith
  refine ⟨hr0, hd0, ?_⟩
  have hrr : ⟪r, r⟫ = ‖r‖ ^ 2 := real_inner_self_eq_norm_sq r
  have hrr0 : ⟪r, r⟫ ≠ 0 := by rw [hrr]; positivity
  set κ := ⟪d, H d⟫ with hκ
  by_cases hpos : 0 < κ
  · set α := ‖r‖ ^ 2 / κ with hα
    have hstepα : vdot s.r s.r / vdot s.d (hvp s.d) = fin α := by
      rw [h.hr, h.hd, hH, vdot_efin, vdot_efin, fin_div _ hpos.ne', hrr]
    have hznew : addScalarMul s.z (vdot s.r s.r / vdot s.d (hvp s.d)) s.d = efin (z + α • d) := by
      rw [hstepα, h.hz, h.hd, addScalarMul_efin]
    have hcurv : vdot s.d (hvp s.d) = fin κ := by rw [h.hd, hH, vdot_efin]
    by_cases hin : ‖z + α • d‖ < Δ
    · left
      refine ⟨hpos, α, _, rfl, rfl, ?_⟩
      constructor
      · simp only [steihaug.step]
        rw [if_neg, hznew]
        rw [hznew, hcurv, vnorm_efin', zero_eq, fin_le, fin_le]
        push Not
        exact ⟨hpos, hin⟩
      · simp only [steihaug.step, hstepα]
        rw [h.hr, h.hd, hH, addScalarMul_efin, neg_efin, vdot_efin, vdot_efin, fin_div _ hrr0, addScalarMul_efin,
          real_inner_self_eq_norm_sq, hrr]
      · simp only [steihaug.step, hstepα]
        rw [h.hr, h.hd, hH, addScalarMul_efin]
      · simp only [steihaug.step, hstepα]
        rw [h.hz, h.hd, addScalarMul_efin, vnorm_efin']
      · simp only [steihaug.step, hstepα]
        rw [h.hr, h.hd, hH, addScalarMul_efin, vnorm_efin']
      · simp only [steihaug.step]
        rw [h.hd, hH, vdot_efin, zero_eq, fin_le]
        exact not_le.mpr hpos
      · exact hin
      · have e : ⟪r + α • H d, d⟫ = 0 := by
          rw [inner_add_left, inner_smul_left, h.rd, real_inner_comm, ← hκ, hα]
          simp only [conj_trivial]
          field_simp
          ring
        rw [inner_add_right, inner_smul_right, e, inner_neg_right, real_inner_self_eq_norm_sq]
        ring
    · right
      obtain ⟨τ, hτ, hlim, hnorm⟩ := limitStep_efin h.lt hd0
      refine ⟨τ, hτ, ⟨?_, ?_, hnorm⟩, fun _ => not_lt.mp hin⟩
      · simp only [steihaug.step]
        rw [if_pos, h.hz, h.hd]
        · exact hlim
        · right
          rw [hznew, vnorm_efin', fin_le]; exact not_lt.mp hin
      · right
        simp only [steihaug.step, hstepα]
        rw [h.hz, h.hd, addScalarMul_efin, vnorm_efin', fin_le]
        exact not_lt.mp hin
  · right
    obtain ⟨τ, hτ, hlim, hnorm⟩ := limitStep_efin h.lt hd0
    have hle : vdot s.d (hvp s.d) ≤ 0 := by
      rw [h.hd, hH, vdot_efin, zero_eq, fin_le]
      exact not_lt.mp hpos
    refine ⟨τ, hτ, ⟨?_, ?_, hnorm⟩, fun hp => absurd hp hpos⟩
    · simp only [steihaug.step]
      rw [if_pos (Or.inl hle), h.hz, h.hd]
      exact hlim
    · left
      exact hle

theorem whileLoop_induct {S : Type*} {cond : S → Prop} {body : S → S} (P : S → Prop)
    (hstep : ∀ s, P s → cond s → P (body s)) (k : ℕ) (s : S) (h : P s) : P (whileLoop cond body k s) := by
  induction k generalizing s with
  | zero => exact h
  | succ k ih =>
    simp only [whileLoop]
    split
    · rename_i hc; exact ih _ (hstep s h hc)
    · exact h

theorem whileLoop_count {S : Type*} {cond : S → Prop} {body : S → S} (cnt : S → ℕ) (hcnt : ∀ s, cnt (body s) = cnt s + 1)
    (k : ℕ) (s : S) : cnt (whileLoop cond body k s) ≤ cnt s + k ∧
      (cond (whileLoop cond body k s) → cnt (whileLoop cond body k s) = cnt s + k) := by
  induction k generalizing s with
  | zero => simp [whileLoop]
  | succ k ih =>
    simp only [whileLoop]
    split
    · have := ih (body s)
      rw [hcnt] at this
      exact ⟨by omega, fun h => by have := this.2 h; omega⟩
    · rename_i hc
      exact ⟨by omega, fun h => absurd h hc⟩

/-- The iteration limit used by `steihaug`. -/
def iterLimit (n : ℕ) : Option ℕ → ℕ
  | none => 10 * n
  | some k => k

theorem final_eq (g : Vec n) (hvp : Vec n → Vec n) (tr eps : XR) (m : Option ℕ) :
    steihaug.final g hvp tr eps m =
      whileLoop (steihaug.condition tr eps) (steihaug.step hvp tr) (iterLimit n m) (steihaug.init g) := by
  cases m <;> rfl

/-- Induction over the loop of `steihaug`: `Q` for states inside, `R` for states at the boundary. -/
theorem final_induct {Δ ε : ℝ} (hΔ : 0 < Δ) (hε : 0 < ε) {hvp : Vec n → Vec n} {H : Pt n → Pt n}
    (hH : ∀ x, hvp (efin x) = efin (H x)) (g : Pt n) (m : Option ℕ)
    (Q : CgState n → Pt n → Pt n → Pt n → Prop) (R : CgState n → Pt n → Prop)
    (h0 : Q (steihaug.init (efin g)) 0 (-g) g)
    (hstep : ∀ s z d r, Inside Δ s z d r → Q s z d r → ε ≤ ‖r‖ → r ≠ 0 → d ≠ 0 →
      ((∀ α β : ℝ, 0 < ⟪d, H d⟫ → α = ‖r‖ ^ 2 / ⟪d, H d⟫ → β = ‖r + α • H d‖ ^ 2 / ‖r‖ ^ 2 →
          Inside Δ (steihaug.step hvp (fin Δ) s) (z + α • d) (-(r + α • H d) + β • d) (r + α • H d) →
          Q (steihaug.step hvp (fin Δ) s) (z + α • d) (-(r + α • H d) + β • d) (r + α • H d)) ∧
        (∀ τ : ℝ, 0 < τ → Limit Δ (steihaug.step hvp (fin Δ) s) (z + τ • d) →
          (0 < ⟪d, H d⟫ → Δ ≤ ‖z + (‖r‖ ^ 2 / ⟪d, H d⟫) • d‖) → R (steihaug.step hvp (fin Δ) s) (z + τ • d)))) :
    (∃ z d r, Inside Δ (steihaug.final (efin g) hvp (fin Δ) (fin ε) m) z d r ∧
        Q (steihaug.final (efin g) hvp (fin Δ) (fin ε) m) z d r) ∨
      ∃ z, Limit Δ (steihaug.final (efin g) hvp (fin Δ) (fin ε) m) z ∧
        R (steihaug.final (efin g) hvp (fin Δ) (fin ε) m) z := by
  rw [final_eq]
  refine whileLoop_induct (fun s => (∃ z d r, Inside Δ s z d r ∧ Q s z d r) ∨ ∃ z, Limit Δ s z ∧ R s z) ?_ _ _
    (Or.inl ⟨0, -g, g, inside_init hΔ g, h0⟩)
  rintro s (⟨z, d, r, hI, hQ⟩ | ⟨z, hL, -⟩) hc
  · obtain ⟨hr0, hd0, hcase⟩ := step_inside hε hH hI hc
    obtain ⟨hA, hB⟩ := hstep s z d r hI hQ ((condition_inside hI).mp hc) hr0 hd0
    rcases hcase with ⟨hpos, α, β, hα, hβ, hI'⟩ | ⟨τ, hτ, hL, hout⟩
    · exact Or.inl ⟨_, _, _, hI', hA α β hpos hα hβ hI'⟩
    · exact Or.inr ⟨_, hL, hB τ hτ hL hout⟩
  · exact absurd hc (condition_limit hL)

end

end Verif
