import Verif.Lemmas.Steihaug
import Verif.Spec.TR

/-! # Properties of `steihaug` -/

namespace Verif

open XR

local notation "⟪" x ", " y "⟫" => inner ℝ x y

section
variable {n : ℕ}

/-! ## C61 -/

theorem steihaug_cases {Δ ε : ℝ} (hΔ : 0 < Δ) (hε : 0 < ε) {hvp : Vec n → Vec n} {H : Pt n → Pt n}
    (hH : ∀ x, hvp (efin x) = efin (H x)) (g : Pt n) (m : Option ℕ) :
    (∃ z d r, Inside Δ (steihaug.final (efin g) hvp (fin Δ) (fin ε) m) z d r) ∨
      ∃ z, Limit Δ (steihaug.final (efin g) hvp (fin Δ) (fin ε) m) z := by
  rcases final_induct hΔ hε hH g m (fun _ _ _ _ => True) (fun _ _ => True) trivial (by simp) with
    ⟨z, d, r, h, -⟩ | ⟨z, h, -⟩
  · exact Or.inl ⟨z, d, r, h⟩
  · exact Or.inr ⟨z, h⟩

/-- For every (finite) gradient and every Hessian-vector product with finite values, which need not even be linear:
the step is finite, its norm is the reported step length and at most the radius. -/
theorem C61_in_region (Δ ε : ℝ) (hΔ : 0 < Δ) (hε : 0 < ε) (hvp : Vec n → Vec n) (H : Pt n → Pt n)
    (hH : ∀ x, hvp (efin x) = efin (H x)) (g : Pt n) (m : Option ℕ) :
    ∃ p : Pt n, (steihaug (efin g) hvp (fin Δ) (fin ε) m).p = efin p ∧
      (steihaug (efin g) hvp (fin Δ) (fin ε) m).step_length = fin ‖p‖ ∧ ‖p‖ ≤ Δ := by
  rcases steihaug_cases hΔ hε hH g m with ⟨z, d, r, h⟩ | ⟨z, h⟩
  · refine ⟨z, h.hz, ?_, h.lt.le⟩
    show vnorm (steihaug.final (efin g) hvp (fin Δ) (fin ε) m).z = _
    rw [h.hz, vnorm_efin']
  · refine ⟨z, h.hz, ?_, h.norm.le⟩
    show vnorm (steihaug.final (efin g) hvp (fin Δ) (fin ε) m).z = _
    rw [h.hz, vnorm_efin']

/-- If the loop stops because of the curvature or because it left the region, the step is on the boundary, and
`limit_step` is reported. -/
theorem C61_on_boundary (Δ ε : ℝ) (hΔ : 0 < Δ) (hε : 0 < ε) (hvp : Vec n → Vec n) (H : Pt n → Pt n)
    (hH : ∀ x, hvp (efin x) = efin (H x)) (g : Pt n) (m : Option ℕ)
    (hstop : (steihaug (efin g) hvp (fin Δ) (fin ε) m).curvature ≤ 0 ∨
      fin Δ ≤ (steihaug.final (efin g) hvp (fin Δ) (fin ε) m).norm_z) :
    (steihaug (efin g) hvp (fin Δ) (fin ε) m).step_length = fin Δ ∧
      (steihaug (efin g) hvp (fin Δ) (fin ε) m).limit_step := by
  have key : (steihaug (efin g) hvp (fin Δ) (fin ε) m).step_length = fin Δ := by
    show vnorm (steihaug.final (efin g) hvp (fin Δ) (fin ε) m).z = _
    rcases steihaug_cases hΔ hε hH g m with ⟨z, d, r, h⟩ | ⟨z, h⟩
    · exfalso
      rcases hstop with hs | hs
      · exact h.curv hs
      · rw [h.norm_z, fin_le] at hs
        exact absurd h.lt (not_lt.mpr hs)
    · rw [h.hz, vnorm_efin', h.norm]
  refine ⟨key, ?_⟩
  show isclose 1e-5 1e-8 (vnorm (steihaug.final (efin g) hvp (fin Δ) (fin ε) m).z) (fin Δ)
  have key' : vnorm (steihaug.final (efin g) hvp (fin Δ) (fin ε) m).z = fin Δ := key
  rw [key', isclose, fin_sub, sub_self, fin_abs, fin_abs, fin_mul, fin_add, fin_le]
  have := abs_nonneg Δ
  norm_num
  positivity

example : (steihaug (efin !₂[1]) (fun v : Vec 1 => fun i => fin (-2) * v i) (fin 3) (fin (1 / 10)) (some 0)).curvature ≤ 0 ∨
    fin 3 ≤ (steihaug.final (efin !₂[1]) (fun v : Vec 1 => fun i => fin (-2) * v i) (fin 3) (fin (1 / 10)) (some 0)).norm_z →
    (steihaug (efin !₂[1]) (fun v : Vec 1 => fun i => fin (-2) * v i) (fin 3) (fin (1 / 10)) (some 0)).step_length = fin 3 :=
  fun h => (C61_on_boundary 3 (1 / 10) (by norm_num) (by norm_num) _ (fun x => (-2 : ℝ) • x)
    (fun x => by funext i; simp [efin]) (!₂[1]) (some 0) h).1

/-- What the result says about how the loop ended. Nonpositive curvature leads to the boundary; a step inside of the
region has positive curvature, and then `converged` means that the residual is smaller than the tolerance; if the loop has
not converged it was stopped by the limit. -/
theorem C61_outcome (Δ ε : ℝ) (hΔ : 0 < Δ) (hε : 0 < ε) (hvp : Vec n → Vec n) (H : Pt n → Pt n)
    (hH : ∀ x, hvp (efin x) = efin (H x)) (g : Pt n) (m : Option ℕ) :
    ((steihaug (efin g) hvp (fin Δ) (fin ε) m).curvature ≤ 0 →
      (steihaug (efin g) hvp (fin Δ) (fin ε) m).step_length = fin Δ) ∧
    ((steihaug (efin g) hvp (fin Δ) (fin ε) m).step_length ≠ fin Δ →
      ((steihaug (efin g) hvp (fin Δ) (fin ε) m).converged ↔
        (steihaug (efin g) hvp (fin Δ) (fin ε) m).norm_r < fin ε)) ∧
    (¬ (steihaug (efin g) hvp (fin Δ) (fin ε) m).converged →
      (steihaug (efin g) hvp (fin Δ) (fin ε) m).iter_num = m.getD (10 * n)) := by
  refine ⟨fun h => (C61_on_boundary Δ ε hΔ hε hvp H hH g m (Or.inl h)).1, fun hlen => ?_, fun hc => ?_⟩
  · rcases steihaug_cases hΔ hε hH g m with ⟨z, d, r, h⟩ | ⟨z, h⟩
    · show ¬ steihaug.condition (fin Δ) (fin ε) (steihaug.final (efin g) hvp (fin Δ) (fin ε) m) ↔
        (steihaug.final (efin g) hvp (fin Δ) (fin ε) m).norm_r < fin ε
      rw [condition_inside h, h.norm_r, fin_lt, not_le]
    · refine absurd ?_ hlen
      show vnorm (steihaug.final (efin g) hvp (fin Δ) (fin ε) m).z = _
      rw [h.hz, vnorm_efin', h.norm]
  · have hc' : steihaug.condition (fin Δ) (fin ε) (steihaug.final (efin g) hvp (fin Δ) (fin ε) m) := not_not.mp hc
    have hcount := whileLoop_count (cond := steihaug.condition (fin Δ) (fin ε)) (body := steihaug.step hvp (fin Δ))
      CgState.iter_num (fun s => rfl) (iterLimit n m) (steihaug.init (efin g))
    rw [← final_eq] at hcount
    have h1 := hcount.2 hc'
    show (steihaug.final (efin g) hvp (fin Δ) (fin ε) m).iter_num = _
    rw [h1]
    cases m <;> simp [steihaug.init, iterLimit]

/-- The same with the theorem: the step is finite and has at most the length `3`. -/
example : ∃ p : Pt 1, (steihaug (efin !₂[1]) (fun v => fun i => fin (-2) * v i) (fin 3) (fin (1 / 10)) none).p = efin p ∧
    ‖p‖ ≤ 3 := by
  obtain ⟨p, h1, -, h2⟩ := C61_in_region 3 (1 / 10) (by norm_num) (by norm_num) (fun v : Vec 1 => fun i => fin (-2) * v i)
    (fun x => (-2 : ℝ) • x) (fun x => by funext i; simp [efin]) (!₂[1]) none
  exact ⟨p, h1, h2⟩

/-- A case with negative curvature: one dimension, gradient `1`, Hessian `-2`, radius `3`. -/
example : ∀ x : Pt 1, (fun v : Vec 1 => fun i => fin (-2) * v i) (efin x) = efin ((-2 : ℝ) • x) := by
  intro x; funext i; simp [efin]

/-! ## C62 -/

theorem qmodel_line (g : Pt n) (H : Pt n →ₗ[ℝ] Pt n) (hsym : ∀ x y, ⟪H x, y⟫ = ⟪x, H y⟫) (z d : Pt n) (t : ℝ) :
    qmodel g H (z + t • d) = qmodel g H z + t * ⟪g + H z, d⟫ + 1 / 2 * t ^ 2 * ⟪d, H d⟫ := by
  simp only [qmodel, map_add, map_smul, inner_add_right, inner_add_left, inner_smul_right, inner_smul_left,
    conj_trivial]
  have e : ⟪d, H z⟫ = ⟪z, H d⟫ := by rw [← hsym, real_inner_comm]
  have e2 : ⟪H z, d⟫ = ⟪z, H d⟫ := hsym z d
  rw [e, e2]
  ring

/-- A point at which the segment to a point outside crosses the boundary comes before that point. -/
theorem cross_le {Δ τ t : ℝ} {z d : Pt n} (hz : ‖z‖ < Δ) (hτ : ‖z + τ • d‖ = Δ) (ht : ‖z + t • d‖ ≤ Δ)
    (hτ0 : 0 < τ) : t ≤ τ := by
  by_contra hlt
  push Not at hlt
  have ht' : 0 < t := lt_of_le_of_lt hτ0.le hlt
  have e : z + τ • d = (1 - τ / t) • z + (τ / t) • (z + t • d) := by
    rw [smul_add, smul_smul, div_mul_cancel₀ _ ht'.ne', sub_smul, one_smul]
    abel
  have h1 : τ / t < 1 := (div_lt_one ht').mpr hlt
  have h0 : 0 < τ / t := div_pos hτ0 ht'
  have : ‖z + τ • d‖ < Δ := by
    rw [e]
    calc ‖(1 - τ / t) • z + (τ / t) • (z + t • d)‖ ≤ (1 - τ / t) * ‖z‖ + τ / t * ‖z + t • d‖ := by
          refine (norm_add_le _ _).trans ?_
          rw [norm_smul, norm_smul, Real.norm_eq_abs, Real.norm_eq_abs, abs_of_pos (by linarith), abs_of_pos h0]
      _ < (1 - τ / t) * Δ + τ / t * Δ := by nlinarith
      _ = Δ := by ring
  linarith

/-- Each iteration is at least as good as every point of the trust region on the search ray. -/
theorem step_best {Δ : ℝ} {g : Pt n} {H : Pt n →ₗ[ℝ] Pt n} (hsym : ∀ x y, ⟪H x, y⟫ = ⟪x, H y⟫) {z d r : Pt n}
    (hr : r = g + H z) (hz : ‖z‖ < Δ) (hrd : ⟪r, d⟫ = -‖r‖ ^ 2) {t : ℝ} (ht0 : 0 ≤ t) (ht : ‖z + t • d‖ ≤ Δ) :
    (∀ α : ℝ, 0 < ⟪d, H d⟫ → α = ‖r‖ ^ 2 / ⟪d, H d⟫ → qmodel g H (z + α • d) ≤ qmodel g H (z + t • d)) ∧
    (∀ τ : ℝ, 0 < τ → ‖z + τ • d‖ = Δ → (0 < ⟪d, H d⟫ → Δ ≤ ‖z + (‖r‖ ^ 2 / ⟪d, H d⟫) • d‖) →
      qmodel g H (z + τ • d) ≤ qmodel g H (z + t • d)) := by
  have hline := qmodel_line g H hsym z d
  simp only [← hr, hrd] at hline
  set κ := ⟪d, H d⟫ with hκ
  constructor
  · intro α hκ hα
    rw [hline, hline]
    have h1 : α * κ = ‖r‖ ^ 2 := by rw [hα]; field_simp
    have h2 := mul_nonneg hκ.le (sq_nonneg (t - α))
    rw [← h1]
    linarith [show κ * (t - α) ^ 2 = t ^ 2 * κ - 2 * t * (α * κ) + α ^ 2 * κ by ring,
      show α * -(α * κ) + 1 / 2 * α ^ 2 * κ = -(1 / 2 * α ^ 2 * κ) by ring,
      show t * -(α * κ) = -(t * (α * κ)) by ring]
  · intro τ hτ0 hτ hout
    have htτ := cross_le hz hτ ht hτ0
    rw [hline, hline]
    have key : 1 / 2 * κ * (τ + t) ≤ ‖r‖ ^ 2 := by
      by_cases hpos : 0 < κ
      · have hα0 : 0 ≤ ‖r‖ ^ 2 / κ := by positivity
        have : τ ≤ ‖r‖ ^ 2 / κ := by
          rcases (hout hpos).lt_or_eq with h | h
          · -- the CG point is strictly outside, so the crossing comes before
            by_contra hlt
            push Not at hlt
            have hα' : 0 < ‖r‖ ^ 2 / κ := by
              rcases hα0.lt_or_eq with h' | h'
              · exact h'
              · rw [← h', zero_smul, add_zero] at h; linarith
            have e : z + (‖r‖ ^ 2 / κ) • d = (1 - (‖r‖ ^ 2 / κ) / τ) • z + ((‖r‖ ^ 2 / κ) / τ) • (z + τ • d) := by
              rw [smul_add, smul_smul, div_mul_cancel₀ _ hτ0.ne', sub_smul, one_smul]
              abel
            have h1 : (‖r‖ ^ 2 / κ) / τ < 1 := (div_lt_one hτ0).mpr hlt
            have h0 : 0 < (‖r‖ ^ 2 / κ) / τ := div_pos hα' hτ0
            have : ‖z + (‖r‖ ^ 2 / κ) • d‖ ≤ Δ := by
              rw [e]
              refine (norm_add_le _ _).trans ?_
              rw [norm_smul, norm_smul, Real.norm_eq_abs, Real.norm_eq_abs, abs_of_pos (by linarith), abs_of_pos h0, hτ]
              nlinarith
            linarith
          · rcases hα0.lt_or_eq with h' | h'
            · exact cross_le hz h.symm hτ.le h'
            · rw [← h', zero_smul, add_zero] at h; linarith
        have h2 : τ * κ ≤ ‖r‖ ^ 2 := (le_div_iff₀ hpos).mp this
        nlinarith
      · push Not at hpos
        nlinarith [sq_nonneg ‖r‖]
    nlinarith

/-- The step is at least as good as every point on the steepest descent ray inside of the trust region. -/
theorem C62_cauchy (Δ ε : ℝ) (hΔ : 0 < Δ) (hε : 0 < ε) (hvp : Vec n → Vec n) (H : Pt n →ₗ[ℝ] Pt n)
    (hH : ∀ x, hvp (efin x) = efin (H x)) (hsym : ∀ x y, ⟪H x, y⟫ = ⟪x, H y⟫) (g : Pt n) (hg : ε ≤ ‖g‖)
    (m : Option ℕ) (hm : m ≠ some 0) :
    ∃ p : Pt n, (steihaug (efin g) hvp (fin Δ) (fin ε) m).p = efin p ∧
      ∀ t : ℝ, 0 ≤ t → ‖t • g‖ ≤ Δ → qmodel g H p ≤ qmodel g H (-t • g) := by
  -- inside: the model is at most the Cauchy value, or nothing has happened yet
  have hn : n ≠ 0 := by
    rintro rfl
    have : g = 0 := Subsingleton.elim _ _
    rw [this, norm_zero] at hg
    linarith
  have hlim : 0 < iterLimit n m := by
    cases m with
    | none => simp only [iterLimit]; omega
    | some k =>
      simp only [iterLimit]
      have : k ≠ 0 := fun h => hm (by rw [h])
      omega
  have hcount := whileLoop_count (cond := steihaug.condition (fin Δ) (fin ε)) (body := steihaug.step hvp (fin Δ))
    CgState.iter_num (fun s => rfl) (iterLimit n m) (steihaug.init (efin g))
  rw [← final_eq] at hcount
  have hI := final_induct hΔ hε hH g m
    (fun s z d r => r = g + H z ∧ ((s.iter_num = 0 ∧ z = 0 ∧ d = -g) ∨
      ∀ t : ℝ, 0 ≤ t → ‖t • g‖ ≤ Δ → qmodel g H z ≤ qmodel g H (-t • g)))
    (fun s z => ∀ t : ℝ, 0 ≤ t → ‖t • g‖ ≤ Δ → qmodel g H z ≤ qmodel g H (-t • g))
    (by refine ⟨by simp, Or.inl ⟨rfl, rfl, rfl⟩⟩)
    (by
      rintro s z d r hin ⟨hr, hQ⟩ hεr hr0 hd0
      constructor
      · intro α β hκ hα hβ hI
        refine ⟨by rw [map_add, map_smul, hr]; abel, Or.inr fun t ht0 ht => ?_⟩
        rcases hQ with ⟨-, hz0, hd⟩ | hQ
        · subst hz0; subst hd
          have := (step_best hsym hr hin.lt hin.rd ht0 (t := t)
            (by rw [zero_add, smul_neg, norm_neg]; exact ht)).1 α hκ hα
          rwa [show (0 : Pt n) + t • -g = -t • g by rw [zero_add, smul_neg, neg_smul]] at this
        · have := (step_best hsym hr hin.lt hin.rd (le_refl 0) (t := 0)
            (by rw [zero_smul, add_zero]; exact hin.lt.le)).1 α hκ hα
          rw [zero_smul, add_zero] at this
          exact this.trans (hQ t ht0 ht)
      · intro τ hτ hL hout t ht0 ht
        rcases hQ with ⟨-, hz0, hd⟩ | hQ
        · subst hz0; subst hd
          have := (step_best hsym hr hin.lt hin.rd ht0 (t := t)
            (by rw [zero_add, smul_neg, norm_neg]; exact ht)).2 τ hτ hL.norm hout
          rwa [show (0 : Pt n) + t • -g = -t • g by rw [zero_add, smul_neg, neg_smul]] at this
        · have := (step_best hsym hr hin.lt hin.rd (le_refl 0) (t := 0)
            (by rw [zero_smul, add_zero]; exact hin.lt.le)).2 τ hτ hL.norm hout
          rw [zero_smul, add_zero] at this
          exact this.trans (hQ t ht0 ht))
  rcases hI with ⟨z, d, r, hin, hr, hQ⟩ | ⟨z, hL, hR⟩
  · refine ⟨z, hin.hz, ?_⟩
    rcases hQ with ⟨h0, hz, -⟩ | hQ
    · exfalso
      have hc : steihaug.condition (fin Δ) (fin ε) (steihaug.final (efin g) hvp (fin Δ) (fin ε) m) := by
        rw [condition_inside hin, hr, hz, map_zero, add_zero]
        exact hg
      have := hcount.2 hc
      rw [h0] at this
      simp only [steihaug.init] at this
      omega
    · exact hQ
  · exact ⟨z, hL.hz, hR⟩

example : ∃ p : Pt 1, (steihaug (efin !₂[1]) (fun v => fun i => fin (-2) * v i) (fin 3) (fin (1 / 10)) none).p = efin p ∧
    ∀ t : ℝ, 0 ≤ t → ‖t • (!₂[1] : Pt 1)‖ ≤ 3 →
      qmodel (!₂[1]) ((-2 : ℝ) • LinearMap.id : Pt 1 →ₗ[ℝ] Pt 1) p ≤
        qmodel (!₂[1]) ((-2 : ℝ) • LinearMap.id : Pt 1 →ₗ[ℝ] Pt 1) (-t • (!₂[1] : Pt 1)) := by
  refine C62_cauchy 3 (1 / 10) (by norm_num) (by norm_num) _ _ (fun x => ?_) (fun x y => ?_) _ ?_ none (by simp)
  · funext i; simp [efin]
  · simp [inner_smul_left, inner_smul_right]
  · rw [EuclideanSpace.norm_eq]
    refine Real.le_sqrt_of_sq_le ?_
    norm_num

/-- The predicted decrease is at least `1/2 |g| min(radius, |g| / β)` where `β` bounds the curvature. -/
theorem C62_decrease (Δ ε β : ℝ) (hΔ : 0 < Δ) (hε : 0 < ε) (hβ : 0 < β) (hvp : Vec n → Vec n) (H : Pt n →ₗ[ℝ] Pt n)
    (hH : ∀ x, hvp (efin x) = efin (H x)) (hsym : ∀ x y, ⟪H x, y⟫ = ⟪x, H y⟫)
    (hbound : ∀ x, ⟪x, H x⟫ ≤ β * ‖x‖ ^ 2) (g : Pt n) (hg : ε ≤ ‖g‖) (m : Option ℕ) (hm : m ≠ some 0) :
    ∃ p : Pt n, (steihaug (efin g) hvp (fin Δ) (fin ε) m).p = efin p ∧
      1 / 2 * ‖g‖ * min Δ (‖g‖ / β) ≤ -qmodel g H p ∧ 0 < -qmodel g H p := by
  obtain ⟨p, hp, hc⟩ := C62_cauchy Δ ε hΔ hε hvp H hH hsym g hg m hm
  have hgpos : 0 < ‖g‖ := lt_of_lt_of_le hε hg
  have key : 1 / 2 * ‖g‖ * min Δ (‖g‖ / β) ≤ -qmodel g H p := by
    set t := min (Δ / ‖g‖) (1 / β) with ht
    have ht0 : 0 ≤ t := le_min (by positivity) (by positivity)
    have ht1 : ‖t • g‖ ≤ Δ := by
      rw [norm_smul, Real.norm_eq_abs, abs_of_nonneg ht0]
      calc t * ‖g‖ ≤ Δ / ‖g‖ * ‖g‖ := by gcongr; exact min_le_left _ _
        _ = Δ := by field_simp
    have ht2 : t * β ≤ 1 := by
      calc t * β ≤ 1 / β * β := by gcongr; exact min_le_right _ _
        _ = 1 := by field_simp
    have hm := hc t ht0 ht1
    have hq : qmodel g H (-t • g) = -(t * ‖g‖ ^ 2) + 1 / 2 * t ^ 2 * ⟪g, H g⟫ := by
      simp only [qmodel, map_smul, inner_smul_right, inner_smul_left, conj_trivial, real_inner_self_eq_norm_sq]
      ring
    have hmin : ‖g‖ * t = min Δ (‖g‖ / β) := by
      rw [ht, mul_min_of_nonneg _ _ hgpos.le]
      congr 1
      · field_simp
      · ring
    rw [← hmin]
    have h3 := hbound g
    nlinarith [mul_nonneg ht0 ht0, mul_nonneg (mul_nonneg ht0 ht0) (sub_nonneg.mpr h3), sq_nonneg ‖g‖,
      mul_nonneg (mul_nonneg ht0 (sub_nonneg.mpr ht2)) (sq_nonneg ‖g‖)]
  refine ⟨p, hp, key, lt_of_lt_of_le ?_ key⟩
  have : 0 < min Δ (‖g‖ / β) := lt_min hΔ (by positivity)
  positivity

/-- Example: gradient `(3, 4)`, Hessian twice the identity. -/
example : ∃ p : Pt 2, (steihaug (efin !₂[3, 4]) (fun v => fun i => fin 2 * v i) (fin 1) (fin (1/2)) none).p = efin p ∧
    1 / 2 * ‖(!₂[3, 4] : Pt 2)‖ * min 1 (‖(!₂[3, 4] : Pt 2)‖ / 2) ≤
      -qmodel !₂[3, 4] ((2 : ℝ) • LinearMap.id : Pt 2 →ₗ[ℝ] Pt 2) p ∧
    0 < -qmodel !₂[3, 4] ((2 : ℝ) • LinearMap.id : Pt 2 →ₗ[ℝ] Pt 2) p := by
  refine C62_decrease 1 (1/2) 2 one_pos (by norm_num) two_pos _ _ (fun x => ?_) (fun x y => ?_) (fun x => ?_) _ ?_ none
    (by simp)
  · funext i; simp [efin]
  · simp [inner_smul_left, inner_smul_right]
  · simp [inner_smul_right]
  · rw [EuclideanSpace.norm_eq]
    refine Real.le_sqrt_of_sq_le ?_
    norm_num [Fin.sum_univ_two]

/-! ## C63 -/

/-- Residuals and directions of the conjugate gradient method. -/
noncomputable def cg (g : Pt n) (H : Pt n → Pt n) : ℕ → Pt n × Pt n
  | 0 => (g, -g)
  | k + 1 =>
    let r := (cg g H k).1
    let d := (cg g H k).2
    let α := ‖r‖ ^ 2 / ⟪d, H d⟫
    let r' := r + α • H d
    (r', -r' + (‖r'‖ ^ 2 / ‖r‖ ^ 2) • d)

theorem cg_succ_fst (g : Pt n) (H : Pt n → Pt n) (k : ℕ) :
    (cg g H (k + 1)).1 = (cg g H k).1 + (‖(cg g H k).1‖ ^ 2 / ⟪(cg g H k).2, H (cg g H k).2⟫) • H (cg g H k).2 := rfl

theorem cg_succ_snd (g : Pt n) (H : Pt n → Pt n) (k : ℕ) :
    (cg g H (k + 1)).2 = -(cg g H (k + 1)).1 + (‖(cg g H (k + 1)).1‖ ^ 2 / ‖(cg g H k).1‖ ^ 2) • (cg g H k).2 := rfl

/-- Orthogonality of the residuals and conjugacy of the directions as long as all curvatures are positive. -/
theorem cg_orthogonal (g : Pt n) (H : Pt n →ₗ[ℝ] Pt n) (hsym : ∀ x y, ⟪H x, y⟫ = ⟪x, H y⟫) (k : ℕ)
    (hκ : ∀ i < k, 0 < ⟪(cg g H i).2, H (cg g H i).2⟫) (hr : ∀ i < k, (cg g H i).1 ≠ 0) :
    (∀ i < k, ⟪(cg g H k).1, (cg g H i).1⟫ = 0) ∧ (∀ i < k, ⟪(cg g H k).2, H (cg g H i).2⟫ = 0) ∧
    (∀ i < k, ⟪(cg g H k).1, (cg g H i).2⟫ = 0) ∧ ⟪(cg g H k).1, (cg g H k).2⟫ = -‖(cg g H k).1‖ ^ 2 := by
  induction k with
  | zero => simp [cg]
  | succ k ih =>
    obtain ⟨ha, hb, hc, hd⟩ := ih (fun i hi => hκ i (by omega)) (fun i hi => hr i (by omega))
    have hκk := hκ k (by omega)
    have hrk := hr k (by omega)
    have hrk' : 0 < ‖(cg g H k).1‖ := norm_pos_iff.mpr hrk
    have hc' : ∀ i < k + 1, ⟪(cg g H (k + 1)).1, (cg g H i).2⟫ = 0 := by
      intro i hi
      rw [cg_succ_fst, inner_add_left, inner_smul_left, conj_trivial]
      rcases Nat.lt_succ_iff_lt_or_eq.mp hi with hi | rfl
      · rw [hc i hi, hsym, hb i hi]; ring
      · rw [hd, hsym, div_mul_cancel₀ _ hκk.ne']; ring
    have ha' : ∀ i < k + 1, ⟪(cg g H (k + 1)).1, (cg g H i).1⟫ = 0 := by
      intro i hi
      cases i with
      | zero =>
        have h0 : (cg g H 0).1 = -(cg g H 0).2 := by simp [cg]
        rw [h0, inner_neg_right, hc' 0 hi, neg_zero]
      | succ i =>
        have e : (cg g H (i + 1)).1 =
            -(cg g H (i + 1)).2 + (‖(cg g H (i + 1)).1‖ ^ 2 / ‖(cg g H i).1‖ ^ 2) • (cg g H i).2 := by
          rw [cg_succ_snd]; abel
        rw [e, inner_add_right, inner_neg_right, inner_smul_right, hc' (i + 1) hi, hc' i (by omega)]
        ring
    have hHd : ∀ i < k + 1, ∃ a : ℝ, a ≠ 0 ∧ H (cg g H i).2 = a • ((cg g H (i + 1)).1 - (cg g H i).1) ∧
        a = ⟪(cg g H i).2, H (cg g H i).2⟫ / ‖(cg g H i).1‖ ^ 2 := by
      intro i hi
      have h1 := hκ i hi
      have h2 : 0 < ‖(cg g H i).1‖ := norm_pos_iff.mpr (hr i hi)
      refine ⟨⟪(cg g H i).2, H (cg g H i).2⟫ / ‖(cg g H i).1‖ ^ 2, by positivity, ?_, rfl⟩
      rw [cg_succ_fst, add_sub_cancel_left, smul_smul]
      rw [show ⟪(cg g H i).2, H (cg g H i).2⟫ / ‖(cg g H i).1‖ ^ 2 *
        (‖(cg g H i).1‖ ^ 2 / ⟪(cg g H i).2, H (cg g H i).2⟫) = 1 by field_simp, one_smul]
    have hb' : ∀ i < k + 1, ⟪(cg g H (k + 1)).2, H (cg g H i).2⟫ = 0 := by
      intro i hi
      obtain ⟨a, -, hHa, haval⟩ := hHd i hi
      rw [cg_succ_snd, inner_add_left, inner_neg_left, inner_smul_left, conj_trivial]
      rcases Nat.lt_succ_iff_lt_or_eq.mp hi with hi' | rfl
      · rw [hb i hi', hHa, inner_smul_right, inner_sub_right, ha' (i + 1) (by omega), ha' i (by omega)]
        ring
      · have e : ⟪(cg g H (i + 1)).1, H (cg g H i).2⟫ = a * ‖(cg g H (i + 1)).1‖ ^ 2 := by
          rw [hHa, inner_smul_right, inner_sub_right, ha' i (by omega), real_inner_self_eq_norm_sq, sub_zero]
        rw [e, haval]
        field_simp
        ring
    refine ⟨ha', hb', hc', ?_⟩
    conv_lhs => rw [cg_succ_snd]
    rw [inner_add_right, inner_neg_right, inner_smul_right, hc' k (by omega), real_inner_self_eq_norm_sq]
    ring

/-- `k + 1` non-zero residuals fit into the space only if `k < n`. -/
theorem cg_lt (g : Pt n) (H : Pt n →ₗ[ℝ] Pt n) (hsym : ∀ x y, ⟪H x, y⟫ = ⟪x, H y⟫) (k : ℕ)
    (hκ : ∀ i < k, 0 < ⟪(cg g H i).2, H (cg g H i).2⟫) (hr : ∀ i ≤ k, (cg g H i).1 ≠ 0) : k < n := by
  have hort : ∀ i j, i < j → j ≤ k → ⟪(cg g H j).1, (cg g H i).1⟫ = 0 := fun i j hij hj =>
    (cg_orthogonal g H hsym j (fun i hi => hκ i (by omega)) (fun i hi => hr i (by omega))).1 i hij
  have hli : LinearIndependent ℝ (fun i : Fin (k + 1) => (cg g H i).1) := by
    apply linearIndependent_of_ne_zero_of_inner_eq_zero (𝕜 := ℝ)
    · intro i
      exact hr i (by omega)
    · intro i j hij
      rcases lt_or_gt_of_ne hij with h | h
      · show ⟪(cg g H i).1, (cg g H j).1⟫ = 0
        rw [real_inner_comm]
        exact hort i j h (by omega)
      · exact hort j i h (by omega)
  have := hli.fintype_card_le_finrank
  rw [Fintype.card_fin, finrank_euclideanSpace_fin] at this
  omega

/-- In exact arithmetic `steihaug` converges within `n` iterations if the limit allows as many. -/
theorem C63_terminates (Δ ε : ℝ) (hΔ : 0 < Δ) (hε : 0 < ε) (hvp : Vec n → Vec n) (H : Pt n →ₗ[ℝ] Pt n)
    (hH : ∀ x, hvp (efin x) = efin (H x)) (hsym : ∀ x y, ⟪H x, y⟫ = ⟪x, H y⟫) (g : Pt n)
    (m : Option ℕ) (hm : ∀ k, m = some k → n ≤ k) :
    (steihaug (efin g) hvp (fin Δ) (fin ε) m).converged ∧
      (steihaug (efin g) hvp (fin Δ) (fin ε) m).iter_num ≤ n := by
  have hI := final_induct hΔ hε hH g m
    (fun s z d r => r = (cg g H s.iter_num).1 ∧ d = (cg g H s.iter_num).2 ∧
      (∀ i < s.iter_num, 0 < ⟪(cg g H i).2, H (cg g H i).2⟫) ∧ (∀ i < s.iter_num, (cg g H i).1 ≠ 0) ∧ s.iter_num ≤ n)
    (fun s z => s.iter_num ≤ n)
    (by refine ⟨rfl, rfl, ?_, ?_, Nat.zero_le _⟩ <;> · intro i hi; exact absurd hi (Nat.not_lt_zero i))
    (by
      rintro s z d r hin ⟨hr, hd, hκ, hne, hle⟩ hεr hr0 hd0
      have hlt : s.iter_num < n := by
        refine cg_lt g H hsym s.iter_num hκ fun i hi => ?_
        rcases hi.lt_or_eq with h | h
        · exact hne i h
        · rw [h, ← hr]; exact hr0
      constructor
      · intro α β hpos hα hβ hI
        have e1 : r + α • H d = (cg g H (s.iter_num + 1)).1 := by
          rw [cg_succ_fst, ← hr, ← hd, hα]
        refine ⟨e1, ?_, ?_, ?_, hlt⟩
        · show _ = (cg g H (s.iter_num + 1)).2
          rw [cg_succ_snd, ← e1, ← hr, ← hd, hβ]
        · intro i hi
          rcases Nat.lt_succ_iff_lt_or_eq.mp hi with h | rfl
          · exact hκ i h
          · rw [← hd]; exact hpos
        · intro i hi
          rcases Nat.lt_succ_iff_lt_or_eq.mp hi with h | rfl
          · exact hne i h
          · rw [← hr]; exact hr0
      · intro τ hτ hL hout
        exact hlt)
  have hcount := whileLoop_count (cond := steihaug.condition (fin Δ) (fin ε)) (body := steihaug.step hvp (fin Δ))
    CgState.iter_num (fun s => rfl) (iterLimit n m) (steihaug.init (efin g))
  rw [← final_eq] at hcount
  have hlim : n ≤ iterLimit n m := by
    cases m with
    | none => simp only [iterLimit]; omega
    | some k => exact hm k rfl
  rcases hI with ⟨z, d, r, hin, hr, hd, hκ, hne, hle⟩ | ⟨z, hL, hle⟩
  · refine ⟨?_, hle⟩
    intro hc
    have h1 := hcount.2 hc
    have hεr : ε ≤ ‖r‖ := (condition_inside hin).mp hc
    have hlt := cg_lt g H hsym _ hκ (fun i hi => by
      rcases hi.lt_or_eq with h | h
      · exact hne i h
      · rw [h, ← hr]
        exact norm_pos_iff.mp (lt_of_lt_of_le hε hεr))
    simp only [steihaug.init] at h1
    omega
  · exact ⟨condition_limit hL, hle⟩

/-- The default limit suffices for every gradient and the Hessian `diag(1, 2)`. -/
example (g : Pt 2) : (steihaug (efin g) (fun v => ![v 0, fin 2 * v 1]) (fin 1) (fin (1/10)) none).iter_num ≤ 2 := by
  refine (C63_terminates 1 (1/10) one_pos (by norm_num) _
    ({ toFun := fun x => !₂[x 0, 2 * x 1], map_add' := fun x y => ?_, map_smul' := fun a x => ?_ } : Pt 2 →ₗ[ℝ] Pt 2)
    (fun x => ?_) (fun x y => ?_) g none (by simp)).2
  · ext i; fin_cases i <;> simp [mul_add]
  · ext i; fin_cases i
    · simp
    · simp; ring
  · funext i; fin_cases i <;> simp [efin]
  · simp [PiLp.inner_apply, Fin.sum_univ_two]; ring

end

end Verif
