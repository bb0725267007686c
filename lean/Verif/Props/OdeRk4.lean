import Verif.Props.OdeConv

/-!
# C114: `rk4` has order four for autonomous systems
-/

namespace Verif

open Set

/-! ## Orders in the step

Functions of (time `p.1`, step `p.2`) on a set `S`. -/

/-- `u` is of order `k` in the step, uniformly on `S`. -/
def Ord {F : Type*} [NormedAddCommGroup F] (S : Set (ℝ × ℝ)) (k : ℕ) (u : ℝ × ℝ → F) : Prop :=
  ∃ C, ∀ p ∈ S, ‖u p‖ ≤ C * p.2 ^ k

section
variable {F G : Type*} [NormedAddCommGroup F] [NormedSpace ℝ F] [NormedAddCommGroup G] [NormedSpace ℝ G]
  {S : Set (ℝ × ℝ)} {j k : ℕ}

omit [NormedSpace ℝ F] in
theorem Ord.add {u v : ℝ × ℝ → F} (hu : Ord S k u) (hv : Ord S k v) : Ord S k fun p => u p + v p := by
  obtain ⟨C, hC⟩ := hu
  obtain ⟨D, hD⟩ := hv
  exact ⟨C + D, fun p hp => (norm_add_le _ _).trans (by rw [add_mul]; exact add_le_add (hC p hp) (hD p hp))⟩

theorem Ord.const_smul {u : ℝ × ℝ → F} (c : ℝ) (hu : Ord S k u) : Ord S k fun p => c • u p := by
  obtain ⟨C, hC⟩ := hu
  refine ⟨|c| * C, fun p hp => ?_⟩
  rw [norm_smul, Real.norm_eq_abs, mul_assoc]
  exact mul_le_mul_of_nonneg_left (hC p hp) (abs_nonneg c)

omit [NormedSpace ℝ F] in
theorem Ord.mono (hS : ∀ p ∈ S, 0 ≤ p.2 ∧ p.2 ≤ 1) {u : ℝ × ℝ → F} (hu : Ord S k u) (hjk : j ≤ k) : Ord S j u := by
  obtain ⟨C, hC⟩ := hu
  refine ⟨|C|, fun p hp => (hC p hp).trans ?_⟩
  have h := hS p hp
  exact mul_le_mul (le_abs_self C) (pow_le_pow_of_le_one h.1 h.2 hjk) (pow_nonneg h.1 _) (abs_nonneg C)

theorem Ord.pow_smul (hS : ∀ p ∈ S, 0 ≤ p.2 ∧ p.2 ≤ 1) {u : ℝ × ℝ → F} (j : ℕ) (hu : Ord S k u) :
    Ord S (j + k) fun p => p.2 ^ j • u p := by
  obtain ⟨C, hC⟩ := hu
  refine ⟨C, fun p hp => ?_⟩
  have h := hS p hp
  rw [norm_smul, norm_pow, Real.norm_of_nonneg h.1, pow_add]
  calc p.2 ^ j * ‖u p‖ ≤ p.2 ^ j * (C * p.2 ^ k) := mul_le_mul_of_nonneg_left (hC p hp) (pow_nonneg h.1 _)
    _ = C * (p.2 ^ j * p.2 ^ k) := by ring

theorem Ord.apply (hS : ∀ p ∈ S, 0 ≤ p.2 ∧ p.2 ≤ 1) {A : ℝ × ℝ → F →L[ℝ] G} {u : ℝ × ℝ → F} (hA : Ord S j A) (hu : Ord S k u) :
    Ord S (j + k) fun p => A p (u p) := by
  obtain ⟨C, hC⟩ := hA
  obtain ⟨D, hD⟩ := hu
  refine ⟨|C| * |D|, fun p hp => ?_⟩
  have h := hS p hp
  have hC' : ‖A p‖ ≤ |C| * p.2 ^ j := (hC p hp).trans (mul_le_mul_of_nonneg_right (le_abs_self C) (pow_nonneg h.1 _))
  have hD' : ‖u p‖ ≤ |D| * p.2 ^ k := (hD p hp).trans (mul_le_mul_of_nonneg_right (le_abs_self D) (pow_nonneg h.1 _))
  calc ‖A p (u p)‖ ≤ ‖A p‖ * ‖u p‖ := (A p).le_opNorm _
    _ ≤ (|C| * p.2 ^ j) * (|D| * p.2 ^ k) := mul_le_mul hC' hD' (norm_nonneg _) (mul_nonneg (abs_nonneg _) (pow_nonneg h.1 _))
    _ = |C| * |D| * p.2 ^ (j + k) := by rw [pow_add]; ring

omit [NormedSpace ℝ F] in
theorem Ord.congr {u v : ℝ × ℝ → F} (hu : Ord S k u) (h : ∀ p ∈ S, v p = u p) : Ord S k v := by
  obtain ⟨C, hC⟩ := hu
  exact ⟨C, fun p hp => by rw [h p hp]; exact hC p hp⟩

omit [NormedSpace ℝ F] in
theorem ord_zero (k : ℕ) : Ord S k fun _ => (0 : F) := ⟨0, fun p _ => by simp⟩

end

section
variable {E : Type*} [NormedAddCommGroup E] [NormedSpace ℝ E]

set_option maxSynthPendingDepth 4

/-- The derivatives of the dynamics along the trajectory and the Taylor expansion with a uniform remainder. -/
structure Expansion (S : Set (ℝ × ℝ)) (f : E → E) (y : ℝ × ℝ → E) (D1 : ℝ × ℝ → E →L[ℝ] E) (D2 : ℝ × ℝ → E →L[ℝ] E →L[ℝ] E)
    (D3 : ℝ × ℝ → E →L[ℝ] E →L[ℝ] E →L[ℝ] E) : Prop where
  step : ∀ p ∈ S, 0 ≤ p.2 ∧ p.2 ≤ 1
  f0 : Ord S 0 fun p => f (y p)
  d1 : Ord S 0 D1
  d2 : Ord S 0 D2
  d3 : Ord S 0 D3
  symm : ∀ p ∈ S, ∀ v w, D2 p v w = D2 p w v
  taylor : ∃ M, ∀ p ∈ S, ∀ v, ‖v‖ ≤ 1 →
    ‖f (y p + v) - (f (y p) + D1 p v + (1 / 2 : ℝ) • D2 p v v + (1 / 6 : ℝ) • D3 p v v v)‖ ≤ M * ‖v‖ ^ 4

variable {S : Set (ℝ × ℝ)} {f : E → E} {y : ℝ × ℝ → E} {D1 : ℝ × ℝ → E →L[ℝ] E} {D2 : ℝ × ℝ → E →L[ℝ] E →L[ℝ] E}
  {D3 : ℝ × ℝ → E →L[ℝ] E →L[ℝ] E →L[ℝ] E}

/-- The value of the dynamics at a stage, up to order four. -/
theorem Expansion.stage (h : Expansion S f y D1 D2 D3) (α : ℝ) {β γ ρ v : ℝ × ℝ → E} (hβ : Ord S 0 β) (hγ : Ord S 0 γ)
    (hρ : Ord S 4 ρ) (hv : ∀ p ∈ S, v p = p.2 • α • f (y p) + p.2 ^ 2 • β p + p.2 ^ 3 • γ p + ρ p)
    (hv1 : ∀ p ∈ S, ‖v p‖ ≤ 1) :
    Ord S 4 fun p => f (y p + v p) - (f (y p) + p.2 • α • D1 p (f (y p)) +
      p.2 ^ 2 • (D1 p (β p) + (α ^ 2 / 2) • D2 p (f (y p)) (f (y p))) +
      p.2 ^ 3 • (D1 p (γ p) + α • D2 p (f (y p)) (β p) + (α ^ 3 / 6) • D3 p (f (y p)) (f (y p)) (f (y p)))) := by
  have hS := h.step
  have hF := h.f0
  -- parts of the stage
  set w0 : ℝ × ℝ → E := fun p => p.2 ^ 1 • α • f (y p) with hw0
  set w1 : ℝ × ℝ → E := fun p => p.2 ^ 2 • β p with hw1
  set σ : ℝ × ℝ → E := fun p => p.2 ^ 3 • γ p + ρ p with hσ
  have o0 : Ord S 1 w0 := (hF.const_smul α).pow_smul hS 1
  have o1 : Ord S 2 w1 := hβ.pow_smul hS 2
  have oσ : Ord S 3 σ := (hγ.pow_smul hS 3).add (hρ.mono hS (by norm_num))
  have oτ : Ord S 2 fun p => w1 p + σ p := o1.add (oσ.mono hS (by norm_num))
  have ov : Ord S 1 v := by
    refine (o0.add (oτ.mono hS (by norm_num))).congr fun p hp => ?_
    rw [hv p hp, hw0, hw1, hσ]
    simp only [pow_one]
    abel
  have ow : Ord S 1 fun p => w0 p + w1 p := o0.add (o1.mono hS (by norm_num))
  -- the remainder
  have orem : Ord S 4 fun p => f (y p + v p) - (f (y p) + D1 p (v p) + (1 / 2 : ℝ) • D2 p (v p) (v p) +
      (1 / 6 : ℝ) • D3 p (v p) (v p) (v p)) := by
    obtain ⟨M, hM⟩ := h.taylor
    obtain ⟨C, hC⟩ := ov
    refine ⟨|M| * |C| ^ 4, fun p hp => (hM p hp _ (hv1 p hp)).trans ?_⟩
    have h0 := (hS p hp).1
    have hvC : ‖v p‖ ≤ |C| * p.2 := (by simpa using hC p hp : ‖v p‖ ≤ C * p.2).trans
      (mul_le_mul_of_nonneg_right (le_abs_self C) h0)
    calc M * ‖v p‖ ^ 4 ≤ |M| * (|C| * p.2) ^ 4 :=
          mul_le_mul (le_abs_self M) (pow_le_pow_left₀ (norm_nonneg _) hvC 4) (by positivity) (abs_nonneg M)
      _ = |M| * |C| ^ 4 * p.2 ^ 4 := by ring
  have ap2 : ∀ {i j : ℕ} {u u' : ℝ × ℝ → E}, Ord S i u → Ord S j u' → 4 ≤ i + j → Ord S 4 fun p => D2 p (u p) (u' p) := by
    intro i j u u' hu hu' hij
    exact ((h.d2.apply hS hu).apply hS hu').mono hS (by omega)
  have ap3 : ∀ {i j k : ℕ} {u u' u'' : ℝ × ℝ → E}, Ord S i u → Ord S j u' → Ord S k u'' → 4 ≤ i + j + k →
      Ord S 4 fun p => D3 p (u p) (u' p) (u'' p) := by
    intro i j k u u' u'' hu hu' hu'' hijk
    exact (((h.d3.apply hS hu).apply hS hu').apply hS hu'').mono hS (by omega)
  have t1 : Ord S 4 fun p => D1 p (ρ p) := (h.d1.apply hS hρ).mono hS (by norm_num)
  have t2 := ((ap2 ow oσ (by norm_num)).add (ap2 oσ ow (by norm_num))).add (ap2 oσ oσ (by norm_num))
  have t3 := ap2 o1 o1 (by norm_num)
  have t4 := ((ap3 oτ ov ov (by norm_num)).add (ap3 o0 oτ ov (by norm_num))).add (ap3 o0 o0 oτ (by norm_num))
  refine (orem.add (t1.add (((t2.add t3).const_smul (1 / 2)).add (t4.const_smul (1 / 6))))).congr fun p hp => ?_
  have hsym := h.symm p hp (f (y p)) (β p)
  have ev : v p = w0 p + w1 p + σ p := by
    rw [hv p hp, hw0, hw1, hσ]
    simp only [pow_one]
    abel
  have e2 : D2 p (v p) (v p) = p.2 ^ 2 • α ^ 2 • D2 p (f (y p)) (f (y p)) + p.2 ^ 3 • (2 * α) • D2 p (f (y p)) (β p) +
      (D2 p (w0 p + w1 p) (σ p) + D2 p (σ p) (w0 p + w1 p) + D2 p (σ p) (σ p) + D2 p (w1 p) (w1 p)) := by
    rw [ev]
    have e20 : D2 p (w0 p) (w0 p) = p.2 ^ 2 • α ^ 2 • D2 p (f (y p)) (f (y p)) := by
      simp only [hw0, map_smul, smul_apply]
      module
    have e21 : D2 p (w0 p) (w1 p) = p.2 ^ 3 • α • D2 p (f (y p)) (β p) := by
      simp only [hw0, hw1, map_smul, smul_apply]
      module
    have e22 : D2 p (w1 p) (w0 p) = p.2 ^ 3 • α • D2 p (f (y p)) (β p) := by
      simp only [hw0, hw1, map_smul, smul_apply, hsym]
      module
    simp only [map_add, add_apply, e20, e21, e22]
    module
  have e3 : D3 p (v p) (v p) (v p) = p.2 ^ 3 • α ^ 3 • D3 p (f (y p)) (f (y p)) (f (y p)) +
      (D3 p (w1 p + σ p) (v p) (v p) + D3 p (w0 p) (w1 p + σ p) (v p) + D3 p (w0 p) (w0 p) (w1 p + σ p)) := by
    have e30 : D3 p (w0 p) (w0 p) (w0 p) = p.2 ^ 3 • α ^ 3 • D3 p (f (y p)) (f (y p)) (f (y p)) := by
      simp only [hw0, map_smul, smul_apply]
      module
    rw [← e30]
    have ew : w1 p + σ p = v p - w0 p := by rw [ev]; abel
    rw [ew]
    simp only [map_sub, sub_apply]
    abel
  have e1 : D1 p (v p) = p.2 • α • D1 p (f (y p)) + p.2 ^ 2 • D1 p (β p) + p.2 ^ 3 • D1 p (γ p) + D1 p (ρ p) := by
    rw [hv p hp]
    simp only [map_add, map_smul]
  rw [e1, e2, e3]
  module

/-- One step of `rk4` agrees with the Taylor polynomial of the solution up to order five in the step. -/
theorem Expansion.rk4 (h : Expansion S f y D1 D2 D3) (hsmall : ∀ p ∈ S, ∀ z, p.2 * ‖f (y p + z)‖ ≤ 1 ∨ 1 < ‖z‖) (t : ℝ) :
    Ord S 5 fun p => Verif.rk4 (fun y _ => f y) (y p) t p.2 - (y p + p.2 • f (y p) + (p.2 ^ 2 / 2) • D1 p (f (y p)) +
      (p.2 ^ 3 / 6) • (D2 p (f (y p)) (f (y p)) + D1 p (D1 p (f (y p)))) +
      (p.2 ^ 4 / 24) • (D3 p (f (y p)) (f (y p)) (f (y p)) + (3 : ℝ) • D2 p (f (y p)) (D1 p (f (y p))) +
        D1 p (D2 p (f (y p)) (f (y p))) + D1 p (D1 p (D1 p (f (y p)))))) := by
  have hS := h.step
  have oa : Ord S 0 fun p => D1 p (f (y p)) := h.d1.apply hS h.f0
  have ob : Ord S 0 fun p => D2 p (f (y p)) (f (y p)) := (h.d2.apply hS h.f0).apply hS h.f0
  have half : ∀ p ∈ S, ∀ (c : ℝ) (z k : E), 0 ≤ c → c ≤ 1 → ‖z‖ ≤ 1 → k = f (y p + z) → ‖p.2 • c • k‖ ≤ 1 := by
    rintro p hp c z k hc0 hc hz rfl
    have hh := hS p hp
    rw [smul_comm, norm_smul, norm_smul, Real.norm_of_nonneg hc0, Real.norm_of_nonneg hh.1]
    rcases hsmall p hp z with h1 | h1
    · exact mul_le_one₀ hc (mul_nonneg hh.1 (norm_nonneg _)) h1
    · exact absurd hz (not_le.mpr h1)
  -- second stage
  set k2 : ℝ × ℝ → E := fun p => f (y p + p.2 • (1 / 2 : ℝ) • f (y p)) with hk2
  have s1 : ∀ p ∈ S, ‖p.2 • (1 / 2 : ℝ) • f (y p)‖ ≤ 1 := fun p hp =>
    half p hp (1 / 2) 0 (f (y p)) (by norm_num) (by norm_num) (by simp) (by simp)
  have o2 := h.stage (1 / 2) (β := fun _ => 0) (γ := fun _ => 0) (ρ := fun _ => 0) (v := fun p => p.2 • (1 / 2 : ℝ) • f (y p))
    (ord_zero 0) (ord_zero 0) (ord_zero 4) (fun p _ => by simp) s1
  simp only [map_zero, smul_zero, zero_add, add_zero] at o2
  -- third stage
  set k3 : ℝ × ℝ → E := fun p => f (y p + p.2 • (1 / 2 : ℝ) • k2 p) with hk3
  have s2 : ∀ p ∈ S, ‖p.2 • (1 / 2 : ℝ) • k2 p‖ ≤ 1 := fun p hp =>
    half p hp (1 / 2) _ (k2 p) (by norm_num) (by norm_num) (s1 p hp) rfl
  have o3 := h.stage (1 / 2) (β := fun p => (1 / 4 : ℝ) • D1 p (f (y p))) (γ := fun p => (1 / 16 : ℝ) • D2 p (f (y p)) (f (y p)))
    (v := fun p => p.2 • (1 / 2 : ℝ) • k2 p) (oa.const_smul _) (ob.const_smul _)
    (ρ := fun p => p.2 • (1 / 2 : ℝ) • k2 p - (p.2 • (1 / 2 : ℝ) • f (y p) + p.2 ^ 2 • (1 / 4 : ℝ) • D1 p (f (y p)) +
      p.2 ^ 3 • (1 / 16 : ℝ) • D2 p (f (y p)) (f (y p)))) (by
      have oc : Ord S 0 fun p => D3 p (f (y p)) (f (y p)) (f (y p)) := ((h.d3.apply hS h.f0).apply hS h.f0).apply hS h.f0
      refine ((((o2.const_smul (1 / 2)).pow_smul hS 1).mono hS (by norm_num)).add
        (((oc.const_smul (1 / 96)).pow_smul hS 4))).congr fun p _ => ?_
      simp only [pow_one]
      module) (fun p _ => by abel) s2
  -- fourth stage
  set k4 : ℝ × ℝ → E := fun p => f (y p + p.2 • (1 : ℝ) • k3 p) with hk4
  have s3 : ∀ p ∈ S, ‖p.2 • (1 : ℝ) • k3 p‖ ≤ 1 := fun p hp =>
    half p hp 1 _ (k3 p) (by norm_num) (by norm_num) (s2 p hp) rfl
  have o4 := h.stage 1 (β := fun p => (1 / 2 : ℝ) • D1 p (f (y p)))
    (γ := fun p => (1 / 4 : ℝ) • D1 p (D1 p (f (y p))) + (1 / 8 : ℝ) • D2 p (f (y p)) (f (y p)))
    (v := fun p => p.2 • (1 : ℝ) • k3 p) (oa.const_smul _) (((h.d1.apply hS oa).const_smul _).add (ob.const_smul _))
    (ρ := fun p => p.2 • (1 : ℝ) • k3 p - (p.2 • (1 : ℝ) • f (y p) + p.2 ^ 2 • (1 / 2 : ℝ) • D1 p (f (y p)) +
      p.2 ^ 3 • ((1 / 4 : ℝ) • D1 p (D1 p (f (y p))) + (1 / 8 : ℝ) • D2 p (f (y p)) (f (y p))))) (by
      have oc : Ord S 0 fun p => D3 p (f (y p)) (f (y p)) (f (y p)) := ((h.d3.apply hS h.f0).apply hS h.f0).apply hS h.f0
      have od : Ord S 0 fun p => D2 p (f (y p)) (D1 p (f (y p))) := (h.d2.apply hS h.f0).apply hS oa
      have oe : Ord S 0 fun p => D1 p (D2 p (f (y p)) (f (y p))) := h.d1.apply hS ob
      refine (((o3.pow_smul hS 1).mono hS (by norm_num)).add
        ((((oc.const_smul (1 / 48)).add (od.const_smul (1 / 8))).add (oe.const_smul (1 / 16))).pow_smul hS 4)).congr fun p _ => ?_
      simp only [pow_one, map_smul]
      module) (fun p _ => by abel) s3
  refine ((((o2.const_smul (1 / 3)).add (o3.const_smul (1 / 3))).add (o4.const_smul (1 / 6))).pow_smul hS 1).congr fun p _ => ?_
  have er : Verif.rk4 (fun y _ => f y) (y p) t p.2 =
      y p + p.2 • ((1 / 6 : ℝ) • f (y p) + (1 / 3 : ℝ) • k2 p + (1 / 3 : ℝ) • k3 p + (1 / 6 : ℝ) • k4 p) := by
    have e : ∀ k : E, (1 / 2 : ℝ) • p.2 • k = p.2 • (1 / 2 : ℝ) • k := fun k => smul_comm _ _ _
    have e1 : ∀ k : E, p.2 • (1 : ℝ) • k = p.2 • k := fun k => by rw [one_smul]
    simp only [Verif.rk4, e, hk4, hk3, hk2, e1]
    module
  rw [er]
  rw [show f (y p + p.2 • (1 : ℝ) • k3 p) = k4 p from rfl, show f (y p + p.2 • (1 / 2 : ℝ) • k2 p) = k3 p from rfl,
    show f (y p + p.2 • (1 / 2 : ℝ) • f (y p)) = k2 p from rfl]
  simp only [pow_one, map_smul, map_add]
  module

/-! ## Derivatives of the dynamics -/

/-- The first to third derivative of `f`, as iterated linear maps. -/
noncomputable def d1 (f : E → E) : E → E →L[ℝ] E := fderiv ℝ f
/-- See `d1`. -/
noncomputable def d2 (f : E → E) : E → E →L[ℝ] E →L[ℝ] E := fderiv ℝ (d1 f)
/-- See `d1`. -/
noncomputable def d3 (f : E → E) : E → E →L[ℝ] E →L[ℝ] E →L[ℝ] E := fderiv ℝ (d2 f)

theorem contDiff_d1 (hf : ContDiff ℝ 4 f) : ContDiff ℝ 3 (d1 f) := hf.fderiv_right (by norm_num)
theorem contDiff_d2 (hf : ContDiff ℝ 4 f) : ContDiff ℝ 2 (d2 f) := (contDiff_d1 hf).fderiv_right (by norm_num)
theorem contDiff_d3 (hf : ContDiff ℝ 4 f) : ContDiff ℝ 1 (d3 f) := (contDiff_d2 hf).fderiv_right (by norm_num)

theorem d2_symm (hf : ContDiff ℝ 4 f) (x v w : E) : d2 f x v w = d2 f x w v :=
  (hf.contDiffAt (x := x)).isSymmSndFDerivAt (by simp; norm_num) v w

theorem hasDerivAt_f (hf : ContDiff ℝ 4 f) {Y : ℝ → E} {v : E} {t : ℝ} (hY : HasDerivAt Y v t) :
    HasDerivAt (fun t => f (Y t)) (d1 f (Y t) v) t :=
  ((hf.differentiable (by norm_num)) (Y t)).hasFDerivAt.comp_hasDerivAt t hY

theorem hasDerivAt_d1 (hf : ContDiff ℝ 4 f) {Y : ℝ → E} {v : E} {t : ℝ} (hY : HasDerivAt Y v t) :
    HasDerivAt (fun t => d1 f (Y t)) (d2 f (Y t) v) t :=
  (((contDiff_d1 hf).differentiable (by norm_num)) (Y t)).hasFDerivAt.comp_hasDerivAt t hY

theorem hasDerivAt_d2 (hf : ContDiff ℝ 4 f) {Y : ℝ → E} {v : E} {t : ℝ} (hY : HasDerivAt Y v t) :
    HasDerivAt (fun t => d2 f (Y t)) (d3 f (Y t) v) t :=
  (((contDiff_d2 hf).differentiable (by norm_num)) (Y t)).hasFDerivAt.comp_hasDerivAt t hY

theorem hasDerivAt_d3 (hf : ContDiff ℝ 4 f) {Y : ℝ → E} {v : E} {t : ℝ} (hY : HasDerivAt Y v t) :
    HasDerivAt (fun t => d3 f (Y t)) (fderiv ℝ (d3 f) (Y t) v) t :=
  (((contDiff_d3 hf).differentiable (by norm_num)) (Y t)).hasFDerivAt.comp_hasDerivAt t hY

/-- The derivatives of the solution, as functions of the state. -/
noncomputable def lie (f : E → E) : ℕ → E → E
  | 0 => id
  | 1 => f
  | 2 => fun y => d1 f y (f y)
  | 3 => fun y => d2 f y (f y) (f y) + d1 f y (d1 f y (f y))
  | 4 => fun y => d3 f y (f y) (f y) (f y) + (3 : ℝ) • d2 f y (f y) (d1 f y (f y)) + d1 f y (d2 f y (f y) (f y)) +
      d1 f y (d1 f y (d1 f y (f y)))
  | n + 5 => fun y => fderiv ℝ (lie f (n + 4)) y (f y)

theorem contDiff_lie4 (hf : ContDiff ℝ 4 f) : ContDiff ℝ 1 (lie f 4) := by
  have h0 : ContDiff ℝ 1 f := hf.of_le (by norm_num)
  have h1 : ContDiff ℝ 1 (d1 f) := (contDiff_d1 hf).of_le (by norm_num)
  have h2 : ContDiff ℝ 1 (d2 f) := (contDiff_d2 hf).of_le (by norm_num)
  have h3 : ContDiff ℝ 1 (d3 f) := contDiff_d3 hf
  have a := h1.clm_apply h0
  have b := (h2.clm_apply h0).clm_apply h0
  exact (((((h3.clm_apply h0).clm_apply h0).clm_apply h0).add (((h2.clm_apply h0).clm_apply a).const_smul (3 : ℝ))).add
    (h1.clm_apply b)).add (h1.clm_apply (h1.clm_apply a))

theorem hasDerivAt_lie (hf : ContDiff ℝ 4 f) {Y : ℝ → E} {t : ℝ} (hY : HasDerivAt Y (f (Y t)) t) :
    ∀ k ≤ 4, HasDerivAt (fun t => lie f k (Y t)) (lie f (k + 1) (Y t)) t := by
  have a0 := hasDerivAt_f hf hY
  have a1 := hasDerivAt_d1 hf hY
  have a2 := hasDerivAt_d2 hf hY
  have b2 : HasDerivAt (fun t => lie f 2 (Y t)) (lie f 3 (Y t)) t := a1.clm_apply a0
  intro k hk
  interval_cases k
  · exact hY
  · exact a0
  · exact b2
  · refine (((a2.clm_apply a0).clm_apply a0).add (a1.clm_apply b2)).congr_deriv ?_
    simp only [lie, map_add, add_apply]
    rw [d2_symm hf (Y t) (d1 f (Y t) (f (Y t))) (f (Y t))]
    module
  · exact (((contDiff_lie4 hf).differentiable (by norm_num)) (Y t)).hasFDerivAt.comp_hasDerivAt t hY

theorem dynamics_taylor (hf : ContDiff ℝ 4 f) {y v : E} {M : ℝ}
    (hM : ∀ t ∈ Icc (0 : ℝ) 1, ‖fderiv ℝ (d3 f) (y + t • v)‖ ≤ M) :
    ‖f (y + v) - (f y + d1 f y v + (1 / 2 : ℝ) • d2 f y v v + (1 / 6 : ℝ) • d3 f y v v v)‖ ≤ M * ‖v‖ ^ 4 := by
  have hl : ∀ t : ℝ, HasDerivAt (fun t : ℝ => y + t • v) v t := by
    intro t
    simpa using ((hasDerivAt_id t).smul_const v).const_add y
  have h := taylor_bound 3 (T := 1) (M := M * ‖v‖ ^ 4) (g := fun j t => match j with
    | 0 => f (y + t • v)
    | 1 => d1 f (y + t • v) v
    | 2 => d2 f (y + t • v) v v
    | 3 => d3 f (y + t • v) v v v
    | _ => fderiv ℝ (d3 f) (y + t • v) v v v v) (fun k hk t _ => ?_) (fun t ht => ?_) 1 ⟨zero_le_one, le_rfl⟩
  · simp only [one_smul, one_pow, Finset.sum_range_succ, Finset.sum_range_zero, zero_add, zero_smul, add_zero, mul_one] at h
    have e : f (y + v) - (f y + d1 f y v + (1 / 2 : ℝ) • d2 f y v v + (1 / 6 : ℝ) • d3 f y v v v) =
        f (y + v) - ((1 / (Nat.factorial 0 : ℝ)) • f y + (1 / (Nat.factorial 1 : ℝ)) • d1 f y v +
          (1 / (Nat.factorial 2 : ℝ)) • d2 f y v v + (1 / (Nat.factorial 3 : ℝ)) • d3 f y v v v) := by
      simp [Nat.factorial]
    rw [e]
    refine h.trans ?_
    have hM0 : 0 ≤ M := (norm_nonneg _).trans (hM 0 ⟨le_rfl, zero_le_one⟩)
    exact div_le_self (by positivity) (by norm_num [Nat.factorial])
  · interval_cases k
    · exact hasDerivAt_f hf (hl t)
    · exact (hasDerivAt_d1 hf (hl t)).clm_apply (hasDerivAt_const t v) |>.congr_deriv (by simp)
    · exact ((hasDerivAt_d2 hf (hl t)).clm_apply (hasDerivAt_const t v)).clm_apply (hasDerivAt_const t v)
        |>.congr_deriv (by simp)
    · exact (((hasDerivAt_d3 hf (hl t)).clm_apply (hasDerivAt_const t v)).clm_apply (hasDerivAt_const t v)).clm_apply
        (hasDerivAt_const t v) |>.congr_deriv (by simp)
  · change ‖fderiv ℝ (d3 f) (y + t • v) v v v v‖ ≤ _
    have h1 := (fderiv ℝ (d3 f) (y + t • v) v v v).le_opNorm v
    have h2 := (fderiv ℝ (d3 f) (y + t • v) v v).le_opNorm v
    have h3 := (fderiv ℝ (d3 f) (y + t • v) v).le_opNorm v
    have h4 := (fderiv ℝ (d3 f) (y + t • v)).le_opNorm v
    have hv := norm_nonneg v
    calc ‖fderiv ℝ (d3 f) (y + t • v) v v v v‖ ≤ ‖fderiv ℝ (d3 f) (y + t • v) v v v‖ * ‖v‖ := h1
      _ ≤ (‖fderiv ℝ (d3 f) (y + t • v) v v‖ * ‖v‖) * ‖v‖ := by gcongr
      _ ≤ ((‖fderiv ℝ (d3 f) (y + t • v) v‖ * ‖v‖) * ‖v‖) * ‖v‖ := by gcongr
      _ ≤ (((‖fderiv ℝ (d3 f) (y + t • v)‖ * ‖v‖) * ‖v‖) * ‖v‖) * ‖v‖ := by gcongr
      _ ≤ (((M * ‖v‖) * ‖v‖) * ‖v‖) * ‖v‖ := by gcongr; exact hM t ht
      _ = M * ‖v‖ ^ 4 := by ring

/-! ## C114 -/

/-- **C114**. For autonomous systems whose right hand side is four times continuously differentiable, in finite dimension,
`odeint` with `rk4` has order four on every interval on which the solution exists, on all (also non-uniform) time grids. -/
theorem C114_rk4_fourth_order [FiniteDimensional ℝ E] {f : E → E} (hf : ContDiff ℝ 4 f) {Y : ℝ → E} {t0 T : ℝ}
    (hY : ∀ t ∈ Icc t0 T, HasDerivAt Y (f (Y t)) t) : OdeOrder rk4 (fun y _ => f y) Y t0 T 4 := by
  have : ProperSpace E := FiniteDimensional.proper ℝ E
  have hYc : ContinuousOn Y (Icc t0 T) := fun t ht => (hY t ht).continuousAt.continuousWithinAt
  have hf1 : ContDiff ℝ 1 fun p : E × ℝ => (fun (y : E) (_ : ℝ) => f y) p.1 p.2 :=
    (hf.of_le (by norm_num)).comp contDiff_fst
  obtain ⟨L, B, hT⟩ := exists_tube (f := fun y _ => f y) hf1 hYc
  have hL := hT.L_nonneg
  have hB := hT.B_nonneg
  set h₁ := min 1 (1 / (2 * (B + 1))) with hh₁
  have hh : 0 < h₁ := lt_min one_pos (by positivity)
  set S : Set (ℝ × ℝ) := {p | p.1 ∈ Icc t0 T ∧ 0 ≤ p.2 ∧ p.2 ≤ h₁} with hS
  have bd : ∀ {F : Type _} [NormedAddCommGroup F] (u : E → F), Continuous u → Ord S 0 fun p => u (Y p.1) := by
    intro F _ u hu
    obtain ⟨C, hC⟩ := isCompact_Icc.exists_bound_of_continuousOn (hu.comp_continuousOn hYc)
    exact ⟨C, fun p hp => by simpa using hC p.1 hp.1⟩
  have hexp : Expansion S f (fun p => Y p.1) (fun p => d1 f (Y p.1)) (fun p => d2 f (Y p.1)) (fun p => d3 f (Y p.1)) := by
    refine ⟨fun p hp => ⟨hp.2.1, hp.2.2.trans (min_le_left _ _)⟩, bd f hf.continuous, bd _ (contDiff_d1 hf).continuous,
      bd _ (contDiff_d2 hf).continuous, bd _ (contDiff_d3 hf).continuous, fun p _ v w => d2_symm hf _ v w, ?_⟩
    have hcont : ContinuousOn (fun q : ℝ × E => fderiv ℝ (d3 f) (Y q.1 + q.2)) (Icc t0 T ×ˢ Metric.closedBall (0 : E) 1) := by
      refine ((contDiff_d3 hf).continuous_fderiv (by norm_num)).comp_continuousOn ?_
      exact (hYc.comp continuous_fst.continuousOn fun q hq => hq.1).add continuous_snd.continuousOn
    obtain ⟨M, hM⟩ := (isCompact_Icc.prod (isCompact_closedBall (0 : E) 1)).exists_bound_of_continuousOn hcont
    refine ⟨M, fun p hp v hv => dynamics_taylor hf fun t ht => hM (p.1, t • v) ⟨hp.1, ?_⟩⟩
    rw [mem_closedBall_zero_iff, norm_smul, Real.norm_of_nonneg ht.1]
    exact mul_le_one₀ ht.2 (norm_nonneg _) hv
  obtain ⟨C, hC⟩ := hexp.rk4 (fun p hp z => by
    rcases le_or_gt ‖z‖ 1 with hz | hz
    · left
      have hb := hT.bound p.1 hp.1 (Y p.1 + z) (by simpa [Metric.mem_closedBall, dist_eq_norm] using hz) t0
        ⟨le_rfl, by linarith [hp.1.1, hp.1.2]⟩
      have := (step_small hB le_rfl hp.2.1 hp.2.2).2
      exact (mul_le_mul_of_nonneg_left hb hp.2.1).trans (by linarith)
    · exact Or.inr hz) 0
  obtain ⟨M, hM⟩ : ∃ M, ∀ t ∈ Icc t0 T, ‖lie f 5 (Y t)‖ ≤ M := by
    have hc : Continuous (lie f 5) :=
      ((contDiff_lie4 hf).continuous_fderiv (by norm_num)).clm_apply hf.continuous
    exact isCompact_Icc.exists_bound_of_continuousOn (hc.comp_continuousOn hYc)
  refine odeOrder_of (L := L) (C := |C| + |M|) (by norm_num) hL (by positivity) hh ?_ ?_
  · intro s t y h1 h2 h3 h4 h5
    obtain ⟨h6, h7⟩ := step_small hB le_rfl (by linarith) h4
    exact hT.rk4_stab h1 h2 h3 h6 h7 h5
  · intro s t h1 h2 h3 h4
    have e1 := hC (s, t - s) ⟨⟨h1, h2.trans h3⟩, by linarith, h4⟩
    have e2 := taylor_bound 4 (T := t - s) (M := M) (g := fun k τ => lie f k (Y (s + τ))) (fun k hk τ hτ => ?_)
      (fun τ hτ => hM _ ⟨by linarith [hτ.1], by linarith [hτ.2]⟩) (t - s) ⟨by linarith, le_rfl⟩
    · set δ := t - s with hδ
      have hδ0 : 0 ≤ δ := by linarith
      have est : s + δ = t := by rw [hδ]; ring
      simp only [Finset.sum_range_succ, Finset.sum_range_zero, zero_add, add_zero, est] at e2
      have e2' : ‖Y t - (Y s + δ • f (Y s) + (δ ^ 2 / 2) • d1 f (Y s) (f (Y s)) +
          (δ ^ 3 / 6) • (d2 f (Y s) (f (Y s)) (f (Y s)) + d1 f (Y s) (d1 f (Y s) (f (Y s)))) +
          (δ ^ 4 / 24) • (d3 f (Y s) (f (Y s)) (f (Y s)) (f (Y s)) + (3 : ℝ) • d2 f (Y s) (f (Y s)) (d1 f (Y s) (f (Y s))) +
            d1 f (Y s) (d2 f (Y s) (f (Y s)) (f (Y s))) + d1 f (Y s) (d1 f (Y s) (d1 f (Y s) (f (Y s))))))‖ ≤
          |M| * δ ^ 5 := by
        have e3 : ∀ x : ℝ, x = x / 1 := fun x => by rw [div_one]
        refine le_trans (le_of_eq ?_) (e2.trans ?_)
        · congr 1
          simp [lie, Nat.factorial]
        · refine mul_le_mul_of_nonneg_right ?_ (pow_nonneg hδ0 _)
          refine (div_le_div_of_nonneg_right (le_abs_self M) (by positivity)).trans ?_
          exact div_le_self (abs_nonneg M) (by norm_num [Nat.factorial])
      have e1' := e1.trans (mul_le_mul_of_nonneg_right (le_abs_self C) (pow_nonneg hδ0 5))
      have er : rk4 (fun y _ => f y) (Y s) t δ = rk4 (fun y _ => f y) (Y s) 0 δ := rfl
      rw [er]
      have := norm_sub_le_norm_sub_add_norm_sub (rk4 (fun y _ => f y) (Y s) 0 δ) (Y s + δ • f (Y s) + (δ ^ 2 / 2) • d1 f (Y s) (f (Y s)) +
          (δ ^ 3 / 6) • (d2 f (Y s) (f (Y s)) (f (Y s)) + d1 f (Y s) (d1 f (Y s) (f (Y s)))) +
          (δ ^ 4 / 24) • (d3 f (Y s) (f (Y s)) (f (Y s)) (f (Y s)) + (3 : ℝ) • d2 f (Y s) (f (Y s)) (d1 f (Y s) (f (Y s))) +
            d1 f (Y s) (d2 f (Y s) (f (Y s)) (f (Y s))) + d1 f (Y s) (d1 f (Y s) (d1 f (Y s) (f (Y s)))))) (Y t)
      refine this.trans ?_
      rw [norm_sub_rev _ (Y t), add_mul]
      exact add_le_add e1' e2'
    · have hd := hasDerivAt_lie hf (hY (s + τ) ⟨by linarith [hτ.1], by linarith [hτ.2]⟩) k hk
      exact hd.comp_const_add s τ

/-- The logistic equation `y' = y (1 - y)` with the solution `1 / (1 + exp (-t))`. -/
example : OdeOrder rk4 (fun (y : ℝ) _ => y * (1 - y)) (fun t => (1 + Real.exp (-t))⁻¹) (-3) 4 4 :=
  C114_rk4_fourth_order (f := fun y : ℝ => y * (1 - y)) (by fun_prop) (by
    intro t _
    have hne : 1 + Real.exp (-t) ≠ 0 := by positivity
    have := ((hasDerivAt_neg t).exp.const_add 1).inv hne
    refine this.congr_deriv ?_
    field_simp
    ring)

end

end Verif
