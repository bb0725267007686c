import Verif.Lemmas.RSystems
import Verif.Spec.Geometry
import Mathlib.Analysis.Calculus.FDeriv.Add
import Mathlib.Analysis.Calculus.FDeriv.Mul
import Mathlib.Analysis.Calculus.FDeriv.Pow
import Mathlib.Analysis.Convex.SpecificFunctions.Basic
import Mathlib.Analysis.SpecialFunctions.Pow.Continuity

/-! # Helpers for first order normalisation -/

namespace Verif

open XR Topology Asymptotics

/-- Adding a term that is quadratically small in a vanishing function does not change its derivative. -/
theorem hasFDerivAt_of_quadratic {E : Type*} [NormedAddCommGroup E] [NormedSpace ℝ E]
    {f h : E → ℝ} {f' : E →L[ℝ] ℝ} {x : E} (hf : HasFDerivAt f f' x) (h0 : f x = 0) {C : ℝ}
    (hb : ∀ᶠ y in 𝓝 x, |h y - f y| ≤ C * f y ^ 2) : HasFDerivAt h f' x := by
  have hx : h x = f x := by
    have := hb.self_of_nhds
    rw [h0] at this ⊢
    simpa using this
  have h1 : HasFDerivAt (fun y => f y ^ 2) (0 : E →L[ℝ] ℝ) x := by
    have := hf.pow 2
    simpa [h0] using this
  have h2 : HasFDerivAt (fun y => h y - f y) (0 : E →L[ℝ] ℝ) x := by
    rw [hasFDerivAt_iff_isLittleO] at h1 ⊢
    simp only [h0, hx, sub_self, zero_apply, sub_zero,
      ne_eq, OfNat.ofNat_ne_zero, not_false_eq_true, zero_pow] at h1 ⊢
    refine IsBigO.trans_isLittleO (IsBigO.of_bound C ?_) h1
    filter_upwards [hb] with y hy
    simpa using hy
  have h3 := h2.add hf
  have h4 : (fun y => h y - f y) + f = h := by funext y; simp
  rw [h4, zero_add] at h3
  exact h3

/-- What the proofs about normalisation need to know about a conjunction: it is commutative, continuous
and finite on finite operands, positive on positive operands, and close to its vanishing operand. -/
structure Nice (conj : XR → XR → XR) (c : ℝ → ℝ → ℝ) : Prop where
  fin_eq : ∀ a b : ℝ, conj (fin a) (fin b) = fin (c a b)
  comm : ∀ a b, c a b = c b a
  cont : Continuous fun p : ℝ × ℝ => c p.1 p.2
  pos : ∀ a b, 0 < a → 0 < b → 0 < c a b
  near : ∀ b, 0 < b → ∃ C, ∀ᶠ p in 𝓝 ((0 : ℝ), b), |c p.1 p.2 - p.1| ≤ C * p.1 ^ 2

theorem sqrt_sub_bound {c t : ℝ} (hc : 0 < c) (ht : 0 ≤ t) :
    0 ≤ Real.sqrt (c ^ 2 + t) - c ∧ Real.sqrt (c ^ 2 + t) - c ≤ t / (2 * c) := by
  have h1 : c ≤ Real.sqrt (c ^ 2 + t) := Real.le_sqrt_of_sq_le (by linarith)
  refine ⟨by linarith, ?_⟩
  rw [le_div_iff₀ (by positivity)]
  have h2 : Real.sqrt (c ^ 2 + t) ^ 2 = c ^ 2 + t := Real.sq_sqrt (by positivity)
  nlinarith

theorem RAlpha.nice {α : ℝ} (h1 : -1 < α) (h2 : α ≤ 1) :
    Nice (RAlpha.conj α) fun a b => 1 / (1 + α) * (a + b - Real.sqrt (a ^ 2 + b ^ 2 - 2 * α * a * b)) where
  fin_eq := RAlpha.conj_fin h1 h2
  comm a b := by
    rw [add_comm a b, show a ^ 2 + b ^ 2 - 2 * α * a * b = b ^ 2 + a ^ 2 - 2 * α * b * a by ring]
  cont := by fun_prop
  pos a b ha hb := mul_pos (one_div_pos.mpr (by linarith)) (by linarith [alpha_conj_pos h1 ha hb])
  near b hb := by
    refine ⟨(1 - α) / b, ?_⟩
    have hev : ∀ᶠ p : ℝ × ℝ in 𝓝 (0, b), b / 2 < p.2 - α * p.1 := by
      have hc : ContinuousAt (fun p : ℝ × ℝ => p.2 - α * p.1) (0, b) := by fun_prop
      refine hc.eventually (lt_mem_nhds ?_)
      simp; linarith
    filter_upwards [hev] with p hp
    obtain ⟨a, d⟩ := p
    simp only at hp ⊢
    have hD : a ^ 2 + d ^ 2 - 2 * α * a * d = (d - α * a) ^ 2 + (1 - α ^ 2) * a ^ 2 := by ring
    have hα : 0 ≤ 1 - α ^ 2 := by nlinarith
    have hp0 : 0 < d - α * a := by linarith
    obtain ⟨l, u⟩ := sqrt_sub_bound hp0 (t := (1 - α ^ 2) * a ^ 2) (by positivity)
    have e : 1 / (1 + α) * (a + d - Real.sqrt (a ^ 2 + d ^ 2 - 2 * α * a * d)) - a =
        -(1 / (1 + α) * (Real.sqrt ((d - α * a) ^ 2 + (1 - α ^ 2) * a ^ 2) - (d - α * a))) := by
      rw [hD]
      have : 1 + α ≠ 0 := by linarith
      field_simp
      ring
    have hpos : 0 < 1 + α := by linarith
    rw [e, abs_neg, abs_of_nonneg (mul_nonneg (by positivity) l)]
    calc 1 / (1 + α) * (Real.sqrt ((d - α * a) ^ 2 + (1 - α ^ 2) * a ^ 2) - (d - α * a))
        ≤ 1 / (1 + α) * ((1 - α ^ 2) * a ^ 2 / (2 * (d - α * a))) := by gcongr
      _ = ((1 - α) * a ^ 2) / (2 * (d - α * a)) := by
          have : 1 + α ≠ 0 := hpos.ne'
          field_simp; ring
      _ ≤ ((1 - α) * a ^ 2) / b := by
          apply div_le_div_of_nonneg_left _ hb (by linarith)
          exact mul_nonneg (by linarith) (sq_nonneg a)
      _ = (1 - α) / b * a ^ 2 := by ring

/-- Bernoulli's inequality for the root: `b ≤ (a^p + b^p)^(1/p) ≤ b + a^p / (p b^(p-1))`. -/
theorem pRoot_bound {p : ℕ} (hp : p % 2 = 0) (hp0 : 2 ≤ p) (a : ℝ) {b : ℝ} (hb : 0 < b) :
    b ≤ pRoot p a b ∧ pRoot p a b ≤ b + a ^ p / (p * b ^ (p - 1)) := by
  refine ⟨(le_abs_self b).trans (le_pRoot_right hp hp0 a b), ?_⟩
  have hbp : 0 < b ^ p := pow_pos hb p
  have hap := even_pow_nonneg hp a
  have hpR : (0 : ℝ) < p := by positivity
  have e : a ^ p + b ^ p = b ^ p * (1 + a ^ p / b ^ p) := by field_simp; ring
  have hs : 0 ≤ a ^ p / b ^ p := by positivity
  unfold pRoot
  rw [e, Real.mul_rpow hbp.le (by positivity), one_div, Real.pow_rpow_inv_natCast hb.le (by omega)]
  have hB := rpow_one_add_le_one_add_mul_self (s := a ^ p / b ^ p) (by linarith)
    (p := ((p : ℝ))⁻¹) (by positivity) (inv_le_one_of_one_le₀ (by exact_mod_cast (by omega : 1 ≤ p)))
  calc b * (1 + a ^ p / b ^ p) ^ ((p : ℝ))⁻¹ ≤ b * (1 + (p : ℝ)⁻¹ * (a ^ p / b ^ p)) := by gcongr
    _ = b + a ^ p / (p * b ^ (p - 1)) := by
        have : b ^ p = b ^ (p - 1) * b := by rw [← pow_succ]; congr 1; omega
        rw [this]
        field_simp

theorem RP.nice {p : ℕ} (hp : p % 2 = 0) (hp0 : 2 ≤ p) :
    Nice (RP.conj p) fun a b => a + b - pRoot p a b where
  fin_eq := RP.conj_fin hp
  comm a b := by rw [add_comm a b, pRoot_comm]
  cont := by
    have : Continuous fun q : ℝ × ℝ => pRoot p q.1 q.2 := by
      unfold pRoot
      refine Continuous.rpow_const (by fun_prop) (fun q => Or.inr (by positivity))
    fun_prop
  pos a b ha hb := (RP.sign_aux hp hp0 a b).1.mpr ⟨ha, hb⟩
  near b hb := by
    refine ⟨1 / (p * (b / 2) ^ (p - 1)), ?_⟩
    have hev : ∀ᶠ q : ℝ × ℝ in 𝓝 (0, b), b / 2 < q.2 :=
      (continuous_snd.continuousAt (x := ((0 : ℝ), b))).eventually (lt_mem_nhds (by simp; linarith))
    have hev2 : ∀ᶠ q : ℝ × ℝ in 𝓝 (0, b), |q.1| < 1 := by
      have hc : ContinuousAt (fun q : ℝ × ℝ => |q.1|) (0, b) := by fun_prop
      exact hc.eventually (gt_mem_nhds (by simp))
    filter_upwards [hev, hev2] with q hq hq2
    obtain ⟨a, d⟩ := q
    simp only at hq hq2 ⊢
    obtain ⟨l, u⟩ := pRoot_bound hp hp0 a (b := d) (by linarith)
    have hap := even_pow_nonneg hp a
    rw [show a + d - pRoot p a d - a = -(pRoot p a d - d) by ring, abs_neg,
      abs_of_nonneg (by linarith)]
    have h1 : a ^ p ≤ a ^ 2 := by
      rw [← (Nat.even_iff.mpr hp).pow_abs, ← even_two.pow_abs]
      exact pow_le_pow_of_le_one (abs_nonneg a) hq2.le hp0
    have h2 : (0 : ℝ) < p * (b / 2) ^ (p - 1) := by positivity
    calc pRoot p a d - d ≤ a ^ p / (p * d ^ (p - 1)) := by linarith
      _ ≤ a ^ 2 / (p * (b / 2) ^ (p - 1)) := by
          apply div_le_div₀ (sq_nonneg a) h1 h2
          gcongr
      _ = 1 / (p * (b / 2) ^ (p - 1)) * a ^ 2 := by ring

theorem grad_conj_aux {n : ℕ} {conj : XR → XR → XR} {c : ℝ → ℝ → ℝ} (hc : Nice conj c)
    {F G : Vec n → XR} {x u : Pt n} {f g : Pt n → ℝ} (hF : RealFormAt F f x) (hf : HasGradientAt f u x)
    (hG : RealFormAt G g x) (hg : ContinuousAt g x) (h0 : f x = 0) (hpos : 0 < g x) :
    HasGrad (fun y => conj (F y) (G y)) u x := by
  refine ⟨fun y => c (f y) (g y), ?_, ?_⟩
  · filter_upwards [hF, hG] with y h1 h2
    rw [h1, h2, hc.fin_eq]
  · obtain ⟨C, hC⟩ := hc.near (g x) hpos
    rw [hasGradientAt_iff_hasFDerivAt] at hf ⊢
    refine hasFDerivAt_of_quadratic (C := C) hf h0 ?_
    have ht : Filter.Tendsto (fun y => (f y, g y)) (𝓝 x) (𝓝 (0, g x)) := by
      have := hf.continuousAt.tendsto
      rw [h0] at this
      exact this.prodMk_nhds hg.tendsto
    exact ht.eventually hC

end Verif
