import Verif.Props.Cuboid
import Mathlib.Analysis.Calculus.IteratedDeriv.Lemmas
import Mathlib.Analysis.Calculus.ContDiff.Operations
import Mathlib.Analysis.SpecialFunctions.Pow.Deriv

/-! # Property C09: `RP(p)` is normalised to order `p - 1` -/

namespace Verif

open XR Topology

theorem contDiffAt_deriv {ψ : ℝ → ℝ} {x : ℝ} (h : ContDiffAt ℝ (⊤ : ℕ∞) ψ x) :
    ContDiffAt ℝ (⊤ : ℕ∞) (deriv ψ) x := by
  have h1 : ContDiffAt ℝ (⊤ : ℕ∞) (fderiv ℝ ψ) x := h.fderiv_right (by simp)
  exact h1.clm_apply (contDiffAt_const (c := (1 : ℝ)))

/-- All derivatives of order `k < m` of `t ↦ t^m ψ(t)`, `ψ` smooth near `0`, vanish at `0`. -/
theorem iteratedDeriv_pow_mul_eq_zero (k : ℕ) : ∀ (m : ℕ) (ψ : ℝ → ℝ), k < m →
    ContDiffAt ℝ (⊤ : ℕ∞) ψ 0 → iteratedDeriv k (fun t => t ^ m * ψ t) 0 = 0 := by
  induction k with
  | zero => intro m ψ hm _; simp [zero_pow (by omega : m ≠ 0)]
  | succ k ih =>
    intro m ψ hm hψ
    obtain ⟨q, rfl⟩ : ∃ q, m = q + 1 := ⟨m - 1, by omega⟩
    have hev : ∀ᶠ t in 𝓝 (0 : ℝ), deriv (fun t => t ^ (q + 1) * ψ t) t =
        t ^ q * ((q + 1) * ψ t + t * deriv ψ t) := by
      have h1 : ∀ᶠ t in 𝓝 (0 : ℝ), ContDiffAt ℝ 1 ψ t :=
        (hψ.of_le (by exact_mod_cast le_top)).eventually (by simp)
      filter_upwards [h1] with t ht
      have hd := (ht.differentiableAt (by simp)).hasDerivAt
      have := ((hasDerivAt_id t).pow (q + 1)).mul hd
      simp only [id] at this
      have e := this.deriv
      simp only [Nat.add_sub_cancel, Nat.cast_add, Nat.cast_one, mul_one] at e
      rw [show (fun t => t ^ (q + 1) * ψ t) = ((fun t => t) ^ (q + 1)) * ψ from rfl]
      rw [show (id : ℝ → ℝ) = fun t => t from rfl] at e
      rw [e]; simp only [Pi.pow_apply]; ring
    rw [iteratedDeriv_succ']
    have hc : ContDiffAt ℝ (⊤ : ℕ∞) (fun t => ((q : ℝ) + 1) * ψ t + t * deriv ψ t) 0 := by
      have hd := contDiffAt_deriv hψ
      exact (contDiffAt_const.mul hψ).add (contDiffAt_id.mul hd)
    have h := ih q _ (by omega) hc
    exact (Filter.EventuallyEq.iteratedDeriv_eq k hev).trans h

/-- C09. For accepted `p ≥ 2`, `b > 0`: the conjunction differs from `a` by at most `|a|^p/(p b^(p-1))`
(and never exceeds `a`), and along any such `b` it has first derivative one and vanishing derivatives of
orders `2, …, p-1` at `a = 0`. The disjunction with `b < 0` behaves alike. -/
theorem C09_rp_normalized (p : ℕ) (hp : RP p = .ok (p : ℤ)) (h2 : 2 ≤ p) (b : ℝ) (hb : 0 < b) :
    ∃ c d : ℝ → ℝ, (∀ a, (RP.sys p).conj (fin a) (fin b) = fin (c a)) ∧
      (∀ a, (RP.sys p).disj (fin a) (fin (-b)) = fin (d a)) ∧
      (∀ a, 0 ≤ a - c a ∧ a - c a ≤ |a| ^ p / (p * b ^ (p - 1))) ∧
      (∀ a, 0 ≤ d a - a ∧ d a - a ≤ |a| ^ p / (p * b ^ (p - 1))) ∧
      c 0 = 0 ∧ HasDerivAt c 1 0 ∧ d 0 = 0 ∧ HasDerivAt d 1 0 ∧
      ∀ k, 2 ≤ k → k < p → iteratedDeriv k c 0 = 0 ∧ iteratedDeriv k d 0 = 0 := by
  have hp2 : p % 2 = 0 := by
    unfold RP at hp; split at hp <;> [omega; cases hp]
  have hev := Nat.even_iff.mpr hp2
  have hbd (a : ℝ) := pRoot_bound hp2 h2 a hb
  have hneg (a : ℝ) : pRoot p a (-b) = pRoot p a b := by simp [pRoot, hev.neg_pow]
  have hbp : 0 < b ^ p := pow_pos hb p
  -- the smooth outer function
  let φ : ℝ → ℝ := fun u => (u + b ^ p) ^ (1 / (p : ℝ))
  have hroot (a : ℝ) : pRoot p a b = φ (a ^ p) := rfl
  have hφ : ContDiffAt ℝ (⊤ : ℕ∞) φ 0 := by
    refine ContDiffAt.rpow_const_of_ne ?_ ?_
    · fun_prop
    · simp [hbp.ne']
  have hpow0 : (0 : ℝ) ^ p = 0 := zero_pow (by omega)
  have hg : ContDiffAt ℝ (⊤ : ℕ∞) (fun t => p * deriv φ (t ^ p)) 0 := by
    have hd := contDiffAt_deriv hφ
    refine contDiffAt_const.mul ?_
    have hd' : ContDiffAt ℝ (⊤ : ℕ∞) (deriv φ) ((fun t : ℝ => t ^ p) 0) := by simpa [hpow0] using hd
    exact hd'.comp (0 : ℝ) (f := fun t : ℝ => t ^ p) (by fun_prop)
  have hroot' : ∀ᶠ t in 𝓝 (0 : ℝ), HasDerivAt (fun t => pRoot p t b)
      (t ^ (p - 1) * (p * deriv φ (t ^ p))) t := by
    refine .of_forall fun t => ?_
    have h1 : HasDerivAt φ (deriv φ (t ^ p)) (t ^ p) := by
      have : DifferentiableAt ℝ φ (t ^ p) := by
        refine DifferentiableAt.rpow_const (by fun_prop) (.inl ?_)
        have := even_pow_nonneg hp2 t
        positivity
      exact this.hasDerivAt
    have h3 := h1.comp t (hasDerivAt_pow p t)
    rw [show t ^ (p - 1) * (p * deriv φ (t ^ p)) = deriv φ (t ^ p) * (p * t ^ (p - 1)) by ring]
    exact h3
  have hderivRoot : deriv (fun t => pRoot p t b) =ᶠ[𝓝 0] fun t => t ^ (p - 1) * (p * deriv φ (t ^ p)) := by
    filter_upwards [hroot'] with t ht using ht.deriv
  have hroot0 : HasDerivAt (fun t => pRoot p t b) 0 0 := by
    have := hroot'.self_of_nhds
    rwa [zero_pow (by omega : p - 1 ≠ 0), zero_mul] at this
  have hiter : ∀ k, 2 ≤ k → k < p → iteratedDeriv k (fun t => pRoot p t b) 0 = 0 := by
    intro k hk hkp
    obtain ⟨j, rfl⟩ : ∃ j, k = j + 1 := ⟨k - 1, by omega⟩
    rw [iteratedDeriv_succ', Filter.EventuallyEq.iteratedDeriv_eq j hderivRoot]
    exact iteratedDeriv_pow_mul_eq_zero j (p - 1) _ (by omega) hg
  have hrc : ContDiffAt ℝ (⊤ : ℕ∞) (fun t => pRoot p t b) 0 := by
    have hd' : ContDiffAt ℝ (⊤ : ℕ∞) φ ((fun t : ℝ => t ^ p) 0) := by simpa [hpow0] using hφ
    exact hd'.comp (0 : ℝ) (f := fun t : ℝ => t ^ p) (by fun_prop)
  have hlin : ∀ (s : ℝ) (k : ℕ), 2 ≤ k → iteratedDeriv k (fun t : ℝ => t + s) 0 = 0 := by
    intro s k hk
    obtain ⟨j, rfl⟩ : ∃ j, k = j + 1 + 1 := ⟨k - 2, by omega⟩
    rw [iteratedDeriv_succ', iteratedDeriv_succ']
    have h1 : deriv (fun t : ℝ => t + s) = fun _ => 1 := by funext t; simp
    rw [h1]
    have h2 : deriv (fun _ : ℝ => (1 : ℝ)) = fun _ => 0 := by funext t; simp
    rw [h2]
    simp
  refine ⟨fun a => (a + b) - pRoot p a b, fun a => (a + -b) + pRoot p a b, fun a => RP.conj_fin hp2 a b,
    fun a => ?_, fun a => ?_, fun a => ?_, ?_, ?_, ?_, ?_, fun k hk hkp => ⟨?_, ?_⟩⟩
  · have := RP.disj_fin hp2 a (-b)
    rwa [hneg] at this
  · rw [hev.pow_abs]
    exact ⟨by linarith [(hbd a).1], by linarith [(hbd a).2]⟩
  · rw [hev.pow_abs]
    exact ⟨by linarith [(hbd a).1], by linarith [(hbd a).2]⟩
  · show (0 : ℝ) + b - pRoot p 0 b = 0
    rw [pRoot_zero_left h2 hb.le]; ring
  · have := ((hasDerivAt_id (0 : ℝ)).add_const b).sub hroot0
    rw [sub_zero] at this
    exact this
  · show (0 : ℝ) + -b + pRoot p 0 b = 0
    rw [pRoot_zero_left h2 hb.le]; ring
  · have := ((hasDerivAt_id (0 : ℝ)).add_const (-b)).add hroot0
    rw [add_zero] at this
    exact this
  · have h := iteratedDeriv_sub (n := k) (x := (0 : ℝ)) (f := fun t : ℝ => t + b)
      (g := fun t => pRoot p t b) (by fun_prop) (hrc.of_le (by exact_mod_cast le_top))
    rw [show (fun a => a + b - pRoot p a b) = (fun t : ℝ => t + b) - fun t => pRoot p t b from rfl, h,
      hlin b k hk, hiter k hk hkp, sub_zero]
  · have h := iteratedDeriv_add (n := k) (x := (0 : ℝ)) (f := fun t : ℝ => t + -b)
      (g := fun t => pRoot p t b) (by fun_prop) (hrc.of_le (by exact_mod_cast le_top))
    rw [show (fun a => a + -b + pRoot p a b) = (fun t : ℝ => t + -b) + fun t => pRoot p t b from rfl, h,
      hlin (-b) k hk, hiter k hk hkp, add_zero]

example : RP (4 : ℕ) = .ok ((4 : ℕ) : ℤ) ∧ 2 ≤ 4 ∧ (0 : ℝ) < 3 := ⟨by decide, by norm_num, by norm_num⟩

end Verif
