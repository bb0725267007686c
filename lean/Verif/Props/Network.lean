import Verif.Props.MLP
import Verif.Model.Network
import Mathlib.Analysis.SpecialFunctions.Trigonometric.DerivHyp
import Mathlib.Analysis.SpecialFunctions.ExpDeriv
import Mathlib.Topology.ContinuousMap.StoneWeierstrass

/-! # C142, C143: multi layer perceptrons are smooth, stable and approximate every continuous function -/

namespace Verif

open XR Matrix

/-! ## C142 -/

section
variable {E : Type*} [NormedAddCommGroup E] [NormedSpace ℝ E] {σ : ℝ → ℝ} {dims : ℕ → ℕ} {r : WithTop ℕ∞}

theorem netState_contDiff (hσ : ContDiff ℝ r σ) (W : E → (i : ℕ) → Matrix (Fin (dims i)) (Fin (dims (i + 1))) ℝ)
    (c : E → (i : ℕ) → Fin (dims (i + 1)) → ℝ) (x : E → Fin (dims 0) → ℝ)
    (hW : ∀ i a b, ContDiff ℝ r fun e => W e i a b) (hc : ∀ i b, ContDiff ℝ r fun e => c e i b)
    (hx : ∀ a, ContDiff ℝ r fun e => x e a) (k : ℕ) (j : Fin (dims k)) :
    ContDiff ℝ r fun e => netState σ dims (W e) (c e) (x e) k j := by
  induction k with
  | zero => exact hx j
  | succ k ih =>
    refine hσ.comp (ContDiff.add ?_ (hc k j))
    show ContDiff ℝ r fun e => ∑ l, netState σ dims (W e) (c e) (x e) k l * W e k l j
    exact ContDiff.sum fun l _ => (ih l).mul (hW k l j)

/-- **C142, smoothness**. If the activation is `r` times continuously differentiable and the parameters and the input depend on
`e` in the same way, then the network does. (With the input as `e` these are the derivatives of the solution of a
differential equation, with the parameters as `e` those of the loss.) -/
theorem C142_smooth (hσ : ContDiff ℝ r σ) (act : XR → XR) (hact : ∀ a, act (fin a) = fin (σ a))
    (W : E → (i : ℕ) → Matrix (Fin (dims i)) (Fin (dims (i + 1))) ℝ)
    (c : E → (i : ℕ) → Fin (dims (i + 1)) → ℝ) (x : E → Fin (dims 0) → ℝ)
    (hW : ∀ i a b, ContDiff ℝ r fun e => W e i a b) (hc : ∀ i b, ContDiff ℝ r fun e => c e i b)
    (hx : ∀ a, ContDiff ℝ r fun e => x e a) (k : ℕ) :
    ∃ out : E → Fin (dims (k + 1)) → ℝ, ContDiff ℝ r out ∧ ∀ e,
      MLP.call ((List.range (k + 1)).map fun i => dims (i + 1)) (some act)
        ⟨fun i => denseOf (W e i) (c e i), denseOf (W e k) (c e k)⟩ (List.ofFn fun i => fin (x e i)) =
      .ok (if h : dims (k + 1) = 1 then .inl (fin (out e ⟨0, by omega⟩)) else .inr (List.ofFn fun j => fin (out e j))) := by
  refine ⟨fun e => netState σ dims (W e) (c e) (x e) k ᵥ* W e k + c e k, ?_, fun e => ?_⟩
  · rw [contDiff_pi]
    intro j
    refine ContDiff.add ?_ (hc k j)
    show ContDiff ℝ r fun e => ∑ l, netState σ dims (W e) (c e) (x e) k l * W e k l j
    exact ContDiff.sum fun l _ => (netState_contDiff hσ W c x hW hc hx k l).mul (hW k l j)
  · exact C100_value σ act hact dims (W e) (c e) k (x e) _ rfl

end

theorem contDiff_mlp_tanh {r : WithTop ℕ∞} : ContDiff ℝ r Real.tanh := by
  have : Real.tanh = fun x => Real.sinh x / Real.cosh x := funext Real.tanh_eq_sinh_div_cosh
  rw [this]
  exact Real.contDiff_sinh.div Real.contDiff_cosh fun x => (Real.cosh_pos x).ne'

theorem tanh_lipschitz (a b : ℝ) : |Real.tanh a - Real.tanh b| ≤ |a - b| := by
  have hd : ∀ x : ℝ, HasDerivAt Real.tanh (1 / Real.cosh x ^ 2) x := by
    intro x
    have h := (Real.hasDerivAt_sinh x).div (Real.hasDerivAt_cosh x) (Real.cosh_pos x).ne'
    have e : Real.tanh = Real.sinh / Real.cosh := funext Real.tanh_eq_sinh_div_cosh
    rw [e]
    have e2 : Real.cosh x * Real.cosh x - Real.sinh x * Real.sinh x = 1 := by nlinarith [Real.cosh_sq x]
    rwa [e2] at h
  have := Convex.norm_image_sub_le_of_norm_hasDerivWithin_le (f := Real.tanh) (f' := fun x => 1 / Real.cosh x ^ 2) (C := 1)
    (s := Set.univ) (x := b) (y := a) (fun x _ => (hd x).hasDerivWithinAt) (fun x _ => by
      rw [Real.norm_of_nonneg (by positivity), div_le_one (by have := Real.cosh_pos x; positivity)]
      have := Real.one_le_cosh x
      nlinarith) convex_univ (Set.mem_univ _) (Set.mem_univ _)
  simpa [Real.norm_eq_abs] using this

/-- **C142, stability**. If the activation has the Lipschitz constant `L` and the absolute values of the weights into every neuron
of layer `i` add up to at most `N i`, then changing no input by more than `δ` changes no output by more than
`L ^ k * N 0 ⋯ N k * δ`, whatever the biases are. -/
theorem C142_lipschitz {σ : ℝ → ℝ} {L : ℝ} (hL : 0 ≤ L) (hσ : ∀ a b, |σ a - σ b| ≤ L * |a - b|) (act : XR → XR)
    (hact : ∀ a, act (fin a) = fin (σ a)) {dims : ℕ → ℕ}
    (W : (i : ℕ) → Matrix (Fin (dims i)) (Fin (dims (i + 1))) ℝ) (c : (i : ℕ) → Fin (dims (i + 1)) → ℝ) (N : ℕ → ℝ)
    (hN : ∀ i, 0 ≤ N i) (hW : ∀ i b, ∑ a, |W i a b| ≤ N i) (k : ℕ) (x y : Fin (dims 0) → ℝ) (δ : ℝ) (hδ : 0 ≤ δ)
    (hxy : ∀ a, |x a - y a| ≤ δ) :
    ∃ u v : Fin (dims (k + 1)) → ℝ, (∀ j, |u j - v j| ≤ L ^ k * (∏ i ∈ Finset.range (k + 1), N i) * δ) ∧
      ∀ z w, (z = x ∧ w = u ∨ z = y ∧ w = v) →
      MLP.call ((List.range (k + 1)).map fun i => dims (i + 1)) (some act)
        ⟨fun i => denseOf (W i) (c i), denseOf (W k) (c k)⟩ (List.ofFn fun i => fin (z i)) =
      .ok (if h : dims (k + 1) = 1 then .inl (fin (w ⟨0, by omega⟩)) else .inr (List.ofFn fun j => fin (w j))) := by
  have lin : ∀ (i : ℕ) (p q : Fin (dims i) → ℝ) (η : ℝ), 0 ≤ η → (∀ a, |p a - q a| ≤ η) →
      ∀ j, |((p ᵥ* W i) j + c i j) - ((q ᵥ* W i) j + c i j)| ≤ N i * η := by
    intro i p q η hη hpq j
    have e : ((p ᵥ* W i) j + c i j) - ((q ᵥ* W i) j + c i j) = ∑ a, (p a - q a) * W i a j := by
      simp only [vecMul, dotProduct, sub_mul, Finset.sum_sub_distrib]
      ring
    rw [e]
    calc |∑ a, (p a - q a) * W i a j| ≤ ∑ a, |(p a - q a) * W i a j| := Finset.abs_sum_le_sum_abs _ _
      _ ≤ ∑ a, η * |W i a j| := Finset.sum_le_sum fun a _ => by
          rw [abs_mul]
          exact mul_le_mul_of_nonneg_right (hpq a) (abs_nonneg _)
      _ ≤ N i * η := by
          rw [← Finset.mul_sum, mul_comm]
          exact mul_le_mul_of_nonneg_right (hW i j) hη
  have key : ∀ i j, |netState σ dims W c x i j - netState σ dims W c y i j| ≤ L ^ i * (∏ l ∈ Finset.range i, N l) * δ := by
    intro i
    induction i with
    | zero => simpa [netState] using hxy
    | succ i ih =>
      intro j
      have hp : 0 ≤ L ^ i * (∏ l ∈ Finset.range i, N l) * δ :=
        mul_nonneg (mul_nonneg (pow_nonneg hL i) (Finset.prod_nonneg fun l _ => hN l)) hδ
      have := lin i _ _ _ hp ih j
      calc |σ ((netState σ dims W c x i ᵥ* W i) j + c i j) - σ ((netState σ dims W c y i ᵥ* W i) j + c i j)| ≤ L * _ := hσ _ _
        _ ≤ L * (N i * (L ^ i * (∏ l ∈ Finset.range i, N l) * δ)) := mul_le_mul_of_nonneg_left this hL
        _ = _ := by rw [Finset.prod_range_succ]; ring
  refine ⟨netState σ dims W c x k ᵥ* W k + c k, netState σ dims W c y k ᵥ* W k + c k, fun j => ?_, ?_⟩
  · have hp : 0 ≤ L ^ k * (∏ l ∈ Finset.range k, N l) * δ :=
      mul_nonneg (mul_nonneg (pow_nonneg hL k) (Finset.prod_nonneg fun l _ => hN l)) hδ
    refine (lin k _ _ _ hp (key k) j).trans (le_of_eq ?_)
    rw [Finset.prod_range_succ]
    ring
  · rintro z w (⟨rfl, rfl⟩ | ⟨rfl, rfl⟩)
    · exact C100_value σ act hact dims W c k _ _ rfl
    · exact C100_value σ act hact dims W c k _ _ rfl

/-! ## C143 -/

/-- One neuron with a large bias is nearly an exponential. -/
theorem tanh_exp (u c : ℝ) : |Real.exp (2 * c) / 2 * (Real.tanh (u / 2 - c) + 1) - Real.exp u| ≤
    Real.exp (2 * u) / Real.exp (2 * c) := by
  have h1 : Real.tanh (u / 2 - c) + 1 = 2 * Real.exp u / (Real.exp u + Real.exp (2 * c)) := by
    rw [Real.tanh_eq]
    have e1 : Real.exp u = Real.exp (u / 2) * Real.exp (u / 2) := by rw [← Real.exp_add]; congr 1; ring
    have e2 : Real.exp (2 * c) = Real.exp c * Real.exp c := by rw [← Real.exp_add]; congr 1; ring
    have e3 : Real.exp (u / 2 - c) = Real.exp (u / 2) / Real.exp c := Real.exp_sub _ _
    have e4 : Real.exp (-(u / 2 - c)) = Real.exp c / Real.exp (u / 2) := by rw [neg_sub, Real.exp_sub]
    rw [e3, e4, e1, e2]
    have p1 := Real.exp_pos (u / 2)
    have p2 := Real.exp_pos c
    field_simp
    ring
  rw [h1]
  have p1 := Real.exp_pos u
  have p2 := Real.exp_pos (2 * c)
  have e5 : Real.exp (2 * u) = Real.exp u * Real.exp u := by rw [← Real.exp_add]; congr 1; ring
  have e6 : Real.exp (2 * c) / 2 * (2 * Real.exp u / (Real.exp u + Real.exp (2 * c))) - Real.exp u =
      -(Real.exp u * Real.exp u / (Real.exp u + Real.exp (2 * c))) := by
    field_simp
    ring
  rw [e6, abs_neg, abs_of_pos (by positivity), e5]
  gcongr
  linarith

/-- Sums of exponentials are dense. -/
theorem exists_exp_sum {d : ℕ} (K : Set (Fin d → ℝ)) [CompactSpace K] (f : C(K, ℝ)) {ε : ℝ} (hε : 0 < ε) :
    ∃ a : (Fin d → ℝ) →₀ ℝ, ∀ x : K, |a.sum (fun w s => s * Real.exp (∑ i, w i * (x : Fin d → ℝ) i)) - f x| < ε := by
  let E : (Fin d → ℝ) → C(K, ℝ) := fun w => ⟨fun x => Real.exp (∑ i, w i * (x : Fin d → ℝ) i), Real.continuous_exp.comp (continuous_finsetSum _ fun i _ => continuous_const.mul ((continuous_apply i).comp continuous_subtype_val))⟩
  have hE : ∀ w (x : K), E w x = Real.exp (∑ i, w i * (x : Fin d → ℝ) i) := fun _ _ => rfl
  have hspan : (↑(Submonoid.closure (Set.range E)) : Set C(K, ℝ)) ⊆ (Submodule.span ℝ (Set.range E) : Set C(K, ℝ)) := by
    let M : Submonoid C(K, ℝ) :=
      { carrier := Set.range E
        one_mem' := ⟨0, by ext x; simp [hE]⟩
        mul_mem' := by
          rintro _ _ ⟨v, rfl⟩ ⟨w, rfl⟩
          exact ⟨v + w, by ext x; simp [hE, add_mul, Finset.sum_add_distrib, Real.exp_add]⟩ }
    have hM : Submonoid.closure (Set.range E) ≤ M := Submonoid.closure_le.2 subset_rfl
    exact fun g hg => Submodule.subset_span (hM hg)
  have hsep : (Algebra.adjoin ℝ (Set.range E)).SeparatesPoints := by
    intro x y hxy
    obtain ⟨i, hi⟩ : ∃ i, (x : Fin d → ℝ) i ≠ (y : Fin d → ℝ) i := by
      by_contra h
      push Not at h
      exact hxy (Subtype.ext (funext h))
    refine ⟨E (Pi.single i 1), ⟨E (Pi.single i 1), Algebra.subset_adjoin ⟨_, rfl⟩, rfl⟩, ?_⟩
    simp only [hE]
    intro h
    have := Real.exp_injective h
    simp [Pi.single_apply] at this
    exact hi this
  obtain ⟨g, hg⟩ := ContinuousMap.exists_mem_subalgebra_near_continuousMap_of_separatesPoints _ hsep f ε hε
  have hmem : (g : C(K, ℝ)) ∈ Submodule.span ℝ (Set.range E) := by
    rw [← Algebra.adjoin_eq_span_of_subset ℝ hspan]
    exact g.2
  rw [Finsupp.mem_span_range_iff_exists_finsupp] at hmem
  obtain ⟨a, ha⟩ := hmem
  refine ⟨a, fun x => ?_⟩
  have := (ContinuousMap.norm_lt_iff _ hε).1 hg x
  rw [Real.norm_eq_abs, ContinuousMap.sub_apply, ← ha] at this
  simpa [Finsupp.sum, ContinuousMap.coe_sum, Finset.sum_apply, hE] using this

/-- **C143**. Every continuous function on a compact set is approximated to any accuracy by a perceptron as built by default, with
the activation `tanh` and one hidden layer. -/
theorem C143_universal {d p : ℕ} (K : Set (Fin d → ℝ)) (hK : IsCompact K) (f : (Fin d → ℝ) → Fin p → ℝ)
    (hf : ContinuousOn f K) {ε : ℝ} (hε : 0 < ε) :
    ∃ (n : ℕ) (W₁ : Matrix (Fin d) (Fin n) ℝ) (b₁ : Fin n → ℝ) (W₂ : Matrix (Fin n) (Fin p) ℝ) (b₂ : Fin p → ℝ),
      ∀ x ∈ K, ∃ y : Fin p → ℝ, (∀ j, |y j - f x j| < ε) ∧
        MLP.call [n, p] none ⟨fun _ => denseOf W₁ b₁, denseOf W₂ b₂⟩ (List.ofFn fun i => fin (x i)) =
          .ok (if h : p = 1 then .inl (fin (y ⟨0, by omega⟩)) else .inr (List.ofFn fun j => fin (y j))) := by
  have : CompactSpace K := isCompact_iff_compactSpace.1 hK
  have hfj : ∀ j, Continuous fun x : K => f x j := fun j =>
    (continuous_apply j).comp (continuousOn_iff_continuous_domRestrict.1 hf)
  choose a ha using fun j => exists_exp_sum K ⟨_, hfj j⟩ (half_pos hε)
  let S : Finset (Fin d → ℝ) := Finset.univ.biUnion fun j => (a j).support
  have hS : ∀ j (g : (Fin d → ℝ) → ℝ → ℝ), (∀ w, g w 0 = 0) → (a j).sum g = ∑ w ∈ S, g w (a j w) := fun j g hg =>
    Finsupp.sum_of_support_subset _ (Finset.subset_biUnion_of_mem (fun j => (a j).support) (Finset.mem_univ j)) _ fun w _ => hg w
  let B : (Fin d → ℝ) → C(K, ℝ) := fun w => ⟨fun x => Real.exp (2 * ∑ i, w i * (x : Fin d → ℝ) i),
    Real.continuous_exp.comp (continuous_const.mul (continuous_finsetSum _ fun i _ => continuous_const.mul ((continuous_apply i).comp continuous_subtype_val)))⟩
  set T : ℝ := ∑ j, ∑ w ∈ S, |a j w| * ‖B w‖ with hT
  have hT0 : 0 ≤ T := Finset.sum_nonneg fun j _ => Finset.sum_nonneg fun w _ => by positivity
  set c : ℝ := Real.log (1 + 2 * T / ε) / 2 with hc
  have hexp : Real.exp (2 * c) = 1 + 2 * T / ε := by
    rw [hc, mul_div_cancel₀ _ two_ne_zero, Real.exp_log (by positivity)]
  have hsmall : T / Real.exp (2 * c) < ε / 2 := by
    rw [hexp, div_lt_iff₀ (by positivity), mul_add, mul_one]
    have : ε / 2 * (2 * T / ε) = T := by field_simp
    rw [this]
    linarith
  let e := S.equivFin
  refine ⟨S.card, fun l i => (e.symm i : Fin d → ℝ) l / 2, fun _ => -c, fun i j => a j (e.symm i) * (Real.exp (2 * c) / 2),
    fun j => ∑ w ∈ S, a j w * (Real.exp (2 * c) / 2), fun x hx => ?_⟩
  refine ⟨fun j => ∑ w ∈ S, a j w * (Real.exp (2 * c) / 2 * (Real.tanh ((∑ i, w i * x i) / 2 - c) + 1)), fun j => ?_, ?_⟩
  · have h1 := ha j ⟨x, hx⟩
    rw [hS j _ (by simp)] at h1
    have h2 : |∑ w ∈ S, a j w * (Real.exp (2 * c) / 2 * (Real.tanh ((∑ i, w i * x i) / 2 - c) + 1)) -
        ∑ w ∈ S, a j w * Real.exp (∑ i, w i * x i)| ≤ T / Real.exp (2 * c) := by
      rw [← Finset.sum_sub_distrib]
      calc _ ≤ ∑ w ∈ S, |a j w| * ‖B w‖ / Real.exp (2 * c) := by
            refine (Finset.abs_sum_le_sum_abs _ _).trans (Finset.sum_le_sum fun w _ => ?_)
            rw [← mul_sub, abs_mul, mul_div_assoc]
            refine mul_le_mul_of_nonneg_left ((tanh_exp _ c).trans ?_) (abs_nonneg _)
            have : Real.exp (2 * ∑ i, w i * x i) ≤ ‖B w‖ := by
              have := (B w).norm_coe_le_norm ⟨x, hx⟩
              exact (le_abs_self _).trans this
            gcongr
        _ ≤ T / Real.exp (2 * c) := by
            rw [← Finset.sum_div]
            gcongr
            exact Finset.single_le_sum (f := fun j => ∑ w ∈ S, |a j w| * ‖B w‖)
              (fun j _ => Finset.sum_nonneg fun w _ => by positivity) (Finset.mem_univ j)
    have h3 := abs_sub_le (∑ w ∈ S, a j w * (Real.exp (2 * c) / 2 * (Real.tanh ((∑ i, w i * x i) / 2 - c) + 1)))
      (∑ w ∈ S, a j w * Real.exp (∑ i, w i * x i)) (f x j)
    change |∑ w ∈ S, a j w * Real.exp (∑ i, w i * x i) - f x j| < ε / 2 at h1
    linarith
  · have h := C100_value Real.tanh XR.tanh (fun _ => rfl) (fun i => match i with | 0 => d | 1 => S.card | _ => p)
      (fun i => match i with
        | 0 => fun l i => (e.symm i : Fin d → ℝ) l / 2
        | 1 => fun i j => a j (e.symm i) * (Real.exp (2 * c) / 2)
        | (_ + 2) => fun _ _ => 0)
      (fun i => match i with
        | 0 => fun _ => -c
        | 1 => fun j => ∑ w ∈ S, a j w * (Real.exp (2 * c) / 2)
        | (_ + 2) => fun _ => 0) 1 x
      (fun j => ∑ w ∈ S, a j w * (Real.exp (2 * c) / 2 * (Real.tanh ((∑ i, w i * x i) / 2 - c) + 1))) (by
        funext j
        change _ = (∑ i : Fin S.card, Real.tanh ((∑ l : Fin d, x l * ((e.symm i : Fin d → ℝ) l / 2)) + -c) *
          (a j (e.symm i) * (Real.exp (2 * c) / 2))) + ∑ w ∈ S, a j w * (Real.exp (2 * c) / 2)
        have h1 : ∑ i : Fin S.card, Real.tanh ((∑ l : Fin d, x l * ((e.symm i : Fin d → ℝ) l / 2)) + -c) *
            (a j (e.symm i) * (Real.exp (2 * c) / 2)) =
            ∑ w ∈ S, Real.tanh ((∑ l : Fin d, x l * (w l / 2)) + -c) * (a j w * (Real.exp (2 * c) / 2)) := by
          rw [← Finset.sum_coe_sort S]
          exact Equiv.sum_comp e.symm fun w : S => Real.tanh ((∑ l : Fin d, x l * ((w : Fin d → ℝ) l / 2)) + -c) *
            (a j w * (Real.exp (2 * c) / 2))
        rw [h1, ← Finset.sum_add_distrib]
        refine Finset.sum_congr rfl fun w _ => ?_
        have h2 : ∑ l : Fin d, x l * (w l / 2) = (∑ l, w l * x l) / 2 := by
          rw [Finset.sum_div]
          exact Finset.sum_congr rfl fun l _ => by ring
        rw [h2, ← sub_eq_add_neg]
        ring)
    exact h

/-! ## C144 -/

/-- A function which vanishes with the weight is nearly a multiple of the weight. -/
theorem exists_factor {X : Type*} [TopologicalSpace X] [T2Space X] {K : Set X} (hK : IsCompact K) {p : ℕ} (φ : X → ℝ)
    (hφ : ContinuousOn φ K) (h : X → Fin p → ℝ) (hh : ContinuousOn h K) (h0 : ∀ x ∈ K, φ x = 0 → h x = 0) {ε : ℝ} (hε : 0 < ε) :
    ∃ v : X → Fin p → ℝ, ContinuousOn v K ∧ ∀ x ∈ K, ∀ j, |φ x * v x j - h x j| < ε := by
  obtain ⟨M, hM⟩ := hK.exists_bound_of_continuousOn hh
  have hM0 : ∀ x ∈ K, 0 ≤ M := fun x hx => (norm_nonneg _).trans (hM x hx)
  -- where `h` is large the weight is bounded below
  obtain ⟨m, hm, hmb⟩ : ∃ m > 0, ∀ x ∈ K, ε ≤ ‖h x‖ → m ≤ φ x ^ 2 := by
    have hc : IsCompact (K ∩ h ⁻¹' {z | ε ≤ ‖z‖}) :=
      hK.of_isClosed_subset (hh.preimage_isClosed_of_isClosed hK.isClosed
        (isClosed_le continuous_const continuous_norm)) Set.inter_subset_left
    rcases (K ∩ h ⁻¹' {z | ε ≤ ‖z‖}).eq_empty_or_nonempty with he | hne
    · refine ⟨1, one_pos, fun x hx hle => ?_⟩
      have : x ∈ K ∩ h ⁻¹' {z | ε ≤ ‖z‖} := ⟨hx, hle⟩
      rw [he] at this
      exact this.elim
    · obtain ⟨x₀, hx₀, hmin⟩ := hc.exists_isMinOn hne ((hφ.mono Set.inter_subset_left).pow 2)
      refine ⟨φ x₀ ^ 2, ?_, fun x hx hle => hmin ⟨hx, hle⟩⟩
      have : φ x₀ ≠ 0 := by
        intro hz
        have := h0 x₀ hx₀.1 hz
        have h2 : ε ≤ ‖h x₀‖ := hx₀.2
        rw [this, norm_zero] at h2
        linarith
      positivity
  by_cases hne : ∃ x, x ∈ K
  swap
  · exact ⟨fun _ _ => 0, continuousOn_const, fun x hx => absurd ⟨x, hx⟩ hne⟩
  have hM' : 0 ≤ M := hM0 _ hne.choose_spec
  set δ : ℝ := ε * m / (M + 1) with hδ
  have hδ0 : 0 < δ := by positivity
  refine ⟨fun x j => φ x * h x j / (φ x ^ 2 + δ), ?_, fun x hx j => ?_⟩
  · rw [continuousOn_pi]
    intro j
    refine ContinuousOn.div (hφ.mul ((continuous_apply j).comp_continuousOn hh)) ((hφ.pow 2).add continuousOn_const) fun x _ => ?_
    positivity
  · have hpos : 0 < φ x ^ 2 + δ := by positivity
    have e : φ x * (φ x * h x j / (φ x ^ 2 + δ)) - h x j = -(h x j * (δ / (φ x ^ 2 + δ))) := by
      field_simp
      ring
    rw [e, abs_neg, abs_mul, abs_of_pos (by positivity : 0 < δ / (φ x ^ 2 + δ))]
    have hj : |h x j| ≤ ‖h x‖ := norm_le_pi_norm (h x) j
    by_cases hle : ε ≤ ‖h x‖
    · have h1 := hmb x hx hle
      have h2 : |h x j| ≤ M := hj.trans (hM x hx)
      have h3 : δ / (φ x ^ 2 + δ) ≤ δ / m := by
        gcongr
        linarith
      calc |h x j| * (δ / (φ x ^ 2 + δ)) ≤ M * (δ / m) := by gcongr
        _ = ε * (M / (M + 1)) := by rw [hδ]; field_simp
        _ < ε := by
          have : M / (M + 1) < 1 := by rw [div_lt_one (by linarith)]; linarith
          nlinarith
    · have h3 : δ / (φ x ^ 2 + δ) ≤ 1 := by
        rw [div_le_one hpos]
        nlinarith [sq_nonneg (φ x)]
      calc |h x j| * (δ / (φ x ^ 2 + δ)) ≤ |h x j| * 1 := by gcongr
        _ < ε := by rw [mul_one]; exact hj.trans_lt (not_le.1 hle)

/-- The values of a default perceptron with one vector as argument. -/
noncomputable def networkModel {A : Type} {d p : ℕ} (input : List A → Fin d → ℝ) (layers : List ℕ) :
    List A → MLPParams → Vec p := fun args params =>
  match MLP.call layers none params (List.ofFn fun i => fin (input args i)) with
  | .ok (.inl v) => fun _ => v
  | .ok (.inr l) => fun j => l.getD j 0
  | .error _ => fun _ => nan

theorem networkModel_eq {A : Type} {d p : ℕ} (input : List A → Fin d → ℝ) (layers : List ℕ) (args : List A) (params : MLPParams)
    (y : Fin p → ℝ) (h : MLP.call layers none params (List.ofFn fun i => fin (input args i)) =
      .ok (if h : p = 1 then .inl (fin (y ⟨0, by omega⟩)) else .inr (List.ofFn fun j => fin (y j)))) :
    networkModel (p := p) input layers args params = vfin y := by
  unfold networkModel
  rw [h]
  by_cases hp : p = 1
  · subst hp
    funext j
    have : j = 0 := Subsingleton.elim _ _
    subst this
    rfl
  · rw [dif_neg hp]
    funext j
    simp [List.getD_eq_getElem?_getD]

/-- **C144, Dirichlet conditions lose nothing**. Let `u` be continuous on a compact set and equal to `g` where the ADF vanishes.
Then there are a perceptron and parameters for which the constrained model is within `ε` of `u` everywhere, and equal to `u`
where the ADF vanishes. -/
theorem C144_dirichlet {d p : ℕ} (K : Set (Fin d → ℝ)) (hK : IsCompact K) (adf : (Fin d → ℝ) → ℝ) (hadf : ContinuousOn adf K)
    (g u : (Fin d → ℝ) → Fin p → ℝ) (hg : ContinuousOn g K) (hu : ContinuousOn u K)
    (hb : ∀ x ∈ K, adf x = 0 → u x = g x) {ε : ℝ} (hε : 0 < ε) :
    ∃ (n : ℕ) (params : MLPParams), ∀ x ∈ K, ∃ y : Fin p → ℝ,
      imposeDirichletBc (fun xs => fin (adf (xs.headD 0))) (some fun xs => vfin (g (xs.headD 0))) (.int 0) (.int 0)
        (networkModel (fun xs => xs.headD 0) [n, p]) [x] params = .ok (vfin y) ∧
      (∀ j, |y j - u x j| < ε) ∧ (adf x = 0 → y = u x) := by
  obtain ⟨v, hv, hvu⟩ := exists_factor hK adf hadf (fun x => u x - g x) (hu.sub hg)
    (fun x hx h => sub_eq_zero.2 (hb x hx h)) (half_pos hε)
  obtain ⟨M, hM⟩ := hK.exists_bound_of_continuousOn hadf
  have hη : 0 < ε / 2 / (|M| + 1) := by positivity
  obtain ⟨n, W₁, b₁, W₂, b₂, hnet⟩ := C143_universal K hK v hv hη
  refine ⟨n, ⟨fun _ => denseOf W₁ b₁, denseOf W₂ b₂⟩, fun x hx => ?_⟩
  obtain ⟨z, hz, hcall⟩ := hnet x hx
  have hmodel := networkModel_eq (fun xs : List (Fin d → ℝ) => xs.headD 0) [n, p] [x] _ z hcall
  refine ⟨fun j => adf x * z j + g x j, ?_, fun j => ?_, fun h0 => ?_⟩
  · have hp : pick [x] (.int 0) = .ok [x] := rfl
    simp only [imposeDirichletBc, hp, bind, Except.bind, pure, Except.pure, hmodel]
    congr 1
  · have h1 := hvu x hx j
    have h2 : |adf x| ≤ |M| := (hM x hx).trans (le_abs_self M)
    have h3 : |adf x * z j - adf x * v x j| ≤ ε / 2 := by
      rw [← mul_sub, abs_mul]
      calc |adf x| * |z j - v x j| ≤ (|M| + 1) * (ε / 2 / (|M| + 1)) :=
            mul_le_mul (by linarith) (hz j).le (abs_nonneg _) (by positivity)
        _ = ε / 2 := by field_simp
    rw [show adf x * z j + g x j - u x j = (adf x * z j - adf x * v x j) + (adf x * v x j - (u x - g x) j) by
      simp only [Pi.sub_apply]; ring]
    exact (abs_add_le _ _).trans_lt (by linarith)
  · funext j
    rw [h0, zero_mul, zero_add, hb x hx h0]

/-- **C144, initial conditions lose nothing**. Let `u` be continuous on a compact set of points and times and equal to `m0` at the
time `t0`. Then there are a perceptron, fed with the point and the time, and parameters for which the constrained model is
within `ε` of `u` everywhere, and equal to `u` at the time `t0`. -/
theorem C144_initial {d p : ℕ} (K : Set ((Fin d → ℝ) × ℝ)) (hK : IsCompact K) (t0 decay_rate : ℝ) (hd : decay_rate ≠ 0)
    (m0 : (Fin d → ℝ) → Fin p → ℝ) (u : (Fin d → ℝ) × ℝ → Fin p → ℝ) (hm : ContinuousOn (fun q => m0 q.1) K)
    (hu : ContinuousOn u K) (hb : ∀ x, (x, t0) ∈ K → u (x, t0) = m0 x) {ε : ℝ} (hε : 0 < ε) :
    ∃ (n : ℕ) (params : MLPParams), ∀ x t, (x, t) ∈ K → ∃ y : Fin p → ℝ,
      imposeIc (A := (Fin d → ℝ) ⊕ ℝ) (fun a => match a with | .inl _ => nan | .inr t => fin t)
        (fun xs => match xs with | [.inl x] => vfin (m0 x) | _ => fun _ => nan) t0 decay_rate (.int 0) 1
        (networkModel (d := d + 1) (fun xs => match xs with | [.inl x, .inr t] => Fin.snoc x t | _ => 0) [n, p])
        [.inl x, .inr t] params = .ok (vfin y) ∧
      (∀ j, |y j - u (x, t) j| < ε) ∧ (t = t0 → y = u (x, t)) := by
  let φ : (Fin d → ℝ) × ℝ → ℝ := fun q => 1 - Real.exp (-decay_rate * (q.2 - t0))
  have hφ : ContinuousOn φ K := by
    refine Continuous.continuousOn ?_
    fun_prop
  have hz : ∀ q, φ q = 0 ↔ q.2 = t0 := by
    intro q
    simp only [φ, sub_eq_zero, eq_comm (a := (1 : ℝ)), Real.exp_eq_one_iff, mul_eq_zero, neg_eq_zero, hd, false_or]
  obtain ⟨v, hv, hvu⟩ := exists_factor hK φ hφ (fun q => u q - m0 q.1) (hu.sub hm)
    (fun q hq h => by
      obtain ⟨x, t⟩ := q
      obtain rfl : t = t0 := (hz _).1 h
      exact sub_eq_zero.2 (hb x hq)) (half_pos hε)
  obtain ⟨M, hM⟩ := hK.exists_bound_of_continuousOn hφ
  have hη : 0 < ε / 2 / (|M| + 1) := by positivity
  -- the same sets and functions for vectors of points and times
  let e : (Fin (d + 1) → ℝ) → (Fin d → ℝ) × ℝ := fun z => (Fin.init z, z (Fin.last d))
  have he : Continuous e := by
    refine Continuous.prodMk (continuous_pi fun i => continuous_apply _) (continuous_apply _)
  let s : (Fin d → ℝ) × ℝ → Fin (d + 1) → ℝ := fun q => Fin.snoc q.1 q.2
  have hs : Continuous s := by
    refine continuous_pi fun i => ?_
    refine Fin.lastCases ?_ (fun i => ?_) i
    · simp only [s, Fin.snoc_last]; exact continuous_snd
    · simp only [s, Fin.snoc_castSucc]; exact (continuous_apply i).comp continuous_fst
  have hes : ∀ q, e (s q) = q := fun q => by simp [e, s]
  have hK' : IsCompact (s '' K) := hK.image hs
  have hv' : ContinuousOn (fun z => v (e z) + m0 (e z).1) (s '' K) := by
    have hmaps : Set.MapsTo e (s '' K) K := by
      rintro _ ⟨q, hq, rfl⟩
      rw [hes]
      exact hq
    exact (hv.comp he.continuousOn hmaps).add (hm.comp he.continuousOn hmaps)
  obtain ⟨n, W₁, b₁, W₂, b₂, hnet⟩ := C143_universal (s '' K) hK' (fun z => v (e z) + m0 (e z).1) hv' hη
  refine ⟨n, ⟨fun _ => denseOf W₁ b₁, denseOf W₂ b₂⟩, fun x t hx => ?_⟩
  obtain ⟨z, hz', hcall⟩ := hnet (s (x, t)) ⟨_, hx, rfl⟩
  simp only [hes] at hz'
  have hmodel := networkModel_eq (A := (Fin d → ℝ) ⊕ ℝ) (d := d + 1)
    (fun xs => match xs with | [.inl x, .inr t] => Fin.snoc x t | _ => 0) [n, p] [.inl x, .inr t] _ z hcall
  refine ⟨fun j => m0 x j * Real.exp (-decay_rate * (t - t0)) + (1 - Real.exp (-decay_rate * (t - t0))) * z j, ?_,
    fun j => ?_, fun h0 => ?_⟩
  · have h1 : pyIndex [(.inl x : (Fin d → ℝ) ⊕ ℝ), .inr t] 1 = .ok (.inr t) := rfl
    have h2 : pick [(.inl x : (Fin d → ℝ) ⊕ ℝ), .inr t] (.int 0) = .ok [.inl x] := rfl
    simp only [imposeIc, h1, h2, bind, Except.bind, pure, Except.pure, hmodel]
    congr 1
    funext j
    simp [one_eq]
  · have h1 := hvu (x, t) hx j
    have h2 : |φ (x, t)| ≤ |M| := (hM _ hx).trans (le_abs_self M)
    have h3 : |φ (x, t) * z j - φ (x, t) * (v (x, t) j + m0 x j)| ≤ ε / 2 := by
      rw [← mul_sub, abs_mul]
      calc |φ (x, t)| * |z j - (v (x, t) j + m0 x j)| ≤ (|M| + 1) * (ε / 2 / (|M| + 1)) :=
            mul_le_mul (by linarith) (hz' j).le (abs_nonneg _) (by positivity)
        _ = ε / 2 := by field_simp
    rw [show m0 x j * Real.exp (-decay_rate * (t - t0)) + (1 - Real.exp (-decay_rate * (t - t0))) * z j - u (x, t) j =
      (φ (x, t) * z j - φ (x, t) * (v (x, t) j + m0 x j)) + (φ (x, t) * v (x, t) j - (u (x, t) - m0 x) j) by
        simp only [φ, Pi.sub_apply]; ring]
    exact (abs_add_le _ _).trans_lt (by linarith)
  · subst h0
    funext j
    rw [hb x hx]
    simp

/-! ## Examples -/

/-- The product of two coordinates on the unit square. -/
example : ∃ (n : ℕ) (W₁ : Matrix (Fin 2) (Fin n) ℝ) (b₁ : Fin n → ℝ) (W₂ : Matrix (Fin n) (Fin 1) ℝ) (b₂ : Fin 1 → ℝ),
    ∀ x ∈ Set.Icc (0 : Fin 2 → ℝ) 1, ∃ y : Fin 1 → ℝ, (∀ j, |y j - x 0 * x 1| < 1 / 1000) ∧
      MLP.call [n, 1] none ⟨fun _ => denseOf W₁ b₁, denseOf W₂ b₂⟩ (List.ofFn fun i => fin (x i)) = .ok (.inl (fin (y 0))) :=
  C143_universal (Set.Icc 0 1) isCompact_Icc (fun x _ => x 0 * x 1)
    (Continuous.continuousOn (continuous_pi fun _ => (continuous_apply 0).mul (continuous_apply 1))) (by norm_num)

/-- A network with two inputs and two hidden neurons is smooth in its inputs. -/
example : ∃ out : (Fin 2 → ℝ) → Fin 2 → ℝ, ContDiff ℝ 3 out ∧ ∀ e,
    MLP.call [2, 2] (some XR.tanh) ⟨fun _ => denseOf !![1, 2; 3, 4] ![0, 1], denseOf !![1, 2; 3, 4] ![0, 1]⟩
      (List.ofFn fun i => fin (e i)) = .ok (.inr (List.ofFn fun j => fin (out e j))) :=
  C142_smooth (dims := fun _ => 2) contDiff_mlp_tanh XR.tanh (fun _ => rfl) (fun _ _ => !![1, 2; 3, 4]) (fun _ _ => ![0, 1]) id
    (fun _ _ _ => contDiff_const) (fun _ _ => contDiff_const) (fun a => contDiff_apply ℝ ℝ a) 1

/-- Weights which add up to one into every neuron: the network is a contraction. -/
example (x y : Fin 2 → ℝ) (h : ∀ a, |x a - y a| ≤ 1 / 10) : ∃ u v : Fin 2 → ℝ, (∀ j, |u j - v j| ≤ 1 / 10) ∧
    ∀ z w, (z = x ∧ w = u ∨ z = y ∧ w = v) → MLP.call [2, 2] (some XR.tanh)
      ⟨fun _ => denseOf !![1 / 2, 1; 1 / 2, 0] ![5, 1], denseOf !![1 / 2, 1; 1 / 2, 0] ![5, 1]⟩ (List.ofFn fun i => fin (z i)) =
        .ok (.inr (List.ofFn fun j => fin (w j))) := by
  obtain ⟨u, v, h1, h2⟩ := C142_lipschitz (σ := Real.tanh) zero_le_one (fun a b => by rw [one_mul]; exact tanh_lipschitz a b) XR.tanh
    (fun _ => rfl) (dims := fun _ => 2) (fun _ => !![1 / 2, 1; 1 / 2, 0]) (fun _ => ![5, 1]) (fun _ => 1) (fun _ => zero_le_one)
    (fun i b => by fin_cases b <;> (simp [Fin.sum_univ_two]; try norm_num)) 1 x y (1 / 10) (by norm_num) h
  refine ⟨u, v, fun j => ?_, h2⟩
  simpa using h1 j

/-- Functions on `[0, 1]` which vanish at the ends, with the ADF `x (1 - x)`: the tent. -/
example : ∃ (n : ℕ) (params : MLPParams), ∀ x ∈ Set.Icc (0 : Fin 1 → ℝ) 1, ∃ y : Fin 1 → ℝ,
    imposeDirichletBc (fun xs => fin ((xs.headD 0 : Fin 1 → ℝ) 0 * (1 - (xs.headD 0 : Fin 1 → ℝ) 0))) (some fun _ => vfin fun _ => 0) (.int 0) (.int 0)
      (networkModel (fun xs => xs.headD 0) [n, 1]) [x] params = .ok (vfin y) ∧
    (∀ j, |y j - min (x 0) (1 - x 0)| < 1 / 1000) ∧ (x 0 * (1 - x 0) = 0 → y = fun _ => min (x 0) (1 - x 0)) :=
  C144_dirichlet (d := 1) (p := 1) (Set.Icc 0 1) isCompact_Icc (fun x => x 0 * (1 - x 0)) (by fun_prop) (fun _ _ => 0)
    (fun x _ => min (x 0) (1 - x 0)) continuousOn_const (by fun_prop) (fun x hx h => by
      funext j
      rcases mul_eq_zero.1 h with h | h
      · simp [h]
      · have : x 0 = 1 := by linarith
        simp [this]) (by norm_num)

/-- The function `x + t ^ 2` for points and times in `[0, 1]`, with the initial condition `x` at the time zero. -/
example : ∃ (n : ℕ) (params : MLPParams), ∀ x t, (x, t) ∈ Set.Icc (0 : (Fin 1 → ℝ) × ℝ) 1 → ∃ y : Fin 1 → ℝ,
    imposeIc (A := (Fin 1 → ℝ) ⊕ ℝ) (fun a => match a with | .inl _ => nan | .inr t => fin t)
      (fun xs => match xs with | [.inl x] => vfin x | _ => fun _ => nan) 0 10 (.int 0) 1
      (networkModel (d := 1 + 1) (fun xs => match xs with | [.inl x, .inr t] => Fin.snoc x t | _ => 0) [n, 1])
      [.inl x, .inr t] params = .ok (vfin y) ∧
    (∀ j, |y j - (x j + t ^ 2)| < 1 / 1000) ∧ (t = 0 → y = fun j => x j + t ^ 2) :=
  C144_initial (Set.Icc 0 1) isCompact_Icc 0 10 (by norm_num) id (fun q j => q.1 j + q.2 ^ 2)
    continuous_fst.continuousOn (by fun_prop) (fun x _ => by funext j; simp) (by norm_num)

end Verif
