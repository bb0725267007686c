import Verif.Lemmas.RSystems
import Mathlib.Tactic.NormNum

/-! # Properties C01–C07: the R-function systems of `/repo/magpi/r_fun.py` -/

namespace Verif

open XR

/-! ## C01 -/

/-- C01. Every `alpha` accepted by the constructor gives a sign-exact system, and the constructor accepts
exactly the interval `(-1, 1]`. -/
theorem C01_ralpha_sign_law (α : ℝ) :
    (∀ S, RAlpha α = .ok S → SignLaw S.conj S.disj) ∧
    ((∃ S, RAlpha α = .ok S) ↔ -1 < α ∧ α ≤ 1) := by
  refine ⟨fun S hS => ?_, ?_⟩
  · unfold RAlpha at hS
    split at hS
    · rename_i h
      cases hS
      refine signLaw_of_conj (fun a b => ⟨_, RAlpha.conj_fin h.1 h.2 a b, ?_⟩) (RAlpha.disj_dual α)
      refine sign_cases_mul (by have := h.1; apply one_div_pos.mpr; linarith) ?_
      exact sign_cases (alpha_conj_pos h.1) (alpha_conj_neg h.1) alpha_conj_zero
    · cases hS
  · unfold RAlpha
    split <;> rename_i h <;> simp [h]

/-- Non-vacuity: `RAlpha(0.5)` is accepted. -/
example : ∃ S, RAlpha (1 / 2) = .ok S := (C01_ralpha_sign_law _).2.mpr (by norm_num)

/-- The system returned by an accepted `RAlpha`. -/
theorem ralpha_ok {α : ℝ} {S : RFun} (h : RAlpha α = .ok S) : S = RAlpha.sys α ∧ -1 < α ∧ α ≤ 1 := by
  unfold RAlpha at h
  split at h
  · rename_i h'; cases h; exact ⟨rfl, h'⟩
  · cases h

/-! ## C03 -/

/-- C03 (partial). `RP(p)` obeys the sign law for every accepted `p ≥ 2`. Missing: `p ≤ 0`, where it is
false (next theorems). -/
theorem C03_rp_sign_law_partial (p : ℤ) (hp : RP p = .ok p) (h2 : 2 ≤ p) :
    SignLaw (RP.sys p).conj (RP.sys p).disj := by
  have hp2 : p % 2 = 0 := by
    unfold RP at hp; split at hp <;> [assumption; cases hp]
  obtain ⟨q, rfl⟩ : ∃ q : ℕ, p = q := ⟨p.toNat, by omega⟩
  have hq : q % 2 = 0 := by omega
  exact signLaw_of_conj (fun a b => ⟨_, RP.conj_fin hq a b, RP.sign_aux hq (by omega) a b⟩)
    (RP.disj_dual hp2)

example : RP 4 = .ok 4 ∧ (2 : ℤ) ≤ 4 := by decide

/-- C03 is false as stated: `RP(-2)` is accepted by the constructor but its conjunction of a point inside
one solid and outside the other is positive. -/
theorem C03_rp_negative_p_counterexample :
    RP (-2) = .ok (-2) ∧
    ∃ c : ℝ, (RP.sys (-2)).conj (fin 10) (fin (-1)) = fin c ∧ 0 < c ∧
      ¬ SignLaw (RP.sys (-2)).conj (RP.sys (-2)).disj := by
  have key : (RP.sys (-2)).conj (fin 10) (fin (-1)) =
      fin (9 - ((1 / 10 ^ 2 + 1 / (-1) ^ 2 : ℝ)) ^ (1 / ((-2 : ℤ) : ℝ))) := by
    show fin 10 + fin (-1) - rpow (1 / fin 10 ^ 2 + 1 / fin (-1) ^ 2) _ = _
    simp only [fin_npow, one_eq, fin_add]
    rw [fin_div _ (by norm_num), fin_div _ (by norm_num), fin_add, fin_rpow (by norm_num), fin_sub]
    norm_num
  have hpos : (0 : ℝ) < 9 - ((1 / 10 ^ 2 + 1 / (-1) ^ 2 : ℝ)) ^ (1 / ((-2 : ℤ) : ℝ)) := by
    have : ((1 / 10 ^ 2 + 1 / (-1) ^ 2 : ℝ)) ^ (1 / ((-2 : ℤ) : ℝ)) ≤ 1 := by
      apply Real.rpow_le_one_of_one_le_of_nonpos <;> norm_num
    linarith
  refine ⟨by decide, _, key, hpos, fun h => ?_⟩
  obtain ⟨c, h1, h2⟩ := h.and_sign 10 (-1)
  rw [key] at h1
  have h3 := fin_inj.mp h1
  rw [← h3, sign_pos hpos, sign_pos (by norm_num : (0 : ℝ) < 10),
    sign_neg (by norm_num : (-1 : ℝ) < 0)] at h2
  revert h2; decide

/-- C03 is false as stated: `RP(0)` is accepted by the constructor but every evaluation raises
`ZeroDivisionError`; and the constructor rejects exactly the odd `p`. -/
theorem C03_rp_zero_counterexample :
    RP 0 = .ok 0 ∧ (∀ a b, RP.callConj 0 a b = .error .zeroDivision) ∧
    (∀ p, RP p = .error .assertion ↔ p % 2 = 1) := by
  refine ⟨by decide, fun _ _ => rfl, fun p => ?_⟩
  unfold RP
  split <;> rename_i h <;> simp <;> omega

/-! ## C05 -/

/-- C05. For every `m` and accepted `alpha`, off the origin `RAlphaM` is `RAlpha` times
`(a²+b²)^(m/2)` and has the right signs; for `m ≥ 0` it obeys the sign law everywhere; for `m < 0` both
operations give no number at `(0, 0)`. -/
theorem C05_ralpham_sign_law (m α : ℝ) (S : RFun) (hS : RAlphaM m α = .ok S) :
    (∀ a b : ℝ, 0 < a ^ 2 + b ^ 2 → ∃ c d : ℝ,
      (RAlpha.sys α).conj (fin a) (fin b) = fin c ∧ (RAlpha.sys α).disj (fin a) (fin b) = fin d ∧
      S.conj (fin a) (fin b) = fin (c * (a ^ 2 + b ^ 2) ^ (m / 2)) ∧
      S.disj (fin a) (fin b) = fin (d * (a ^ 2 + b ^ 2) ^ (m / 2)) ∧
      SignType.sign (c * (a ^ 2 + b ^ 2) ^ (m / 2)) = min (SignType.sign a) (SignType.sign b) ∧
      SignType.sign (d * (a ^ 2 + b ^ 2) ^ (m / 2)) = max (SignType.sign a) (SignType.sign b)) ∧
    (0 ≤ m → SignLaw S.conj S.disj) ∧
    (m < 0 → S.conj (fin 0) (fin 0) = nan ∧ S.disj (fin 0) (fin 0) = nan) := by
  unfold RAlphaM at hS
  split at hS
  swap
  · cases hS
  rename_i h
  cases hS
  have hc : 0 < 1 / (1 + α) := by apply one_div_pos.mpr; linarith [h.1]
  have sgn (a b : ℝ) := sign_cases_mul hc (sign_cases (alpha_conj_pos h.1 (a := a) (b := b))
    (alpha_conj_neg h.1) alpha_conj_zero)
  have law : SignLaw (RAlpha.sys α).conj (RAlpha.sys α).disj := by
    refine (C01_ralpha_sign_law α).1 _ ?_
    unfold RAlpha; rw [if_pos h]
  refine ⟨fun a b hab => ?_, fun hm => ?_, fun hm => ?_⟩
  · obtain ⟨c, h1, h2⟩ := law.and_sign a b
    obtain ⟨d, h3, h4⟩ := law.or_sign a b
    have hw : 0 < (a ^ 2 + b ^ 2) ^ (m / 2) := Real.rpow_pos_of_pos hab _
    refine ⟨c, d, h1, h3, ?_, ?_, ?_, ?_⟩
    · have h1' := h1
      simp only [RAlpha.sys, RAlpha.conj_fin h.1 h.2, fin_inj] at h1'
      rw [← h1']
      exact RAlphaM.conj_fin h.1 h.2 (.inl hab)
    · simp only [RAlpha.sys, RAlpha.disj_dual α, fin_neg, RAlpha.conj_fin h.1 h.2, fin_inj] at h3
      simp only [RAlphaM.sys]
      rw [RAlphaM.disj_dual, fin_neg, fin_neg, RAlphaM.conj_fin h.1 h.2 (.inl (by simpa using hab)),
        fin_neg, ← h3, fin_inj, even_two.neg_pow, even_two.neg_pow]
      ring
    · rw [sign_mul, h2, sign_pos hw, mul_one]
    · rw [sign_mul, h4, sign_pos hw, mul_one]
  · refine signLaw_of_conj (fun a b => ⟨_, RAlphaM.conj_fin h.1 h.2 (.inr hm), ?_⟩)
      (RAlphaM.disj_dual m α)
    rcases (by positivity : 0 ≤ a ^ 2 + b ^ 2).eq_or_lt with h0 | h0
    · have ha : a = 0 := by nlinarith [sq_nonneg a, sq_nonneg b]
      have hb : b = 0 := by nlinarith [sq_nonneg a, sq_nonneg b]
      subst ha hb
      simp
    · rw [mul_comm]
      exact sign_cases_mul (Real.rpow_pos_of_pos h0 _) (sgn a b)
  · have h3 : 1 + α ≠ 0 := by linarith [h.1]
    have hr : rpow (fin 0) (m / 2) = pinf := by simp [rpow]; linarith
    constructor
    · show RAlphaM.conj m α _ _ = nan
      simp only [RAlphaM.conj, one_eq, lit_eq, fin_add, fin_mul, fin_npow, fin_sub, fin_div _ h3]
      norm_num [fin_sqrt le_rfl, hr]
      show infSign 0 = _; simp [infSign]
    · show RAlphaM.disj m α _ _ = nan
      simp only [RAlphaM.disj, one_eq, lit_eq, fin_add, fin_mul, fin_npow, fin_sub, fin_div _ h3]
      norm_num [fin_sqrt le_rfl, hr]
      show infSign 0 = _; simp [infSign]

example : ∃ S, RAlphaM 2 1 = .ok S := ⟨_, by unfold RAlphaM; rw [if_pos]; norm_num⟩
example : ∃ S, RAlphaM (-1) 0 = .ok S := ⟨_, by unfold RAlphaM; rw [if_pos]; norm_num⟩

/-! ## C02 -/

/-- The ADF a user obtains by nesting the methods of one R-system like the set expression `e`
(r_fun.py:51-86). -/
noncomputable def SetExpr.build {ι : Type*} {n : ℕ} (S : RFun) (leaf : ι → ADF n) : SetExpr ι → ADF n
  | .leaf i => leaf i
  | .compl e => S.negate (e.build S leaf)
  | .union e₁ e₂ => S.union (e₁.build S leaf) (e₂.build S leaf)
  | .inter e₁ e₂ => S.intersection (e₁.build S leaf) (e₂.build S leaf)
  | .diff e₁ e₂ => S.difference (e₁.build S leaf) (e₂.build S leaf)
  | .impl e₁ e₂ => S.implication (e₁.build S leaf) (e₂.build S leaf)
  | .equiv e₁ e₂ => S.equivalence (e₁.build S leaf) (e₂.build S leaf)
  | .symmDiff e₁ e₂ => S.xor (e₁.build S leaf) (e₂.build S leaf)

theorem csg_kleene {ι : Type*} {n : ℕ} {S : RFun} (hS : SignLaw S.conj S.disj) (leaf : ι → ADF n)
    (x : Vec n) (v : ι → ℝ) (hv : ∀ i, leaf i x = fin (v i)) (e : SetExpr ι) :
    ∃ c : ℝ, e.build S leaf x = fin c ∧
      SignType.sign c = e.kleene fun i => SignType.sign (v i) := by
  have neg (c : ℝ) : SignType.sign (-c) = -SignType.sign c := Left.sign_neg c
  induction e with
  | leaf i => exact ⟨v i, hv i, rfl⟩
  | compl e ih =>
    obtain ⟨c, h1, h2⟩ := ih
    refine ⟨-c, ?_, ?_⟩
    · show -(e.build S leaf x) = _
      rw [h1, fin_neg]
    · rw [neg, h2]; rfl
  | union e₁ e₂ ih₁ ih₂ =>
    obtain ⟨a, ha, ha'⟩ := ih₁
    obtain ⟨b, hb, hb'⟩ := ih₂
    obtain ⟨c, h1, h2⟩ := hS.or_sign a b
    exact ⟨c, by show S.disj _ _ = _; rw [ha, hb, h1], by rw [h2, ha', hb']; rfl⟩
  | inter e₁ e₂ ih₁ ih₂ =>
    obtain ⟨a, ha, ha'⟩ := ih₁
    obtain ⟨b, hb, hb'⟩ := ih₂
    obtain ⟨c, h1, h2⟩ := hS.and_sign a b
    exact ⟨c, by show S.conj _ _ = _; rw [ha, hb, h1], by rw [h2, ha', hb']; rfl⟩
  | diff e₁ e₂ ih₁ ih₂ =>
    obtain ⟨a, ha, ha'⟩ := ih₁
    obtain ⟨b, hb, hb'⟩ := ih₂
    obtain ⟨c, h1, h2⟩ := hS.and_sign a (-b)
    exact ⟨c, by show S.conj _ (- _) = _; rw [ha, hb, fin_neg, h1], by rw [h2, ha', neg, hb']; rfl⟩
  | impl e₁ e₂ ih₁ ih₂ =>
    obtain ⟨a, ha, ha'⟩ := ih₁
    obtain ⟨b, hb, hb'⟩ := ih₂
    obtain ⟨c, h1, h2⟩ := hS.or_sign (-a) b
    exact ⟨c, by show S.disj (- _) _ = _; rw [ha, hb, fin_neg, h1], by rw [h2, neg, ha', hb']; rfl⟩
  | equiv e₁ e₂ ih₁ ih₂ =>
    obtain ⟨a, ha, ha'⟩ := ih₁
    obtain ⟨b, hb, hb'⟩ := ih₂
    obtain ⟨c, h1, h2⟩ := hS.or_sign a (-b)
    obtain ⟨d, h3, h4⟩ := hS.or_sign (-a) b
    obtain ⟨r, h5, h6⟩ := hS.and_sign c d
    refine ⟨r, ?_, ?_⟩
    · show S.conj (S.disj _ (- _)) (S.disj (- _) _) = _
      rw [ha, hb, fin_neg, fin_neg, h1, h3, h5]
    · rw [h6, h2, h4, neg, neg, ha', hb']
      simp only [SetExpr.kleene]
      generalize e₁.kleene _ = x
      generalize e₂.kleene _ = y
      revert x y; decide
  | symmDiff e₁ e₂ ih₁ ih₂ =>
    obtain ⟨a, ha, ha'⟩ := ih₁
    obtain ⟨b, hb, hb'⟩ := ih₂
    obtain ⟨c, h1, h2⟩ := hS.and_sign a (-b)
    obtain ⟨d, h3, h4⟩ := hS.and_sign (-a) b
    obtain ⟨r, h5, h6⟩ := hS.or_sign c d
    refine ⟨r, ?_, ?_⟩
    · show S.disj (S.conj _ (- _)) (S.conj (- _) _) = _
      rw [ha, hb, fin_neg, fin_neg, h1, h3, h5]
    · rw [h6, h2, h4, neg, neg, ha', hb']
      simp only [SetExpr.kleene]
      generalize e₁.kleene _ = x
      generalize e₂.kleene _ = y
      revert x y; decide

/-- The R-systems of the module that are claimed to be sign exact: accepted `RAlpha`, accepted `RP` with
`p ≥ 2`, accepted `RAlphaM` with `m ≥ 0`. -/
inductive ProvidedSystem : RFun → Prop
  | ralpha (α : ℝ) (S : RFun) (h : RAlpha α = .ok S) : ProvidedSystem S
  | rp (p : ℤ) (h : RP p = .ok p) (h2 : 2 ≤ p) : ProvidedSystem (RP.sys p)
  | ralpham (m α : ℝ) (S : RFun) (h : RAlphaM m α = .ok S) (hm : 0 ≤ m) : ProvidedSystem S

theorem ProvidedSystem.signLaw {S : RFun} (h : ProvidedSystem S) : SignLaw S.conj S.disj := by
  cases h with
  | ralpha α _ h => exact (C01_ralpha_sign_law α).1 S h
  | rp p h h2 => exact C03_rp_sign_law_partial p h h2
  | ralpham m α _ h hm => exact (C05_ralpham_sign_law m α S h).2.1 hm

/-- C02. Every CSG tree over any ADFs, built with one of the provided systems, is finite wherever its
leaves are, and its sign is the three-valued (Kleene) evaluation of the same set expression; in
particular, off the boundaries of the leaves it is positive exactly on the members of the set expression
in ordinary logic and negative exactly on the non-members. -/
theorem C02_csg_kleene {ι : Type*} {n : ℕ} (S : RFun) (hS : ProvidedSystem S) (leaf : ι → ADF n)
    (x : Vec n) (v : ι → ℝ) (hv : ∀ i, leaf i x = fin (v i)) (e : SetExpr ι) :
    ∃ c : ℝ, e.build S leaf x = fin c ∧
      SignType.sign c = e.kleene (fun i => SignType.sign (v i)) ∧
      ((∀ i, v i ≠ 0) →
        (0 < c ↔ e.mem fun i => 0 < v i) ∧ (c < 0 ↔ ¬ e.mem fun i => 0 < v i)) := by
  obtain ⟨c, h1, h2⟩ := csg_kleene hS.signLaw leaf x v hv e
  refine ⟨c, h1, h2, fun hne => ?_⟩
  have h3 := SetExpr.kleene_of_ne_zero (fun i => SignType.sign (v i))
    (fun i => by rw [Ne, sign_eq_zero_iff]; exact hne i) e
  rw [← h2] at h3
  simp only [sign_eq_one_iff] at h3
  have hc : c ≠ 0 := fun h => h3.1 (by rw [h, sign_zero])
  refine ⟨h3.2, ?_⟩
  rw [← h3.2, not_lt]
  exact ⟨le_of_lt, fun h => lt_of_le_of_ne h hc⟩

/-- Non-vacuity: a nested expression over two half lines in the plane of the point `(2, -1)`. -/
example : ∃ (S : RFun) (leaf : Bool → ADF 2) (v : Bool → ℝ),
    ProvidedSystem S ∧ (∀ i, leaf i (vfin ![2, -1]) = fin (v i)) ∧ (∀ i, v i ≠ 0) ∧
    (SetExpr.diff (.leaf true) (.union (.leaf false) (.compl (.leaf true)))).mem (fun i => 0 < v i) := by
  refine ⟨RP.sys 4, fun b x => if b then x 0 else x 1, fun b => if b then 2 else -1,
    .rp 4 (by decide) (by norm_num), ?_, ?_, ?_⟩
  · intro i; cases i <;> simp
  · intro i; cases i <;> norm_num
  · norm_num [SetExpr.mem]

/-! ## C04 -/

theorem rp2_eq_r0_conj (a b : ℝ) : RP.conj 2 (fin a) (fin b) = RAlpha.conj 0 (fin a) (fin b) := by
  have h := RP.conj_fin (p := 2) (by norm_num) a b
  rw [show ((2 : ℕ) : ℤ) = 2 from rfl] at h
  rw [h, RAlpha.conj_fin (by norm_num) (by norm_num), fin_inj]
  simp only [pRoot, Real.sqrt_eq_rpow]
  norm_num

/-- C04. `r1` exists and computes exactly minimum and maximum; `r0` and `rp2` exist and agree on all
operands. -/
theorem C04_r1_minmax_rp2_r0 :
    (∃ S, r1 = .ok S ∧ ∀ a b : ℝ, S.conj (fin a) (fin b) = fin (min a b) ∧
      S.disj (fin a) (fin b) = fin (max a b)) ∧
    (∃ S p, r0 = .ok S ∧ rp2 = .ok p ∧ ∀ a b : ℝ,
      (RP.sys p).conj (fin a) (fin b) = S.conj (fin a) (fin b) ∧
      (RP.sys p).disj (fin a) (fin b) = S.disj (fin a) (fin b)) := by
  have root (a b : ℝ) : Real.sqrt (a ^ 2 + b ^ 2 - 2 * 1 * a * b) = |a - b| := by
    rw [← Real.sqrt_sq_eq_abs]; congr 1; ring
  refine ⟨⟨RAlpha.sys 1, by simp [r1, RAlpha], fun a b => ⟨?_, ?_⟩⟩,
    ⟨RAlpha.sys 0, 2, by simp [r0, RAlpha], rfl, fun a b => ⟨rp2_eq_r0_conj a b, ?_⟩⟩⟩
  · show RAlpha.conj 1 _ _ = _
    rw [RAlpha.conj_fin (by norm_num) le_rfl, root, fin_inj]
    rcases le_total a b with h | h
    · rw [min_eq_left h, abs_of_nonpos (by linarith)]; ring
    · rw [min_eq_right h, abs_of_nonneg (by linarith)]; ring
  · show RAlpha.disj 1 _ _ = _
    rw [RAlpha.disj_fin (by norm_num) le_rfl, root, fin_inj]
    rcases le_total a b with h | h
    · rw [max_eq_right h, abs_of_nonpos (by linarith)]; ring
    · rw [max_eq_left h, abs_of_nonneg (by linarith)]; ring
  · show RP.disj 2 _ _ = RAlpha.disj 0 _ _
    rw [RP.disj_dual (by norm_num), RAlpha.disj_dual, fin_neg, fin_neg, rp2_eq_r0_conj]

/-! ## C06 -/

/-- C06. Rho blending with `rho > 0`: always finite; equal to `r0` outside the disc of radius `rho`; below
(conjunction) / above (disjunction) `r0` everywhere; never more than `sqrt(rho³)/2` away. -/
theorem C06_rho_blending (ρ : ℝ) (hρ : 0 < ρ) (a b : ℝ) :
    ∃ c d c₀ d₀ : ℝ,
      (RhoBlending ρ).conj (fin a) (fin b) = fin c ∧ (RhoBlending ρ).disj (fin a) (fin b) = fin d ∧
      (RAlpha.sys 0).conj (fin a) (fin b) = fin c₀ ∧ (RAlpha.sys 0).disj (fin a) (fin b) = fin d₀ ∧
      (ρ ^ 2 ≤ a ^ 2 + b ^ 2 → c = c₀ ∧ d = d₀) ∧
      c ≤ c₀ ∧ d₀ ≤ d ∧ c₀ - c ≤ Real.sqrt (ρ ^ 3) / 2 ∧ d - d₀ ≤ Real.sqrt (ρ ^ 3) / 2 ∧
      (a ^ 2 + b ^ 2 < ρ ^ 2 → c < c₀ ∧ d₀ < d) := by
  have hz : (8 : ℝ) * ρ ≠ 0 := by positivity
  set u := a ^ 2 + b ^ 2 with hu
  set s := u - ρ ^ 2 with hs
  set v := 1 / (8 * ρ) * s * (s - |s|) with hv
  have hu0 : 0 ≤ u := by positivity
  have hv0 : 0 ≤ v := by
    rw [hv, mul_assoc]
    refine mul_nonneg (by positivity) ?_
    rcases le_total 0 s with h | h
    · rw [abs_of_nonneg h]; simp
    · rw [abs_of_nonpos h]; nlinarith
  have hv1 : ρ ^ 2 ≤ u → v = 0 := by
    intro h
    have : 0 ≤ s := by linarith
    rw [hv, abs_of_nonneg this]; ring
  have hv2 : v ≤ ρ ^ 3 / 4 := by
    rcases le_total 0 s with h | h
    · rw [hv1 (by linarith)]; positivity
    · rw [hv, abs_of_nonpos h]
      have h1 : s ^ 2 ≤ (ρ ^ 2) ^ 2 := by
        apply sq_le_sq'
        · rw [hs]; linarith
        · nlinarith [sq_nonneg ρ]
      rw [show 1 / (8 * ρ) * s * (s - -s) = s ^ 2 / (4 * ρ) by field_simp; ring, div_le_iff₀ (by positivity)]
      nlinarith
  have hv3 : u < ρ ^ 2 → 0 < v := by
    intro h
    have h0 : s < 0 := by linarith
    rw [hv, abs_of_neg h0, show 1 / (8 * ρ) * s * (s - -s) = s ^ 2 / (4 * ρ) by field_simp; ring]
    exact div_pos (by nlinarith) (by positivity)
  have e1 : Real.sqrt u ≤ Real.sqrt (u + v) := Real.sqrt_le_sqrt (by linarith)
  have e2 : Real.sqrt (u + v) - Real.sqrt u ≤ Real.sqrt (ρ ^ 3) / 2 := by
    have h1 : Real.sqrt (u + v) ≤ Real.sqrt u + Real.sqrt v := by
      rw [Real.sqrt_le_iff]
      refine ⟨by positivity, ?_⟩
      nlinarith [Real.sq_sqrt hu0, Real.sq_sqrt hv0, Real.sqrt_nonneg u, Real.sqrt_nonneg v]
    have h2 : Real.sqrt v ≤ Real.sqrt (ρ ^ 3) / 2 := by
      rw [show Real.sqrt (ρ ^ 3) / 2 = Real.sqrt (ρ ^ 3 / 4) by
        rw [Real.sqrt_div (by positivity), show (4 : ℝ) = 2 ^ 2 by norm_num,
          Real.sqrt_sq (by norm_num)]]
      exact Real.sqrt_le_sqrt hv2
    linarith
  refine ⟨a + b - Real.sqrt (u + v), a + b + Real.sqrt (u + v), a + b - Real.sqrt u,
    a + b + Real.sqrt u, ?_, ?_, ?_, ?_, ?_, by linarith, by linarith, by linarith, by linarith, ?_⟩
  · show RhoBlending.conj ρ _ _ = _
    simp only [RhoBlending.conj, one_eq, lit_eq, fin_npow, fin_add, fin_sub, fin_mul, fin_div _ hz, fin_abs]
    rw [fin_sqrt (by rw [← hu, ← hs, ← hv]; positivity), fin_sub]
  · show RhoBlending.disj ρ _ _ = _
    simp only [RhoBlending.disj, one_eq, lit_eq, fin_npow, fin_add, fin_sub, fin_mul, fin_div _ hz, fin_abs]
    rw [fin_sqrt (by rw [← hu, ← hs, ← hv]; positivity), fin_add]
  · show RAlpha.conj 0 _ _ = _
    rw [RAlpha.conj_fin (by norm_num) (by norm_num)]
    norm_num [hu]
  · show RAlpha.disj 0 _ _ = _
    rw [RAlpha.disj_fin (by norm_num) (by norm_num)]
    norm_num [hu]
  · intro h; rw [hv1 h, add_zero]; exact ⟨rfl, rfl⟩
  · intro h
    have := Real.sqrt_lt_sqrt hu0 (by linarith [hv3 h] : u < u + v)
    exact ⟨by linarith, by linarith⟩

example : (0 : ℝ) < 1 / 2 ∧ (0.1 : ℝ) ^ 2 + 0.2 ^ 2 < (1 / 2) ^ 2 := by norm_num

/-! ## C07 -/

/-- All systems of the module, without restriction on their parameters except those of the constructors. -/
inductive AnySystem : RFun → Prop
  | ralpha (α : ℝ) (S : RFun) (h : RAlpha α = .ok S) : AnySystem S
  | rp (p : ℤ) (h : RP p = .ok p) : AnySystem (RP.sys p)
  | ralpham (m α : ℝ) (S : RFun) (h : RAlphaM m α = .ok S) : AnySystem S
  | rho (ρ : ℝ) : AnySystem (RhoBlending ρ)

theorem AnySystem.laws {S : RFun} (h : AnySystem S) :
    (∀ a b, S.conj a b = S.conj b a) ∧ (∀ a b, S.disj a b = -S.conj (-a) (-b)) := by
  have swap (c a b : XR) : c * a * b = c * b * a := by rw [mul_assoc', mul_comm' a, ← mul_assoc']
  cases h with
  | ralpha α _ h =>
    obtain ⟨rfl, -⟩ := ralpha_ok h
    refine ⟨fun a b => ?_, RAlpha.disj_dual α⟩
    simp only [RAlpha.sys, RAlpha.conj]
    rw [add_comm a b, add_comm (a ^ 2), swap _ a b]
  | rp p h =>
    refine ⟨fun a b => ?_, RP.disj_dual ?_⟩
    · simp only [RP.sys, RP.conj]
      rw [add_comm a b, add_comm (zpow a p)]
    · unfold RP at h; split at h <;> [assumption; cases h]
  | ralpham m α _ h =>
    unfold RAlphaM at h
    split at h
    swap
    · cases h
    cases h
    refine ⟨fun a b => ?_, RAlphaM.disj_dual m α⟩
    simp only [RAlphaM.sys, RAlphaM.conj]
    rw [add_comm a b, add_comm (a ^ 2), swap _ a b]
  | rho ρ =>
    refine ⟨fun a b => ?_, RhoBlending.disj_dual ρ⟩
    simp only [RhoBlending, RhoBlending.conj]
    rw [add_comm a b, add_comm (a ^ 2)]

/-- C07. Exact algebraic laws, as equalities of functions on all points (also where values are not
finite), for all systems of the module. -/
theorem C07_set_operation_laws {n : ℕ} (S : RFun) (hS : AnySystem S) (f g : ADF n) :
    S.union f g = S.union g f ∧
    S.intersection f g = S.intersection g f ∧
    S.negate (S.negate f) = f ∧
    S.negate (S.union f g) = S.intersection (S.negate f) (S.negate g) ∧
    S.negate (S.intersection f g) = S.union (S.negate f) (S.negate g) ∧
    S.difference f g = S.intersection f (S.negate g) ∧
    S.implication f g = S.union (S.negate f) g ∧
    S.xor f g = S.negate (S.equivalence f g) ∧
    S.xor f g = S.union (S.difference f g) (S.difference g f) ∧
    S.equivalence f g = S.equivalence g f := by
  obtain ⟨hc, hd⟩ := hS.laws
  have hdc (a b : XR) : S.disj a b = S.disj b a := by rw [hd, hc, ← hd]
  have hn (a b : XR) : -S.conj a b = S.disj (-a) (-b) := by rw [hd, neg_neg, neg_neg]
  have hn' (a b : XR) : -S.disj a b = S.conj (-a) (-b) := by rw [hd, neg_neg]
  refine ⟨?_, ?_, ?_, ?_, ?_, rfl, rfl, ?_, ?_, ?_⟩ <;> funext x
  · exact hdc _ _
  · exact hc _ _
  · exact neg_neg _
  · exact hn' _ _
  · exact hn _ _
  · show S.disj (S.conj _ (- _)) (S.conj (- _) _) = -S.conj (S.disj _ (- _)) (S.disj (- _) _)
    rw [hn, hn', hn', neg_neg, neg_neg, hdc]
  · show S.disj (S.conj (f x) (-g x)) (S.conj (-f x) (g x)) =
      S.disj (S.conj (f x) (-g x)) (S.conj (g x) (-f x))
    rw [hc (-f x)]
  · show S.conj (S.disj (f x) (-g x)) (S.disj (-f x) (g x)) =
      S.conj (S.disj (g x) (-f x)) (S.disj (-g x) (f x))
    rw [hdc (f x), hdc (-f x), hc]

example : AnySystem (RhoBlending 1) := .rho 1

end Verif
