import Verif.Props.UniformLine
import Verif.Props.RSystems
import Verif.Props.Box
import Verif.Props.QuatExp
import Verif.Props.BoxNormal
import Verif.Props.Round
import Mathlib.Analysis.Convex.StdSimplex
import Mathlib.LinearAlgebra.LinearIndependent.Lemmas

/-! # Exact conditions for properties which hold in part only: C03, C28, C29, C31, C37, C38, C39, C40, C42 -/

namespace Verif

open XR Topology

/-! ## C03 -/

/-- **C03, exact**. Among the accepted `p` other than zero the sign law holds exactly for the positive ones. -/
theorem C03_exact (p : ℤ) (hp : RP p = .ok p) (h0 : p ≠ 0) : SignLaw (RP.sys p).conj (RP.sys p).disj ↔ 0 < p := by
  have hp2 : p % 2 = 0 := by
    unfold RP at hp; split at hp <;> [assumption; cases hp]
  constructor
  · intro h
    by_contra hneg
    obtain ⟨q, hq, hq1⟩ : ∃ q : ℕ, p = Int.negSucc q ∧ (q + 1) % 2 = 0 :=
      ⟨(-p).toNat - 1, by rw [Int.negSucc_eq]; omega, by omega⟩
    subst hq
    have hpow : ((-1 : ℝ)) ^ (q + 1) = 1 := Even.neg_one_pow (Nat.even_iff.mpr hq1)
    have hbase : (1 : ℝ) ≤ 1 / 10 ^ (q + 1) + 1 / (-1) ^ (q + 1) := by
      rw [hpow, div_one]
      have : (0 : ℝ) < 1 / 10 ^ (q + 1) := by positivity
      linarith
    have key : (RP.sys (Int.negSucc q)).conj (fin 10) (fin (-1)) =
        fin (9 - ((1 / 10 ^ (q + 1) + 1 / (-1) ^ (q + 1) : ℝ)) ^ (1 / ((Int.negSucc q : ℤ) : ℝ))) := by
      show fin 10 + fin (-1) - rpow (1 / fin 10 ^ (q + 1) + 1 / fin (-1) ^ (q + 1)) _ = _
      simp only [fin_npow, one_eq, fin_add]
      rw [fin_div _ (by positivity), fin_div _ (by rw [hpow]; norm_num), fin_add, fin_rpow (zero_lt_one.trans_le hbase),
        fin_sub]
      norm_num
    have hle : ((1 / 10 ^ (q + 1) + 1 / (-1) ^ (q + 1) : ℝ)) ^ (1 / ((Int.negSucc q : ℤ) : ℝ)) ≤ 1 := by
      refine Real.rpow_le_one_of_one_le_of_nonpos hbase ?_
      rw [Int.cast_negSucc]
      have : (0 : ℝ) < ((q + 1 : ℕ) : ℝ) := by positivity
      rw [one_div, inv_nonpos]
      linarith
    obtain ⟨c, h1, h2⟩ := h.and_sign 10 (-1)
    rw [key] at h1
    have h3 := fin_inj.mp h1
    rw [← h3, sign_pos (by linarith), sign_pos (by norm_num : (0 : ℝ) < 10),
      sign_neg (by norm_num : (-1 : ℝ) < 0)] at h2
    revert h2; decide
  · intro h
    exact C03_rp_sign_law_partial p hp (by omega)

/-- `RP(-4)` breaks the law, `RP(6)` obeys it. -/
example : ¬ SignLaw (RP.sys (-4)).conj (RP.sys (-4)).disj ∧ SignLaw (RP.sys 6).conj (RP.sys 6).disj :=
  ⟨fun h => absurd ((C03_exact (-4) (by decide) (by decide)).mp h) (by decide),
    (C03_exact 6 (by decide) (by decide)).mpr (by decide)⟩

/-! ## C28, C29 -/

section
open Quat Quaternion

/-- **C28, exact**. For `q ≠ 0`, `exp(log q) = q` holds exactly if vector part and angle exceed `eps`, or `q` is a positive real
number. -/
theorem C28_exact (eps : ℝ) (he : 0 < eps) (q : ℍ[ℝ]) (hq : q ≠ 0) :
    Quat.exp eps (Quat.log eps (ofH q)) = ofH q ↔ (eps < ‖q.im‖ ∧ eps < angleH q) ∨ (q.im = 0 ∧ 0 < q.re) := by
  have hr : 0 < ‖q‖ := norm_pos_iff.mpr hq
  constructor
  · intro h
    rcases le_or_gt ‖q.im‖ eps with h1 | h1
    · right
      have hs : Quat.exp eps (Quat.log eps (ofH q)) = ofH ((‖q‖ : ℝ) : ℍ[ℝ]) := by
        rw [log_small hq h1, coe_eq_axial, exp_axial he e0_unit _ (.inr rfl), Real.exp_log hr, polar_eq_axial]
        simp [coe_eq_axial]
      rw [hs] at h
      have e := ofH_injective h
      rw [← e]
      exact ⟨Quaternion.im_coe _, by simpa using hr⟩
    · left
      refine ⟨h1, ?_⟩
      by_contra h2
      push Not at h2
      obtain ⟨u, hu, hu'⟩ := exists_direction (he.trans h1)
      rw [log_big he h1 hu', exp_small hu _ (by rwa [abs_of_nonneg (show 0 ≤ angleH q from Real.arccos_nonneg _)])] at h
      have e := ofH_injective h
      rw [← e, Quaternion.im_coe, norm_zero] at h1
      linarith
  · rintro (⟨h1, h2⟩ | ⟨h1, h2⟩)
    · exact (C28_exp_log_partial eps he q hq).1 h1 h2
    · exact (C28_exp_log_partial eps he q hq).2.1 h1 h2

/-- **C29, exact**. For `q ≠ 0` all integer powers agree with repeated multiplication exactly under the same condition; already
the first power fails otherwise. -/
theorem C29_exact (eps : ℝ) (he : 0 < eps) (q : ℍ[ℝ]) (hq : q ≠ 0) :
    ((∀ n : ℤ, Quat.pow eps (ofH q) (fin n) = ofH (q ^ n)) ↔
      (eps < ‖q.im‖ ∧ eps < angleH q) ∨ (q.im = 0 ∧ 0 < q.re)) ∧
    (Quat.pow eps (ofH q) (fin (1 : ℤ)) = ofH q ↔ (eps < ‖q.im‖ ∧ eps < angleH q) ∨ (q.im = 0 ∧ 0 < q.re)) := by
  have h1 : Quat.pow eps (ofH q) (fin (1 : ℤ)) = Quat.exp eps (Quat.log eps (ofH q)) := by
    have : ∃ p : ℍ[ℝ], Quat.log eps (ofH q) = ofH p := by
      rcases le_or_gt ‖q.im‖ eps with h1 | h1
      · exact ⟨_, log_small hq h1⟩
      · obtain ⟨u, hu, hu'⟩ := exists_direction (he.trans h1)
        exact ⟨_, log_big he h1 hu'⟩
    obtain ⟨p, hp⟩ := this
    rw [Quat.pow, hp, mulScalar_ofH, Int.cast_one, one_smul]
  refine ⟨⟨fun h => ?_, fun h n => C29_pow_partial eps he q hq h n⟩, by rw [h1, C28_exact eps he q hq]⟩
  have := h 1
  rw [h1, zpow_one, C28_exact eps he q hq] at this
  exact this

/-- The quaternion `-1` is not recovered. -/
example : Quat.exp (2⁻¹ ^ 23) (Quat.log (2⁻¹ ^ 23) (ofH (-1 : ℍ[ℝ]))) ≠ ofH (-1 : ℍ[ℝ]) := by
  intro h
  rw [C28_exact _ (by positivity) _ (by simp)] at h
  rcases h with ⟨h, -⟩ | ⟨-, h⟩
  · simp at h
    norm_num at h
  · norm_num at h

end

/-! ## C31 -/

/-- **C31, exact**. For a box with positive side lengths the transformed sample lies in the box exactly if no coordinate of the
sample is negative. -/
theorem C31_exact {n : ℕ} (lb ub : Fin n → ℝ) (h : ∀ i, lb i < ub i) (u : Fin n → ℝ) :
    (∃ p : Fin n → ℝ, Hypercube.transform ⟨vfin lb, vfin ub⟩ (vfin u) = vfin p ∧ ∀ i, lb i ≤ p i ∧ p i ≤ ub i) ↔
      ∀ i, 0 ≤ u i := by
  refine ⟨fun ⟨p, hp, hin⟩ i => ?_, (C31_hypercube_transform_partial lb ub fun i => (h i).le).1 u⟩
  by_contra hneg
  push Not at hneg
  obtain ⟨c, hc, hlt⟩ := C31_negative_sample_counterexample lb ub u i (h i) hneg
  rw [hp, vfin_apply, fin_inj] at hc
  linarith [(hin i).1]

/-- The unit square. -/
example : ¬ ∃ p : Fin 2 → ℝ, Hypercube.transform ⟨vfin ![0, 0], vfin ![1, 1]⟩ (vfin ![-1 / 4, 1 / 2]) = vfin p ∧
    ∀ i, (![0, 0] : Fin 2 → ℝ) i ≤ p i ∧ p i ≤ (![1, 1] : Fin 2 → ℝ) i := by
  rw [C31_exact _ _ (fun i => by fin_cases i <;> simp)]
  intro h
  have := h 0
  norm_num at this

/-! ## C37, C38 -/

/-- **C37, exact**. `Hypercube.normal_vec` returns normals exactly if SOME sample is in the box within tolerance and EVERY sample
touches a lower or an upper side, but not lower and upper sides at once. -/
theorem C37_exact {n : ℕ} (lb ub : Fin n → ℝ) (rtol atol : ℝ) (xs : List (Fin n → ℝ)) :
    Hypercube.normalVec ⟨vfin lb, vfin ub⟩ rtol atol (xs.map vfin) ≠ none ↔
      (∃ x ∈ xs, ∀ i, lb i - (atol + rtol * |lb i|) < x i ∧ x i < ub i + (atol + rtol * |ub i|)) ∧
      ∀ x ∈ xs, (∃ i, Close rtol atol (x i) (lb i) ∨ Close rtol atol (x i) (ub i)) ∧
        ((∀ i, ¬ Close rtol atol (x i) (lb i)) ∨ ∀ i, ¬ Close rtol atol (x i) (ub i)) := by
  classical
  choose v hv1 hv2 hv3 using candidate_cases lb ub rtol atol
  have hmap : (xs.map vfin).map (Hypercube.candidate ⟨vfin lb, vfin ub⟩ rtol atol) = (xs.map v).map vfin := by
    rw [List.map_map, List.map_map]
    exact List.map_congr_left fun x _ => hv1 x
  have hin : (∃ y ∈ xs.map vfin, Hypercube.inDomain ⟨vfin lb, vfin ub⟩ rtol atol y) ↔
      ∃ x ∈ xs, ∀ i, lb i - (atol + rtol * |lb i|) < x i ∧ x i < ub i + (atol + rtol * |ub i|) := by
    simp only [List.mem_map, exists_exists_and_eq_and, Hypercube.inDomain, vfin_apply, fin_abs, fin_mul, fin_add, fin_sub,
      fin_lt]
  have hall : (∀ w ∈ (xs.map v).map vfin, vnorm w = 1) ↔
      ∀ x ∈ xs, (∃ i, Close rtol atol (x i) (lb i) ∨ Close rtol atol (x i) (ub i)) ∧
        ((∀ i, ¬ Close rtol atol (x i) (lb i)) ∨ ∀ i, ¬ Close rtol atol (x i) (ub i)) := by
    simp only [List.mem_map, exists_exists_and_eq_and, forall_exists_index, and_imp, forall_apply_eq_imp_iff₂]
    refine forall₂_congr fun x _ => ⟨fun h => ⟨?_, (hv2 x h).2⟩, fun h => hv3 x h.1 h.2⟩
    obtain ⟨i, ⟨-, h⟩ | ⟨-, h⟩⟩ := (hv2 x h).1
    · exact ⟨i, .inr h⟩
    · exact ⟨i, .inl h⟩
  rw [Hypercube.normalVec, hmap, ← hin, ← hall]
  by_cases h1 : ∃ y ∈ xs.map vfin, Hypercube.inDomain ⟨vfin lb, vfin ub⟩ rtol atol y
  · rw [if_neg (not_not.mpr h1)]
    by_cases h2 : ∀ w ∈ (xs.map v).map vfin, vnorm w = 1
    · rw [if_pos h2]; exact ⟨fun _ => ⟨h1, h2⟩, fun _ h => by cases h⟩
    · rw [if_neg h2]; exact ⟨fun h => absurd rfl h, fun h => absurd h.2 h2⟩
  · rw [if_pos h1]; exact ⟨fun h => absurd rfl h, fun h => absurd h.1 h1⟩

example : Hypercube.normalVec ⟨vfin ![0, 0], vfin ![1, 1]⟩ 0 (1 / 100) ([![0, 1 / 2]].map vfin) ≠ none := by
  rw [C37_exact]
  refine ⟨⟨![0, 1 / 2], by simp, fun i => by fin_cases i <;> norm_num⟩, fun x hx => ?_⟩
  obtain rfl : x = ![0, 1 / 2] := by simpa using hx
  refine ⟨⟨0, Or.inl (by norm_num [Close])⟩, Or.inr fun i => ?_⟩
  fin_cases i <;> norm_num [Close, abs_of_nonneg, abs_of_neg]

/-- **C38, exact**. For a batch of `N ≥ 2` samples in dimension `d` on the sphere within tolerance, `_Spherical.normal_vec` returns
the normals exactly if `N = d` and every sample is at the centre's level in coordinate `i` or as far from the centre as the `i`-th
sample. -/
theorem C38_exact {d N : ℕ} {r rtol atol : ℝ} (htol : atol + rtol * |r| < r) (hN : N ≠ 1) (o : Fin d → ℝ)
    (x : Fin N → Fin d → ℝ) (hx : ∀ k, OnSphere rtol atol r o (x k)) :
    (∃ v : Fin N → Fin d → ℝ, spherical.normalVecBatch (fin r) (vfin o) rtol atol (fun k => vfin (x k)) =
        .ok (some fun k => vfin (v k)) ∧ ∀ k, IsRadialNormal o (x k) (v k)) ↔
      ∃ h : d = N, ∀ k i, x k i = o i ∨ edist2 (x k) o = edist2 (x (i.cast h)) o := by
  have hclose (k : Fin N) : isclose rtol atol (vnorm fun i => vfin (x k) i - vfin o i) (fin r) := by
    rw [vnorm_sub_fin]
    simpa [isclose, OnSphere] using hx k
  have hpos (k : Fin N) : 0 < edist2 (x k) o := by
    have := (abs_le.mp (hx k)).1; linarith
  rw [spherical.normalVecBatch, if_neg (not_not.mpr hclose)]
  by_cases hd : N = d
  · subst hd
    rw [dif_pos rfl]
    have e : (fun (k : Fin N) (i : Fin N) => (vfin (x k) i - vfin o i) /
        vnorm fun j => vfin (x (i.cast rfl)) j - vfin o j) =
        fun k => vfin fun i => (x k i - o i) / edist2 (x i) o := by
      funext k i
      rw [vnorm_sub_fin]
      simp [fin_div _ (hpos i).ne']
    show (∃ v : Fin N → Fin N → ℝ, Except.ok (some fun (k : Fin N) (i : Fin N) => (vfin (x k) i - vfin o i) /
        vnorm fun j => vfin (x (i.cast rfl)) j - vfin o j) = Except.ok (some fun k => vfin (v k)) ∧ _) ↔ _
    rw [e]
    constructor
    · rintro ⟨v, hv, hn⟩
      refine ⟨rfl, fun k i => ?_⟩
      have h1 := congrFun (congrFun (Option.some.inj (Except.ok.inj hv)) k) i
      simp only [vfin_apply, fin_inj] at h1
      have h2 := (hn k).2 i
      rw [← h1] at h2
      by_cases h0 : x k i = o i
      · exact .inl h0
      · right
        have h3 : x k i - o i ≠ 0 := sub_ne_zero.mpr h0
        rw [Fin.cast_refl, id]
        have := (hpos i).ne'
        field_simp at h2
        exact h2.symm
    · rintro ⟨_, h⟩
      have e2 (k) : (fun i => (x k i - o i) / edist2 (x i) o) = fun i => (x k i - o i) / edist2 (x k) o := by
        funext i
        rcases h k i with h | h
        · rw [h]; simp
        · rw [h]; rfl
      refine ⟨_, rfl, fun k => ?_⟩
      rw [e2]
      exact isRadialNormal_div (hpos k)
  · rw [dif_neg hd, dif_neg hN]
    constructor
    · rintro ⟨v, hv, -⟩
      cases hv
    · rintro ⟨h, -⟩
      exact absurd h.symm hd

/-- Two points of the plane, one on the circle, one only within tolerance: the normals are wrong. -/
example : ¬ ∃ v : Fin 2 → Fin 2 → ℝ, spherical.normalVecBatch (fin 1) (vfin ![0, 0]) (1 / 10) (1 / 10)
    (fun k => vfin ((![![1, 0], ![11 / 10, 0]] : Fin 2 → Fin 2 → ℝ) k)) = .ok (some fun k => vfin (v k)) ∧
    ∀ k, IsRadialNormal ![0, 0] ((![![1, 0], ![11 / 10, 0]] : Fin 2 → Fin 2 → ℝ) k) (v k) := by
  have h1 : edist2 ![1, 0] ![0, 0] = 1 := by
    rw [edist2_two]
    show √(((1 : ℝ) - 0) ^ 2 + (0 - 0) ^ 2) = 1
    norm_num
  have h2 : edist2 ![11 / 10, 0] ![0, 0] = 11 / 10 := by
    rw [edist2_two]
    show √(((11 / 10 : ℝ) - 0) ^ 2 + (0 - 0) ^ 2) = 11 / 10
    rw [Real.sqrt_eq_iff_mul_self_eq_of_pos (by norm_num)]; norm_num
  rw [C38_exact (by norm_num) (by norm_num)]
  · rintro ⟨_, h⟩
    rcases h 1 0 with h | h
    · have : (11 / 10 : ℝ) = 0 := h
      norm_num at this
    · have : edist2 ![11 / 10, 0] ![0, 0] = edist2 ![1, 0] ![0, 0] := h
      rw [h1, h2] at this
      norm_num at this
  · intro k
    fin_cases k
    · show OnSphere _ _ _ _ ![1, 0]
      rw [OnSphere, h1]; norm_num
    · show OnSphere _ _ _ _ ![11 / 10, 0]
      rw [OnSphere, h2]; norm_num [abs_of_pos]

/-! ## C39 -/

theorem inTriangle_closed {d : ℕ} (a b c : Fin d → ℝ) : IsClosed {p | InTriangle a b c p} := by
  have : {p | InTriangle a b c p} = (fun w : Fin 3 → ℝ => w 0 • a + w 1 • b + w 2 • c) '' stdSimplex ℝ (Fin 3) := by
    ext p
    constructor
    · rintro ⟨α, β, γ, h1, h2, h3, h4, h5⟩
      refine ⟨![α, β, γ], ⟨fun i => by fin_cases i <;> assumption, by simp [Fin.sum_univ_three, h4]⟩, ?_⟩
      funext i
      simp [h5 i]
    · rintro ⟨w, ⟨h1, h2⟩, rfl⟩
      refine ⟨w 0, w 1, w 2, h1 0, h1 1, h1 2, by rw [← h2, Fin.sum_univ_three], fun i => by simp⟩
  rw [this]
  exact ((isCompact_stdSimplex ℝ (Fin 3)).image (by fun_prop)).isClosed

theorem fold_self {x : Fin 2 → ℝ} (h0 : 0 ≤ x 0 ∧ x 0 < 1) (h1 : 0 ≤ x 1 ∧ x 1 < 1) (h : x 0 + x 1 ≤ 1) :
    transformTriangle.fold (vfin x) = vfin x := by
  have f0 : Int.fract (x 0) = x 0 := Int.fract_eq_self.mpr h0
  have f1 : Int.fract (x 1) = x 1 := Int.fract_eq_self.mpr h1
  have e : (fun i => mod1 (vfin x i) : Vec 2) = vfin x := by
    funext i
    rw [vfin_apply, fin_mod1]
    fin_cases i
    · exact congrArg fin f0
    · exact congrArg fin f1
  rw [transformTriangle.fold, e, if_neg]
  simp only [vfin_apply, fin_abs, fin_add, one_eq, fin_lt, abs_of_nonneg h0.1, abs_of_nonneg h1.1]
  exact not_lt.mpr h

/-- **C39, exact**. In the plane all samples are sent into the triangle exactly if the two points
`(b₀ + c₀ - a₀, a₁)` and `(a₀, b₁ + c₁ - a₁)` lie in it: the samples fill the triangle of these points and `a`. -/
theorem C39_exact (a b c : Fin 2 → ℝ) :
    (∀ x : Fin 2 → ℝ, ∃ p : Fin 2 → ℝ, transformTriangle (vfin x) (vfin a) (vfin b) (vfin c) = .ok [fin (p 0), fin (p 1)] ∧
      InTriangle a b c p) ↔
    InTriangle a b c ![b 0 + c 0 - a 0, a 1] ∧ InTriangle a b c ![a 0, b 1 + c 1 - a 1] := by
  constructor
  · intro h
    have key : ∀ (k : Fin 2) (t : ℝ), 0 ≤ t → t < 1 →
        InTriangle a b c fun i => a i + (if i = k then t else 0) * (b i + c i - 2 * a i) := by
      intro k t ht0 ht1
      set x : Fin 2 → ℝ := fun i => if i = k then t else 0 with hx
      have hx0 : ∀ i, 0 ≤ x i ∧ x i < 1 := by
        intro i
        simp only [hx]
        split
        · exact ⟨ht0, ht1⟩
        · norm_num
      have hsum : x 0 + x 1 ≤ 1 := by
        fin_cases k <;> simp [hx] <;> linarith
      obtain ⟨p, h1, h2⟩ := h x
      obtain ⟨w, -, hw, h3⟩ := triangle_fin x a b c
      rw [fold_self (hx0 0) (hx0 1) hsum] at hw
      have hwx : ∀ i, w i = x i := fun i => (fin_inj.mp (congrFun hw i)).symm
      rw [h3] at h1
      have h4 := Except.ok.inj h1
      simp only [List.cons.injEq, and_true, fin_inj] at h4
      have : p = fun i => a i + x i * (b i + c i - 2 * a i) := by
        funext i
        fin_cases i
        · show p 0 = a 0 + x 0 * (b 0 + c 0 - 2 * a 0)
          rw [← h4.1, hwx]; ring
        · show p 1 = a 1 + x 1 * (b 1 + c 1 - 2 * a 1)
          rw [← h4.2, hwx]; ring
      rw [← this]
      exact h2
    have lim : ∀ k : Fin 2, InTriangle a b c fun i => a i + (if i = k then 1 else 0) * (b i + c i - 2 * a i) := by
      intro k
      have ht : Filter.Tendsto (fun t : ℝ => fun i => a i + (if i = k then t else 0) * (b i + c i - 2 * a i)) (𝓝[<] 1)
          (𝓝 fun i => a i + (if i = k then 1 else 0) * (b i + c i - 2 * a i)) := by
        refine tendsto_nhdsWithin_of_tendsto_nhds (Continuous.tendsto ?_ 1)
        refine continuous_pi fun i => ?_
        by_cases hik : i = k <;> simp only [hik, if_true, if_false] <;> fun_prop
      refine (inTriangle_closed a b c).mem_of_tendsto ht ?_
      filter_upwards [Ioo_mem_nhdsLT (zero_lt_one (α := ℝ))] with t ht
      exact key k t ht.1.le ht.2
    constructor
    · have := lim 0
      convert this using 1
      funext i
      fin_cases i <;> simp; ring
    · have := lim 1
      convert this using 1
      funext i
      fin_cases i <;> simp; ring
  · rintro ⟨⟨α, β, γ, p1, p2, p3, p4, p5⟩, ⟨α', β', γ', q1, q2, q3, q4, q5⟩⟩ x
    obtain ⟨w, ⟨h0, h1, h2⟩, -, hw⟩ := triangle_fin x a b c
    refine ⟨![_, _], hw, ?_⟩
    have e0 := p5 0
    have e1 := p5 1
    have e2 := q5 0
    have e3 := q5 1
    simp at e0 e1 e2 e3
    refine ⟨1 - w 0 - w 1 + w 0 * α + w 1 * α', w 0 * β + w 1 * β', w 0 * γ + w 1 * γ', ?_, by positivity, by positivity,
      by linear_combination w 0 * p4 + w 1 * q4, fun i => ?_⟩
    · have : 0 ≤ 1 - w 0 - w 1 := by linarith
      positivity
    · fin_cases i
      · simp
        linear_combination w 0 * e0 + w 1 * e2
      · simp
        linear_combination w 0 * e1 + w 1 * e3

/-- A right triangle with horizontal and vertical legs of different orientation, and one for which the condition fails. -/
example : ∀ x : Fin 2 → ℝ, ∃ p : Fin 2 → ℝ, transformTriangle (vfin x) (vfin ![0, 0]) (vfin ![0, 1]) (vfin ![-2, 0]) =
    .ok [fin (p 0), fin (p 1)] ∧ InTriangle ![0, 0] ![0, 1] ![-2, 0] p :=
  (C39_exact ![0, 0] ![0, 1] ![-2, 0]).mpr
    ⟨⟨0, 0, 1, le_rfl, le_rfl, zero_le_one, by norm_num, fun i => by fin_cases i <;> simp⟩,
      ⟨0, 1, 0, le_rfl, zero_le_one, le_rfl, by norm_num, fun i => by fin_cases i <;> simp⟩⟩

/-! ## C40 -/

/-- **C40, exact**. On a polyline of positive length the returned point is the arc length point, or anything finite at all, unless
the first segment has length zero and `s` is an integer. -/
theorem C40_exact {d m : ℕ} (hd : 0 < d) (line : Fin (m + 2) → Fin d → ℝ) (hL : 0 < polyLen line) (s : ℝ) :
    ((∃ p : Fin d → ℝ, transformPolyline (fin s) (fun j => vfin (line j)) = vfin p) ↔
      ¬ (segLen line 0 = 0 ∧ Int.fract s = 0)) ∧
    ((∃ p : Fin d → ℝ, transformPolyline (fin s) (fun j => vfin (line j)) = vfin p ∧
      IsArcPoint line (Int.fract s * polyLen line) p) ↔ ¬ (segLen line 0 = 0 ∧ Int.fract s = 0)) := by
  have hno : ∀ p : Fin d → ℝ, transformPolyline (fin s) (fun j => vfin (line j)) = vfin p →
      ¬ (segLen line 0 = 0 ∧ Int.fract s = 0) := by
    rintro p hp ⟨h1, h2⟩
    obtain ⟨n, rfl⟩ := Int.fract_eq_zero_iff.mp h2
    have := C40_polyline_counterexample line h1 n
    rw [hp] at this
    have := congrFun this ⟨0, hd⟩
    simp at this
  have hyes : ¬ (segLen line 0 = 0 ∧ Int.fract s = 0) → ∃ p : Fin d → ℝ,
      transformPolyline (fin s) (fun j => vfin (line j)) = vfin p ∧ IsArcPoint line (Int.fract s * polyLen line) p :=
    fun h => C40_polyline_partial line hL s (not_and_or.mp h)
  exact ⟨⟨fun ⟨p, hp⟩ => hno p hp, fun h => let ⟨p, hp, _⟩ := hyes h; ⟨p, hp⟩⟩,
    ⟨fun ⟨p, hp, _⟩ => hno p hp, hyes⟩⟩

/-! ## C42 -/

theorem affine_nonneg {p q : ℝ} (h : ∀ τ, 0 < τ → τ < 1 → 0 ≤ p + q * τ) : 0 ≤ p ∧ 0 ≤ p + q := by
  have hc : IsClosed {τ : ℝ | 0 ≤ p + q * τ} := isClosed_le continuous_const (by fun_prop)
  have hs : Set.Icc (0 : ℝ) 1 ⊆ {τ : ℝ | 0 ≤ p + q * τ} := by
    rw [← closure_Ioo (zero_ne_one (α := ℝ))]
    exact hc.closure_subset_iff.mpr fun τ hτ => h τ hτ.1 hτ.2
  constructor
  · have := hs ⟨le_rfl, zero_le_one⟩
    simpa using this
  · have := hs ⟨zero_le_one, le_rfl⟩
    simpa using this

/-- Every inner point of a segment of positive length is reached. -/
theorem exists_segPoint {d m : ℕ} (line : Fin (m + 2) → Fin d → ℝ) {k : Fin (m + 1)} (hk : 0 < segLen line k) {τ : ℝ}
    (h0 : 0 < τ) (h1 : τ < 1) : ∃ s : ℝ, transformPolyline (fin s) (fun j => vfin (line j)) = vfin (segPoint line k τ) := by
  have hle := segStart_add_le line k
  have hst := segStart_nonneg line k
  have hL : 0 < polyLen line := by linarith
  set t := segStart line k + τ * segLen line k with ht
  have ht0 : 0 < t := by positivity
  have htL : t < polyLen line := by nlinarith
  have hfr : Int.fract (t / polyLen line) = t / polyLen line :=
    Int.fract_eq_self.mpr ⟨by positivity, (div_lt_one hL).mpr htL⟩
  obtain ⟨p, hp, harc⟩ := C40_polyline_partial line hL (t / polyLen line)
    (.inr (by rw [hfr]; positivity))
  refine ⟨t / polyLen line, ?_⟩
  rw [hp]
  rw [hfr, div_mul_cancel₀ _ hL.ne'] at harc
  rw [arcPoint_unique line harc (k := k) (by rw [ht]; nlinarith) (by rw [ht]; nlinarith)]
  congr 2
  rw [ht]
  field_simp
  ring

/-- **C42, exact**. For a parallelogram which is not degenerate every parameter is sent to the boundary exactly if `a` is the
origin. -/
theorem C42_exact {d : ℕ} (a b c : Fin d → ℝ) (hind : LinearIndependent ℝ ![b - a, c - a]) :
    (∀ s : ℝ, ∃ p ∈ parBoundary a b c, Parallelogram.transformBnd ⟨a, b, c⟩ (fin s) = vfin p) ↔ a = 0 := by
  have huniq : ∀ s t : ℝ, s • (b - a) + t • (c - a) = 0 → s = 0 ∧ t = 0 := LinearIndependent.pair_iff.mp hind
  constructor
  · intro h
    set line : Fin 5 → Fin d → ℝ := ![a, a + b, a + b + c, c, a] with hline
    have hT : ∀ s, Parallelogram.transformBnd ⟨a, b, c⟩ (fin s) = transformPolyline (fin s) (m := 3) fun j => vfin (line j) := by
      intro s
      rw [Parallelogram.transformBnd]
      congr 1
      funext j
      fin_cases j <;> rfl
    have hseg : ∀ (k : Fin 4), line k.succ ≠ line k.castSucc → ∀ τ, 0 < τ → τ < 1 →
        ∃ s t : ℝ, 0 ≤ s ∧ s ≤ 1 ∧ 0 ≤ t ∧ t ≤ 1 ∧ (s = 0 ∨ s = 1 ∨ t = 0 ∨ t = 1) ∧
          segPoint (m := 3) line k τ = parPoint a b c s t := by
      intro k hk τ h0 h1
      have hpos : 0 < segLen (m := 3) line k :=
        lt_of_le_of_ne (edist2_nonneg _ _) fun h => hk (edist2_eq_zero h.symm)
      obtain ⟨s, hs⟩ := exists_segPoint (m := 3) line hpos h0 h1
      obtain ⟨p, hp, hp'⟩ := h s
      rw [hT, hs] at hp'
      have : segPoint (m := 3) line k τ = p := funext fun i => fin_inj.mp (congrFun hp' i)
      rw [this]
      exact hp
    -- the first corner in coordinates
    by_cases hc : c = 0
    · exfalso
      have hb : b ≠ 0 := by
        rintro rfl
        subst hc
        have := (huniq 1 (-1) (by simp)).1
        norm_num at this
      obtain ⟨s, t, s0, -, t0, -, -, hp⟩ := hseg 0 (by simp [hline, hb]) (1 / 2) (by norm_num) (by norm_num)
      have := huniq (s - 1 / 2) (t + 1 / 2) (by
        funext i
        have := congrFun hp i
        simp [segPoint, hline, parPoint, hc] at this
        simp [hc]
        linear_combination -this)
      linarith [this.2]
    · have hcs : line (Fin.succ (1 : Fin 4)) ≠ line (Fin.castSucc (1 : Fin 4)) := by
        intro hh
        apply hc
        funext i
        have := congrFun hh i
        simpa [hline] using this
      -- `c` is in the plane of the parallelogram
      obtain ⟨α, β, hab⟩ : ∃ α β : ℝ, a = α • (b - a) + β • (c - a) := by
        obtain ⟨s, t, -, -, -, -, -, hp⟩ := hseg 1 hcs (1 / 3) (by norm_num) (by norm_num)
        obtain ⟨s', t', -, -, -, -, -, hp'⟩ := hseg 1 hcs (2 / 3) (by norm_num) (by norm_num)
        refine ⟨3 * (s' - s), 3 * (t' - t) - 1, funext fun i => ?_⟩
        have e := congrFun hp i
        have e' := congrFun hp' i
        simp [segPoint, hline, parPoint] at e e'
        simp
        linear_combination 3 * e' - 3 * e
      have hedge : ∀ τ, 0 < τ → τ < 1 →
          0 ≤ (α + 1) + α * τ ∧ (α + 1) + α * τ ≤ 1 ∧ 0 ≤ β + (β + 1) * τ ∧ β + (β + 1) * τ ≤ 1 ∧
          ((α + 1) + α * τ = 0 ∨ (α + 1) + α * τ = 1 ∨ β + (β + 1) * τ = 0 ∨ β + (β + 1) * τ = 1) := by
        intro τ h0 h1
        obtain ⟨s, t, s0, s1, t0, t1, hor, hp⟩ := hseg 1 hcs τ h0 h1
        have := huniq (s - ((α + 1) + α * τ)) (t - (β + (β + 1) * τ)) (by
          funext i
          have e := congrFun hp i
          have ea := congrFun hab i
          simp [segPoint, hline, parPoint] at e ea
          simp
          linear_combination -e + (1 + τ) * ea)
        have e1 : (α + 1) + α * τ = s := by linarith [this.1]
        have e2 : β + (β + 1) * τ = t := by linarith [this.2]
        rw [e1, e2]
        exact ⟨s0, s1, t0, t1, hor⟩
      have hβ0 : 0 ≤ β := (affine_nonneg (p := β) (q := β + 1) fun τ h0 h1 => (hedge τ h0 h1).2.2.1).1
      have hβ1 : 0 ≤ (1 - β) + -(β + 1) :=
        (affine_nonneg (p := 1 - β) (q := -(β + 1)) fun τ h0 h1 => by linarith [(hedge τ h0 h1).2.2.2.1]).2
      have hβ : β = 0 := by linarith
      subst hβ
      have hα : α = 0 := by
        have h1 := (hedge (1 / 3) (by norm_num) (by norm_num)).2.2.2.2
        have h2 := (hedge (2 / 3) (by norm_num) (by norm_num)).2.2.2.2
        rcases h1 with h1 | h1 | h1 | h1 <;> rcases h2 with h2 | h2 | h2 | h2 <;> linarith
      rw [hab, hα]
      simp
  · rintro rfl s
    have hb : b ≠ 0 := by
      rintro rfl
      have := (huniq 1 0 (by simp)).1
      norm_num at this
    exact C42_parallelogram_bnd_partial b c hb s

/-- The square with the corner `(1, 1)` fails. -/
example : ¬ ∀ s : ℝ, ∃ p ∈ parBoundary ![1, 1] ![2, 1] ![1, 2],
    Parallelogram.transformBnd ⟨![1, 1], ![2, 1], ![1, 2]⟩ (fin s) = vfin p := by
  rw [C42_exact _ _ _ (LinearIndependent.pair_iff.mpr fun s t h => by
    have h0 := congrFun h 0
    have h1 := congrFun h 1
    norm_num at h0 h1
    exact ⟨h0, h1⟩)]
  intro h
  have := congrFun h 0
  simp at this

end Verif
