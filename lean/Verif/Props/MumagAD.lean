import Verif.Model.MumagAD
import Verif.Props.NestedAD
import Verif.Props.MumagStray
import Mathlib.Data.List.GetD

/-! # C169: the derivatives in the stray field solver of `mumag3.py` -/

namespace Verif

open XR
open scoped ContDiff Topology
open InnerProductSpace Laplacian

theorem tracked_tanh : ∀ {k : ℕ} {d : Nested k}, Tracked k d → Tracked k (ADNum.tanh d)
  | 0, _, _ => trivial
  | _ + 1, ⟨_, t⟩, h => ⟨tracked_tanh h.1, by
    have h2 : t.isSome = true := h.2
    obtain ⟨t, rfl⟩ := Option.isSome_iff_exists.mp h2
    rfl⟩

/-- What the outcomes mean for one `jvp` in direction `v`. -/
theorem NestOutcome.jvp1 {n : ℕ} {p : Prop} {F : (k : ℕ) → GADF (Nested k) n} {f : Pt n → ℝ} {x : Pt n} (h : NestOutcome p F f x)
    (v : Pt n) (z : Fin n → JVP XR) (hz : ∀ i, z i = ⟨fin (x i), some (fin (v i))⟩) :
    (p → DifferentiableAt ℝ f x ∧ JVP.tangent (α := XR) (F 1 z) = fin (fderiv ℝ f x v)) ∧
      (¬ p → JVP.tangent (α := XR) (F 1 z) = nan) := by
  obtain ⟨h1, h2⟩ := C167_derivatives p F f x h
  have e : z = seedK x (fun _ => v) 1 := funext hz
  have ht : ∀ d : Nested 1, JVP.tangent (α := XR) d = comp (fun _ => true) 1 d := fun d => by
    obtain ⟨d, _ | t⟩ := d <;> rfl
  refine ⟨fun hp => ⟨(h1 hp).1.differentiableAt (by simp), ?_⟩, fun hp => ?_⟩
  · exact (ht _).trans (e ▸ (h1 hp).2 1 (fun _ => v) fun _ => true)
  · exact (ht _).trans (e ▸ h2 hp 1 (fun _ => v) (fun _ => true) ⟨0, by norm_num, rfl⟩)

theorem unit_seed {n : ℕ} (x : Pt n) (j i : Fin n) :
    (⟨efin x i, some (if i = j then 1 else 0)⟩ : JVP XR) = ⟨fin (x i), some (fin ((unitVec j : Pt n) i))⟩ := by
  by_cases h : i = j
  · subst h; simp [unitVec, efin, one_eq]
  · simp [unitVec, efin, h, zero_eq]

section

variable {xs ys zs : List ℝ} {D : Cuboid} (hD : Cuboid.init xs ys zs = .ok D)
  (hlt : ∀ i, gridLo ![xs, ys, zs] i < gridHi ![xs, ys, zs] i)
include hD hlt

/-- The box `D` has finite corners, and its ADF is real valued. -/
theorem C169_adf (x : Pt 3) :
    (∀ y, D.adf (efin y) = fin (D.adfReal y)) ∧
    ((∀ i j, OnFace (gridLo ![xs, ys, zs]) (gridHi ![xs, ys, zs]) (fun i => x i) i →
        OnFace (gridLo ![xs, ys, zs]) (gridHi ![xs, ys, zs]) (fun i => x i) j → i = j) →
      NestOutcome True (fun _ => D.adfG) D.adfReal x) ∧
    ((∀ i, gridLo ![xs, ys, zs] i ≤ x i ∧ x i ≤ gridHi ![xs, ys, zs] i) →
      (∃ i j, i ≠ j ∧ OnFace (gridLo ![xs, ys, zs]) (gridHi ![xs, ys, zs]) (fun i => x i) i ∧
        OnFace (gridLo ![xs, ys, zs]) (gridHi ![xs, ys, zs]) (fun i => x i) j) →
      NestOutcome False (fun _ => D.adfG) D.adfReal x) := by
  obtain ⟨-, -, -, rfl⟩ := init_inv hD
  set lo := gridLo ![xs, ys, zs] with hlo
  set hi := gridHi ![xs, ys, zs] with hhi
  set D : Cuboid := ⟨xs, ys, zs, ⟨vfin lo, vfin hi⟩, sides xs ys zs⟩ with hDD
  obtain ⟨h, h1, h2, h3⟩ := C167_cuboid (n := 3) (by norm_num) _ _ r0_nest (.vector fun i => vfin hi i - vfin lo i)
    (fun i => hi i - lo i) (fun i => fin_sub _ _) (fun i => sub_pos.mpr (hlt i)) false _ _ rfl rfl
  have e0 : ∀ y, D.adf (efin y) = fin (h (y - WithLp.toLp 2 lo)) := fun y => by
    rw [← h1]
    show cuboid (.vector fun i => vfin hi i - vfin lo i) false (RAlpha.sys 0) (fun i => efin y i - vfin lo i) = _
    congr 1
  have e : D.adfReal = fun y => h (y - WithLp.toLp 2 lo) := funext fun y => by
    rw [Cuboid.adfReal, e0]
    rfl
  have hface : ∀ i, OnFace (fun i => if false = true then -(hi i - lo i) / 2 else 0)
      (fun i => if false = true then (hi i - lo i) / 2 else hi i - lo i) (fun i => (x - WithLp.toLp 2 lo : Pt 3) i) i ↔
      OnFace lo hi (fun i => x i) i := fun i => by
    simp only [OnFace, Bool.false_eq_true, if_false, PiLp.sub_apply, sub_eq_zero, sub_left_inj]
  refine ⟨fun y => ?_, fun hx => ?_, fun hx hf => ?_⟩
  · rw [e0, e]
  · rw [e]
    exact translate_nestOutcome x (WithLp.toLp 2 lo) (h2 _ fun i j hi hj => hx i j ((hface i).mp hi) ((hface j).mp hj))
  · rw [e]
    refine translate_nestOutcome x (WithLp.toLp 2 lo) (h3 _ (fun i => ?_) ?_)
    · have := hx i
      simp only [Bool.false_eq_true, if_false, PiLp.sub_apply]
      exact ⟨by linarith, by linarith⟩
    · obtain ⟨i, j, hij, h4, h5⟩ := hf
      exact ⟨i, j, hij, (hface i).mpr h4, (hface j).mpr h5⟩

/-- `_normal_vec`: the negative gradient of the ADF at every point with at most one coordinate on a face plane; `nan` on the edges and
at the corners of the box. -/
theorem C169_normal (x : Pt 3) :
    ((∀ i j, OnFace (gridLo ![xs, ys, zs]) (gridHi ![xs, ys, zs]) (fun i => x i) i →
        OnFace (gridLo ![xs, ys, zs]) (gridHi ![xs, ys, zs]) (fun i => x i) j → i = j) →
      DifferentiableAt ℝ D.adfReal x ∧ D.normalVecAD (efin x) = efin (-gradient D.adfReal x)) ∧
    ((∀ i, gridLo ![xs, ys, zs] i ≤ x i ∧ x i ≤ gridHi ![xs, ys, zs] i) →
      (∃ i j, i ≠ j ∧ OnFace (gridLo ![xs, ys, zs]) (gridHi ![xs, ys, zs]) (fun i => x i) i ∧
        OnFace (gridLo ![xs, ys, zs]) (gridHi ![xs, ys, zs]) (fun i => x i) j) →
      ∀ j, D.normalVecAD (efin x) j = nan) := by
  obtain ⟨-, h2, h3⟩ := C169_adf hD hlt x
  refine ⟨fun hx => ?_, fun hx hf j => ?_⟩
  · have h4 := fun j => ((h2 hx).jvp1 (unitVec j) _ (unit_seed x j)).1 trivial
    refine ⟨(h4 0).1, funext fun j => ?_⟩
    rw [Cuboid.normalVecAD]
    erw [(h4 j).2]
    rw [← jacVec_eq_gradient (h4 0).1, fin_neg]
    rfl
  · have h4 := ((h3 hx hf).jvp1 (unitVec j) _ (unit_seed x j)).2 id
    rw [Cuboid.normalVecAD]
    erw [h4]
    rfl

/-- On the open sides of the box `_normal_vec` computes the outward unit normal exactly. -/
theorem C169_outward (x : Pt 3) (k : Fin 3) (upper : Bool) (hk : x k = if upper then gridHi ![xs, ys, zs] k else gridLo ![xs, ys, zs] k)
    (hx : ∀ i, i ≠ k → gridLo ![xs, ys, zs] i < x i ∧ x i < gridHi ![xs, ys, zs] i) :
    D.normalVecAD (efin x) = efin (EuclideanSpace.single k (if upper then (1 : ℝ) else -1)) := by
  have hof : ∀ i, OnFace (gridLo ![xs, ys, zs]) (gridHi ![xs, ys, zs]) (fun i => x i) i → i = k := fun i hi => by
    by_contra hne
    exact absurd hi (not_or.mpr ⟨(hx i hne).1.ne', (hx i hne).2.ne⟩)
  obtain ⟨h1, h2⟩ := (C169_normal hD hlt x).1 fun i j hi hj => (hof i hi).trans (hof j hj).symm
  rw [h2, ← jacVec_eq_gradient h1, ← C94_normal_vec xs ys zs D hD x k upper hk hlt hx]
  rfl

variable {N k r : ℕ} (s : StrayField N k r) (hs : s.domain = D)
include hs

theorem h_elm_nestOutcome (a : Fin k) (x : Pt 3) : NestOutcome True (fun _ => s.h_elmG a) (fun y => s.h_elm y a) x := by
  subst hs
  rintro l k x vs z T rfl hz
  have S := rep_sound x vs k
  obtain ⟨-, -, -, hd⟩ := init_inv hD
  have e1 : ∀ i, s.domain.dom.lb i = fin (gridLo ![xs, ys, zs] i) := fun i => by rw [hd]; rfl
  have e2 : ∀ i, s.domain.dom.ub i = fin (gridHi ![xs, ys, zs] i) := fun i => by rw [hd]; rfl
  have hn : ∀ i, Rep x vs k (s.domain.normalizeG z i) (fun y => XR.toReal (s.domain.normalize (efin (T y)) i)) := fun i => by
    simp only [normalize_toReal hD hlt, Cuboid.normalizeG, e1, e2, fin_sub, one_eq]
    rw [show (2 : XR) = fin 2 from lit_eq 2]
    exact S.sub (S.div (S.mul (S.const 2) (S.sub (hz i).1 (S.const _))) (S.const _) (sub_pos.mpr (hlt i)).ne') (S.const 1)
  refine ⟨fun _ => ⟨?_, ?_⟩, fun h => absurd trivial h⟩
  · exact S.tanh (S.add (rep_sum _ _ fun i => S.mul (S.const (s.W_elm a i)) (hn i)) (S.const _))
  · exact tracked_tanh (tracked_add (tracked_sum (by norm_num) _ fun i =>
      tracked_mul_right (tracked_sub (tracked_div (tracked_mul_right (tracked_sub (hz i).2))))))

theorem u_elm_nestOutcome (a : Fin k) {x : Pt 3} {p : Prop} (h : NestOutcome p (fun _ => D.adfG) D.adfReal x) :
    NestOutcome p (fun _ => s.u_elmG a) (fun y => s.u_elm y a) x := by
  have := NestOutcome.mul (h_elm_nestOutcome hD hlt s hs a x) h
  subst hs
  rwa [true_and] at this

/-- The entries of `Q_phi1`: minus the Laplacian of the ansatz function at a sample with at most one coordinate on a face plane; `nan` at
a sample on an edge or at a corner of the box. -/
theorem C169_matrix (n : Fin N) (a : Fin k) :
    ((∀ i j, OnFace (gridLo ![xs, ys, zs]) (gridHi ![xs, ys, zs]) (fun i => s.X_dom n i) i →
        OnFace (gridLo ![xs, ys, zs]) (gridHi ![xs, ys, zs]) (fun i => s.X_dom n i) j → i = j) →
      s.Q_phi1AD n a = fin (-(Δ fun y => s.u_elm y a) (s.X_dom n))) ∧
    ((∀ i, gridLo ![xs, ys, zs] i ≤ s.X_dom n i ∧ s.X_dom n i ≤ gridHi ![xs, ys, zs] i) →
      (∃ i j, i ≠ j ∧ OnFace (gridLo ![xs, ys, zs]) (gridHi ![xs, ys, zs]) (fun i => s.X_dom n i) i ∧
        OnFace (gridLo ![xs, ys, zs]) (gridHi ![xs, ys, zs]) (fun i => s.X_dom n i) j) →
      s.Q_phi1AD n a = nan) := by
  obtain ⟨-, h2, h3⟩ := C169_adf hD hlt (s.X_dom n)
  refine ⟨fun hx => ?_, fun hx hf => ?_⟩
  · have := ((C167_laplace (by norm_num) _ _ _ _ (u_elm_nestOutcome hD hlt s hs a (h2 hx))).1 trivial).2
    rw [StrayField.Q_phi1AD]
    erw [this]
    rfl
  · have := ((C167_laplace (by norm_num) _ _ _ _ (u_elm_nestOutcome hD hlt s hs a (h3 hx hf))).2 id).2
    rw [StrayField.Q_phi1AD]
    erw [this]
    rfl

theorem phi1_nestOutcome (hk : 0 < k) (p : Fin k → ℝ) {x : Pt 3} (h : NestOutcome True (fun _ => D.adfG) D.adfReal x) :
    NestOutcome True (fun _ => s.phi1G p) (fun y => ∑ a, s.u_elm y a * p a) x := by
  rintro l j x vs z T rfl hz
  have S := rep_sound x vs j
  have hu := fun a => (u_elm_nestOutcome hD hlt s hs a h l j x vs z T rfl hz).1 trivial
  exact ⟨fun _ => ⟨rep_sum _ _ fun a => S.mul (hu a).1 (S.const (p a)), tracked_sum hk _ fun a => tracked_mul (hu a).2⟩,
    fun h => absurd trivial h⟩

theorem phi1_nestOutcome_nan (hk : 0 < k) (p : Fin k → ℝ) {x : Pt 3} (h : NestOutcome False (fun _ => D.adfG) D.adfReal x) :
    NestOutcome False (fun _ => s.phi1G p) (fun y => ∑ a, s.u_elm y a * p a) x := by
  rintro l j x vs z T rfl hz
  have hu := fun a => (u_elm_nestOutcome hD hlt s hs a h l j x vs z T rfl hz).2 id
  refine ⟨False.elim, fun _ => poisoned_of_nan (hu ⟨0, hk⟩) fun b hb => nan_foldl _ _ (Or.inr
    ⟨s.u_elmG ⟨0, hk⟩ z *ₐ ADNum.const (fin (p ⟨0, hk⟩)), ?_, ?_⟩)⟩
  · exact List.mem_map.mpr ⟨⟨0, hk⟩, List.mem_finRange _, rfl⟩
  · exact mul_nan _ _ _ _ (Or.inl hb)

/-- `-jacfwd(phi1)`, the field of the inner potential: minus the gradient of `phi1` at every point with at most one coordinate on a face
plane; `nan` on the edges and at the corners of the box. -/
theorem C169_field (hk : 0 < k) (m : Pt 3 → Pt 3) (x : Pt 3) :
    ((∀ i j, OnFace (gridLo ![xs, ys, zs]) (gridHi ![xs, ys, zs]) (fun i => x i) i →
        OnFace (gridLo ![xs, ys, zs]) (gridHi ![xs, ys, zs]) (fun i => x i) j → i = j) →
      DifferentiableAt ℝ (s.phi1 m) x ∧ s.gradPhi1AD (s.params_phi1 m) (efin x) = efin (-gradient (s.phi1 m) x)) ∧
    ((∀ i, gridLo ![xs, ys, zs] i ≤ x i ∧ x i ≤ gridHi ![xs, ys, zs] i) →
      (∃ i j, i ≠ j ∧ OnFace (gridLo ![xs, ys, zs]) (gridHi ![xs, ys, zs]) (fun i => x i) i ∧
        OnFace (gridLo ![xs, ys, zs]) (gridHi ![xs, ys, zs]) (fun i => x i) j) →
      ∀ j, s.gradPhi1AD (s.params_phi1 m) (efin x) j = nan) := by
  obtain ⟨-, h2, h3⟩ := C169_adf hD hlt x
  refine ⟨fun hx => ?_, fun hx hf j => ?_⟩
  · have h4 := fun j => ((phi1_nestOutcome hD hlt s hs hk (s.params_phi1 m) (h2 hx)).jvp1 (unitVec j) _ (unit_seed x j)).1 trivial
    have h5 : DifferentiableAt ℝ (s.phi1 m) x := (h4 0).1
    refine ⟨h5, funext fun j => ?_⟩
    rw [StrayField.gradPhi1AD]
    erw [(h4 j).2]
    rw [← jacVec_eq_gradient h5, fin_neg]
    rfl
  · have h4 := ((phi1_nestOutcome_nan hD hlt s hs hk (s.params_phi1 m) (h3 hx hf)).jvp1 (unitVec j) _ (unit_seed x j)).2 id
    rw [StrayField.gradPhi1AD]
    erw [h4]
    rfl

/-- For samples in the interior of the box the computed matrix is `Q_phi1`, so everything proved about the solver in C98 and C99 holds
for it. -/
theorem C169_exact (hx : ∀ n, (s.X_dom n).ofLp ∈ interior (Set.Icc (gridLo ![xs, ys, zs]) (gridHi ![xs, ys, zs]))) (n : Fin N)
    (a : Fin k) : s.Q_phi1AD n a = fin (s.Q_phi1 n a) := by
  have h1 : ∀ i, gridLo ![xs, ys, zs] i < s.X_dom n i ∧ s.X_dom n i < gridHi ![xs, ys, zs] i := by
    have := hx n
    rw [← Set.pi_univ_Icc, interior_pi_set Set.finite_univ] at this
    simpa [interior_Icc] using this
  have hC := u_elm_contDiff s (hs ▸ hD) hlt (hx n) 2
  rw [(C169_matrix hD hlt s hs n a).1 fun i j hi _ => ?_, ← C81_laplace _ _ (contDiffAt_pi.mp hC a), laplace_entry hC a]
  · rfl
  · exact absurd hi (not_or.mpr ⟨(h1 i).1.ne', (h1 i).2.ne⟩)

end

/-! ## The charges -/

/-- Spec: the first and the last cell of the grid are not empty. -/
def SimpleEnds (l : List ℝ) : Prop := l.headD 0 < l.getD 1 0 ∧ l.getD (l.length - 2) 0 < l.getLastD 0

theorem grid_mid {l : List ℝ} (hl : IsGrid l) (hs : SimpleEnds l) {i : ℕ} (hi : i + 1 < l.length) :
    l.headD 0 < (l.getD i 0 + l.getD (i + 1) 0) / 2 ∧ (l.getD i 0 + l.getD (i + 1) 0) / 2 < l.getLastD 0 := by
  have hm : l.SortedLE := hl.2.sortedLE
  have h2 := hl.1
  have hne : l ≠ [] := by rintro rfl; simp at h2
  obtain ⟨h3, h4⟩ := hs
  have e1 : l.headD 0 = l[0] := by
    cases l with
    | nil => simp at h2
    | cons a l => rfl
  have e2 : l.getLastD 0 = l[l.length - 1] := by
    rw [List.getLastD_eq_getLast?, List.getLast?_eq_some_getLast hne, List.getLast_eq_getElem]; rfl
  rw [e1, List.getD_eq_getElem _ _ (by omega)] at h3
  rw [e2, List.getD_eq_getElem _ _ (by omega)] at h4
  rw [e1, e2, List.getD_eq_getElem _ _ (by omega), List.getD_eq_getElem _ _ hi]
  have g1 : l[0] ≤ l[i] := hm.getElem_le_getElem_of_le (by omega)
  have g2 : l[1] ≤ l[i + 1] := hm.getElem_le_getElem_of_le (by omega)
  have g3 : l[i] ≤ l[l.length - 2] := hm.getElem_le_getElem_of_le (by omega)
  have g4 : l[i + 1] ≤ l[l.length - 1] := hm.getElem_le_getElem_of_le (by omega)
  exact ⟨by linarith, by linarith⟩

theorem grid_mid_end {l : List ℝ} (hl : IsGrid l) (hs : ¬ SimpleEnds l) : ∃ i, i + 1 < l.length ∧
    ((l.getD i 0 + l.getD (i + 1) 0) / 2 = l.headD 0 ∨ (l.getD i 0 + l.getD (i + 1) 0) / 2 = l.getLastD 0) := by
  have hm : l.SortedLE := hl.2.sortedLE
  have h2 := hl.1
  have hne : l ≠ [] := by rintro rfl; simp at h2
  have e1 : l.headD 0 = l[0] := by
    cases l with
    | nil => simp at h2
    | cons a l => rfl
  have e2 : l.getLastD 0 = l[l.length - 1] := by
    rw [List.getLastD_eq_getLast?, List.getLast?_eq_some_getLast hne, List.getLast_eq_getElem]; rfl
  rw [SimpleEnds, not_and_or, not_lt, not_lt, e1, e2, List.getD_eq_getElem _ _ (by omega), List.getD_eq_getElem _ _ (by omega)] at hs
  rw [e1, e2]
  rcases hs with h | h
  · refine ⟨0, by omega, Or.inl ?_⟩
    rw [List.getD_eq_getElem _ _ (by omega), List.getD_eq_getElem _ _ (by omega)]
    have g : l[0] ≤ l[1] := hm.getElem_le_getElem_of_le (by omega)
    simp only [zero_add]
    linarith
  · refine ⟨l.length - 2, by omega, Or.inr ?_⟩
    rw [List.getD_eq_getElem _ _ (by omega), List.getD_eq_getElem _ _ (by omega)]
    have g : l[l.length - 2] ≤ l[l.length - 1] := hm.getElem_le_getElem_of_le (by omega)
    simp only [show l.length - 2 + 1 = l.length - 1 by omega]
    linarith

theorem grid_le {l : List ℝ} (hl : IsGrid l) {i : ℕ} (hi : i + 1 < l.length) :
    l.headD 0 ≤ (l.getD i 0 + l.getD (i + 1) 0) / 2 ∧ (l.getD i 0 + l.getD (i + 1) 0) / 2 ≤ l.getLastD 0 := by
  have hm : l.SortedLE := hl.2.sortedLE
  have h2 := hl.1
  have hne : l ≠ [] := by rintro rfl; simp at h2
  have e1 : l.headD 0 = l[0] := by
    cases l with
    | nil => simp at h2
    | cons a l => rfl
  have e2 : l.getLastD 0 = l[l.length - 1] := by
    rw [List.getLastD_eq_getLast?, List.getLast?_eq_some_getLast hne, List.getLast_eq_getElem]; rfl
  rw [e1, e2, List.getD_eq_getElem _ _ (by omega), List.getD_eq_getElem _ _ hi]
  have g1 : l[0] ≤ l[i] := hm.getElem_le_getElem_of_le (by omega)
  have g2 : l[0] ≤ l[i + 1] := hm.getElem_le_getElem_of_le (by omega)
  have g3 : l[i] ≤ l[l.length - 1] := hm.getElem_le_getElem_of_le (by omega)
  have g4 : l[i + 1] ≤ l[l.length - 1] := hm.getElem_le_getElem_of_le (by omega)
  exact ⟨by linarith, by linarith⟩

/-- If the first or the last cell of a grid is empty, there is a midpoint on an edge. -/
theorem midpoint_edge {xs ys zs : List ℝ} {D : Cuboid} (hD : Cuboid.init xs ys zs = .ok D)
    (h : ¬ (SimpleEnds xs ∧ SimpleEnds ys ∧ SimpleEnds zs)) : ∃ F ∈ D.faces, ∃ row ∈ F.midpoints, ∃ x ∈ row,
      (∀ i, gridLo ![xs, ys, zs] i ≤ x i ∧ x i ≤ gridHi ![xs, ys, zs] i) ∧
      ∃ i j, i ≠ j ∧ OnFace (gridLo ![xs, ys, zs]) (gridHi ![xs, ys, zs]) (fun i => x i) i ∧
        OnFace (gridLo ![xs, ys, zs]) (gridHi ![xs, ys, zs]) (fun i => x i) j := by
  obtain ⟨gx, gy, gz, rfl⟩ := init_inv hD
  have hle : ∀ i, gridLo ![xs, ys, zs] i ≤ gridHi ![xs, ys, zs] i := by
    intro i
    fin_cases i
    · exact (grid_le gx (i := 0) (by have := gx.1; omega)).1.trans (grid_le gx (i := 0) (by have := gx.1; omega)).2
    · exact (grid_le gy (i := 0) (by have := gy.1; omega)).1.trans (grid_le gy (i := 0) (by have := gy.1; omega)).2
    · exact (grid_le gz (i := 0) (by have := gz.1; omega)).1.trans (grid_le gz (i := 0) (by have := gz.1; omega)).2
  have key : ∀ (k : Fin 3) (a b : List ℝ), ![xs, ys, zs] (k.succAbove 0) = a → ![xs, ys, zs] (k.succAbove 1) = b →
      IsGrid a → IsGrid b → ¬ (SimpleEnds a ∧ SimpleEnds b) → ∃ row ∈ midpoints_ a b k (gridLo ![xs, ys, zs] k), ∃ x ∈ row,
      (∀ i, gridLo ![xs, ys, zs] i ≤ x i ∧ x i ≤ gridHi ![xs, ys, zs] i) ∧
      ∃ i j, i ≠ j ∧ OnFace (gridLo ![xs, ys, zs]) (gridHi ![xs, ys, zs]) (fun i => x i) i ∧
        OnFace (gridLo ![xs, ys, zs]) (gridHi ![xs, ys, zs]) (fun i => x i) j := by
    intro k a b ha hb ga gb hs
    have : ∃ i j, i + 1 < a.length ∧ j + 1 < b.length ∧
        (((a.getD i 0 + a.getD (i + 1) 0) / 2 = a.headD 0 ∨ (a.getD i 0 + a.getD (i + 1) 0) / 2 = a.getLastD 0) ∨
          ((b.getD j 0 + b.getD (j + 1) 0) / 2 = b.headD 0 ∨ (b.getD j 0 + b.getD (j + 1) 0) / 2 = b.getLastD 0)) := by
      by_cases h1 : SimpleEnds a
      · obtain ⟨j, h2, h3⟩ := grid_mid_end gb fun h2 => hs ⟨h1, h2⟩
        exact ⟨0, j, by have := ga.1; omega, h2, Or.inr h3⟩
      · obtain ⟨i, h2, h3⟩ := grid_mid_end ga h1
        exact ⟨i, 0, h2, by have := gb.1; omega, Or.inl h3⟩
    obtain ⟨i, j, hi, hj, he⟩ := this
    rw [midpoints_eq]
    refine ⟨_, List.mem_map.mpr ⟨_, (mem_gridCells_iff _ _).mpr ⟨i, hi, rfl⟩, rfl⟩, _,
      List.mem_map.mpr ⟨_, (mem_gridCells_iff _ _).mpr ⟨j, hj, rfl⟩, rfl⟩, fun l => ?_, ?_⟩
    · obtain rfl | hl := eq_or_ne l k
      · simp [planePoint, hle]
      · obtain ⟨l, rfl⟩ := Fin.exists_succAbove_eq hl
        simp only [planePoint, Fin.insertNth_apply_succAbove, gridLo, gridHi]
        fin_cases l
        · show (![xs, ys, zs] (k.succAbove 0)).headD 0 ≤ _ ∧ _ ≤ (![xs, ys, zs] (k.succAbove 0)).getLastD 0
          rw [ha]; exact grid_le ga hi
        · show (![xs, ys, zs] (k.succAbove 1)).headD 0 ≤ _ ∧ _ ≤ (![xs, ys, zs] (k.succAbove 1)).getLastD 0
          rw [hb]; exact grid_le gb hj
    · rcases he with he | he
      · refine ⟨k, k.succAbove 0, (Fin.succAbove_ne k 0).symm, Or.inl (by simp [planePoint]), ?_⟩
        simp only [OnFace, planePoint, Fin.insertNth_apply_succAbove, gridLo, gridHi, ha]
        exact he
      · refine ⟨k, k.succAbove 1, (Fin.succAbove_ne k 1).symm, Or.inl (by simp [planePoint]), ?_⟩
        simp only [OnFace, planePoint, Fin.insertNth_apply_succAbove, gridLo, gridHi, hb]
        exact he
  by_cases h1 : SimpleEnds xs ∧ SimpleEnds ys
  · have h2 : ¬ (SimpleEnds ys ∧ SimpleEnds zs) := fun h2 => h ⟨h1.1, h2⟩
    exact ⟨faces_.face 1 2 0 ys zs (gridLo ![xs, ys, zs] 0), by simp [sides, grids], key 0 ys zs rfl rfl gy gz h2⟩
  · exact ⟨faces_.face 0 1 2 xs ys (gridLo ![xs, ys, zs] 2), by simp [sides, grids], key 2 xs ys rfl rfl gx gy h1⟩

theorem midpoint_open {xs ys zs : List ℝ} {D : Cuboid} (hD : Cuboid.init xs ys zs = .ok D) (h1 : SimpleEnds xs) (h2 : SimpleEnds ys)
    (h3 : SimpleEnds zs) : ∀ F ∈ D.faces, ∀ row ∈ F.midpoints, ∀ x ∈ row, ∃ (k : Fin 3) (upper : Bool),
      (x k = if upper then gridHi ![xs, ys, zs] k else gridLo ![xs, ys, zs] k) ∧
      ∀ i, i ≠ k → gridLo ![xs, ys, zs] i < x i ∧ x i < gridHi ![xs, ys, zs] i := by
  obtain ⟨gx, gy, gz, rfl⟩ := init_inv hD
  have key : ∀ (k : Fin 3) (upper : Bool) (a b : List ℝ), ![xs, ys, zs] (k.succAbove 0) = a → ![xs, ys, zs] (k.succAbove 1) = b →
      IsGrid a → IsGrid b → SimpleEnds a → SimpleEnds b → ∀ row ∈ midpoints_ a b k
        (if upper then gridHi ![xs, ys, zs] k else gridLo ![xs, ys, zs] k), ∀ x ∈ row, ∃ (k : Fin 3) (upper : Bool),
      (x k = if upper then gridHi ![xs, ys, zs] k else gridLo ![xs, ys, zs] k) ∧
      ∀ i, i ≠ k → gridLo ![xs, ys, zs] i < x i ∧ x i < gridHi ![xs, ys, zs] i := by
    intro k upper a b ha hb ga gb sa sb row hrow x hx
    rw [midpoints_eq, List.mem_map] at hrow
    obtain ⟨p, hp, rfl⟩ := hrow
    obtain ⟨q, hq, rfl⟩ := List.mem_map.mp hx
    obtain ⟨i, hi, rfl⟩ := (mem_gridCells_iff _ _).mp hp
    obtain ⟨j, hj, rfl⟩ := (mem_gridCells_iff _ _).mp hq
    refine ⟨k, upper, by simp [planePoint], fun l hl => ?_⟩
    obtain ⟨l, rfl⟩ := Fin.exists_succAbove_eq hl
    have hm := grid_mid ga sa hi
    have hm' := grid_mid gb sb hj
    simp only [planePoint, Fin.insertNth_apply_succAbove, gridLo, gridHi]
    fin_cases l
    · show (![xs, ys, zs] (k.succAbove 0)).headD 0 < _ ∧ _ < (![xs, ys, zs] (k.succAbove 0)).getLastD 0
      rw [ha]; exact hm
    · show (![xs, ys, zs] (k.succAbove 1)).headD 0 < _ ∧ _ < (![xs, ys, zs] (k.succAbove 1)).getLastD 0
      rw [hb]; exact hm'
  intro F hF
  simp only [sides, grids, List.mem_cons, List.not_mem_nil, or_false] at hF
  rcases hF with rfl | rfl | rfl | rfl | rfl | rfl
  · exact key 2 false xs ys rfl rfl gx gy h1 h2
  · exact key 2 true xs ys rfl rfl gx gy h1 h2
  · exact key 1 false xs zs rfl rfl gx gz h1 h3
  · exact key 1 true xs zs rfl rfl gx gz h1 h3
  · exact key 0 false ys zs rfl rfl gy gz h2 h3
  · exact key 0 true ys zs rfl rfl gy gz h2 h3

/-- Spec: the program `F`, called with numbers which stand for smooth functions with values `x₀`, returns a number which stands for `f` of
these functions; unlike in `NestOutcome` its tangents may be symbolic zeros, as those of a constant are. -/
def NestRight {m : ℕ} (F : (k : ℕ) → GADF (Nested k) m) (f : Pt m → ℝ) (x₀ : Pt m) : Prop :=
  ∀ (n k : ℕ) (x : Pt n) (vs : ℕ → Pt n) (a : Fin m → Nested k) (T : Pt n → Pt m), T x = x₀ →
    (∀ i, Rep x vs k (a i) (fun y => T y i) ∧ Tracked k (a i)) → Rep x vs k (F k a) (fun y => f (T y))

section

variable {xs ys zs : List ℝ} {N k r : ℕ} (s : StrayField N k r) (hD : Cuboid.init xs ys zs = .ok s.domain)
  (hlt : ∀ i, gridLo ![xs, ys, zs] i < gridHi ![xs, ys, zs] i)
include hD hlt

theorem g_nestOutcome (hk : 0 < k) (mG : (α : Type) → [ADNum α] → Fin 3 → GADF α 3) (m : Pt 3 → Pt 3) (x : Pt 3)
    (hm : ∀ i, NestRight (fun j => mG (Nested j) i) (fun y => m y i) x) (nv : Pt 3) (p : Fin k → ℝ) :
    NestOutcome True (fun j => s.gG (mG (Nested j)) (efin nv) p) (fun y => inner ℝ (m y) nv + ∑ a, s.h_elm y a * p a) x := by
  rintro l j x vs z T rfl hz
  have S := rep_sound x vs j
  have hu := fun a => (h_elm_nestOutcome hD hlt s rfl a (T x) l j x vs z T rfl hz).1 trivial
  have hm' := fun i => hm i l j x vs z T rfl hz
  refine ⟨fun _ => ⟨?_, tracked_add_right (tracked_sum hk _ fun a => tracked_mul (hu a).2)⟩, fun h => absurd trivial h⟩
  refine S.congr (S.add (rep_sum _ _ fun i => S.mul (hm' i) (S.const (nv i)))
    (rep_sum _ _ fun a => S.mul (hu a).1 (S.const (p a)))) (Filter.Eventually.of_forall fun y => ?_)
  simp only [PiLp.inner_apply, RCLike.inner_apply, conj_trivial]
  congr 1
  exact Finset.sum_congr rfl fun i _ => mul_comm _ _

/-- The Taylor coefficients of the surface charge computed by nested `jvp`s are those of the exact charge at all midpoints of all sides,
if the first and the last cell of each grid are not empty and the derivatives of the magnetisation are right. -/
theorem C169_charges (hk : 0 < k) (h1 : SimpleEnds xs) (h2 : SimpleEnds ys) (h3 : SimpleEnds zs)
    (mG : (α : Type) → [ADNum α] → Fin 3 → GADF α 3) (m : Pt 3 → Pt 3)
    (hm : ∀ F ∈ s.domain.faces, ∀ row ∈ F.midpoints, ∀ x ∈ row, ∀ i, NestRight (fun j => mG (Nested j) i) (fun y => m y i) x)
    (F : Face) (hF : F ∈ s.domain.faces) :
    (F.midpoints.map fun row => row.map fun x => s.coefsAD mG (s.params_phi1 m) F (efin x)) =
      (chargeTaylorCoefs2 F (s.g m)).map fun row => row.map fun c i => fin (c i) := by
  rw [chargeTaylorCoefs2, List.map_map]
  refine List.map_congr_left fun row hrow => ?_
  rw [Function.comp, List.map_map]
  refine List.map_congr_left fun x hx => ?_
  obtain ⟨l, upper, h4, h5⟩ := midpoint_open hD h1 h2 h3 F hF row hrow x hx
  have hn : s.domain.normalVecAD (efin x) = efin (s.domain.normalVec x) := by
    rw [C169_outward hD hlt x l upper h4 h5, C94_normal_vec xs ys zs s.domain hD x l upper h4 hlt h5]
  have hg := g_nestOutcome s hD hlt hk mG m x (hm F hF row hrow x hx) (s.domain.normalVec x) (s.params_phi1 m)
  have hv : s.gG (mG XR) (efin (s.domain.normalVec x)) (s.params_phi1 m) (efin x) = fin (s.g m x x) :=
    ((C167_derivatives _ _ _ _ hg).1 trivial).2 0 (fun _ => 0) fun _ => false
  have hj : ∀ j, JVP.tangent (α := XR) (s.gG (mG (JVP XR)) (efin (s.domain.normalVec x)) (s.params_phi1 m)
      fun i => (⟨efin x i, some (if i = j then 1 else 0)⟩ : JVP XR)) = fin (fderiv ℝ (s.g m x) x (unitVec j)) :=
    fun j => ((hg.jvp1 (unitVec j) _ (unit_seed x j)).1 trivial).2
  have hH : ∀ a b, hvpG (s.gG (mG (JVP (JVP XR))) (efin (s.domain.normalVec x)) (s.params_phi1 m)) (efin x)
      (fun i => if i = b then 1 else 0) a = fin (fderiv ℝ (fun y => fderiv ℝ (s.g m x) y (unitVec a)) x (unitVec b)) := fun a b => by
    have := ((C167_laplace (by norm_num) _ _ _ _ hg).1 trivial).1 (unitVec b) a
    rw [show (efin (unitVec b : Pt 3)) = fun i => if i = b then 1 else 0 from funext fun i => by
      by_cases h : i = b
      · subst h; simp [unitVec, efin, one_eq]
      · simp [unitVec, efin, h, zero_eq]] at this
    exact this
  have h2' : (1 / 2 : XR) = fin (1 / 2) := by
    rw [one_eq, lit_eq, fin_div _ (by norm_num)]
  rw [StrayField.coefsAD]
  simp only [hn, hv, hj, hH, h2', fin_mul]
  funext c
  fin_cases c <;> rfl

/-- A midpoint on an edge: the charge is `nan`, whatever the magnetisation. -/
theorem C169_edge_charge (mG : (α : Type) → [ADNum α] → Fin 3 → GADF α 3) (p : Fin k → ℝ) (F : Face) (x : Pt 3)
    (hx : ∀ i, gridLo ![xs, ys, zs] i ≤ x i ∧ x i ≤ gridHi ![xs, ys, zs] i)
    (hf : ∃ i j, i ≠ j ∧ OnFace (gridLo ![xs, ys, zs]) (gridHi ![xs, ys, zs]) (fun i => x i) i ∧
        OnFace (gridLo ![xs, ys, zs]) (gridHi ![xs, ys, zs]) (fun i => x i) j) :
    s.coefsAD mG p F (efin x) 0 = nan := by
  have hn := (C169_normal hD hlt x).2 hx hf
  show s.gG (mG XR) (s.domain.normalVecAD (efin x)) p (efin x) = nan
  have h0 : sumG ((List.finRange 3).map fun i => mG XR i (efin x) *ₐ ADNum.const (s.domain.normalVecAD (efin x) i)) = (nan : XR) := by
    refine nan_foldl (k := 0) (c := fun _ => false) _ _ (Or.inr ⟨mG XR 0 (efin x) *ₐ ADNum.const (s.domain.normalVecAD (efin x) 0),
      List.mem_map.mpr ⟨0, List.mem_finRange _, rfl⟩, ?_⟩)
    rw [hn 0]
    exact xr_mul_nan _
  rw [StrayField.gG, h0]
  exact xr_nan_add _

/-- The computed charges contain no `nan` exactly if the first and the last cell of each grid are not empty. -/
theorem C169_charges_finite (hk : 0 < k) (mG : (α : Type) → [ADNum α] → Fin 3 → GADF α 3) (m : Pt 3 → Pt 3)
    (hm : ∀ F ∈ s.domain.faces, ∀ row ∈ F.midpoints, ∀ x ∈ row, ∀ i, NestRight (fun j => mG (Nested j) i) (fun y => m y i) x) :
    (∀ F ∈ s.domain.faces, ∀ row ∈ F.midpoints, ∀ x ∈ row, ∀ c, ∃ v, s.coefsAD mG (s.params_phi1 m) F (efin x) c = fin v) ↔
      SimpleEnds xs ∧ SimpleEnds ys ∧ SimpleEnds zs := by
  constructor
  · intro h
    by_contra hs
    obtain ⟨F, hF, row, hrow, x, hx, h1, h2⟩ := midpoint_edge hD hs
    obtain ⟨v, hv⟩ := h F hF row hrow x hx 0
    rw [C169_edge_charge s hD hlt mG _ F x h1 h2] at hv
    cases hv
  · rintro ⟨h1, h2, h3⟩ F hF row hrow x hx c
    have h4 := C169_charges s hD hlt hk h1 h2 h3 mG m hm F hF
    have h5 : (row.map fun x => s.coefsAD mG (s.params_phi1 m) F (efin x)) ∈
        (chargeTaylorCoefs2 F (s.g m)).map fun row => row.map fun c i => fin (c i) := h4 ▸ List.mem_map.mpr ⟨row, hrow, rfl⟩
    obtain ⟨row', -, h6⟩ := List.mem_map.mp h5
    have h7 : s.coefsAD mG (s.params_phi1 m) F (efin x) ∈ row'.map fun c i => fin (c i) := h6 ▸ List.mem_map.mpr ⟨x, hx, rfl⟩
    obtain ⟨v, -, h8⟩ := List.mem_map.mp h7
    exact ⟨v c, (congrFun h8 c).symm⟩

end

/-- The cube `[-1, 1]³`: an inner sample, the middle of a side, and a point of an edge. -/
example : ∃ s : StrayField 1 1 1, Cuboid.init [-1, 1] [-1, 1] [-1, 1] = .ok s.domain ∧
    s.Q_phi1AD 0 0 = fin (s.Q_phi1 0 0) ∧
    s.domain.normalVecAD (efin !₂[1, 0, 1 / 2]) = efin (EuclideanSpace.single 0 1) ∧
    (∀ j, s.domain.normalVecAD (efin !₂[1, 0, -1]) j = nan) ∧
    (∀ m, DifferentiableAt ℝ (s.phi1 m) !₂[1, 0, 1 / 2] ∧
      s.gradPhi1AD (s.params_phi1 m) (efin !₂[1, 0, 1 / 2]) = efin (-gradient (s.phi1 m) !₂[1, 0, 1 / 2])) ∧
    (∀ m j, s.gradPhi1AD (s.params_phi1 m) (efin !₂[1, 0, -1]) j = nan) ∧
    ∀ t : StrayField 1 1 1, t.domain = s.domain → t.X_dom 0 = !₂[1, 0, -1] → t.Q_phi1AD 0 0 = nan := by
  obtain ⟨s, hD, -, hlt, hin, -⟩ := exists_strayField
  have hf : ∀ i j : Fin 3, OnFace (gridLo ![[-1, 1], [-1, 1], [-1, 1]]) (gridHi ![[-1, 1], [-1, 1], [-1, 1]])
      (fun i => (!₂[1, 0, 1 / 2] : Pt 3) i) i → OnFace (gridLo ![[-1, 1], [-1, 1], [-1, 1]]) (gridHi ![[-1, 1], [-1, 1], [-1, 1]])
      (fun i => (!₂[1, 0, 1 / 2] : Pt 3) i) j → i = j := by
    intro i j hi hj
    fin_cases i <;> fin_cases j <;> simp [OnFace, gridLo, gridHi] at hi hj ⊢
    · norm_num at hj
    · norm_num at hi
  have hb : ∀ i : Fin 3, gridLo ![[-1, 1], [-1, 1], [-1, 1]] i ≤ (!₂[1, 0, -1] : Pt 3) i ∧
      (!₂[1, 0, -1] : Pt 3) i ≤ gridHi ![[-1, 1], [-1, 1], [-1, 1]] i := by
    intro i
    fin_cases i <;> simp [gridLo, gridHi]
  have he : ∃ i j : Fin 3, i ≠ j ∧ OnFace (gridLo ![[-1, 1], [-1, 1], [-1, 1]]) (gridHi ![[-1, 1], [-1, 1], [-1, 1]])
      (fun i => (!₂[1, 0, -1] : Pt 3) i) i ∧ OnFace (gridLo ![[-1, 1], [-1, 1], [-1, 1]]) (gridHi ![[-1, 1], [-1, 1], [-1, 1]])
      (fun i => (!₂[1, 0, -1] : Pt 3) i) j :=
    ⟨0, 2, by decide, Or.inr (by simp [gridHi]), Or.inl (by simp [gridLo])⟩
  refine ⟨s, hD, C169_exact hD hlt s rfl hin 0 0, ?_, (C169_normal hD hlt _).2 hb he,
    fun m => (C169_field hD hlt s rfl (by norm_num) m _).1 hf, fun m => (C169_field hD hlt s rfl (by norm_num) m _).2 hb he,
    fun t ht hX => (C169_matrix hD hlt t ht 0 0).2 (by rw [hX]; exact hb) (by rw [hX]; exact he)⟩
  have := C169_outward hD hlt !₂[1, 0, 1 / 2] 0 true (by simp [gridHi]) (by
    intro i hi
    fin_cases i <;> simp [gridLo, gridHi] at hi ⊢; try norm_num)
  simpa using this

/-- The magnetisation `m(x) = (x₁, 1, 0)`: its charges are computed for the grids `[0, 1, 2]`, `[0, 1]`, `[0, 1]`; with the repeated knot of
`[0, 0, 1]` one of them is `nan`. -/
example (s t : StrayField 1 1 1) (hs : Cuboid.init [0, 1, 2] [0, 1] [0, 1] = .ok s.domain)
    (ht : Cuboid.init [0, 0, 1] [0, 1] [0, 1] = .ok t.domain) :
    let mG : (α : Type) → [ADNum α] → Fin 3 → GADF α 3 := fun _ _ => ![fun x => x 0, fun _ => ADNum.const (fin 1), fun _ => ADNum.const (fin 0)]
    let m : Pt 3 → Pt 3 := fun y => !₂[y 0, 1, 0]
    (∀ F ∈ s.domain.faces, ∀ row ∈ F.midpoints, ∀ x ∈ row, ∀ c, ∃ v, s.coefsAD mG (s.params_phi1 m) F (efin x) c = fin v) ∧
      ¬ ∀ F ∈ t.domain.faces, ∀ row ∈ F.midpoints, ∀ x ∈ row, ∀ c, ∃ v, t.coefsAD mG (t.params_phi1 m) F (efin x) c = fin v := by
  intro mG m
  have hm : ∀ (x : Pt 3) (i : Fin 3), NestRight (fun j => mG (Nested j) i) (fun y => m y i) x := by
    intro x i n k x vs a T _ ha
    have S := rep_sound x vs k
    fin_cases i
    · exact (ha 0).1
    · exact S.const 1
    · exact S.const 0
  constructor
  · refine (C169_charges_finite s hs ?_ (by norm_num) mG m fun F _ row _ x _ => hm x).mpr ⟨?_, ?_, ?_⟩
    · intro i; fin_cases i <;> simp [gridLo, gridHi]
    all_goals simp [SimpleEnds]
  · rw [C169_charges_finite t ht ?_ (by norm_num) mG m fun F _ row _ x _ => hm x]
    · rintro ⟨⟨h, -⟩, -⟩
      simp at h
    · intro i; fin_cases i <;> simp [gridLo, gridHi]

example : ∃ s t : StrayField 1 1 1, Cuboid.init [0, 1, 2] [0, 1] [0, 1] = .ok s.domain ∧
    Cuboid.init [0, 0, 1] [0, 1] [0, 1] = .ok t.domain := by
  obtain ⟨s, -⟩ := exists_strayField
  have h := init_ok (xs := [0, 1, 2]) (ys := [0, 1]) (zs := [0, 1]) ⟨by simp, by simp⟩ ⟨by simp, by simp⟩ ⟨by simp, by simp⟩
  have h' := init_ok (xs := [0, 0, 1]) (ys := [0, 1]) (zs := [0, 1]) ⟨by simp, by simp⟩ ⟨by simp, by simp⟩ ⟨by simp, by simp⟩
  exact ⟨{ s with domain := _ }, { s with domain := _ }, h, h'⟩

end Verif
