import Verif.Props.RSystems
import Verif.Lemmas.Normal
import Mathlib.Topology.Order.DenselyOrdered

/-! # Properties C08, C10, C11: first order normalisation and the cuboid -/

namespace Verif

open XR Topology

/-! ## C08 -/

/-- The systems that claim first order normalisation: accepted `RAlpha`, accepted `RP` with `p ≥ 2`. -/
inductive NormalizedSystem : RFun → Prop
  | ralpha (α : ℝ) (S : RFun) (h : RAlpha α = .ok S) : NormalizedSystem S
  | rp (p : ℤ) (h : RP p = .ok p) (h2 : 2 ≤ p) : NormalizedSystem (RP.sys p)

theorem NormalizedSystem.nice {S : RFun} (h : NormalizedSystem S) : ∃ c, Nice S.conj c := by
  cases h with
  | ralpha α _ h =>
    obtain ⟨rfl, h1, h2⟩ := ralpha_ok h
    exact ⟨_, RAlpha.nice h1 h2⟩
  | rp p h h2 =>
    have hp2 : p % 2 = 0 := by
      unfold RP at h; split at h <;> [assumption; cases h]
    obtain ⟨q, rfl⟩ : ∃ q : ℕ, p = q := ⟨p.toNat, by omega⟩
    exact ⟨_, RP.nice (by omega) (by omega)⟩

theorem NormalizedSystem.dual {S : RFun} (h : NormalizedSystem S) (a b : XR) :
    S.disj a b = -S.conj (-a) (-b) := by
  cases h with
  | ralpha α _ h => exact (AnySystem.ralpha α S h).laws.2 a b
  | rp p h h2 => exact (AnySystem.rp p h).laws.2 a b

theorem NormalizedSystem.conj_comm {S : RFun} (h : NormalizedSystem S) (a b : XR) :
    S.conj a b = S.conj b a := by
  cases h with
  | ralpha α _ h => exact (AnySystem.ralpha α S h).laws.1 a b
  | rp p h h2 => exact (AnySystem.rp p h).laws.1 a b

theorem HasGrad.neg {n : ℕ} {F : Vec n → XR} {u x : Pt n} (h : HasGrad F u x) :
    HasGrad (fun y => -F y) (-u) x := by
  obtain ⟨f, h1, h2⟩ := h
  refine ⟨fun y => -f y, ?_, ?_⟩
  · filter_upwards [h1] with y hy
    rw [hy, fin_neg]
  · rw [hasGradientAt_iff_hasFDerivAt] at h2 ⊢
    rw [map_neg]
    exact h2.neg

/-- C08. If `F` is differentiable and zero at `x` and `G` is continuous and positive (negative) there,
the intersection (union), in either order, has exactly the gradient of `F`. -/
theorem C08_normalization_preserved {n : ℕ} (S : RFun) (hS : NormalizedSystem S) (F G : ADF n)
    (f g : Pt n → ℝ) (x u : Pt n) (hF : RealFormAt F f x) (hG : RealFormAt G g x)
    (hf : HasGradientAt f u x) (hg : ContinuousAt g x) (h0 : f x = 0) :
    (0 < g x → HasGrad (S.intersection F G) u x ∧ HasGrad (S.intersection G F) u x) ∧
    (g x < 0 → HasGrad (S.union F G) u x ∧ HasGrad (S.union G F) u x) := by
  obtain ⟨c, hc⟩ := hS.nice
  refine ⟨fun hpos => ?_, fun hneg => ?_⟩
  · have h := grad_conj_aux hc hF hf hG hg h0 hpos
    refine ⟨h, ?_⟩
    have e : S.intersection G F = fun y => S.conj (F y) (G y) := by
      funext y; exact hS.conj_comm _ _
    rw [e]; exact h
  · have hF' : RealFormAt (fun y => -F y) (fun y => -f y) x := by
      filter_upwards [hF] with y hy; rw [hy, fin_neg]
    have hG' : RealFormAt (fun y => -G y) (fun y => -g y) x := by
      filter_upwards [hG] with y hy; rw [hy, fin_neg]
    have hf' : HasGradientAt (fun y => -f y) (-u) x := by
      rw [hasGradientAt_iff_hasFDerivAt] at hf ⊢
      rw [map_neg]; exact hf.neg
    have h := (grad_conj_aux hc hF' hf' hG' hg.neg (by simp [h0]) (by simpa using hneg)).neg
    rw [neg_neg] at h
    have e1 : S.union F G = fun y => -S.conj (-F y) (-G y) := by
      funext y; exact hS.dual _ _
    have e2 : S.union G F = fun y => -S.conj (-F y) (-G y) := by
      funext y; show S.disj _ _ = _; rw [hS.dual, hS.conj_comm]
    rw [e1, e2]; exact ⟨h, h⟩

theorem hasGradientAt_coord {n : ℕ} (i : Fin n) (x : Pt n) :
    HasGradientAt (fun y : Pt n => y i) (EuclideanSpace.single i 1) x := by
  rw [hasGradientAt_iff_hasFDerivAt]
  have h := (EuclideanSpace.proj (𝕜 := ℝ) (ι := Fin n) i).hasFDerivAt (x := x)
  have e : InnerProductSpace.toDual ℝ (Pt n) (EuclideanSpace.single i 1) =
      EuclideanSpace.proj (𝕜 := ℝ) (ι := Fin n) i := by
    ext v
    simp [EuclideanSpace.inner_single_left]
  rw [e]
  exact h

/-- Non-vacuity: two coordinate half planes at `(0, 1)`. -/
example : ∃ (F G : ADF 2) (f g : Pt 2 → ℝ) (x u : Pt 2),
    RealFormAt F f x ∧ RealFormAt G g x ∧ HasGradientAt f u x ∧ ContinuousAt g x ∧ f x = 0 ∧ 0 < g x ∧
    ‖u‖ = 1 := by
  refine ⟨fun y => y 0, fun y => y 1, fun y => y 0, fun y => y 1, EuclideanSpace.single 1 1,
    EuclideanSpace.single 0 1, .of_forall fun y => rfl, .of_forall fun y => rfl,
    hasGradientAt_coord 0 _, ?_, ?_, ?_, ?_⟩
  · fun_prop
  · simp
  · simp
  · simp

/-! ## C10 -/

theorem reduce_sign {conj disj : XR → XR → XR} (hS : SignLaw conj disj) (d : ℝ) (ds : List ℝ) :
    ∃ c : ℝ, reduce conj ((d :: ds).map fin) = fin c ∧
      (0 < c ↔ ∀ a ∈ d :: ds, 0 < a) ∧ (c < 0 ↔ ∃ a ∈ d :: ds, a < 0) := by
  have key : ∀ ds : List ℝ, ∀ d : ℝ, ∃ c : ℝ, (ds.map fin).foldl conj (fin d) = fin c ∧
      (0 < c ↔ ∀ a ∈ d :: ds, 0 < a) ∧ (c < 0 ↔ ∃ a ∈ d :: ds, a < 0) := by
    intro ds
    induction ds with
    | nil => intro d; exact ⟨d, rfl, by simp, by simp⟩
    | cons b ds ih =>
      intro d
      obtain ⟨e, h1, h2⟩ := hS.and_sign d b
      obtain ⟨c, h3, h4, h5⟩ := ih e
      have hp : 0 < e ↔ 0 < d ∧ 0 < b := by
        rw [← sign_eq_one_iff, h2, ← sign_eq_one_iff (a := d), ← sign_eq_one_iff (a := b)]
        generalize SignType.sign d = y
        generalize SignType.sign b = z
        revert y z; decide
      have hn : e < 0 ↔ d < 0 ∨ b < 0 := by
        rw [← sign_eq_neg_one_iff, h2, ← sign_eq_neg_one_iff (a := d), ← sign_eq_neg_one_iff (a := b)]
        generalize SignType.sign d = y
        generalize SignType.sign b = z
        revert y z; decide
      refine ⟨c, ?_, ?_, ?_⟩
      · simp only [List.map_cons, List.foldl_cons, h1, h3]
      · rw [h4]; simp [hp, and_assoc]
      · rw [h5]; simp [hn, or_assoc]
  exact key ds d

/-- The lower corner of the box meant by `cuboid` (spec). -/
noncomputable def boxLo {n : ℕ} (e : Fin n → ℝ) (centering : Bool) : Fin n → ℝ := fun i =>
  if centering then -e i / 2 else 0

/-- The upper corner of the box meant by `cuboid` (spec). -/
noncomputable def boxHi {n : ℕ} (e : Fin n → ℝ) (centering : Bool) : Fin n → ℝ := fun i =>
  if centering then e i / 2 else e i

theorem cuboid_lb_fin {n : ℕ} (e : Fin n → ℝ) (c : Bool) :
    cuboid.lb (.vector (vfin e)) c = vfin (boxLo e c) := by
  funext i
  cases c <;> simp [cuboid.lb, EdgeArg.get, boxLo, fin_div]

theorem cuboid_ub_fin {n : ℕ} (e : Fin n → ℝ) (c : Bool) :
    cuboid.ub (.vector (vfin e)) c = vfin (boxHi e c) := by
  funext i
  cases c <;> simp [cuboid.ub, EdgeArg.get, boxHi, fin_div]

theorem cuboid_eq_reduce {n : ℕ} (S : RFun) (e : Fin n → ℝ) (c : Bool) (x : Fin n → ℝ) :
    cuboid (.vector (vfin e)) c S (vfin x) =
      reduce S.conj (((List.finRange n).flatMap fun i =>
        [boxHi e c i - x i, x i - boxLo e c i]).map fin) := by
  simp [cuboid, compose, cuboid_lb_fin, cuboid_ub_fin, List.map_flatMap]

/-- C10. In every dimension `n ≥ 1`, for every edge vector, centering flag and sign-exact R-system, the
cuboid's ADF is finite everywhere, positive exactly on the interior of the box, zero exactly on its
topological boundary and negative exactly outside; `cube l` is the cuboid with all edges `l`. -/
theorem C10_cuboid_classifies {n : ℕ} (hn : 0 < n) (S : RFun) (hS : SignLaw S.conj S.disj)
    (e : Fin n → ℝ) (centering : Bool) (x : Fin n → ℝ) :
    (∃ c : ℝ, cuboid (.vector (vfin e)) centering S (vfin x) = fin c ∧
      (0 < c ↔ x ∈ interior (Set.Icc (boxLo e centering) (boxHi e centering))) ∧
      (c = 0 ↔ x ∈ frontier (Set.Icc (boxLo e centering) (boxHi e centering))) ∧
      (c < 0 ↔ x ∉ Set.Icc (boxLo e centering) (boxHi e centering))) ∧
    (∀ l : XR, cube (n := n) l centering S = cuboid (.vector fun _ => l) centering S) := by
  refine ⟨?_, fun l => rfl⟩
  set lo := boxLo e centering
  set hi := boxHi e centering
  obtain ⟨m, rfl⟩ : ∃ m, n = m + 1 := ⟨n - 1, by omega⟩
  set l := (List.finRange (m + 1)).flatMap fun i => [hi i - x i, x i - lo i] with hl
  have hne : l ≠ [] := by
    rw [hl, List.finRange_succ]; simp
  obtain ⟨d, ds, hds⟩ := List.exists_cons_of_ne_nil hne
  obtain ⟨c, h1, h2, h3⟩ := reduce_sign hS d ds
  have h4 : cuboid (.vector (vfin e)) centering S (vfin x) = fin c := by
    rw [cuboid_eq_reduce, ← hl, hds, h1]
  rw [← hds] at h2 h3
  have hint : interior (Set.Icc lo hi) = {y | ∀ i, lo i < y i ∧ y i < hi i} := by
    rw [← Set.pi_univ_Icc, interior_pi_set Set.finite_univ]
    ext y
    simp [interior_Icc]
  have hpos : 0 < c ↔ x ∈ interior (Set.Icc lo hi) := by
    rw [h2, hint, hl]
    simp only [List.mem_flatMap, List.mem_finRange, true_and, List.mem_cons, List.not_mem_nil, or_false,
      Set.mem_ofPred_eq]
    constructor
    · intro h i
      exact ⟨by linarith [h _ ⟨i, .inr rfl⟩], by linarith [h _ ⟨i, .inl rfl⟩]⟩
    · rintro h a ⟨i, rfl | rfl⟩
      · linarith [(h i).2]
      · linarith [(h i).1]
  have hneg : c < 0 ↔ x ∉ Set.Icc lo hi := by
    rw [h3, hl, Set.mem_Icc, Pi.le_def, Pi.le_def, ← forall_and]
    push Not
    simp only [List.mem_flatMap, List.mem_finRange, true_and, List.mem_cons, List.not_mem_nil, or_false]
    constructor
    · rintro ⟨a, ⟨i, rfl | rfl⟩, h⟩
      · exact ⟨i, fun _ => by linarith⟩
      · exact ⟨i, fun h' => by linarith⟩
    · rintro ⟨i, h⟩
      rcases le_or_gt (lo i) (x i) with h' | h'
      · exact ⟨_, ⟨i, .inl rfl⟩, by linarith [h h']⟩
      · exact ⟨_, ⟨i, .inr rfl⟩, by linarith⟩
  refine ⟨c, h4, hpos, ?_, hneg⟩
  rw [isClosed_Icc.frontier_eq, Set.mem_sdiff, ← hpos]
  have : x ∈ Set.Icc lo hi ↔ ¬ c < 0 := by rw [hneg, not_not]
  rw [this]
  constructor
  · rintro rfl; simp
  · rintro ⟨h5, h6⟩; linarith [not_lt.mp h5, not_lt.mp h6]

/-- Non-vacuity: the system used as default (`r0`) obeys the sign law, and the box is not empty. -/
example : ∃ S, r0 = .ok S ∧ SignLaw S.conj S.disj ∧
    (fun _ : Fin 3 => (0 : ℝ)) ∈ interior (Set.Icc (boxLo (fun _ => 2) true) (boxHi (fun _ => 2) true)) := by
  refine ⟨RAlpha.sys 0, by simp [r0, RAlpha], (C01_ralpha_sign_law 0).1 _ (by simp [RAlpha]), ?_⟩
  rw [← Set.pi_univ_Icc, interior_pi_set Set.finite_univ]
  simp [boxLo, boxHi, interior_Icc]

/-! ## C11 -/

/-- State of the left fold at a boundary point: every value so far is positive and continuous, or exactly
one was zero with gradient `u`. -/
inductive FoldState {n : ℕ} (F : Vec n → XR) (u x : Pt n) : Bool → Prop
  | pos (f : Pt n → ℝ) (h : RealFormAt F f x) (hc : ContinuousAt f x) (hp : 0 < f x) : FoldState F u x false
  | zero (f : Pt n → ℝ) (h : RealFormAt F f x) (hc : HasGradientAt f u x) (hp : f x = 0) :
      FoldState F u x true

theorem foldState_step {n : ℕ} {conj : XR → XR → XR} {c : ℝ → ℝ → ℝ} (hc : Nice conj c)
    {F G : Vec n → XR} {u x : Pt n} {s t : Bool} (hF : FoldState F u x s) (hG : FoldState G u x t)
    (hst : ¬ (s = true ∧ t = true)) : FoldState (fun y => conj (F y) (G y)) u x (s || t) := by
  cases hF with
  | pos f hf hfc hfp =>
    cases hG with
    | pos g hg hgc hgp =>
      refine .pos (fun y => c (f y) (g y)) ?_ ?_ (hc.pos _ _ hfp hgp)
      · filter_upwards [hf, hg] with y h1 h2; rw [h1, h2, hc.fin_eq]
      · exact hc.cont.continuousAt.comp (f := fun y => (f y, g y)) (hfc.prodMk hgc)
    | zero g hg hgc hgp =>
      obtain ⟨h, h1, h2⟩ := grad_conj_aux hc hg hgc hf hfc hgp hfp
      have hF : RealFormAt (fun y => conj (F y) (G y)) h x := by
        filter_upwards [h1, hf, hg] with y h3 h4 h5
        rw [← h3, h4, h5, hc.fin_eq, hc.fin_eq, hc.comm]
      refine .zero h hF h2 ?_
      have h3 := h1.self_of_nhds
      obtain ⟨C, hC⟩ := hc.near (f x) hfp
      have h4 := hC.self_of_nhds
      simp only [sub_zero, ne_eq, OfNat.ofNat_ne_zero, not_false_eq_true, zero_pow, mul_zero,
        abs_nonpos_iff] at h4
      simp only [hg.self_of_nhds, hf.self_of_nhds, hc.fin_eq, hgp, h4] at h3
      exact (fin_inj.mp h3).symm
  | zero f hf hfc hfp =>
    cases hG with
    | pos g hg hgc hgp =>
      obtain ⟨h, h1, h2⟩ := grad_conj_aux hc hf hfc hg hgc hfp hgp
      refine .zero h h1 h2 ?_
      have h3 := h1.self_of_nhds
      obtain ⟨C, hC⟩ := hc.near (g x) hgp
      have h4 := hC.self_of_nhds
      simp only [sub_zero, ne_eq, OfNat.ofNat_ne_zero, not_false_eq_true, zero_pow, mul_zero,
        abs_nonpos_iff] at h4
      simp only [hg.self_of_nhds, hf.self_of_nhds, hc.fin_eq, hfp, h4] at h3
      exact (fin_inj.mp h3).symm
    | zero g hg hgc hgp => exact absurd ⟨rfl, rfl⟩ hst

theorem foldState_list {n : ℕ} {conj : XR → XR → XR} {c : ℝ → ℝ → ℝ} (hc : Nice conj c) {u x : Pt n}
    (Gs : List ((Vec n → XR) × Bool)) : ∀ (F : Vec n → XR) (s : Bool), FoldState F u x s →
    (∀ G ∈ Gs, FoldState G.1 u x G.2) → ((s :: Gs.map (·.2)).count true = 1) →
    HasGrad (fun y => (Gs.map fun G => G.1 y).foldl conj (F y)) u x := by
  induction Gs with
  | nil =>
    intro F s hF _ h1
    cases hF with
    | pos => simp at h1
    | zero f hf hfc hfp => exact ⟨f, hf, hfc⟩
  | cons G Gs ih =>
    intro F s hF hG h1
    have h2 : ¬ (s = true ∧ G.2 = true) := by
      rintro ⟨rfl, h⟩
      simp [h] at h1
    refine ih (fun y => conj (F y) (G.1 y)) (s || G.2) (foldState_step hc hF (hG G (by simp)) h2)
      (fun G' hG' => hG G' (by simp [hG'])) ?_
    rw [← h1]
    revert h2
    cases s <;> cases h : G.2 <;> simp [h]

/-- C11. At a point of an open face (upper face `hi i` if `side`, else lower face `lo i`) of the box - on
exactly one face plane and strictly inside all other bounds - the cuboid ADF of any normalized system is
differentiable and its gradient is the inward unit normal. -/
theorem C11_cuboid_face_gradient {n : ℕ} (S : RFun) (hS : NormalizedSystem S) (e : Fin n → ℝ)
    (centering : Bool) (x : Pt n) (i : Fin n) (side : Bool)
    (hface : if side then boxLo e centering i < x i ∧ x i = boxHi e centering i
      else x i = boxLo e centering i ∧ x i < boxHi e centering i)
    (hother : ∀ j, j ≠ i → boxLo e centering j < x j ∧ x j < boxHi e centering j) :
    HasGrad (cuboid (.vector (vfin e)) centering S)
      (EuclideanSpace.single i (if side then (-1 : ℝ) else 1)) x := by
  obtain ⟨c, hc⟩ := hS.nice
  set lo := boxLo e centering
  set hi := boxHi e centering
  set u : Pt n := EuclideanSpace.single i (if side then (-1 : ℝ) else 1) with hu
  -- the list of face functions with the flag "vanishes at x"
  let A : Fin n → (Vec n → XR) × Bool := fun j => (fun y => fin (hi j) - y j, decide (j = i) && side)
  let B : Fin n → (Vec n → XR) × Bool := fun j => (fun y => y j - fin (lo j), decide (j = i) && !side)
  let L := (List.finRange n).flatMap fun j => [A j, B j]
  have hcub : cuboid (.vector (vfin e)) centering S = fun y => reduce S.conj (L.map fun G => G.1 y) := by
    funext y
    simp only [cuboid, compose, cuboid_lb_fin, cuboid_ub_fin, List.flatMap_cons, List.flatMap_nil,
      List.append_nil, L, List.map_flatMap]
    rfl
  have gA (j : Fin n) : HasGradientAt (fun y : Pt n => hi j - y j) (-EuclideanSpace.single j 1) x := by
    have h := hasGradientAt_coord j x
    rw [hasGradientAt_iff_hasFDerivAt] at h ⊢
    rw [map_neg]
    exact h.const_sub _
  have gB (j : Fin n) : HasGradientAt (fun y : Pt n => y j - lo j) (EuclideanSpace.single j 1) x := by
    have h := hasGradientAt_coord j x
    rw [hasGradientAt_iff_hasFDerivAt] at h ⊢
    exact h.sub_const _
  have sA (j : Fin n) : FoldState (A j).1 u x (A j).2 := by
    have hr : RealFormAt (A j).1 (fun y => hi j - y j) x := .of_forall fun y => by simp [A]
    by_cases hj : j = i
    · subst hj
      cases side with
      | true =>
        have : (A j).2 = true := by simp [A]
        rw [this]
        refine .zero _ hr ?_ (by simp at hface; linarith [hface.2])
        convert gA j using 1
        rw [hu]; ext k; by_cases hk : k = j <;> simp [hk]
      | false =>
        have : (A j).2 = false := by simp [A]
        rw [this]
        exact .pos _ hr (by fun_prop) (by simp at hface; linarith [hface.2])
    · have : (A j).2 = false := by simp [A, hj]
      rw [this]
      exact .pos _ hr (by fun_prop) (by linarith [(hother j hj).2])
  have sB (j : Fin n) : FoldState (B j).1 u x (B j).2 := by
    have hr : RealFormAt (B j).1 (fun y => y j - lo j) x := .of_forall fun y => by simp [B]
    by_cases hj : j = i
    · subst hj
      cases side with
      | false =>
        have : (B j).2 = true := by simp [B]
        rw [this]
        refine .zero _ hr ?_ (by simp at hface; linarith [hface.1])
        rw [hu, if_neg (by simp)]
        exact gB j
      | true =>
        have : (B j).2 = false := by simp [B]
        rw [this]
        exact .pos _ hr (by fun_prop) (by simp at hface; linarith [hface.1])
    · have : (B j).2 = false := by simp [B, hj]
      rw [this]
      exact .pos _ hr (by fun_prop) (by linarith [(hother j hj).1])
  have hall : ∀ G ∈ L, FoldState G.1 u x G.2 := by
    intro G hG
    simp only [L, List.mem_flatMap, List.mem_finRange, true_and, List.mem_cons, List.not_mem_nil,
      or_false] at hG
    obtain ⟨j, rfl | rfl⟩ := hG
    · exact sA j
    · exact sB j
  have hcount : (L.map (·.2)).count true = 1 := by
    have h1 : ∀ l : List (Fin n), ((l.flatMap fun j => [A j, B j]).map (·.2)).count true = l.count i := by
      intro l
      induction l with
      | nil => rfl
      | cons j l ih =>
        simp only [List.flatMap_cons, List.map_append, List.count_append, ih, List.count_cons]
        by_cases hj : j = i
        · cases side <;> simp [A, B, hj, add_comm]
        · cases side <;> simp [A, B, hj]
    rw [h1]
    exact List.count_eq_one_of_mem (List.nodup_finRange n) (List.mem_finRange i)
  rw [hcub]
  cases hL : L with
  | nil => rw [hL] at hcount; simp at hcount
  | cons G Gs =>
    rw [hL] at hall hcount
    exact foldState_list hc Gs G.1 G.2 (hall G (by simp)) (fun G' h' => hall G' (by simp [h'])) hcount

/-- Non-vacuity: a point on the open upper face of the unit square in direction 0. -/
example : ∃ x : Pt 2, (boxLo (fun _ : Fin 2 => (1 : ℝ)) false 0 < x 0 ∧ x 0 = boxHi (fun _ : Fin 2 => (1 : ℝ)) false 0) ∧
    ∀ j, j ≠ (0 : Fin 2) → boxLo (fun _ => 1) false j < x j ∧ x j < boxHi (fun _ => 1) false j := by
  refine ⟨!₂[1, 1/2], by norm_num [boxLo, boxHi], fun j hj => ?_⟩
  fin_cases j
  · exact absurd rfl hj
  · norm_num [boxLo, boxHi]

end Verif
