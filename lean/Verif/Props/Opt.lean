import Verif.Model.Opt
import Mathlib.Data.List.Perm.Basic
import Mathlib.Data.List.Nodup
import Mathlib.Data.List.Range

/-! # Properties of the batching functions -/

namespace Verif

theorem mapM_ok_iff {α β : Type} (f : α → Except Err β) (l : List α) (ys : List β) :
    l.mapM f = .ok ys ↔ List.Forall₂ (fun x y => f x = .ok y) l ys := by
  induction l generalizing ys with
  | nil =>
    simp only [List.mapM_nil, List.forall₂_nil_left_iff]
    constructor
    · intro h; cases h; rfl
    · rintro rfl; rfl
  | cons a l ih =>
    rw [List.mapM_cons, List.forall₂_cons_left_iff]
    cases h : f a with
    | error e => simp [bind, Except.bind]
    | ok b =>
      cases h2 : l.mapM f with
      | error e =>
        simp only [bind, Except.bind, reduceCtorEq, Except.ok.injEq, false_iff]
        rintro ⟨b', u, -, hu, -⟩
        rw [← ih, h2] at hu
        cases hu
      | ok bs =>
        simp only [bind, Except.bind, pure, Except.pure, Except.ok.injEq]
        constructor
        · rintro rfl
          exact ⟨b, bs, rfl, (ih bs).mp h2, rfl⟩
        · rintro ⟨b', u, rfl, hu, rfl⟩
          rw [← ih, h2] at hu
          cases hu; rfl

theorem mapM_ok_map {α β : Type} (f : α → Except Err β) (g : α → β) (l : List α) (h : ∀ x ∈ l, f x = .ok (g x)) :
    l.mapM f = .ok (l.map g) := by
  rw [mapM_ok_iff, List.forall₂_map_right_iff]
  exact List.forall₂_same.mpr h

/-! ## C57 -/

theorem shapeAt_nat (p : List ℕ) (axis s : ℕ) : shapeAt p axis = .ok s ↔ p[axis]? = some s := by
  unfold shapeAt
  have h0 : ¬ ((axis : ℤ) < 0) := by omega
  simp only [h0, if_false]
  by_cases h : axis < p.length
  · rw [if_pos ⟨by omega, by omega⟩]
    simp [List.getElem?_eq_getElem h]
  · rw [if_neg (by omega)]
    simp [List.getElem?_eq_none (not_lt.mp h)]

/-- The common size of a list of sizes. -/
def commonSize : List ℕ → Except Err ℕ
  | [] => .error .indexError
  | s :: t => if ∀ n ∈ s :: t, n = s then .ok s else .error .assertion

theorem axisSize_of_sizes {tree : List (List ℕ)} {axis : ℤ} {ns : List ℕ}
    (h : tree.mapM (fun p => shapeAt p axis) = .ok ns) :
    axisSize tree axis = commonSize ns := by
  unfold axisSize checkAxisSize commonSize
  rw [h]
  cases ns with
  | nil => rfl
  | cons s t =>
    simp only [bind, Except.bind]
    by_cases hs : ∀ n ∈ s :: t, n = s
    · have : (s :: t).all (fun _s => _s == s) = true := by simpa using hs
      rw [if_pos hs, this, if_pos rfl]
    · have : (s :: t).all (fun _s => _s == s) = false := by
        rw [← Bool.not_eq_true, List.all_eq_true]
        simpa using hs
      rw [if_neg hs, this]; rfl

/-- `axis_size` returns `s` exactly if there are leaves and all of them have size `s` along the axis. -/
theorem C57_ok_iff (tree : List (List ℕ)) (axis : ℕ) (s : ℕ) :
    axisSize tree axis = .ok s ↔ tree ≠ [] ∧ ∀ p ∈ tree, p[axis]? = some s := by
  cases hm : tree.mapM (fun p => shapeAt p axis) with
  | error e =>
    constructor
    · intro h
      unfold axisSize checkAxisSize at h
      rw [hm] at h
      cases h
    · rintro ⟨-, h⟩
      rw [mapM_ok_map _ (fun _ => s) _ (fun p hp => (shapeAt_nat p axis s).mpr (h p hp))] at hm
      cases hm
  | ok ns =>
    rw [axisSize_of_sizes hm]
    rw [mapM_ok_iff] at hm
    cases hm with
    | nil => simp [commonSize]
    | @cons a b l t h1 h2 =>
      have hall2 : List.Forall₂ (fun x y => shapeAt x (axis : ℤ) = .ok y) (a :: l) (b :: t) := .cons h1 h2
      simp only [commonSize]
      constructor
      · intro h
        split at h
        · rename_i hall
          cases h
          refine ⟨by simp, fun p hp => ?_⟩
          rw [← shapeAt_nat]
          obtain ⟨n, hn, hpn⟩ : ∃ n ∈ s :: t, shapeAt p axis = .ok n := by
            have := hall2
            obtain ⟨i, hi, rfl⟩ := List.getElem_of_mem hp
            have hlen := this.length_eq
            exact ⟨_, List.getElem_mem (by rw [← hlen]; exact hi), this.get hi (by rw [← hlen]; exact hi)⟩
          rw [hpn, hall n hn]
        · cases h
      · rintro ⟨-, h⟩
        have key : ∀ n ∈ b :: t, n = s := by
          intro n hn
          obtain ⟨i, hi, rfl⟩ := List.getElem_of_mem hn
          have := hall2
          have hlen := this.length_eq
          have h3 := this.get (i := i) (by rw [hlen]; exact hi) hi
          have h4 := h _ (List.getElem_mem (l := a :: l) (by rw [hlen]; exact hi))
          rw [← shapeAt_nat] at h4
          simp only [List.get_eq_getElem] at h3
          rw [h4] at h3
          cases h3; rfl
        have hb : b = s := key b (by simp)
        subst hb
        rw [if_pos key]

/-- If two leaves differ along the axis (and all leaves have that axis), an assertion error is raised. -/
theorem C57_assertion (tree : List (List ℕ)) (axis : ℕ) (hax : ∀ p ∈ tree, axis < p.length)
    (p q : List ℕ) (hp : p ∈ tree) (hq : q ∈ tree) (hpq : p[axis]? ≠ q[axis]?) :
    axisSize tree axis = .error .assertion := by
  have hm := mapM_ok_map (fun p => shapeAt p (axis : ℤ)) (fun p => p.getD axis 0) tree (fun p hp => by
    rw [shapeAt_nat, List.getD_eq_getElem?_getD, List.getElem?_eq_getElem (hax p hp)]; rfl)
  have hne : ∀ s, axisSize tree axis ≠ .ok s := by
    intro s h
    rw [C57_ok_iff] at h
    exact hpq ((h.2 p hp).trans (h.2 q hq).symm)
  rw [axisSize_of_sizes hm] at hne ⊢
  cases tree with
  | nil => simp at hp
  | cons a l =>
    simp only [List.map_cons, commonSize] at hne ⊢
    split
    · rename_i h
      rw [if_pos h] at hne
      exact absurd rfl (hne _)
    · rfl

/-- Axis `-(k + 1)` is axis `k` counted from the last one. -/
theorem C57_negative (tree : List (List ℕ)) (k : ℕ) : axisSize tree (-(k + 1 : ℤ)) = axisSize (tree.map List.reverse) k := by
  have h : ∀ p : List ℕ, shapeAt p (-(k + 1 : ℤ)) = shapeAt p.reverse k := by
    intro p
    unfold shapeAt
    have h1 : (-(k + 1 : ℤ)) < 0 := by omega
    have h2 : ¬ ((k : ℤ) < 0) := by omega
    simp only [List.length_reverse, h1, h2, if_true, if_false]
    by_cases hk : k < p.length
    · rw [if_pos ⟨by omega, by omega⟩, if_pos ⟨by omega, by omega⟩, List.getD_eq_getElem?_getD, List.getD_eq_getElem?_getD,
        List.getElem?_reverse (by simpa using hk)]
      congr 3
      omega
    · rw [if_neg (by omega), if_neg (by omega)]
  unfold axisSize checkAxisSize
  simp only [List.mapM_map, h]
  rfl

/-- Instance: the last axis. -/
example : axisSize [[2, 5], [5], [7, 1, 5]] (-1) = .ok 5 := by
  have := C57_negative [[2, 5], [5], [7, 1, 5]] 0
  simp only [Nat.cast_zero, zero_add] at this
  rw [this, show (0 : ℤ) = ((0 : ℕ) : ℤ) from rfl, C57_ok_iff]
  simp

example : axisSize [[5, 2], [5], [5, 7, 1]] 0 = .ok 5 := by
  rw [show (0 : ℤ) = ((0 : ℕ) : ℤ) from rfl, C57_ok_iff]; simp

example : axisSize [[5, 2], [4]] 0 = .error .assertion :=
  C57_assertion _ 0 (by simp) [5, 2] [4] (by simp) (by simp) (by simp)

/-! ## C54 -/

section
variable {α : Type} [Inhabited α]

omit [Inhabited α] in
theorem axisSize_rows {X : List (List α)} {N : ℕ} (h0 : X ≠ []) (h : ∀ x ∈ X, x.length = N) :
    axisSize (X.map rowsShape) 0 = .ok N := by
  rw [show (0 : ℤ) = ((0 : ℕ) : ℤ) from rfl, C57_ok_iff]
  refine ⟨by simpa using h0, fun p hp => ?_⟩
  obtain ⟨x, hx, rfl⟩ := List.mem_map.mp hp
  simp [rowsShape, h x hx]

theorem gather_eq {x : List α} {perms : List (List ℕ)} (h : ∀ p ∈ perms, ∀ i ∈ p, i < x.length) :
    gather x perms = perms.map fun p => p.map fun i => x.getD i default := by
  refine List.map_congr_left fun p hp => List.map_congr_left fun i hi => ?_
  have := h p hp i hi
  rw [Nat.min_eq_left (by omega)]

theorem reshape2_flatten (l : List ℕ) (b B : ℕ) :
    (reshape2 l b B).flatten = (List.range (b * B)).map fun i => l.getD i 0 := by
  unfold reshape2
  induction b with
  | zero => simp
  | succ b ih =>
    rw [List.range_succ, List.map_append, List.flatten_append, ih, Nat.succ_mul, List.range_add, List.map_append]
    simp [List.map_map, Function.comp_def]

theorem map_getD_range (l : List ℕ) : (List.range l.length).map (fun i => l.getD i 0) = l := by
  apply List.ext_getElem
  · simp
  · intro i h1 h2
    simp [List.getElem?_eq_getElem h2]

/-- For every permutation: the result consists of the rows of the data at the indices `idx`, the same for all leaves;
`idx` has `N / B` batches of `B` indices, all in range, none occurs twice, and `N mod B` rows are left out. -/
theorem C54_partition (permutation : Key → ℕ → List ℕ) (key : Key) (X : List (List α)) (B N : ℕ)
    (hperm : (permutation key N).Perm (List.range N)) (h0 : X ≠ []) (hX : ∀ x ∈ X, x.length = N) (hB : 1 ≤ B) :
    ∃ idx : List (List ℕ),
      batchesWithoutReplacement permutation key X B =
        .ok (X.map fun x => idx.map fun p => p.map fun i => x.getD i default) ∧
      idx.length = N / B ∧ (∀ p ∈ idx, p.length = B) ∧ idx.flatten.Nodup ∧ (∀ i ∈ idx.flatten, i < N) ∧
      ((List.range N).filter fun i => i ∉ idx.flatten).length = N % B := by
  set b := N / B with hb
  have hbB : b * B ≤ N := Nat.div_mul_le_self N B
  have hlen : (permutation key N).length = N := by rw [hperm.length_eq, List.length_range]
  have htake : ((permutation key N).take (b * B)).length = b * B := by
    rw [List.length_take, hlen]; omega
  have hflat : (reshape2 ((permutation key N).take (b * B)) b B).flatten = (permutation key N).take (b * B) := by
    rw [reshape2_flatten]
    have := map_getD_range ((permutation key N).take (b * B))
    rwa [htake] at this
  have hnd : (permutation key N).Nodup := hperm.nodup_iff.mpr List.nodup_range
  have hlt : ∀ i ∈ (permutation key N).take (b * B), i < N := fun i hi =>
    List.mem_range.mp (hperm.mem_iff.mp (List.mem_of_mem_take hi))
  refine ⟨reshape2 ((permutation key N).take (b * B)) b B, ?_, by simp [reshape2], ?_, ?_, ?_, ?_⟩
  · unfold batchesWithoutReplacement
    rw [axisSize_rows h0 hX]
    simp only [bind, Except.bind]
    rw [if_neg (by omega)]
    congr 1
    refine List.map_congr_left fun x hx => ?_
    apply gather_eq
    intro p hp i hi
    rw [hX x hx]
    apply hlt
    rw [← hflat]
    exact List.mem_flatten.mpr ⟨p, hp, hi⟩
  · intro p hp
    simp only [reshape2, List.mem_map] at hp
    obtain ⟨i, -, rfl⟩ := hp
    simp
  · rw [hflat]; exact hnd.sublist (List.take_sublist _ _)
  · rw [hflat]; exact hlt
  · rw [hflat]
    have h1 : ((List.range N).filter fun i => i ∉ (permutation key N).take (b * B)).length =
        ((permutation key N).filter fun i => i ∉ (permutation key N).take (b * B)).length :=
      ((hperm.filter _).length_eq).symm
    rw [h1]
    have h2 : (permutation key N).filter (fun i => i ∉ (permutation key N).take (b * B)) =
        (permutation key N).drop (b * B) := by
      conv_lhs => rw [← List.take_append_drop (b * B) (permutation key N)]
      rw [List.filter_append]
      have e1 : ((permutation key N).take (b * B)).filter
          (fun i => i ∉ (List.take (b * B) (permutation key N) ++ List.drop (b * B) (permutation key N)).take (b * B)) = [] := by
        rw [List.filter_eq_nil_iff]
        intro i hi
        rw [List.take_append_drop]
        simpa using hi
      have e2 : ((permutation key N).drop (b * B)).filter
          (fun i => i ∉ (List.take (b * B) (permutation key N) ++ List.drop (b * B) (permutation key N)).take (b * B)) =
          (permutation key N).drop (b * B) := by
        rw [List.filter_eq_self]
        intro i hi
        rw [List.take_append_drop]
        have := List.disjoint_take_drop hnd (le_refl (b * B))
        simpa using fun hi' => this hi' hi
      rw [e1, e2, List.nil_append]
    rw [h2, List.length_drop, hlen]
    have := Nat.div_add_mod N B
    rw [← hb, mul_comm] at this
    omega

example : ∃ idx : List (List ℕ),
    batchesWithoutReplacement (fun _ N => (List.range N).reverse) [] [["a", "b", "c", "d", "e"], ["v", "w", "x", "y", "z"]] 2 =
      .ok ([["a", "b", "c", "d", "e"], ["v", "w", "x", "y", "z"]].map fun x => idx.map fun p => p.map fun i => x.getD i default) ∧
    idx.length = 5 / 2 := by
  obtain ⟨idx, h, h', -⟩ := C54_partition (fun _ N => (List.range N).reverse) [] [["a", "b", "c", "d", "e"], ["v", "w", "x", "y", "z"]]
    2 5 (List.reverse_perm _) (by simp) (by simp) (by norm_num)
  exact ⟨idx, h, h'⟩

/-- Errors: inconsistent leaves and batch size zero. -/
theorem C54_errors (permutation : Key → ℕ → List ℕ) (key : Key) (X : List (List α)) (B : ℕ) :
    (∀ x ∈ X, ∀ y ∈ X, x.length ≠ y.length → batchesWithoutReplacement permutation key X B = .error .assertion) ∧
    (∀ N, X ≠ [] → (∀ x ∈ X, x.length = N) → B = 0 →
      batchesWithoutReplacement permutation key X B = .error .zeroDivision) := by
  constructor
  · intro x hx y hy hxy
    unfold batchesWithoutReplacement
    rw [show (0 : ℤ) = ((0 : ℕ) : ℤ) from rfl, C57_assertion (X.map rowsShape) 0 _ (rowsShape x) (rowsShape y)
      (List.mem_map_of_mem hx) (List.mem_map_of_mem hy)]
    · rfl
    · simpa [rowsShape] using hxy
    · intro p hp
      obtain ⟨z, hz, rfl⟩ := List.mem_map.mp hp
      simp [rowsShape]
  · intro N h0 h hB
    unfold batchesWithoutReplacement
    rw [axisSize_rows h0 h]
    simp [bind, Except.bind, hB]

example : batchesWithoutReplacement (fun _ N => (List.range N).reverse) [] [["a", "b", "c", "d", "e"]] 2 =
    .ok [[["e", "d"], ["c", "b"]]] := by
  unfold batchesWithoutReplacement
  rw [axisSize_rows (N := 5) (by simp) (by simp)]
  simp [bind, Except.bind, reshape2, gather, List.range_succ]

example : (fun (_ : Key) N => (List.range N).reverse) [] 5 |>.Perm (List.range 5) := List.reverse_perm _

/-! ## C55 -/

/-- `choice` draws `size` indices below `N`, without repetition if `replace` is false. -/
def ChoiceContract (choice : Key → ℕ → ℕ → Bool → Except Err (List ℕ)) : Prop :=
  ∀ k N size replace l, choice k N size replace = .ok l →
    l.length = size ∧ (∀ i ∈ l, i < N) ∧ (replace = false → l.Nodup)

/-- Every successful call returns the rows of the data at the indices `idx`, the same for all leaves; `idx` has the
requested number of batches of the requested size, all in range, and without replacement inside a batch no index
repeats in a batch. Different batches use different keys. -/
theorem C55_rows (choice : Key → ℕ → ℕ → Bool → Except Err (List ℕ)) (hc : ChoiceContract choice) (key : Key)
    (X : List (List α)) (b B : ℕ) (replace : Bool) (out : List (List (List α)))
    (h : batchesWithReplacement choice key X b B replace = .ok out) :
    ∃ (N : ℕ) (idx : List (List ℕ)) (ks : List Key), (∀ x ∈ X, x.length = N) ∧
      out = (X.map fun x => idx.map fun p => p.map fun i => x.getD i default) ∧
      idx.length = b ∧ (∀ p ∈ idx, p.length = B) ∧ (∀ p ∈ idx, ∀ i ∈ p, i < N) ∧
      (replace = false → ∀ p ∈ idx, p.Nodup) ∧
      ks.Nodup ∧ List.Forall₂ (fun k p => choice k N B replace = .ok p) ks idx := by
  unfold batchesWithReplacement at h
  cases hN : axisSize (X.map rowsShape) 0 with
  | error e => rw [hN] at h; cases h
  | ok N =>
    rw [hN] at h
    rw [show (0 : ℤ) = ((0 : ℕ) : ℤ) from rfl, C57_ok_iff] at hN
    have hX : ∀ x ∈ X, x.length = N := fun x hx => by
      simpa [rowsShape] using hN.2 _ (List.mem_map_of_mem hx)
    simp only [bind, Except.bind] at h
    cases hp : ((List.range b).map fun i => key.child i).mapM (fun k => choice k N B replace) with
    | error e => rw [hp] at h; cases h
    | ok idx =>
      rw [hp] at h
      simp only [Except.ok.injEq] at h
      rw [mapM_ok_iff] at hp
      have hall : ∀ p ∈ idx, ∃ k, choice k N B replace = .ok p := by
        intro p hpm
        obtain ⟨i, hi, rfl⟩ := List.getElem_of_mem hpm
        have hlen := hp.length_eq
        exact ⟨_, hp.get (i := i) (by rw [hlen]; exact hi) hi⟩
      refine ⟨N, idx, _, hX, ?_, ?_, ?_, ?_, ?_, ?_, hp⟩
      · rw [← h]
        refine List.map_congr_left fun x hx => gather_eq fun p hpm i hi => ?_
        obtain ⟨k, hk⟩ := hall p hpm
        rw [hX x hx]
        exact (hc _ _ _ _ _ hk).2.1 i hi
      · rw [← hp.length_eq]; simp
      · intro p hpm
        obtain ⟨k, hk⟩ := hall p hpm
        exact (hc _ _ _ _ _ hk).1
      · intro p hpm
        obtain ⟨k, hk⟩ := hall p hpm
        exact (hc _ _ _ _ _ hk).2.1
      · intro hr p hpm
        obtain ⟨k, hk⟩ := hall p hpm
        exact (hc _ _ _ _ _ hk).2.2 hr
      · refine List.Nodup.map ?_ List.nodup_range
        intro i j hij
        simpa [Key.child] using hij

/-- The call succeeds if the leaves agree and all draws succeed. -/
theorem C55_total (choice : Key → ℕ → ℕ → Bool → Except Err (List ℕ)) (key : Key) (X : List (List α)) (b B N : ℕ)
    (replace : Bool) (h0 : X ≠ []) (hX : ∀ x ∈ X, x.length = N) (hok : ∀ k, ∃ l, choice k N B replace = .ok l) :
    ∃ out, batchesWithReplacement choice key X b B replace = .ok out := by
  choose g hg using hok
  unfold batchesWithReplacement
  rw [axisSize_rows h0 hX]
  simp only [bind, Except.bind]
  rw [mapM_ok_map _ g _ (fun k _ => hg k)]
  exact ⟨_, rfl⟩

example (out : List (List (List String)))
    (h : batchesWithReplacement (fun _ N size _ => if size ≤ N then .ok (List.range size) else .error .valueError) []
      [["a", "b", "c", "d"], ["w", "x", "y", "z"]] 2 3 false = .ok out) :
    ∃ idx : List (List ℕ), out = ([["a", "b", "c", "d"], ["w", "x", "y", "z"]].map fun x => idx.map fun p => p.map fun i => x.getD i default) ∧
      idx.length = 2 := by
  obtain ⟨-, idx, -, -, h1, h2, -⟩ := C55_rows _ (fun k N size replace l h => by
    split at h
    · cases h
      exact ⟨by simp, fun i hi => by have := List.mem_range.mp hi; omega, fun _ => List.nodup_range⟩
    · cases h) [] _ 2 3 false out h
  exact ⟨idx, h1, h2⟩

/-- Two batches of three rows. -/
example : ∃ out, batchesWithReplacement (fun _ N size _ => if size ≤ N then .ok (List.range size) else .error .valueError) []
    [["a", "b", "c", "d"], ["w", "x", "y", "z"]] 2 3 false = .ok out :=
  C55_total _ [] _ 2 3 4 false (by simp) (by simp) (fun _ => ⟨_, if_pos (by norm_num)⟩)

/-- A choice function meeting the contract: the first `size` indices (or an error). -/
example : ChoiceContract fun _ N size _ => if size ≤ N then .ok (List.range size) else .error .valueError := by
  intro k N size replace l h
  beta_reduce at h
  split at h
  · cases h
    exact ⟨by simp, fun i hi => by have := List.mem_range.mp hi; omega, fun _ => List.nodup_range⟩
  · cases h

end

/-! ## C56 -/

section
variable {β : Type} [Inhabited β]

theorem batches_eq (bs : List (List β)) (add_rng : Bool) (bk : Key) (n m : ℕ) :
    makeIterator.batches bs add_rng (bk ++ List.replicate m 0) ((List.range n).map (m + ·)) =
      (List.range n).map fun i => (if add_rng then some (bk ++ List.replicate (m + i) 0 ++ [1]) else none,
        bs.map fun b => b.getD (m + i) default) := by
  induction n generalizing m with
  | zero => simp [makeIterator.batches]
  | succ n ih =>
    rw [List.range_succ_eq_map]
    simp only [List.map_cons, List.map_map, makeIterator.batches]
    have e : ((List.range n).map ((m + ·) ∘ Nat.succ)) = (List.range n).map ((m + 1) + ·) := by
      refine List.map_congr_left fun i _ => ?_
      simp only [Function.comp]; omega
    have ih := ih (m + 1)
    cases add_rng
    · simp only [Bool.false_eq_true, if_false, List.cons.injEq, Nat.add_zero, true_and]
      rw [e]
      -- the key is irrelevant without `add_rng`
      have irr : ∀ (k k' : Key) (l : List ℕ), makeIterator.batches bs false k l = makeIterator.batches bs false k' l := by
        intro k k' l
        induction l generalizing k k' with
        | nil => rfl
        | cons i l ih => simp only [makeIterator.batches, Bool.false_eq_true, if_false]; rw [ih k k']
      rw [irr _ (bk ++ List.replicate (m + 1) 0), ih]
      refine List.map_congr_left fun i _ => ?_
      simp only [Bool.false_eq_true, if_false, Function.comp]
      congr 1
      refine List.map_congr_left fun b _ => ?_
      congr 1; omega
    · simp only [if_true, List.cons.injEq, Nat.add_zero]
      refine ⟨by simp [Key.child], ?_⟩
      rw [e]
      have hk : Key.child (bk ++ List.replicate m 0) 0 = bk ++ List.replicate (m + 1) 0 := by
        simp [Key.child, List.replicate_succ']
      rw [hk, ih]
      refine List.map_congr_left fun i _ => ?_
      simp only [if_true, Function.comp]
      have : m + 1 + i = m + i.succ := by omega
      rw [this]

/-- The key given to `batch_fn` in epoch `e`. -/
def sampleKey (key : Key) (e : ℕ) : Key := key ++ List.replicate e 0 ++ [1]

/-- The key given out with batch `i` of epoch `e`. -/
def batchKey (key : Key) (e i : ℕ) : Key := key ++ List.replicate e 0 ++ [2] ++ List.replicate i 0 ++ [1]

/-- The batches of one epoch in order. -/
def epochOut (batch_fn : Key → List (List β)) (add_rng : Bool) (key : Key) (n : ℕ → ℕ) (e : ℕ) :
    List (Option Key × List β) :=
  (List.range (n e)).map fun i => (if add_rng then some (batchKey key e i) else none,
    (batch_fn (sampleKey key e)).map fun b => b.getD i default)

theorem sampleKey_child (key : Key) (e : ℕ) : sampleKey (key.child 0) e = sampleKey key (e + 1) := by
  simp [sampleKey, Key.child, List.replicate_succ]

theorem batchKey_child (key : Key) (e i : ℕ) : batchKey (key.child 0) e i = batchKey key (e + 1) i := by
  simp [batchKey, Key.child, List.replicate_succ]

theorem makeIterator_succ (batch_fn : Key → List (List β)) (add_rng : Bool) (key : Key) (epochs n : ℕ)
    (h : axisSize ((batch_fn (sampleKey key 0)).map rowsShape) 0 = .ok n) :
    makeIterator batch_fn add_rng (epochs + 1) key =
      (epochOut batch_fn add_rng key (fun _ => n) 0 ++ (makeIterator batch_fn add_rng epochs (key.child 0)).1,
        (makeIterator batch_fn add_rng epochs (key.child 0)).2) := by
  have hk : key.child 1 = sampleKey key 0 := by simp [Key.child, sampleKey]
  simp only [makeIterator]
  rw [hk, h]
  simp only
  have := batches_eq (batch_fn (sampleKey key 0)) add_rng (key.child 2) n 0
  simp only [List.replicate_zero, List.append_nil, Nat.zero_add, List.map_id'] at this
  rw [this]
  simp only [epochOut, Prod.mk.injEq, and_true]
  congr 1
  refine List.map_congr_left fun i _ => ?_
  simp [batchKey, Key.child]

theorem makeIterator_eq (batch_fn : Key → List (List β)) (add_rng : Bool) (epochs : ℕ) (key : Key) (n : ℕ → ℕ)
    (h : ∀ e < epochs, axisSize ((batch_fn (sampleKey key e)).map rowsShape) 0 = .ok (n e)) :
    makeIterator batch_fn add_rng epochs key =
      ((List.range epochs).flatMap (epochOut batch_fn add_rng key n), none) := by
  induction epochs generalizing key n with
  | zero => rfl
  | succ epochs ih =>
    rw [makeIterator_succ _ _ _ _ (n 0) (h 0 (by omega)), ih (key.child 0) (fun e => n (e + 1)) (fun e he => by
      rw [sampleKey_child]; exact h (e + 1) (by omega))]
    rw [List.range_succ_eq_map, List.flatMap_cons, List.flatMap_map]
    have : epochOut batch_fn add_rng (key.child 0) (fun e => n (e + 1)) =
        fun e => epochOut batch_fn add_rng key n (e + 1) := by
      funext e
      simp only [epochOut, sampleKey_child, batchKey_child]
    rw [this]
    rfl

theorem zeros_prefix {e e' c c' : ℕ} {u v : List ℕ} (hc : c ≠ 0) (hc' : c' ≠ 0)
    (h : List.replicate e 0 ++ c :: u <+: List.replicate e' 0 ++ c' :: v) : e = e' ∧ c = c' ∧ u <+: v := by
  induction e generalizing e' with
  | zero =>
    cases e' with
    | zero =>
      simp only [List.replicate_zero, List.nil_append] at h
      rw [List.cons_prefix_cons] at h
      exact ⟨rfl, h.1, h.2⟩
    | succ e' =>
      simp only [List.replicate_zero, List.nil_append, List.replicate_succ, List.cons_append] at h
      rw [List.cons_prefix_cons] at h
      exact absurd h.1 hc
  | succ e ih =>
    cases e' with
    | zero =>
      simp only [List.replicate_zero, List.nil_append, List.replicate_succ, List.cons_append] at h
      rw [List.cons_prefix_cons] at h
      exact absurd h.1.symm hc'
    | succ e' =>
      simp only [List.replicate_succ, List.cons_append] at h
      rw [List.cons_prefix_cons] at h
      obtain ⟨h1, h2⟩ := ih h.2
      exact ⟨by omega, h2⟩

/-- There are keys `ks e` for the epochs and `kb e i` for the batches, none of which is derived from (or equal to)
another one, such that `make_iterator` yields, epoch by epoch and in order, the batches which `batch_fn` returns for
`ks e`, batch `i` with the key `kb e i` if keys are requested; `n e` is the number of batches in epoch `e`. -/
theorem C56_iterator (key : Key) :
    ∃ (ks : ℕ → Key) (kb : ℕ → ℕ → Key),
      (∀ e e', ks e <+: ks e' → e = e') ∧ (∀ e i e' i', kb e i <+: kb e' i' → e = e' ∧ i = i') ∧
      (∀ e e' i, ¬ ks e <+: kb e' i ∧ ¬ kb e' i <+: ks e) ∧
      ∀ (batch_fn : Key → List (List β)) (add_rng : Bool) (epochs : ℕ) (n : ℕ → ℕ),
        (∀ e < epochs, batch_fn (ks e) ≠ [] ∧ ∀ b ∈ batch_fn (ks e), b.length = n e) →
        makeIterator batch_fn add_rng epochs key =
          ((List.range epochs).flatMap fun e => (List.range (n e)).map fun i =>
            (if add_rng then some (kb e i) else none, (batch_fn (ks e)).map fun b => b.getD i default), none) := by
  refine ⟨sampleKey key, batchKey key, ?_, ?_, ?_, ?_⟩
  · intro e e' h
    simp only [sampleKey, List.append_assoc] at h
    rw [List.prefix_append_right_inj] at h
    exact (zeros_prefix (by omega) (by omega) h).1
  · intro e i e' i' h
    simp only [batchKey, List.append_assoc, List.cons_append, List.nil_append] at h
    rw [List.prefix_append_right_inj] at h
    obtain ⟨h1, -, h2⟩ := zeros_prefix (by omega) (by omega) h
    exact ⟨h1, (zeros_prefix (by omega) (by omega) h2).1⟩
  · intro e e' i
    constructor
    · intro h
      simp only [sampleKey, batchKey, List.append_assoc, List.cons_append, List.nil_append] at h
      rw [List.prefix_append_right_inj] at h
      obtain ⟨-, h1, -⟩ := zeros_prefix (by omega) (by omega) h
      omega
    · intro h
      simp only [sampleKey, batchKey, List.append_assoc, List.cons_append, List.nil_append] at h
      rw [List.prefix_append_right_inj] at h
      obtain ⟨-, h1, -⟩ := zeros_prefix (by omega) (by omega) h
      omega
  · intro batch_fn add_rng epochs n h
    exact makeIterator_eq batch_fn add_rng epochs key n fun e he => axisSize_rows (h e he).1 (h e he).2

/-- If `batch_fn` always returns `m` batches, `epochs * m` batches are yielded. -/
theorem C56_count (key : Key) (batch_fn : Key → List (List β)) (add_rng : Bool) (epochs m : ℕ)
    (h : ∀ k, batch_fn k ≠ [] ∧ ∀ b ∈ batch_fn k, b.length = m) :
    (makeIterator batch_fn add_rng epochs key).1.length = epochs * m ∧
    (makeIterator batch_fn add_rng epochs key).2 = none := by
  rw [makeIterator_eq batch_fn add_rng epochs key (fun _ => m) fun e _ => axisSize_rows (h _).1 (h _).2]
  simp [List.length_flatMap, epochOut]

/-- If the batch counts of the leaves disagree in some epoch, the iterator raises after the batches of the epochs
before. -/
theorem C56_error (key : Key) :
    ∃ ks : ℕ → Key, ∀ (batch_fn : Key → List (List β)) (add_rng : Bool) (epochs e0 : ℕ), e0 < epochs →
      (∀ e < e0, batch_fn (ks e) ≠ [] ∧ ∃ n, ∀ b ∈ batch_fn (ks e), b.length = n) →
      (∃ a ∈ batch_fn (ks e0), ∃ b ∈ batch_fn (ks e0), a.length ≠ b.length) →
      makeIterator batch_fn add_rng epochs key = ((makeIterator batch_fn add_rng e0 key).1, some .assertion) := by
  refine ⟨sampleKey key, ?_⟩
  intro batch_fn add_rng epochs e0
  induction e0 generalizing key epochs with
  | zero =>
    rintro he - ⟨a, ha, b, hb, hab⟩
    obtain ⟨m, rfl⟩ : ∃ m, epochs = m + 1 := ⟨epochs - 1, by omega⟩
    have hk : key.child 1 = sampleKey key 0 := by simp [Key.child, sampleKey]
    simp only [makeIterator]
    rw [hk, show (0 : ℤ) = ((0 : ℕ) : ℤ) from rfl,
      C57_assertion _ 0 _ (rowsShape a) (rowsShape b) (List.mem_map_of_mem ha) (List.mem_map_of_mem hb)]
    · simpa [rowsShape] using hab
    · intro p hp
      obtain ⟨z, hz, rfl⟩ := List.mem_map.mp hp
      simp [rowsShape]
  | succ e0 ih =>
    intro he h1 h2
    obtain ⟨m, rfl⟩ : ∃ m, epochs = m + 1 := ⟨epochs - 1, by omega⟩
    obtain ⟨hne, n, hn⟩ := h1 0 (by omega)
    have := ih (key.child 0) m (by omega) (fun e he' => by rw [sampleKey_child]; exact h1 (e + 1) (by omega))
      (by rw [sampleKey_child]; exact h2)
    rw [makeIterator_succ _ _ _ _ n (axisSize_rows hne hn), makeIterator_succ _ _ _ _ n (axisSize_rows hne hn), this]

/-- Two leaves with different numbers of batches: the first epoch raises. -/
example : (makeIterator (fun _ => [["a", "b"], ["x"]]) true 3 []).2 = some .assertion := by
  obtain ⟨ks, h⟩ := C56_error (β := String) []
  rw [h (fun _ => [["a", "b"], ["x"]]) true 3 0 (by norm_num) (by simp) ⟨["a", "b"], by simp, ["x"], by simp, by simp⟩]

example : (makeIterator (fun _ => [["a", "b"], ["x", "y"]]) true 3 []).1.length = 3 * 2 :=
  (C56_count [] _ true 3 2 (by simp)).1

end

end Verif
