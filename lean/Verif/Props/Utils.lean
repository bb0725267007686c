import Verif.Model.Utils
import Verif.Props.BC

/-! # Tree helpers (C89) -/

namespace Verif

/-- The leaf `a` occurs in the tree. -/
inductive PyTree.Mem {α : Type} (a : α) : PyTree α → Prop
  | leaf : PyTree.Mem a (.leaf a)
  | node {c : PyTree α} {cs : List (PyTree α)} : c ∈ cs → PyTree.Mem a c → PyTree.Mem a (.node cs)

mutual
theorem PyTree.mem_leaves {α : Type} (a : α) : (t : PyTree α) → (a ∈ t.leaves ↔ PyTree.Mem a t)
  | .leaf b => by
    simp only [PyTree.leaves, List.mem_singleton]
    constructor
    · rintro rfl; exact .leaf
    · rintro ⟨⟩; rfl
  | .node cs => by
    rw [PyTree.leaves, PyTree.mem_leavesList a cs]
    constructor
    · rintro ⟨c, hc, h⟩
      exact .node hc h
    · rintro (_ | ⟨hc, h⟩)
      exact ⟨_, hc, h⟩
theorem PyTree.mem_leavesList {α : Type} (a : α) : (cs : List (PyTree α)) →
    (a ∈ PyTree.leavesList cs ↔ ∃ c ∈ cs, PyTree.Mem a c)
  | [] => by simp [PyTree.leavesList]
  | c :: cs => by
    rw [PyTree.leavesList, List.mem_append, PyTree.mem_leaves a c, PyTree.mem_leavesList a cs]
    simp
end

/-- The data types of the JAX arrays in the tree. -/
def HasDtype (t : PyTree Leaf) (d : String) : Prop := ∃ s, PyTree.Mem (Leaf.array d s) t

theorem dtypes_mem (t : PyTree Leaf) (d : String) : d ∈ pySet (t.leaves.filterMap Leaf.dtypeIfArray) ↔ HasDtype t d := by
  simp only [pySet, List.mem_dedup, List.mem_filterMap, HasDtype]
  constructor
  · rintro ⟨p, hp, h⟩
    cases p with
    | array d s =>
      cases h
      exact ⟨_, (PyTree.mem_leaves _ t).mp hp⟩
    | numpy d s => cases h
    | other => cases h
  · rintro ⟨s, h⟩
    exact ⟨_, (PyTree.mem_leaves _ t).mpr h, rfl⟩

/-- The set of entries of a list is empty, has one element, or has at least two. -/
theorem pySet_cases {α : Type} [DecidableEq α] (l : List α) :
    (pySet l = [] ∧ ∀ a, a ∉ pySet l) ∨ (∃ d, pySet l = [d] ∧ ∀ a, a ∈ pySet l ↔ a = d) ∨
      (∃ a b r, pySet l = a :: b :: r ∧ a ∈ pySet l ∧ b ∈ pySet l ∧ a ≠ b) := by
  have hn : (pySet l).Nodup := List.nodup_dedup l
  generalize pySet l = m at hn ⊢
  match m, hn with
  | [], _ => simp
  | [d], _ => right; left; exact ⟨d, rfl, by simp⟩
  | a :: b :: r, hn =>
    right; right
    refine ⟨a, b, r, rfl, by simp, by simp, ?_⟩
    rintro rfl
    simp at hn

theorem C89_dtype_none (t : PyTree Leaf) : treeSingleDtype t = .ok none ↔ ∀ d, ¬ HasDtype t d := by
  simp only [← dtypes_mem, treeSingleDtype]
  rcases pySet_cases (t.leaves.filterMap Leaf.dtypeIfArray) with ⟨h, h'⟩ | ⟨d, h, h'⟩ | ⟨a, b, r, h, ha, hb, hab⟩
  · exact ⟨fun _ => h', fun _ => by rw [h]⟩
  · refine ⟨fun e => ?_, fun e => absurd ((h' d).mpr rfl) (e d)⟩
    rw [h] at e
    cases e
  · refine ⟨fun e => ?_, fun e => absurd ha (e a)⟩
    rw [h] at e
    cases e

/-- The result is the common data type of all JAX arrays. -/
theorem C89_dtype_some (t : PyTree Leaf) (d : String) :
    treeSingleDtype t = .ok (some d) ↔ HasDtype t d ∧ ∀ d', HasDtype t d' → d' = d := by
  simp only [← dtypes_mem, treeSingleDtype]
  rcases pySet_cases (t.leaves.filterMap Leaf.dtypeIfArray) with ⟨h, h'⟩ | ⟨d, h, h'⟩ | ⟨a, b, r, h, ha, hb, hab⟩
  · refine ⟨fun e => ?_, fun e => absurd e.1 (h' d)⟩
    rw [h] at e
    cases e
  · constructor
    · intro e
      rw [h] at e
      cases e
      exact ⟨(h' d).mpr rfl, fun d' hd => (h' d').mp hd⟩
    · rintro ⟨e, -⟩
      rw [h, (h' _).mp e]
  · constructor
    · intro e
      rw [h] at e
      cases e
    · rintro ⟨-, e⟩
      exact absurd ((e a ha).trans (e b hb).symm) hab

theorem C89_dtype_error (t : PyTree Leaf) (e : Err) :
    treeSingleDtype t = .error e ↔ e = .valueError ∧ ∃ d d', HasDtype t d ∧ HasDtype t d' ∧ d ≠ d' := by
  simp only [← dtypes_mem, treeSingleDtype]
  rcases pySet_cases (t.leaves.filterMap Leaf.dtypeIfArray) with ⟨h, h'⟩ | ⟨d, h, h'⟩ | ⟨a, b, r, h, ha, hb, hab⟩
  · refine ⟨fun e => ?_, fun ⟨_, d, d', hd, _⟩ => absurd hd (h' d)⟩
    rw [h] at e
    cases e
  · refine ⟨fun e => ?_, fun ⟨_, d, d', hd, hd', hne⟩ => absurd (((h' d).mp hd).trans ((h' d').mp hd').symm) hne⟩
    rw [h] at e
    cases e
  · refine ⟨fun e => ?_, fun ⟨e, _⟩ => ?_⟩
    · rw [h] at e
      cases e
      exact ⟨rfl, a, b, ha, hb, hab⟩
    · rw [h, e]

/-- The size of a leaf along an axis, counted from the end if the axis is negative. -/
def LeafDim (p : Leaf) (axis : ℤ) (d : ℕ) : Prop :=
  ∃ s : List ℕ, ((∃ ty, p = .array ty s) ∨ ∃ ty, p = .numpy ty s) ∧ PyAt s axis d

theorem leafDim_iff (p : Leaf) (axis : ℤ) (d : ℕ) :
    (do let s ← p.shape; pyIndex s axis) = Except.ok d ↔ LeafDim p axis d := by
  cases p with
  | array ty s =>
    change pyIndex s axis = .ok d ↔ _
    rw [pyIndex_iff]
    constructor
    · intro h; exact ⟨s, .inl ⟨ty, rfl⟩, h⟩
    · rintro ⟨s', (⟨ty', e⟩ | ⟨ty', e⟩), h⟩
      · cases e; exact h
      · cases e
  | numpy ty s =>
    change pyIndex s axis = .ok d ↔ _
    rw [pyIndex_iff]
    constructor
    · intro h; exact ⟨s, .inr ⟨ty, rfl⟩, h⟩
    · rintro ⟨s', (⟨ty', e⟩ | ⟨ty', e⟩), h⟩
      · cases e
      · cases e; exact h
  | other =>
    refine ⟨fun h => (by cases h), ?_⟩
    rintro ⟨s', (⟨ty', e⟩ | ⟨ty', e⟩), h⟩ <;> cases e

theorem mapM_ok_iff {α β : Type} (f : α → Except Err β) (l : List α) (m : List β) :
    l.mapM f = .ok m ↔ List.Forall₂ (fun a b => f a = .ok b) l m := by
  induction l generalizing m with
  | nil =>
    rw [List.mapM_nil]
    constructor
    · intro h; cases h; exact .nil
    · intro h; cases h; rfl
  | cons a l ih =>
    rw [List.mapM_cons]
    cases ha : f a with
    | error e =>
      refine ⟨fun h => (by cases h), fun h => ?_⟩
      cases h with
      | cons h _ => rw [ha] at h; cases h
    | ok b =>
      cases hl : l.mapM f with
      | error e =>
        refine ⟨fun h => (by cases h), fun h => ?_⟩
        cases h with
        | cons h h' => rw [← ih, hl] at h'; cases h'
      | ok m' =>
        constructor
        · intro h
          cases h
          exact .cons ha ((ih m').mp hl)
        · intro h
          cases h with
          | cons h h' =>
            rw [ha] at h; cases h
            rw [← ih, hl] at h'; cases h'
            rfl

/-- `tree_dim` returns the common size of all leaves along the axis. -/
theorem C89_dim (t : PyTree Leaf) (axis : ℤ) (d : ℕ) :
    treeDim t axis = .ok d ↔ (∃ p, PyTree.Mem p t) ∧ ∀ p, PyTree.Mem p t → LeafDim p axis d := by
  simp only [← PyTree.mem_leaves]
  have hu : ∀ p d d', LeafDim p axis d → LeafDim p axis d' → d = d' := by
    intro p d d' h h'
    rw [← leafDim_iff] at h h'
    rw [h] at h'
    exact Except.ok.inj h'
  rw [treeDim]
  generalize hl : t.leaves = l
  clear hl
  constructor
  · intro h
    cases hm : l.mapM (fun t => do let s ← t.shape; pyIndex s axis) with
    | error e => rw [hm] at h; cases h
    | ok m =>
      rw [hm] at h
      change (match pySet m with
        | [d] => Except.ok d
        | _ => Except.error Err.assertion) = Except.ok d at h
      have h2 := (mapM_ok_iff _ _ _).mp hm
      rcases pySet_cases m with ⟨e, -⟩ | ⟨d', e, h'⟩ | ⟨a, b, r, e, -⟩
      · rw [e] at h; cases h
      · rw [e] at h
        cases h
        have hmem : ∀ a, a ∈ m ↔ a = d := fun a => by rw [← h', pySet, List.mem_dedup]
        constructor
        · cases h2 with
          | nil => simp at hmem
          | cons h _ => exact ⟨_, List.mem_cons_self⟩
        · intro p hp
          obtain ⟨i, hi, rfl⟩ := List.mem_iff_getElem.mp hp
          have := (List.forall₂_iff_get.mp h2).2 i hi (by rw [← h2.length_eq]; exact hi)
          rw [leafDim_iff] at this
          have e2 := (hmem _).mp (List.getElem_mem (by rw [← h2.length_eq]; exact hi : i < m.length))
          simp only [List.get_eq_getElem] at this
          rwa [e2] at this
      · rw [e] at h; cases h
  · rintro ⟨⟨p, hp⟩, h⟩
    have hm : l.mapM (fun t => do let s ← t.shape; pyIndex s axis) = .ok (l.map fun _ => d) := by
      rw [mapM_ok_iff]
      have : ∀ q ∈ l, (do let s ← q.shape; pyIndex s axis) = Except.ok d := fun q hq => (leafDim_iff q axis d).mpr (h q hq)
      clear hp h
      induction l with
      | nil => exact .nil
      | cons a l ih => exact .cons (this a (by simp)) (ih fun q hq => this q (by simp [hq]))
    rw [hm]
    change (match pySet (l.map fun _ => d) with
      | [d] => Except.ok d
      | _ => Except.error Err.assertion) = Except.ok d
    rcases pySet_cases (l.map fun _ => d) with ⟨e, h'⟩ | ⟨d', e, h'⟩ | ⟨a, b, r, e, ha, hb, hab⟩
    · exact absurd (List.mem_dedup.mpr (List.mem_map.mpr ⟨p, hp, rfl⟩)) (h' d)
    · have := (h' d).mp (List.mem_dedup.mpr (List.mem_map.mpr ⟨p, hp, rfl⟩))
      rw [e, this]
    · obtain ⟨_, _, rfl⟩ := List.mem_map.mp (List.mem_dedup.mp ha)
      obtain ⟨_, _, rfl⟩ := List.mem_map.mp (List.mem_dedup.mp hb)
      exact absurd rfl hab

/-- Number of entries of a leaf. -/
def LeafSize (p : Leaf) (d : ℕ) : Prop :=
  ∃ s : List ℕ, ((∃ ty, p = .array ty s) ∨ ∃ ty, p = .numpy ty s) ∧ d = s.prod

mutual
/-- The leaves of the tree have `n` entries in total. -/
inductive PyTree.Size : PyTree Leaf → ℕ → Prop
  | leaf {p d} : LeafSize p d → PyTree.Size (.leaf p) d
  | node {cs n} : PyTree.SizeList cs n → PyTree.Size (.node cs) n
inductive PyTree.SizeList : List (PyTree Leaf) → ℕ → Prop
  | nil : PyTree.SizeList [] 0
  | cons {c cs n m} : PyTree.Size c n → PyTree.SizeList cs m → PyTree.SizeList (c :: cs) (n + m)
end

theorem leafSize_iff (p : Leaf) (d : ℕ) :
    (do let s ← p.shape; return s.prod) = (Except.ok d : Except Err ℕ) ↔ LeafSize p d := by
  cases p with
  | array ty s =>
    change Except.ok s.prod = Except.ok d ↔ _
    constructor
    · intro h; exact ⟨s, .inl ⟨ty, rfl⟩, (Except.ok.inj h).symm⟩
    · rintro ⟨s', (⟨ty', e⟩ | ⟨ty', e⟩), h⟩
      · cases e; rw [h]
      · cases e
  | numpy ty s =>
    change Except.ok s.prod = Except.ok d ↔ _
    constructor
    · intro h; exact ⟨s, .inr ⟨ty, rfl⟩, (Except.ok.inj h).symm⟩
    · rintro ⟨s', (⟨ty', e⟩ | ⟨ty', e⟩), h⟩
      · cases e
      · cases e; rw [h]
  | other =>
    refine ⟨fun h => (by cases h), ?_⟩
    rintro ⟨s', (⟨ty', e⟩ | ⟨ty', e⟩), h⟩ <;> cases e

/-- The sizes of the leaves. -/
def SizesOf (l : List Leaf) (n : ℕ) : Prop := ∃ m : List ℕ, List.Forall₂ LeafSize l m ∧ m.sum = n

theorem SizesOf.append_iff (l l' : List Leaf) (n : ℕ) :
    SizesOf (l ++ l') n ↔ ∃ a b, SizesOf l a ∧ SizesOf l' b ∧ n = a + b := by
  constructor
  · rintro ⟨m, h, rfl⟩
    obtain ⟨m1, m2, h1, h2, rfl⟩ : ∃ m1 m2, List.Forall₂ LeafSize l m1 ∧ List.Forall₂ LeafSize l' m2 ∧ m = m1 ++ m2 := by
      refine ⟨m.take l.length, m.drop l.length, ?_, ?_, by simp⟩
      · exact (List.forall₂_take_append m l l' h.flip).flip
      · exact (List.forall₂_drop_append m l l' h.flip).flip
    exact ⟨_, _, ⟨m1, h1, rfl⟩, ⟨m2, h2, rfl⟩, by simp⟩
  · rintro ⟨a, b, ⟨m1, h1, rfl⟩, ⟨m2, h2, rfl⟩, rfl⟩
    exact ⟨m1 ++ m2, List.rel_append h1 h2, by simp⟩

mutual
theorem sizesOf_leaves : (t : PyTree Leaf) → (n : ℕ) → (SizesOf t.leaves n ↔ PyTree.Size t n)
  | .leaf p, n => by
    rw [PyTree.leaves]
    constructor
    · rintro ⟨m, h, rfl⟩
      cases h with
      | cons h h' =>
        cases h'
        simpa using PyTree.Size.leaf h
    · rintro (h | _)
      exact ⟨[n], .cons h .nil, by simp⟩
  | .node cs, n => by
    rw [PyTree.leaves, sizesOf_leavesList cs n]
    constructor
    · exact .node
    · rintro (_ | h)
      exact h
theorem sizesOf_leavesList : (cs : List (PyTree Leaf)) → (n : ℕ) → (SizesOf (PyTree.leavesList cs) n ↔ PyTree.SizeList cs n)
  | [], n => by
    rw [PyTree.leavesList]
    constructor
    · rintro ⟨m, h, rfl⟩
      cases h
      exact .nil
    · rintro ⟨⟩
      exact ⟨[], .nil, rfl⟩
  | c :: cs, n => by
    rw [PyTree.leavesList, SizesOf.append_iff]
    constructor
    · rintro ⟨a, b, ha, hb, rfl⟩
      exact .cons ((sizesOf_leaves c a).mp ha) ((sizesOf_leavesList cs b).mp hb)
    · rintro (_ | ⟨h, h'⟩)
      exact ⟨_, _, (sizesOf_leaves c _).mpr h, (sizesOf_leavesList cs _).mpr h', rfl⟩
end

theorem foldl_add (l : List ℕ) (a : ℕ) : l.foldl (· + ·) a = a + l.sum := by
  induction l generalizing a with
  | nil => simp
  | cons b l ih => simp only [List.foldl_cons, ih, List.sum_cons, add_assoc]

/-- `tree_size` is the total number of entries; a tree without leaves is rejected. -/
theorem C89_size (t : PyTree Leaf) (n : ℕ) :
    treeSize t = .ok n ↔ (∃ p, PyTree.Mem p t) ∧ PyTree.Size t n := by
  simp only [← PyTree.mem_leaves, ← sizesOf_leaves]
  rw [treeSize]
  generalize t.leaves = l
  have hmap : ∀ m, l.mapM (fun t : Leaf => do let s ← t.shape; return s.prod) = .ok m ↔ List.Forall₂ LeafSize l m := by
    intro m
    rw [mapM_ok_iff]
    simp only [leafSize_iff]
  constructor
  · intro h
    cases hm : l.mapM (fun t : Leaf => do let s ← t.shape; return s.prod) with
    | error e => rw [hm] at h; cases h
    | ok m =>
      rw [hm] at h
      have h2 := (hmap m).mp hm
      cases h2 with
      | nil => cases h
      | cons h1 h2 =>
        rw [← Except.ok.inj h, foldl_add]
        exact ⟨⟨_, List.mem_cons_self⟩, _, .cons h1 h2, by simp⟩
  · rintro ⟨⟨p, hp⟩, m, h, rfl⟩
    rw [(hmap m).mpr h]
    cases h with
    | nil => simp at hp
    | cons h1 h2 =>
      change Except.ok _ = Except.ok _
      rw [foldl_add, List.sum_cons]

/-- Two arrays of the same type. -/
example : treeSingleDtype (.node [.leaf (.array "float32" [2]), .node [.leaf (.array "float32" []), .leaf .other]]) =
    .ok (some "float32") := by
  rw [C89_dtype_some]
  refine ⟨⟨[2], .node (by simp) .leaf⟩, ?_⟩
  rintro d ⟨s, h⟩
  have := (PyTree.mem_leaves _ _).mpr h
  simp [PyTree.leaves, PyTree.leavesList] at this
  rcases this with h | h <;> exact h.1

example : treeDim (.node [.leaf (.array "float32" [2, 3]), .leaf (.numpy "float32" [5, 3])]) (-1) = .ok 3 := by decide

end Verif
