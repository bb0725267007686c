import Verif.Model.Batch
import Verif.Props.Objects
import Mathlib.Data.List.GetD

/-! # Property C137: shapes of the results of the samplers -/

namespace Verif

open XR

theorem getD_flatMap_range {α : Type} (d : α) (N n : ℕ) (g : ℕ → List α) (hg : ∀ i, (g i).length = n) (i j : ℕ) (hi : i < N)
    (hj : j < n) : ((List.range N).flatMap g).getD (i * n + j) d = (g i).getD j d := by
  have hlen : ∀ N, ((List.range N).flatMap g).length = N * n := by
    intro N
    simp [List.length_flatMap, hg]
  induction N with
  | zero => omega
  | succ N ih =>
    rw [List.range_succ, List.flatMap_append, List.flatMap_singleton]
    rcases Nat.lt_succ_iff_lt_or_eq.mp hi with h | h
    · rw [List.getD_append _ _ _ _ (by
        rw [hlen]
        calc i * n + j < i * n + n := by omega
          _ = (i + 1) * n := by ring
          _ ≤ N * n := Nat.mul_le_mul_right n h), ih h]
    · subst h
      rw [List.getD_append_right _ _ _ _ (by rw [hlen]; omega), hlen, Nat.add_sub_cancel_left]

theorem mapRows_row {n : ℕ} (a : Arr) (batch : List ℕ) (N k : ℕ) (f : Vec k → Vec n) (i : ℕ) (hi : i < N) :
    (a.mapRows batch N k f).row n i = f (a.row k i) := by
  funext j
  show ((List.range N).flatMap _).getD _ _ = _
  rw [getD_flatMap_range nan N n _ (fun i => List.length_ofFn) i j hi j.isLt]
  simp [List.getD_eq_getElem?_getD]

theorem hyperBnd_rows {m : ℕ} (x : Arr) (lb ub : Vec (m + 2)) (batch : List ℕ) (hs : x.shape = batch ++ [m + 1]) :
    ∃ y, hyperBnd.rows x lb ub = .ok y ∧ y.shape = batch ++ [m + 2] ∧ y.data.length = batch.prod * (m + 2) ∧
      ∀ i < batch.prod, transformHypercubeBnd (List.ofFn (x.row (m + 1) i)) lb ub = .ok (y.row (m + 2) i) := by
  refine ⟨x.mapRows batch batch.prod (m + 1) fun r => transformHypercube (hyperBnd.insert lb ub fun i => mod1 (r i)) lb ub,
    ?_, rfl, ?_, fun i hi => ?_⟩
  · rw [hyperBnd.rows, if_pos (by rw [hs]; simp), hs, List.dropLast_concat]
  · simp [Arr.mapRows, List.length_flatMap]
  · rw [mapRows_row _ _ _ _ _ _ hi]
    simp only [transformHypercubeBnd]
    rw [dif_pos (by simp)]
    congr 3
    funext j
    rw [List.getElem_ofFn]

theorem hyperBnd_rows_error {m : ℕ} (x : Arr) (lb ub : Vec (m + 2)) (hs : x.shape.getLast? ≠ some (m + 1)) :
    hyperBnd.rows x lb ub = .error .assertion := if_neg hs

/-- `transform_hypercube_bnd` in three and more dimensions, and in two dimensions for arrays with at least two axes: the axes
of a batch are kept and every sample is mapped to its point on the boundary. -/
theorem C137_hypercube_bnd {m : ℕ} (x : Arr) (lb ub : Vec (m + 2)) (batch : List ℕ) (hs : x.shape = batch ++ [m + 1])
    (hb : batch ≠ [] ∨ 1 ≤ m) :
    ∃ y, transformHypercubeBndArr x lb ub = .ok y ∧ y.shape = batch ++ [m + 2] ∧
      ∀ i < batch.prod, transformHypercubeBnd (List.ofFn (x.row (m + 1) i)) lb ub = .ok (y.row (m + 2) i) := by
  have h0 : x.shape ≠ [] := by rw [hs]; simp
  have h1 : ¬ (x.shape.length = 1 ∧ m + 2 = 2) := by
    rintro ⟨h, h'⟩
    rw [hs, List.length_append] at h
    rcases hb with hb | hb
    · exact hb (List.length_eq_zero_iff.mp (by simpa using h))
    · omega
  obtain ⟨y, hy, hy1, -, hy2⟩ := hyperBnd_rows x lb ub batch hs
  refine ⟨y, ?_, hy1, hy2⟩
  simp only [transformHypercubeBndArr, if_neg h0, if_neg h1, hy]
  rfl

/-- Two samples on the boundary of a cube. -/
example (lb ub : Vec 3) : ∃ y, transformHypercubeBndArr ⟨"float32", [2, 2], [0, fin (1 / 2), 1, fin (1 / 4)]⟩ lb ub = .ok y ∧
    y.shape = [2, 3] := by
  obtain ⟨y, h1, h2, -⟩ := C137_hypercube_bnd (m := 1) ⟨"float32", [2, 2], [0, fin (1 / 2), 1, fin (1 / 4)]⟩ lb ub [2] rfl
    (Or.inr le_rfl)
  exact ⟨y, h1, h2⟩

/-- All other shapes are rejected in three and more dimensions. -/
theorem C137_hypercube_bnd_rejects {m : ℕ} (hm : 1 ≤ m) (x : Arr) (hw : x.WellFormed) (lb ub : Vec (m + 2))
    (hs : x.shape.getLast? ≠ some (m + 1)) : transformHypercubeBndArr x lb ub = .error .assertion := by
  simp only [transformHypercubeBndArr]
  have h2 : ¬ m + 2 = 2 := by omega
  rw [if_neg (fun h => h2 h.2)]
  by_cases h0 : x.shape = []
  · have hl : x.data.length = 1 := by rw [hw, h0]; rfl
    rw [if_pos h0, hyperBnd_rows_error _ lb ub (by simp [Arr.ravel, hl]; omega)]
    rfl
  · rw [if_neg h0, hyperBnd_rows_error _ lb ub hs]
    rfl

example (lb ub : Vec 3) : transformHypercubeBndArr ⟨"float32", [2, 3], [0, 0, 0, 0, 0, 0]⟩ lb ub = .error .assertion :=
  C137_hypercube_bnd_rejects le_rfl ⟨"float32", [2, 3], [0, 0, 0, 0, 0, 0]⟩ rfl lb ub (by simp)

theorem first_row (y : Arr) (n : ℕ) (hs : y.shape.tail = [n]) : y.first.row n 0 = y.row n 0 := by
  funext j
  simp only [Arr.row, Arr.first, hs, List.prod_singleton, zero_mul, zero_add]
  rw [List.getD_eq_getElem?_getD, List.getD_eq_getElem?_getD, List.getElem?_take_of_lt j.isLt]

/-- In two dimensions a number is mapped to a point and an array of numbers to an array of points. -/
theorem C137_hypercube_bnd_two (x : Arr) (hw : x.WellFormed) (lb ub : Vec 2) :
    (x.shape = [] → ∃ y, transformHypercubeBndArr x lb ub = .ok y ∧ y.shape = [2] ∧
      transformHypercubeBnd [x.item] lb ub = .ok (y.row 2 0)) ∧
    (∀ N, x.shape = [N] → ∃ y, transformHypercubeBndArr x lb ub = .ok y ∧ y.shape = [N, 2] ∧
      ∀ i < N, transformHypercubeBnd [x.data.getD i nan] lb ub = .ok (y.row 2 i)) := by
  constructor
  · intro h0
    have hl : x.data.length = 1 := by rw [hw, h0]; rfl
    obtain ⟨y, hy, hy1, -, hy2⟩ := hyperBnd_rows (m := 0) x.ravel.addAxis lb ub [1] (by simp [Arr.ravel, Arr.addAxis, hl])
    refine ⟨y.first, ?_, ?_, ?_⟩
    · simp only [transformHypercubeBndArr, if_pos h0]
      rw [if_pos ⟨rfl, trivial⟩, hy]
      rfl
    · simp [Arr.first, hy1]
    · rw [first_row y 2 (by simp [hy1]), ← hy2 0 (by simp)]
      congr 1
      match hd : x.data, hl with
      | [s], _ => simp [Arr.row, Arr.item, Arr.ravel, Arr.addAxis, hd, List.ofFn_succ]
  · intro N hN
    have h0 : x.shape ≠ [] := by rw [hN]; simp
    obtain ⟨y, hy, hy1, -, hy2⟩ := hyperBnd_rows (m := 0) x.addAxis lb ub [N] (by simp [Arr.addAxis, hN])
    refine ⟨y, ?_, by simpa using hy1, fun i hi => ?_⟩
    · simp only [transformHypercubeBndArr, if_neg h0]
      rw [if_pos ⟨by rw [hN]; rfl, trivial⟩, hy]
      rfl
    · rw [← hy2 i (by simpa using hi)]
      congr 1
      simp [Arr.row, Arr.addAxis, List.ofFn_succ]

/-- In one dimension no shape is rejected, and an array without axes becomes an array with one axis. -/
theorem C137_hypercube_bnd_one (x : Arr) (lb ub : Vec 1) :
    ∃ y, transformHypercubeBndArr x lb ub = .ok y ∧ y.shape = (if x.shape = [] then [1] else x.shape) ∧
      y.data.length = x.data.length ∧
      ∀ i < x.data.length, transformHypercubeBnd [x.data.getD i nan] lb ub = .ok fun _ => y.data.getD i nan := by
  refine ⟨_, rfl, rfl, by simp, fun i hi => ?_⟩
  simp only [transformHypercubeBnd]
  congr 1
  funext j
  rw [Subsingleton.elim j 0, List.getD_eq_getElem _ _ hi, List.getD_eq_getElem _ _ (by simpa using hi), List.getElem_map]

/-- `transform_circle_bnd`: the result has the axes of the parameters except those of length one, and one further axis. -/
theorem C137_circle_bnd (s : Arr) (r : XR) (o : Vec 2) :
    (transformCircleBndArr s r o).shape = s.shape.filter (· ≠ 1) ++ [2] ∧
    ∀ i < s.data.length, (transformCircleBndArr s r o).row 2 i = transformCircleBnd (s.data.getD i nan) r o := by
  refine ⟨rfl, fun i hi => ?_⟩
  have e : (transformCircleBndArr s r o).data = (List.range s.data.length).flatMap fun i =>
      List.ofFn (transformCircleBnd (s.data.getD i nan) r o) := by
    have hd : s.data = (List.range s.data.length).map fun i => s.data.getD i nan := by
      apply List.ext_getElem
      · simp
      · intro n h1 h2
        simp [List.getD_eq_getElem?_getD, h1]
    show (s.data.map _).flatMap _ = _
    conv_lhs => rw [hd]
    rw [List.map_map, List.flatMap_map]
    rfl
  funext j
  show (transformCircleBndArr s r o).data.getD _ _ = _
  rw [e, getD_flatMap_range nan _ 2 _ (fun i => List.length_ofFn) i j hi j.isLt,
    List.getD_eq_getElem _ _ (by simp [j.isLt]), List.getElem_ofFn]

/-- So a batch with one sample loses its axis: the result for the shape `(1,)` is one point, not an array of points. -/
theorem C137_circle_bnd_single (s : Arr) (hs : s.shape = [1]) (r : XR) (o : Vec 2) :
    (transformCircleBndArr s r o).shape = [2] := by
  rw [(C137_circle_bnd s r o).1, hs]; rfl

theorem polyline_rows {d m : ℕ} (s : Arr) (line : Fin (m + 2) → Vec d) (h : s.shape.length = 0 ∨ s.shape.length = 1) :
    ∃ y : Arr, transformPolylineArr s line = .ok (if s.shape = [] then y.first else y) ∧ y.shape = [s.data.length, d] ∧
      y.data = (List.range s.data.length).flatMap fun i => List.ofFn (transformPolyline (s.data.getD i nan) line) := by
  have key : List.zipWith (fun s k =>
      let p1 := line k.castSucc
      let p2 := line k.succ
      let dd := polyline.cum line k - s
      fun i => p2 i + (p1 i - p2 i) * dd / vnorm fun i => p1 i - p2 i)
      (s.data.map fun s => mod1 s * polyline.length line)
      ((s.data.map fun s => mod1 s * polyline.length line).map fun s => argmaxBool fun k => s ≤ polyline.cum line k) =
      (List.range s.data.length).map fun i => transformPolyline (s.data.getD i nan) line := by
    apply List.ext_getElem
    · simp
    · intro n h1 h2
      have hn : n < s.data.length := by simpa using h1
      simp [List.getD_eq_getElem?_getD, hn]
      rfl
  refine ⟨⟨s.dtype, [s.data.length, d], _⟩, ?_, rfl, rfl⟩
  simp only [transformPolylineArr, if_pos h]
  rw [key]
  simp [List.flatMap_def, Function.comp_def]

/-- `transform_polyline`: a number is mapped to a point, an array of numbers to an array of points, other shapes are
rejected. -/
theorem C137_polyline {d m : ℕ} (s : Arr) (hw : s.WellFormed) (line : Fin (m + 2) → Vec d) :
    (s.shape = [] → ∃ y, transformPolylineArr s line = .ok y ∧ y.shape = [d] ∧ y.row d 0 = transformPolyline s.item line) ∧
    (∀ N, s.shape = [N] → ∃ y, transformPolylineArr s line = .ok y ∧ y.shape = [N, d] ∧
      ∀ i < N, y.row d i = transformPolyline (s.data.getD i nan) line) ∧
    (2 ≤ s.shape.length → transformPolylineArr s line = .error .assertion) := by
  have row : ∀ (y : Arr) (i : ℕ), i < s.data.length →
      y.data = (List.range s.data.length).flatMap (fun i => List.ofFn (transformPolyline (s.data.getD i nan) line)) →
      y.row d i = transformPolyline (s.data.getD i nan) line := by
    intro y i hi h
    funext j
    show y.data.getD _ _ = _
    rw [h, getD_flatMap_range nan _ d _ (fun i => List.length_ofFn) i j hi j.isLt]
    simp [List.getD_eq_getElem?_getD]
  refine ⟨fun h => ?_, fun N h => ?_, fun h => ?_⟩
  · have hl : s.data.length = 1 := by rw [hw, h]; rfl
    obtain ⟨y, h1, h2, h3⟩ := polyline_rows s line (Or.inl (by rw [h]; rfl))
    rw [if_pos h] at h1
    refine ⟨_, h1, by simp [Arr.first, h2], ?_⟩
    rw [first_row y d (by simp [h2]), row y 0 (by omega) h3]
    match hd : s.data, hl with
    | [a], _ => simp [Arr.item, hd]
  · have hl : s.data.length = N := by rw [hw, h]; simp
    obtain ⟨y, h1, h2, h3⟩ := polyline_rows s line (Or.inr (by rw [h]; rfl))
    rw [if_neg (by rw [h]; simp)] at h1
    exact ⟨y, h1, by rw [h2, hl], fun i hi => row y i (by omega) h3⟩
  · rw [transformPolylineArr, if_neg (by omega)]

/-- Three points on a line between two points. -/
example (line : Fin 2 → Vec 2) : ∃ y, transformPolylineArr (m := 0) ⟨"float32", [3], [0, fin (1 / 2), fin (1 / 3)]⟩ line = .ok y ∧
    y.shape = [3, 2] := by
  obtain ⟨y, h1, h2, -⟩ := (C137_polyline (m := 0) ⟨"float32", [3], [0, fin (1 / 2), fin (1 / 3)]⟩ (by rfl) line).2.1 3 rfl
  exact ⟨y, h1, h2⟩

/-- `Parallelogram.transform`: the axes of a batch are kept and every row is mapped like one sample; other lengths of the last
axis are rejected. -/
theorem C137_parallelogram {d : ℕ} (P : Parallelogram d) (x : Arr) (hw : x.WellFormed) :
    (∀ batch, x.shape = batch ++ [2] → ∃ y, P.transformArr x = .ok y ∧ y.shape = batch ++ [d] ∧
      ∀ i < batch.prod, P.transform (List.ofFn (x.row 2 i)) = .ok (y.row d i)) ∧
    (∀ n, x.shape.getLast? = some n → n ≠ 2 → P.transformArr x = .error .assertion) ∧
    (x.shape = [] → P.transformArr x = .error .indexError) := by
  classical
  refine ⟨fun batch hs => ?_, fun n hn h2 => ?_, fun h => ?_⟩
  · have hl : x.lastDim = .ok 2 := by simp [Arr.lastDim, hs]
    have hlen : x.data.length = batch.prod * 2 := by rw [hw, hs]; simp
    set x' : Arr := { x with data := x.data.map fun u => if 1 < u then mod1 u else u } with hx'
    have hrow : ∀ i < batch.prod, ∀ j : Fin 2, x'.row 2 i j = if 1 < x.row 2 i j then mod1 (x.row 2 i j) else x.row 2 i j := by
      intro i hi j
      have hj : i * 2 + (j : ℕ) < x.data.length := by
        have := j.isLt
        rw [hlen]; omega
      have e : x.row 2 i j = x.data[i * 2 + (j : ℕ)] := List.getD_eq_getElem _ _ hj
      rw [e]
      show (x.data.map _).getD _ _ = _
      rw [List.getD_eq_getElem _ _ (by simpa using hj), List.getElem_map]
    have hone : ∀ i < batch.prod, P.transform (List.ofFn (x.row 2 i)) =
        .ok fun k => (∑ j, fin (P.B k j) * x'.row 2 i j) + fin (P.a k) := by
      intro i hi
      simp only [List.ofFn_succ, List.ofFn_zero, Parallelogram.transform]
      congr 1
      funext k
      congr 1
      apply Finset.sum_congr rfl
      intro j _
      rw [hrow i hi j]
      fin_cases j <;> rfl
    have hlb : x'.shape = batch ++ [2] := hs
    by_cases h1 : x'.shape.length = 1
    · have hb : batch = [] := by
        rw [hlb, List.length_append] at h1
        exact List.length_eq_zero_iff.mp (by simpa using h1)
      refine ⟨⟨x.dtype, [d], List.ofFn fun i => (∑ j, fin (P.B i j) * x'.row 2 0 j) + fin (P.a i)⟩, ?_, by rw [hb]; rfl,
        fun i hi => ?_⟩
      · simp only [Parallelogram.transformArr, hl]
        show (if x'.shape.length = 1 then _ else _) = _
        rw [if_pos h1]
        rfl
      · have h0 : i = 0 := by rw [hb] at hi; simpa using hi
        rw [hone i hi, h0]
        congr 1
        funext k
        simp [Arr.row, List.getD_eq_getElem?_getD]
    · refine ⟨x'.mapRows batch batch.prod 2 fun r => fun i => (∑ j, r j * fin (P.B i j)) + fin (P.a i), ?_, rfl,
        fun i hi => ?_⟩
      · simp only [Parallelogram.transformArr, hl]
        show (if x'.shape.length = 1 then _ else _) = _
        rw [if_neg h1]
        show Except.ok (x'.mapRows x'.shape.dropLast x'.shape.dropLast.prod 2 _) = _
        rw [hlb, List.dropLast_concat]
      · rw [mapRows_row _ _ _ _ _ _ hi, hone i hi]
        congr 1
        funext k
        congr 1
        exact Finset.sum_congr rfl fun j _ => mul_comm' _ _
  · have hl : x.lastDim = .ok n := by
      simp only [Arr.lastDim, hn]
    simp only [Parallelogram.transformArr, hl]
    show (pyAssert (n == 2) >>= _) = _
    rw [show (n == 2) = false from by simpa using h2]
    rfl
  · have hl : x.lastDim = .error .indexError := by simp [Arr.lastDim, h]
    simp only [Parallelogram.transformArr, hl]
    rfl

/-- The boundary of a parallelogram takes numbers and arrays with one axis. -/
theorem C137_parallelogram_bnd {d : ℕ} (P : Parallelogram d) (s : Arr) (hw : s.WellFormed) :
    (s.shape = [] → ∃ y, P.transformBndArr s = .ok y ∧ y.shape = [d] ∧ y.row d 0 = P.transformBnd s.item) ∧
    (∀ N, s.shape = [N] → ∃ y, P.transformBndArr s = .ok y ∧ y.shape = [N, d] ∧
      ∀ i < N, y.row d i = P.transformBnd (s.data.getD i nan)) ∧
    (2 ≤ s.shape.length → P.transformBndArr s = .error .assertion) :=
  C137_polyline s hw _

end Verif
