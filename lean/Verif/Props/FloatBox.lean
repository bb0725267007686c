import Verif.Props.FloatCsg
import Verif.Props.Cuboid

/-! # C151: boxes in floating point arithmetic -/

namespace Verif

open XR

section
variable {F : Fmt} {k l : ℤ}

/-- The left fold of the conjunction over leaves: two more bits at the upper end for every operation, `p` bits at the lower
end once. -/
theorem foldl_conjFl (hp : 4 ≤ F.p) (hk : F.emin + (F.p - 1) ≤ 2 * (k - F.p)) (hkl : k ≤ l) (vs : List ℝ) :
    ∀ (j : ℕ) (d : ℝ) (t : SignType), InRange F (k - F.p) (l + 2 * j) d → NotWrong (SignType.sign d) t →
      (∀ v ∈ vs, InRange F k l v) → 2 * (l + 2 * (j + vs.length : ℕ)) + 3 ≤ F.emax →
      ∃ c : ℝ, (vs.map fin).foldl (RAlpha.conjFl F 0) (fin d) = fin c ∧ F.Rep c ∧
        NotWrong (SignType.sign c) (vs.foldl (fun s v => min s (SignType.sign v)) t) := by
  induction vs with
  | nil => intro j d t hd ht _ _; exact ⟨d, rfl, hd.rep, ht⟩
  | cons v vs ih =>
    intro j d t hd ht hv hl
    have hp0 := F.hp
    simp only [List.length_cons] at hl
    push_cast at hl
    have hv' : InRange F k (l + 2 * j) v := (hv v List.mem_cons_self).mono le_rfl (by omega)
    have hmd := hd.moderate hk (by omega)
    have hmv := hv'.moderate (by omega) (by omega)
    have h1 := hd.conj_leaf hv' hk (by omega) (by omega)
    have h2 : NotWrong _ (min t (SignType.sign v)) := (notWrong_conj hp hmd hmv).trans (ht.min (Or.inr rfl))
    have h3 := ih (j + 1) _ _ (by convert h1 using 1; push_cast; ring) h2
      (fun w hw => hv w (List.mem_cons_of_mem _ hw)) (by push_cast; omega)
    obtain ⟨c, h4, h5, h6⟩ := h3
    refine ⟨c, ?_, h5, h6⟩
    rw [List.map_cons, List.foldl_cons, (conjFl_zero F hmd hmv).1, h4]

theorem foldl_min_le (vs : List ℝ) : ∀ t : SignType, (vs.foldl (fun s v => min s (SignType.sign v)) t ≤ t) ∧
    ∀ v ∈ vs, vs.foldl (fun s v => min s (SignType.sign v)) t ≤ SignType.sign v := by
  induction vs with
  | nil => simp
  | cons w vs ih =>
    intro t
    obtain ⟨h1, h2⟩ := ih (min t (SignType.sign w))
    refine ⟨h1.trans (min_le_left _ _), fun v hv => ?_⟩
    rcases List.mem_cons.mp hv with rfl | hv
    · exact h1.trans (min_le_right _ _)
    · exact h2 v hv

theorem foldl_min_mem (vs : List ℝ) : ∀ t : SignType, vs.foldl (fun s v => min s (SignType.sign v)) t = t ∨
    ∃ v ∈ vs, vs.foldl (fun s v => min s (SignType.sign v)) t = SignType.sign v := by
  induction vs with
  | nil => simp
  | cons w vs ih =>
    intro t
    rcases ih (min t (SignType.sign w)) with h | ⟨v, hv, h⟩
    · rcases min_choice t (SignType.sign w) with h' | h'
      · left; rw [List.foldl_cons, h, h']
      · right; exact ⟨w, List.mem_cons_self, by rw [List.foldl_cons, h, h']⟩
    · right; exact ⟨v, List.mem_cons_of_mem _ hv, h⟩

/-- **C151** (intersections of many sets). The conjunction `r0` of any number of computed values, taken from the left in
floating point arithmetic, is never of the wrong sign: it is positive only if all values are positive, negative only if some
value is negative, and it is exactly zero if no value is negative and one is zero. The values have to be zero or between `2^k`
and `2^l`; the lower end does not depend on the number of values, the upper end loses two bits for each. -/
theorem C151_intersections (F : Fmt) (hp : 4 ≤ F.p) (k l : ℤ) (hk : F.emin + (F.p - 1) ≤ 2 * (k - F.p)) (hkl : k ≤ l)
    (v : ℝ) (vs : List ℝ) (hv : ∀ a ∈ v :: vs, InRange F k l a) (hl : 2 * (l + 2 * vs.length) + 3 ≤ F.emax) :
    ∃ c : ℝ, reduce (RAlpha.sysFl F 0).conj ((v :: vs).map fin) = fin c ∧ F.Rep c ∧
      (0 < c → ∀ a ∈ v :: vs, 0 < a) ∧ (c < 0 → ∃ a ∈ v :: vs, a < 0) ∧
      ((∀ a ∈ v :: vs, 0 ≤ a) → (∃ a ∈ v :: vs, a = 0) → c = 0) := by
  have hp0 := F.hp
  obtain ⟨c, h1, h2, h3⟩ := foldl_conjFl hp hk hkl vs 0 v (SignType.sign v)
    ((hv v List.mem_cons_self).mono (by omega) (by simp)) (Or.inr rfl)
    (fun a ha => hv a (List.mem_cons_of_mem _ ha)) (by simpa using hl)
  obtain ⟨h4, h5⟩ := foldl_min_le vs (SignType.sign v)
  have h6 := foldl_min_mem vs (SignType.sign v)
  set t := vs.foldl (fun s v => min s (SignType.sign v)) (SignType.sign v)
  have hle : ∀ a ∈ v :: vs, t ≤ SignType.sign a := by
    intro a ha
    rcases List.mem_cons.mp ha with rfl | ha
    · exact h4
    · exact h5 a ha
  have hmem : ∃ a ∈ v :: vs, t = SignType.sign a := by
    rcases h6 with h | ⟨a, ha, h⟩
    · exact ⟨v, List.mem_cons_self, h⟩
    · exact ⟨a, List.mem_cons_of_mem _ ha, h⟩
  have hpos : 0 < c → ∀ a ∈ v :: vs, 0 < a := by
    intro hc a ha
    rw [sign_pos hc] at h3
    have h7 : t = 1 := by rcases h3 with h | h <;> [exact absurd h (by decide); exact h.symm]
    have := hle a ha
    rw [h7] at this
    exact sign_eq_one_iff.mp (le_antisymm (by generalize SignType.sign a = s; revert s; decide) this)
  have hneg : c < 0 → ∃ a ∈ v :: vs, a < 0 := by
    intro hc
    rw [sign_neg hc] at h3
    have h7 : t = -1 := by rcases h3 with h | h <;> [exact absurd h (by decide); exact h.symm]
    obtain ⟨a, ha, h8⟩ := hmem
    exact ⟨a, ha, sign_eq_neg_one_iff.mp (h8.symm.trans h7)⟩
  refine ⟨c, h1, h2, hpos, hneg, fun h7 h8 => ?_⟩
  obtain ⟨a, ha, h8⟩ := h8
  rcases lt_trichotomy c 0 with h | h | h
  · obtain ⟨b, hb, h9⟩ := hneg h
    exact absurd (h7 b hb) (not_le.mpr h9)
  · exact h
  · exact absurd (hpos h a ha) (by rw [h8]; exact lt_irrefl _)

/-- A rounded difference. -/
theorem sub_inRange {a b : ℝ} (hk : F.emin ≤ k) (hl : F.emin ≤ l) (hle : l ≤ F.emax) (h : a - b = 0 ∨ (2 : ℝ) ^ k ≤ |a - b|) (hl2 : |a - b| ≤ 2 ^ l) :
    ∃ c, F.sub (fin a) (fin b) = fin c ∧ InRange F k l c ∧ SignType.sign c = SignType.sign (a - b) := by
  refine ⟨F.rndR (a - b), ?_, ⟨F.rep_rndR _, ?_, ?_⟩, ?_⟩
  · rw [Fmt.sub, fin_sub, F.rnd_fin (hl2.trans (zpow_le_zpow_right₀ (by norm_num) hle))]
  · rcases h with h | h
    · left; rw [h, F.rndR_zero]
    · right; rw [← F.rndR_abs]; exact F.le_rndR (F.rep_two_zpow hk) h
  · rw [← F.rndR_abs]; exact F.rndR_le (F.rep_two_zpow hl) hl2
  · have pos : (0 : ℝ) < 2 ^ k := by positivity
    rcases h with h | h
    · rw [h, F.rndR_zero]
    · rcases le_total 0 (a - b) with h0 | h0
      · rw [abs_of_nonneg h0] at h
        rw [sign_pos (lt_of_lt_of_le pos h), sign_pos (lt_of_lt_of_le pos (F.le_rndR (F.rep_two_zpow hk) h))]
      · rw [abs_of_nonpos h0] at h
        have h1 := F.le_rndR (F.rep_two_zpow hk) h
        rw [F.rndR_neg] at h1
        rw [sign_neg (by linarith), sign_neg (by linarith)]

/-- **C151** (boxes). `cuboid` with `r0` in floating point arithmetic, for a point `x` whose distances to the planes of the faces
are zero or between `2^k` and `2^l`: the value is positive only in the interior of the box and negative only outside, and on
the boundary of the box it is exactly zero. In particular points of the box are never classified as outside and points outside
never as inside. -/
theorem C151_cuboid {n : ℕ} (hn : 0 < n) (F : Fmt) (hp : 4 ≤ F.p) (k l : ℤ) (hk : F.emin + (F.p - 1) ≤ 2 * (k - F.p)) (hkl : k ≤ l)
    (hl : 2 * (l + 4 * n) ≤ F.emax) (e x : Fin n → ℝ) (centering : Bool)
    (hhi : ∀ i, F.Rep (boxHi e centering i))
    (h1 : ∀ i, boxHi e centering i - x i = 0 ∨ (2 : ℝ) ^ k ≤ |boxHi e centering i - x i|)
    (h2 : ∀ i, x i - boxLo e centering i = 0 ∨ (2 : ℝ) ^ k ≤ |x i - boxLo e centering i|)
    (h3 : ∀ i, |boxHi e centering i - x i| ≤ 2 ^ l) (h4 : ∀ i, |x i - boxLo e centering i| ≤ 2 ^ l) :
    ∃ c : ℝ, cuboidFl F (vfin e) centering (RAlpha.sysFl F 0) (vfin x) = fin c ∧ F.Rep c ∧
      (0 < c → x ∈ interior (Set.Icc (boxLo e centering) (boxHi e centering))) ∧
      (c < 0 → x ∉ Set.Icc (boxLo e centering) (boxHi e centering)) ∧
      (x ∈ frontier (Set.Icc (boxLo e centering) (boxHi e centering)) → c = 0) := by
  have hp0 := F.hp
  have hmin := F.hmin
  set lo := boxLo e centering with hlo'
  set hi := boxHi e centering with hhi'
  have hmax := F.hmax
  have he : ∀ i, |e i| < 2 ^ (F.emax + 1) := by
    intro i
    have e1 : e i = (hi i - x i) + (x i - lo i) := by
      have : e i = hi i - lo i := by
        cases centering <;> simp only [hlo', hhi', boxLo, boxHi, if_true, Bool.false_eq_true, if_false] <;> ring
      rw [this]; ring
    calc |e i| ≤ 2 ^ l + 2 ^ l := by rw [e1]; exact (abs_add_le _ _).trans (add_le_add (h3 i) (h4 i))
      _ = 2 ^ (l + 1) := by rw [zpow_add_one₀ (by norm_num)]; ring
      _ < 2 ^ (F.emax + 1) := zpow_lt_zpow_right₀ (by norm_num) (by omega)
  have ehi : ∀ i, cuboidFl.ub F (vfin e) centering i = fin (hi i) := by
    intro i
    cases centering
    · rfl
    · have : hi i = e i / 2 := rfl
      have h5 : (vfin e i : XR) / 2 = fin (e i / 2) := by simp [fin_div]
      simp only [cuboidFl.ub, if_true, h5]
      rw [this]
      refine F.rnd_rep (this ▸ hhi i) (lt_of_le_of_lt ?_ (he i))
      rw [abs_div, abs_two]; linarith [abs_nonneg (e i)]
  have elo : ∀ i, cuboidFl.lb F (vfin e) centering i = fin (lo i) := by
    intro i
    cases centering
    · simp [cuboidFl.lb, hlo', boxLo]
    · have : lo i = -hi i := by simp only [hlo', hhi', boxLo, boxHi, if_true]; ring
      have h5 : -(vfin e i : XR) / 2 = fin (-e i / 2) := by simp [fin_div]
      have h6 : lo i = -e i / 2 := rfl
      simp only [cuboidFl.lb, if_true, h5]
      rw [h6]
      refine F.rnd_rep (h6 ▸ this ▸ (hhi i).neg) (lt_of_le_of_lt ?_ (he i))
      rw [abs_div, abs_two, abs_neg]; linarith [abs_nonneg (e i)]
  have a1 := fun i => sub_inRange (F := F) (k := k) (l := l) (by omega) (by omega) (by omega) (h1 i) (h3 i)
  have a2 := fun i => sub_inRange (F := F) (k := k) (l := l) (by omega) (by omega) (by omega) (h2 i) (h4 i)
  choose a ha ra sa using a1
  choose b hb rb sb using a2
  have hred : cuboidFl F (vfin e) centering (RAlpha.sysFl F 0) (vfin x) =
      reduce (RAlpha.sysFl F 0).conj (((List.finRange n).flatMap fun i => [a i, b i]).map fin) := by
    simp [cuboidFl, compose, ehi, elo, ha, hb, List.map_flatMap]
  have hmem : ∀ d, d ∈ ((List.finRange n).flatMap fun i => [a i, b i]) ↔ ∃ i, d = a i ∨ d = b i := by
    intro d
    simp
  have hlen : ((List.finRange n).flatMap fun i => [a i, b i]).length = 2 * n := by
    simp [List.length_flatMap, mul_comm]
  have hcases : ∃ v vs, ((List.finRange n).flatMap fun i => [a i, b i]) = v :: vs := by
    rcases hL : ((List.finRange n).flatMap fun i => [a i, b i]) with _ | ⟨v, vs⟩
    · rw [hL] at hlen; simp at hlen; omega
    · exact ⟨v, vs, rfl⟩
  obtain ⟨v, vs, hL⟩ := hcases
  rw [hL] at hred hmem hlen
  obtain ⟨c, g1, g2, g3, g4, g5⟩ := C151_intersections F hp k l hk hkl v vs
    (fun d hd => by
      obtain ⟨i, rfl | rfl⟩ := (hmem d).mp hd
      · exact ra i
      · exact rb i) (by simp at hlen; omega)
  have pos_a : ∀ i, 0 < a i ↔ x i < hi i := fun i => by rw [← sign_eq_one_iff, sa, sign_eq_one_iff, sub_pos]
  have pos_b : ∀ i, 0 < b i ↔ lo i < x i := fun i => by rw [← sign_eq_one_iff, sb, sign_eq_one_iff, sub_pos]
  have neg_a : ∀ i, a i < 0 ↔ hi i < x i := fun i => by rw [← sign_eq_neg_one_iff, sa, sign_eq_neg_one_iff, sub_neg]
  have neg_b : ∀ i, b i < 0 ↔ x i < lo i := fun i => by rw [← sign_eq_neg_one_iff, sb, sign_eq_neg_one_iff, sub_neg]
  have hint : x ∈ interior (Set.Icc lo hi) ↔ ∀ i, lo i < x i ∧ x i < hi i := by
    rw [← Set.pi_univ_Icc, interior_pi_set Set.finite_univ]
    simp [interior_Icc]
  refine ⟨c, hred.trans g1, g2, fun hc => ?_, fun hc => ?_, fun hx => ?_⟩
  · rw [hint]
    exact fun i => ⟨(pos_b i).mp (g3 hc _ ((hmem _).mpr ⟨i, Or.inr rfl⟩)), (pos_a i).mp (g3 hc _ ((hmem _).mpr ⟨i, Or.inl rfl⟩))⟩
  · obtain ⟨d, hd, hd0⟩ := g4 hc
    obtain ⟨i, rfl | rfl⟩ := (hmem d).mp hd
    · exact fun h => absurd (h.2 i) (not_le.mpr ((neg_a i).mp hd0))
    · exact fun h => absurd (h.1 i) (not_le.mpr ((neg_b i).mp hd0))
  · rw [isClosed_Icc.frontier_eq, Set.mem_sdiff, hint] at hx
    obtain ⟨hx1, hx2⟩ := hx
    push Not at hx2
    obtain ⟨i, hi2⟩ := hx2
    refine g5 (fun d hd => ?_) ?_
    · obtain ⟨j, rfl | rfl⟩ := (hmem d).mp hd
      · exact not_lt.mp fun h => absurd (hx1.2 j) (not_le.mpr ((neg_a j).mp h))
      · exact not_lt.mp fun h => absurd (hx1.1 j) (not_le.mpr ((neg_b j).mp h))
    · by_cases h : lo i < x i
      · have := le_antisymm (hi2 h) (hx1.2 i)
        exact ⟨a i, (hmem _).mpr ⟨i, Or.inl rfl⟩, sign_eq_zero_iff.mp (by rw [sa, this, sub_self, sign_zero])⟩
      · have := le_antisymm (not_lt.mp h) (hx1.1 i)
        exact ⟨b i, (hmem _).mpr ⟨i, Or.inr rfl⟩, sign_eq_zero_iff.mp (by rw [sb, this, sub_self, sign_zero])⟩

end

/-- **C151**, counterexamples in single precision. The point `2⁻³⁰` inside the box `[0, 1]` has the value 0 as a boundary point;
the point `2⁻⁷⁹` outside the box `[0, 2⁻⁸⁰]` has a positive value since the squares underflow. -/
theorem C151_cuboid_counterexamples :
    cuboidFl Fmt.single (vfin fun _ : Fin 1 => (1 : ℝ)) false (RAlpha.sysFl Fmt.single 0) (vfin fun _ => 2 ^ (-30 : ℤ)) = fin 0 ∧
    cuboidFl Fmt.single (vfin fun _ : Fin 1 => (2 : ℝ) ^ (-80 : ℤ)) false (RAlpha.sysFl Fmt.single 0) (vfin fun _ => 2 ^ (-79 : ℤ)) =
      fin (2 ^ (-80 : ℤ)) := by
  have hred : ∀ e x : ℝ, cuboidFl Fmt.single (vfin fun _ : Fin 1 => e) false (RAlpha.sysFl Fmt.single 0) (vfin fun _ => x) =
      RAlpha.conjFl Fmt.single 0 (Fmt.single.sub (fin e) (fin x)) (Fmt.single.sub (fin x) (fin 0)) := by
    intro e x
    simp [cuboidFl, compose, reduce, cuboidFl.ub, cuboidFl.lb, RAlpha.sysFl, List.finRange_succ]
  have hrep : ∀ j : ℤ, -149 ≤ j → j < 100 → Fmt.single.sub (fin (2 ^ j)) (fin 0) = fin (2 ^ j) := by
    intro j h1 h2
    rw [Fmt.sub, fin_sub, sub_zero]
    refine Fmt.rnd_rep _ (Fmt.rep_two_zpow _ h1) ?_
    rw [abs_of_pos (by positivity)]
    exact zpow_lt_zpow_right₀ (by norm_num) (by simp only [Fmt.single]; omega)
  constructor
  · rw [hred, hrep (-30) (by norm_num) (by norm_num)]
    have h1 : Fmt.single.sub (fin 1) (fin (2 ^ (-30 : ℤ))) = fin 1 := by
      rw [Fmt.sub, fin_sub, Fmt.rnd_fin]
      · have habs : |(1 : ℝ) - 2 ^ (-30 : ℤ)| = 1 - 2 ^ (-30 : ℤ) := abs_of_nonneg (by norm_num)
        have := Fmt.single.rndR_eq (x := 1 - 2 ^ (-30 : ℤ)) (k := -1) (m := 2 ^ 24) (by rw [habs]; norm_num)
          (by rw [habs]; norm_num) (by decide) (by
            simp only [Fmt.single]
            norm_num [abs_of_pos])
        rw [this]
        simp only [Fmt.single]
        norm_num
      · simp only [Fmt.single]
        norm_num [abs_of_pos]
    rw [h1]
    exact C138_r0_sign_lost
  · rw [hred, hrep (-79) (by norm_num) (by norm_num)]
    have h1 : Fmt.single.sub (fin (2 ^ (-80 : ℤ))) (fin (2 ^ (-79 : ℤ))) = fin (-2 ^ (-80 : ℤ)) := by
      have e : (2 : ℝ) ^ (-80 : ℤ) - 2 ^ (-79 : ℤ) = -2 ^ (-80 : ℤ) := by norm_num
      rw [Fmt.sub, fin_sub, e]
      refine Fmt.rnd_rep _ (Fmt.rep_two_zpow _ (by decide)).neg ?_
      rw [abs_neg, abs_of_pos (by positivity)]
      exact zpow_lt_zpow_right₀ (by norm_num) (by decide)
    rw [h1]
    exact C138_r0_underflow

/-- The cube with edges of length 2 in three dimensions in single precision: the corner has the value 0. -/
example : cuboidFl Fmt.single (vfin fun _ : Fin 3 => (2 : ℝ)) true (RAlpha.sysFl Fmt.single 0) (vfin fun _ => 1) = fin 0 := by
  have e1 : ∀ i, boxHi (fun _ : Fin 3 => (2 : ℝ)) true i = 1 := by intro i; simp [boxHi]
  have e2 : ∀ i, boxLo (fun _ : Fin 3 => (2 : ℝ)) true i = -1 := by intro i; simp [boxLo]
  obtain ⟨c, h1, -, h2, h3, h4⟩ := C151_cuboid (n := 3) (by norm_num) Fmt.single (by decide) (-39) 40 (by decide) (by norm_num) (by decide)
    (fun _ => 2) (fun _ => 1) true (fun i => by rw [e1]; exact ⟨1, 0, by norm_num [Fmt.single], by decide, by norm_num⟩)
    (fun i => by left; rw [e1]; norm_num) (fun i => by right; rw [e2]; norm_num [abs_of_pos]) (fun i => by rw [e1]; norm_num)
    (fun i => by rw [e2]; norm_num [abs_of_pos])
  rw [h1, h4]
  rw [isClosed_Icc.frontier_eq, ← Set.pi_univ_Icc, interior_pi_set Set.finite_univ]
  refine ⟨fun i _ => ⟨by rw [e2]; norm_num, by rw [e1]⟩, fun h => ?_⟩
  have : (1 : ℝ) ∈ interior (Set.Icc (boxLo (fun _ : Fin 3 => (2 : ℝ)) true 0) (boxHi (fun _ : Fin 3 => (2 : ℝ)) true 0)) :=
    h 0 (Set.mem_univ _)
  rw [interior_Icc] at this
  exact absurd this.2 (by rw [e1]; exact lt_irrefl _)

end Verif
