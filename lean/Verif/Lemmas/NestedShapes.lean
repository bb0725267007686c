import Verif.Lemmas.NestedSys
import Verif.Lemmas.FwdAD
import Verif.Model.Calc

/-! # Lemmas about nested differentiation of boxes, spheres and transformed solids -/

namespace Verif

open XR
open scoped ContDiff Topology

section

variable {n k : ℕ} {x : Pt n} {vs : ℕ → Pt n}

/-! ### sums -/

theorem rep_foldl (L : List (Nested k × (Pt n → ℝ))) : ∀ (d : Nested k) (f : Pt n → ℝ), Rep x vs k d f →
    (∀ q ∈ L, Rep x vs k q.1 q.2) →
    Rep x vs k ((L.map Prod.fst).foldl ADNum.add d) fun y => f y + (L.map fun q => q.2 y).sum := by
  induction L with
  | nil => intro d f hd _; simpa using hd
  | cons q L ih =>
    intro d f hd hL
    have := ih _ _ ((rep_sound x vs k).add hd (hL q (by simp))) fun r hr => hL r (by simp [hr])
    simpa [add_assoc] using this

theorem rep_sum {m : ℕ} (a : Fin m → Nested k) (f : Fin m → Pt n → ℝ) (h : ∀ i, Rep x vs k (a i) (f i)) :
    Rep x vs k (sumG ((List.finRange m).map a)) fun y => ∑ i, f i y := by
  have := rep_foldl ((List.finRange m).map fun i => (a i, f i)) _ _ ((rep_sound x vs k).const 0) (by
    intro q hq
    simp only [List.mem_map, List.mem_finRange, true_and] at hq
    obtain ⟨i, rfl⟩ := hq
    exact h i)
  simp only [List.map_map, zero_add, ← zero_eq] at this
  refine (rep_sound x vs k).congr this (Filter.Eventually.of_forall fun y => ?_)
  show ((List.finRange m).map fun i => f i y).sum = _
  exact (Fin.sum_univ_def _).symm

end

theorem tracked_foldl {k : ℕ} (l : List (Nested k)) : ∀ d : Nested k, Tracked k d → Tracked k (l.foldl ADNum.add d) := by
  induction l with
  | nil => exact fun d h => h
  | cons e l ih => exact fun d h => ih _ (tracked_add h)

theorem tracked_sum {k : ℕ} {m : ℕ} (hm : 0 < m) (a : Fin m → Nested k) (h : ∀ i, Tracked k (a i)) :
    Tracked k (sumG ((List.finRange m).map a)) := by
  obtain ⟨m, rfl⟩ : ∃ l, m = l + 1 := ⟨m - 1, by omega⟩
  rw [List.finRange_succ, List.map_cons, sumG, List.foldl_cons]
  exact tracked_foldl _ _ (tracked_add_right (h 0))

theorem ZJ.const_add : ∀ {k : ℕ} {e : Nested k}, ZJ k e → ZJ k (ADNum.const (fin 0) +ₐ e)
  | 0, _, h => by
    have h0 : ∀ e : XR, e = fin 0 → fin 0 + e = fin 0 := by
      rintro _ rfl; simp
    exact h0 _ h
  | k + 1, ⟨e, t⟩, h => by
    obtain ⟨h1, t, rfl, h2⟩ := h
    exact ⟨ZJ.const_add (k := k) h1, t, rfl, h2⟩

theorem zj_foldl {k : ℕ} (l : List (Nested k)) : ∀ d : Nested k, ZJ k d → (∀ e ∈ l, ZJ k e) → ZJ k (l.foldl ADNum.add d) := by
  induction l with
  | nil => exact fun d h _ => h
  | cons e l ih => exact fun d h hl => ih _ (h.add (hl e (by simp))) fun e he => hl e (by simp [he])

theorem zj_sum {k : ℕ} {m : ℕ} (hm : 0 < m) (a : Fin m → Nested k) (h : ∀ i, ZJ k (a i)) :
    ZJ k (sumG ((List.finRange m).map a)) := by
  obtain ⟨m, rfl⟩ : ∃ l, m = l + 1 := ⟨m - 1, by omega⟩
  rw [List.finRange_succ, List.map_cons, sumG, List.foldl_cons]
  refine zj_foldl _ _ (show ZJ k (ADNum.const 0 +ₐ a 0) from zero_eq ▸ ZJ.const_add (h 0)) fun e he => ?_
  simp only [List.mem_map] at he
  obtain ⟨i, -, rfl⟩ := he
  exact h i

theorem nan_foldl {c : ℕ → Bool} {k : ℕ} (l : List (Nested k)) : ∀ d : Nested k, (comp c k d = nan ∨ ∃ e ∈ l, comp c k e = nan) →
    comp c k (l.foldl ADNum.add d) = nan := by
  induction l with
  | nil => intro d h; simpa using h
  | cons e l ih =>
    intro d h
    refine ih _ ?_
    rcases h with h | ⟨f, hf, h⟩
    · exact Or.inl (add_nan (Or.inl h))
    · rcases List.mem_cons.mp hf with rfl | hf
      · exact Or.inl (add_nan (Or.inr h))
      · exact Or.inr ⟨f, hf, h⟩

/-! ### norm and sphere -/

section

variable {m n k : ℕ} {x : Pt n} {vs : ℕ → Pt n} {a : Fin m → Nested k} {T : Pt n → Pt m}

theorem vnorm_nout (hm : 0 < m) (ha : ∀ i, Rep x vs k (a i) (fun y => T y i) ∧ Tracked k (a i)) :
    NOut x vs k (T x ≠ 0) (vnormG a) fun y => ‖T y‖ := by
  have hsum : ∀ y, ‖T y‖ ^ 2 = ∑ i, T y i * T y i := fun y => by
    rw [EuclideanSpace.norm_sq_eq]
    exact Finset.sum_congr rfl fun i _ => by rw [Real.norm_eq_abs, sq_abs, sq]
  have S := rep_sound x vs k
  refine ⟨fun hp => ⟨?_, tracked_sqrt (tracked_sum hm _ fun i => tracked_mul (ha i).2)⟩, fun hp => ?_⟩
  · have h1 := rep_sum (fun i => a i *ₐ a i) _ fun i => S.mul (ha i).1 (ha i).1
    refine S.congr (S.sqrt h1 ?_) (Filter.Eventually.of_forall fun y => ?_)
    · rw [← hsum]
      have := norm_pos_iff.mpr hp
      positivity
    · beta_reduce
      rw [← hsum, Real.sqrt_sq (norm_nonneg _)]
  · push Not at hp
    have h0 : ∀ i, FJ k (a i) := fun i => (ha i).1.fj (ha i).2 (by rw [hp]; rfl)
    exact sqrt_poison (zj_sum hm _ fun i => (h0 i).mul (h0 i))

theorem sphere_nout {r : ℝ} (hr : r ≠ 0) (hm : 0 < m) (ha : ∀ i, Rep x vs k (a i) (fun y => T y i) ∧ Tracked k (a i)) :
    NOut x vs k (T x ≠ 0) (sphereG (fin r) a) fun y => (r ^ 2 - ‖T y‖ ^ 2) / (2 * r) := by
  have h2r : 2 * r ≠ 0 := by positivity
  have S := rep_sound x vs k
  have hN := vnorm_nout hm ha
  have e1 : sphereG (fin r) a = (ADNum.const (fin (r ^ 2)) -ₐ ADNum.ipow (vnormG a) 2) /ₐ ADNum.const (fin (2 * r)) := by
    rw [sphereG, fin_npow, lit_eq, fin_mul]
  rw [e1]
  refine ⟨fun hp => ⟨?_, tracked_div (tracked_sub_right (tracked_ipow _ (hN.1 hp).2))⟩, fun hp => ?_⟩
  · have := S.div (S.sub (S.const (r ^ 2)) (S.ipow 2 (hN.1 hp).1 (Or.inl (by norm_num)))) (S.const (2 * r)) h2r
    refine S.congr this (Filter.Eventually.of_forall fun y => ?_)
    norm_cast
  · exact poisoned_of_nan (hN.2 hp) fun b h => div_nan _ _ _ _ (Or.inl (sub_nan (Or.inr (ipow_nan _ _ 2 (by norm_num) _ h))))

end

theorem vnorm_strict {n k : ℕ} {c : ℕ → Bool} (a : Fin n → Nested k) (h : ∃ i, comp c k (a i) = nan) :
    comp c k (vnormG a) = nan := by
  obtain ⟨i, hi⟩ := h
  exact sqrt_nan _ _ _ (nan_foldl _ _ (Or.inr ⟨_, List.mem_map.mpr ⟨i, List.mem_finRange i, rfl⟩, mul_nan _ _ _ _ (Or.inl hi)⟩))

theorem sphere_strict {n : ℕ} (r : XR) : NestStrict fun k => (sphereG r : GADF (Nested k) n) := fun _ _ _ h =>
  div_nan _ _ _ _ (Or.inl (sub_nan (Or.inr (ipow_nan _ _ 2 (by norm_num) _ (vnorm_strict _ h)))))

/-! ### cuboid -/

section

variable {n k : ℕ} {x : Pt n} {vs : ℕ → Pt n} {S : (α : Type) → [ADNum α] → RFunG α} {P : RFun}

theorem fold_nout (hS : NestSystem S P) (hP : SignLaw P.conj P.disj) (L : List (Nested k × (Pt n → ℝ))) :
    ∀ (d : Nested k) (f : Pt n → ℝ) (p : Prop), NOut x vs k p d f → (∀ q ∈ L, NOut x vs k True q.1 q.2) →
    ∀ h : Pt n → ℝ, (∀ y, (L.map fun q => fin (q.2 y)).foldl P.conj (fin (f y)) = fin (h y)) →
    NOut x vs k (p ∧ NoClash (SignType.sign (f x)) (L.map fun q => q.2 x))
      ((L.map Prod.fst).foldl (S (Nested k)).conj d) h := by
  induction L with
  | nil =>
    intro d f p hd _ h hh
    have : h = f := funext fun y => (fin_inj.mp (hh y)).symm
    rw [this]
    exact hd.iff (by simp [NoClash])
  | cons q L ih =>
    intro d f p hd hL h hh
    choose c hc hs using fun y => hP.and_sign (f y) (q.2 y)
    have h1 := ih _ c _ (hd.conj hS (hL q (by simp)) hc) (fun r hr => hL r (by simp [hr])) h (fun y => by
      have := hh y
      simp only [List.map_cons, List.foldl_cons] at this
      rw [hc] at this; exact this)
    refine h1.iff ?_
    rw [hs]
    simp only [List.map_cons, NoClash, sign_eq_zero_iff, true_and, and_assoc]

theorem cuboid_nout {m : ℕ} (hm : 0 < m) (hS : NestSystem S P) (hP : SignLaw P.conj P.disj)
    (e : EdgeArg m) (c : Bool) (lb ub : Fin m → ℝ) (hlb : ∀ i, cuboid.lb e c i = fin (lb i))
    (hub : ∀ i, cuboid.ub e c i = fin (ub i)) {a : Fin m → Nested k} {T : Pt n → Pt m}
    (ha : ∀ i, Rep x vs k (a i) (fun y => T y i) ∧ Tracked k (a i)) (h : Pt m → ℝ)
    (hh : ∀ y, cuboid e c P (efin y) = fin (h y)) :
    ∃ b l, faces lb ub (fun i => T x i) = b :: l ∧
      NOut x vs k (NoClash (SignType.sign b) l) (cuboidG e c (S (Nested k)) a) fun y => h (T y) := by
  have R := rep_sound x vs k
  set L : List (Nested k × (Pt n → ℝ)) := (List.finRange m).flatMap fun i =>
    [(ADNum.const (fin (ub i)) -ₐ a i, fun y => ub i - T y i), (a i -ₐ ADNum.const (fin (lb i)), fun y => T y i - lb i)] with hL
  have hAD : ∀ q ∈ L, NOut x vs k True q.1 q.2 := by
    intro q hq
    simp only [hL, List.mem_flatMap, List.mem_finRange, true_and, List.mem_cons, List.not_mem_nil, or_false] at hq
    obtain ⟨i, rfl | rfl⟩ := hq
    · exact ⟨fun _ => ⟨R.sub (R.const _) (ha i).1, tracked_sub_right (ha i).2⟩, fun h => absurd trivial h⟩
    · exact ⟨fun _ => ⟨R.sub (ha i).1 (R.const _), tracked_sub (ha i).2⟩, fun h => absurd trivial h⟩
  have m1 (y : Pt n) : (L.map fun q => fin (q.2 y)) =
      (List.finRange m).flatMap fun i => [cuboid.ub e c i - efin (T y) i, efin (T y) i - cuboid.lb e c i] := by
    simp [hL, List.map_flatMap, hub, hlb]
  have m2 : (L.map Prod.fst) =
      (List.finRange m).flatMap fun i => [ADNum.const (cuboid.ub e c i) -ₐ a i, a i -ₐ ADNum.const (cuboid.lb e c i)] := by
    simp [hL, List.map_flatMap, hub, hlb]
  have m3 : (L.map fun q => q.2 x) = faces lb ub fun i => T x i := by
    simp [hL, List.map_flatMap, faces]
  rcases hLL : L with _ | ⟨q, L'⟩
  · exfalso
    have := congrArg List.length hLL
    simp [hL] at this
    omega
  refine ⟨q.2 x, L'.map fun q => q.2 x, by rw [← m3, hLL]; rfl, ?_⟩
  have h1 := fold_nout hS hP L' q.1 q.2 True (hAD q (by simp [hLL])) (fun r hr => hAD r (by simp [hLL, hr])) (fun y => h (T y))
    (fun y => by
      have := hh (T y)
      simp only [cuboid, compose, List.flatMap_cons, List.flatMap_nil, List.append_nil] at this
      rw [← m1, hLL] at this
      exact this)
  have h2 : cuboidG e c (S (Nested k)) a = (L'.map Prod.fst).foldl (S (Nested k)).conj q.1 := by
    rw [cuboidG, ← m2, hLL]; rfl
  rw [h2]
  exact h1.iff (by simp)

theorem nan_fold_conj (hS : NestSystem S P) {c : ℕ → Bool} (l : List (Nested k)) : ∀ d : Nested k,
    (comp c k d = nan ∨ ∃ e ∈ l, comp c k e = nan) → comp c k (l.foldl (S (Nested k)).conj d) = nan := by
  induction l with
  | nil => intro d h; simpa using h
  | cons e l ih =>
    intro d h
    refine ih _ ?_
    rcases h with h | ⟨f, hf, h⟩
    · exact Or.inl (hS.nan_conj _ _ _ _ (Or.inl h))
    · rcases List.mem_cons.mp hf with rfl | hf
      · exact Or.inl (hS.nan_conj _ _ _ _ (Or.inr h))
      · exact Or.inr ⟨f, hf, h⟩

theorem cuboid_strict (hS : NestSystem S P) (e : EdgeArg n) (c : Bool) :
    NestStrict fun k => (cuboidG e c (S (Nested k)) : GADF (Nested k) n) := by
  rintro b k a ⟨i, hi⟩
  show comp b k (reduceG (S (Nested k)).conj _) = nan
  have hmem : (ADNum.const (cuboid.ub e c i) -ₐ a i) ∈ (List.finRange n).flatMap fun i =>
      [ADNum.const (cuboid.ub e c i) -ₐ a i, a i -ₐ ADNum.const (cuboid.lb e c i)] :=
    List.mem_flatMap.mpr ⟨i, List.mem_finRange i, by simp⟩
  revert hmem
  generalize (List.finRange n).flatMap (fun i =>
      [ADNum.const (cuboid.ub e c i) -ₐ a i, a i -ₐ ADNum.const (cuboid.lb e c i)]) = l
  intro hmem
  have hnan : comp b k (ADNum.const (cuboid.ub e c i) -ₐ a i) = nan := sub_nan (Or.inr hi)
  cases l with
  | nil => simp at hmem
  | cons d l =>
    refine nan_fold_conj hS l d ?_
    rcases List.mem_cons.mp hmem with h | h
    · exact Or.inl (h ▸ hnan)
    · exact Or.inr ⟨_, h, hnan⟩

theorem build_strict {ι : Type*} (hS : NestSystem S P) (leafG : ι → (k : ℕ) → GADF (Nested k) n) (hl : ∀ i, NestStrict (leafG i))
    (e : SetExpr ι) : NestStrict fun k => e.buildG (S (Nested k)) fun i => leafG i k := by
  intro c k a h
  have hneg : ∀ d : Nested k, comp c k d = nan → comp c k (ADNum.neg d) = nan := fun d hd => by rw [comp_neg, hd]; rfl
  show comp c k (e.buildG (S (Nested k)) (fun i => leafG i k) a) = nan
  induction e with
  | leaf i => exact hl i c k a h
  | compl e ih => exact hneg _ ih
  | union e₁ e₂ ih₁ ih₂ => exact hS.nan_disj _ _ _ _ (Or.inl ih₁)
  | inter e₁ e₂ ih₁ ih₂ => exact hS.nan_conj _ _ _ _ (Or.inl ih₁)
  | diff e₁ e₂ ih₁ ih₂ => exact hS.nan_conj _ _ _ _ (Or.inl ih₁)
  | impl e₁ e₂ ih₁ ih₂ => exact hS.nan_disj _ _ _ _ (Or.inr ih₂)
  | equiv e₁ e₂ ih₁ ih₂ => exact hS.nan_conj _ _ _ _ (Or.inl (hS.nan_disj _ _ _ _ (Or.inl ih₁)))
  | symmDiff e₁ e₂ ih₁ ih₂ => exact hS.nan_disj _ _ _ _ (Or.inl (hS.nan_conj _ _ _ _ (Or.inl ih₁)))

end

/-! ### outcomes -/

theorem sphere_nestOutcome {n : ℕ} (hn : 0 < n) {r : ℝ} (hr : r ≠ 0) (x : Pt n) :
    NestOutcome (x ≠ 0) (fun _ => sphereG (fin r)) (fun y => (r ^ 2 - ‖y‖ ^ 2) / (2 * r)) x := by
  rintro n k x vs a T rfl ha
  exact sphere_nout hr hn ha

theorem NestOutcome.coords {m n : ℕ} {p : Prop} {F : (k : ℕ) → GADF (Nested k) m} {f : Pt m → ℝ} {x₀ : Pt n} {T₀ : Pt n → Pt m}
    (h : NestOutcome p F f (T₀ x₀)) (z : (k : ℕ) → (Fin n → Nested k) → Fin m → Nested k)
    (hz : ∀ (i : Fin m), NestOutcome True (fun k a => z k a i) (fun y => T₀ y i) x₀) :
    NestOutcome p (fun k a => F k (z k a)) (fun y => f (T₀ y)) x₀ := by
  rintro l k x vs a T rfl ha
  exact h l k x vs (z k a) (fun y => T₀ (T y)) rfl fun i => (hz i l k x vs a T rfl ha).1 trivial

theorem nestOutcome_proj {n : ℕ} (i : Fin n) (x : Pt n) : NestOutcome True (fun _ a => a i) (fun y => y i) x := by
  rintro l k x vs a T rfl ha
  exact ⟨fun _ => ha i, fun h => absurd trivial h⟩

theorem translate_nestOutcome {n : ℕ} {p : Prop} {F : (k : ℕ) → GADF (Nested k) n} {f : Pt n → ℝ} (x y : Pt n)
    (h : NestOutcome p F f (x - y)) : NestOutcome p (fun k => translateG (F k) (efin y)) (fun z => f (z - y)) x := by
  refine NestOutcome.coords (T₀ := fun z => z - y) h (fun k a i => a i -ₐ ADNum.const (efin y i)) fun i => ?_
  rintro l k x vs a T rfl ha
  have S := rep_sound x vs k
  exact ⟨fun _ => ⟨S.sub (ha i).1 (S.const (y i)), tracked_sub (ha i).2⟩, fun h => absurd trivial h⟩

theorem scaleBy_nestOutcome {n : ℕ} {p : Prop} {F : (k : ℕ) → GADF (Nested k) n} {f : Pt n → ℝ} {s : ℝ} (hs : s ≠ 0) (x : Pt n)
    (h : NestOutcome p F f (s⁻¹ • x)) : NestOutcome p (fun k => scaleByG (F k) (fin s)) (fun z => f (s⁻¹ • z) * s) x := by
  have h1 := NestOutcome.coords (T₀ := fun z => s⁻¹ • z) h (fun k a i => a i /ₐ ADNum.const (fin s)) fun i => by
    rintro l k x vs a T rfl ha
    have S := rep_sound x vs k
    refine ⟨fun _ => ⟨S.congr (S.div (ha i).1 (S.const s) hs) (Filter.Eventually.of_forall fun y => ?_), tracked_div (ha i).2⟩,
      fun h => absurd trivial h⟩
    show T y i / s = s⁻¹ * T y i
    rw [div_eq_inv_mul]
  rintro l k x vs a T rfl ha
  have h2 := h1 l k x vs a T rfl ha
  have S := rep_sound x vs k
  exact ⟨fun hp => ⟨S.mul (h2.1 hp).1 (S.const s), tracked_mul (h2.1 hp).2⟩,
    fun hp => poisoned_of_nan (h2.2 hp) fun b hb => mul_nan _ _ _ _ (Or.inl hb)⟩

theorem cylinder_nestOutcome {n : ℕ} {r : ℝ} (hr : r ≠ 0) (x : Pt (n + 2)) (h : Pt (n + 2) → ℝ)
    (hh : ∀ y, cylinder (fin r) (efin y) = fin (h y)) :
    NestOutcome (¬ (x 0 = 0 ∧ x 1 = 0)) (fun _ => cylinderG (fin r)) h x := by
  have h1 := NestOutcome.coords (T₀ := fun y : Pt (n + 2) => (!₂[y 0, y 1] : Pt 2))
    (sphere_nestOutcome (by norm_num) hr (!₂[x 0, x 1] : Pt 2)) (fun k a i => a (Fin.castLE (by omega) i)) fun i => by
      have := nestOutcome_proj (Fin.castLE (by omega : 2 ≤ n + 2) i) x
      fin_cases i <;> exact this
  have h2 : h = fun y : Pt (n + 2) => (r ^ 2 - ‖(!₂[y 0, y 1] : Pt 2)‖ ^ 2) / (2 * r) := funext fun y => by
    have h3 := hh y
    have h4 : cylinder (fin r) (efin y) = sphere (fin r) (efin (!₂[y 0, y 1] : Pt 2)) := by
      unfold cylinder
      congr 1
      funext i
      fin_cases i <;> rfl
    rw [h4, sphere_real hr, fin_inj] at h3
    exact h3.symm
  rw [h2]
  have h3 : (!₂[x 0, x 1] : Pt 2) ≠ 0 ↔ ¬ (x 0 = 0 ∧ x 1 = 0) := by
    rw [not_iff_not]
    constructor
    · intro h
      exact ⟨congrArg (fun p : Pt 2 => p 0) h, congrArg (fun p : Pt 2 => p 1) h⟩
    · rintro ⟨h, h'⟩
      ext i
      fin_cases i
      · exact h
      · exact h'
  rwa [propext h3] at h1

theorem root_nout {l k : ℕ} {x : Pt l} {vs : ℕ → Pt l} {d e : Nested k} {f g : Pt l → ℝ} (hd : Rep x vs k d f ∧ Tracked k d)
    (he : Rep x vs k e g ∧ Tracked k e) :
    NOut x vs k (¬ (f x = 0 ∧ g x = 0)) (ADNum.sqrt (ADNum.ipow d 2 +ₐ ADNum.ipow e 2)) fun y => Real.sqrt (f y ^ 2 + g y ^ 2) := by
  have S := rep_sound x vs k
  refine ⟨fun hp => ⟨?_, tracked_sqrt (tracked_add (tracked_ipow _ hd.2))⟩, fun hp => ?_⟩
  · have h1 := S.sqrt (S.add (S.ipow 2 hd.1 (Or.inl (by norm_num))) (S.ipow 2 he.1 (Or.inl (by norm_num))))
      (by have := sum_sq_pos hp; exact_mod_cast this)
    refine S.congr h1 (Filter.Eventually.of_forall fun y => ?_)
    norm_cast
  · push Not at hp
    exact sqrt_poison (((hd.1.fj hd.2 hp.1).ipow 2 le_rfl).add ((he.1.fj he.2 hp.2).ipow 2 le_rfl))

theorem revolution_nestOutcome {p : Prop} {F : (k : ℕ) → GADF (Nested k) 2} (hF : NestStrict F) {f : Pt 2 → ℝ} (x : Pt 3)
    (h : NestOutcome p F f (!₂[x 0, Real.sqrt (x 1 ^ 2 + x 2 ^ 2)])) :
    ∃ G : (k : ℕ) → GADF (Nested k) 3, (∀ k z, revolutionG (F k) 0 z = .ok (G k z)) ∧
      NestOutcome (p ∧ ¬ (x 1 = 0 ∧ x 2 = 0)) G (fun y => f (!₂[y 0, Real.sqrt (y 1 ^ 2 + y 2 ^ 2)])) x := by
  refine ⟨fun k a => F k ![a 0, ADNum.sqrt (ADNum.ipow (a 1) 2 +ₐ ADNum.ipow (a 2) 2)], fun k z => by simp [revolutionG], ?_⟩
  rintro l k x vs a T rfl ha
  have hr := root_nout (ha 1) (ha 2)
  by_cases hax : T x 1 = 0 ∧ T x 2 = 0
  · refine ⟨fun hp => absurd hax hp.2, fun _ => poisoned_of_nan (hr.2 (not_not.mpr hax)) fun b hb => hF b k _ ⟨1, hb⟩⟩
  · have := h l k x vs ![a 0, ADNum.sqrt (ADNum.ipow (a 1) 2 +ₐ ADNum.ipow (a 2) 2)]
      (fun y => !₂[T y 0, Real.sqrt (T y 1 ^ 2 + T y 2 ^ 2)]) rfl fun i => by
        fin_cases i
        · exact ha 0
        · exact hr.1 hax
    exact ⟨fun hp => this.1 hp.1, fun hp => this.2 fun h => hp ⟨h, hax⟩⟩

theorem revolution_nestOutcome₁ {p : Prop} {F : (k : ℕ) → GADF (Nested k) 2} (hF : NestStrict F) {f : Pt 2 → ℝ} (x : Pt 3)
    (h : NestOutcome p F f (!₂[Real.sqrt (x 0 ^ 2 + x 2 ^ 2), x 1])) :
    ∃ G : (k : ℕ) → GADF (Nested k) 3, (∀ k z, revolutionG (F k) 1 z = .ok (G k z)) ∧
      NestOutcome (p ∧ ¬ (x 0 = 0 ∧ x 2 = 0)) G (fun y => f (!₂[Real.sqrt (y 0 ^ 2 + y 2 ^ 2), y 1])) x := by
  refine ⟨fun k a => F k ![ADNum.sqrt (ADNum.ipow (a 0) 2 +ₐ ADNum.ipow (a 2) 2), a 1], fun k z => by simp [revolutionG], ?_⟩
  rintro l k x vs a T rfl ha
  have hr := root_nout (ha 0) (ha 2)
  by_cases hax : T x 0 = 0 ∧ T x 2 = 0
  · refine ⟨fun hp => absurd hax hp.2, fun _ => poisoned_of_nan (hr.2 (not_not.mpr hax)) fun b hb => hF b k _ ⟨0, hb⟩⟩
  · have := h l k x vs ![ADNum.sqrt (ADNum.ipow (a 0) 2 +ₐ ADNum.ipow (a 2) 2), a 1]
      (fun y => !₂[Real.sqrt (T y 0 ^ 2 + T y 2 ^ 2), T y 1]) rfl fun i => by
        fin_cases i
        · exact hr.1 hax
        · exact ha 1
    exact ⟨fun hp => this.1 hp.1, fun hp => this.2 fun h => hp ⟨h, hax⟩⟩

/-! ### values -/

theorem value_neg (k : ℕ) (d : Nested k) : value k (ADNum.neg d) = -value k d := comp_neg _ k d

section

variable {n k : ℕ} {S : (α : Type) → [ADNum α] → RFunG α} {P : RFun}

theorem value_conj (hS : NestSystem S P) : ∀ {k : ℕ} (a b : Nested k),
    value k ((S (Nested k)).conj a b) = P.conj (value k a) (value k b)
  | 0, a, b => hS.xr_conj a b
  | k + 1, a, b => by
    show value k (JVP.val ((S (Nested (k + 1))).conj a b)) = _
    rw [hS.val_conj, value_conj hS]; rfl

theorem value_disj (hS : NestSystem S P) : ∀ {k : ℕ} (a b : Nested k),
    value k ((S (Nested k)).disj a b) = P.disj (value k a) (value k b)
  | 0, a, b => hS.xr_disj a b
  | k + 1, a, b => by
    show value k (JVP.val ((S (Nested (k + 1))).disj a b)) = _
    rw [hS.val_disj, value_disj hS]; rfl

theorem build_value {ι : Type*} (hS : NestSystem S P) (leaf : ι → ADF n) (leafG : ι → GADF (Nested k) n)
    (hl : ∀ i a, value k (leafG i a) = leaf i fun j => value k (a j)) (e : SetExpr ι) (a : Fin n → Nested k) :
    value k (e.buildG (S (Nested k)) leafG a) = e.build P leaf fun j => value k (a j) := by
  induction e with
  | leaf i => exact hl i a
  | compl e ih => rw [SetExpr.buildG, value_neg, ih]; rfl
  | union e₁ e₂ ih₁ ih₂ => rw [SetExpr.buildG, value_disj hS, ih₁, ih₂]; rfl
  | inter e₁ e₂ ih₁ ih₂ => rw [SetExpr.buildG, value_conj hS, ih₁, ih₂]; rfl
  | diff e₁ e₂ ih₁ ih₂ => rw [SetExpr.buildG, value_conj hS, value_neg, ih₁, ih₂]; rfl
  | impl e₁ e₂ ih₁ ih₂ => rw [SetExpr.buildG, value_disj hS, value_neg, ih₁, ih₂]; rfl
  | equiv e₁ e₂ ih₁ ih₂ => rw [SetExpr.buildG, value_conj hS, value_disj hS, value_disj hS, value_neg, value_neg, ih₁, ih₂]; rfl
  | symmDiff e₁ e₂ ih₁ ih₂ => rw [SetExpr.buildG, value_disj hS, value_conj hS, value_conj hS, value_neg, value_neg, ih₁, ih₂]; rfl

theorem value_foldl {f : Nested k → Nested k → Nested k} {g : XR → XR → XR} (h : ∀ a b, value k (f a b) = g (value k a) (value k b))
    (l : List (Nested k)) : ∀ d, value k (l.foldl f d) = (l.map (value k)).foldl g (value k d) := by
  induction l with
  | nil => exact fun _ => rfl
  | cons e l ih =>
    intro d
    rw [List.foldl_cons, ih, h]; rfl

theorem cuboid_value (hS : NestSystem S P) (e : EdgeArg n) (c : Bool) (a : Fin n → Nested k) :
    value k (cuboidG e c (S (Nested k)) a) = cuboid e c P fun j => value k (a j) := by
  have hl : ((List.finRange n).flatMap fun i => [ADNum.const (cuboid.ub e c i) -ₐ a i, a i -ₐ ADNum.const (cuboid.lb e c i)]).map
      (value k) = (List.finRange n).flatMap fun i => [cuboid.ub e c i - value k (a i), value k (a i) - cuboid.lb e c i] := by
    simp [List.map_flatMap, value_sub, value_const]
  simp only [cuboid, compose, List.flatMap_cons, List.flatMap_nil, List.append_nil]
  rw [cuboidG, ← hl]
  generalize ((List.finRange n).flatMap fun i => [ADNum.const (cuboid.ub e c i) -ₐ a i, a i -ₐ ADNum.const (cuboid.lb e c i)]) = l
  cases l with
  | nil => exact value_const _ _
  | cons d l => exact value_foldl (value_conj hS) l d

theorem sphere_value (r : XR) (a : Fin n → Nested k) : value k (sphereG r a) = sphere r fun j => value k (a j) := by
  have hz : ∀ z : XR, XR.zpow z 2 = z ^ 2 := fun z => rfl
  rw [sphereG, value_div, value_sub, value_const, value_const, value_ipow, hz, vnormG, value_sqrt, sumG, value_foldl (value_add k),
    value_const, List.map_map, sphere, vnorm]
  congr 5
  rw [← List.sum_eq_foldl]
  rw [Fin.sum_univ_def]
  congr 2
  funext i
  exact value_mul _ _ _

end

/-! ### seeds -/

theorem seedK_tracked {n : ℕ} (x : Pt n) (vs : ℕ → Pt n) (i : Fin n) : ∀ k, Tracked k (seedK x vs k i)
  | 0 => trivial
  | k + 1 => ⟨seedK_tracked x vs i k, rfl⟩

theorem seedK_rep {n : ℕ} (x : Pt n) (vs : ℕ → Pt n) (i : Fin n) : ∀ k, Rep x vs k (seedK x vs k i) fun y => y i
  | 0 => ⟨(EuclideanSpace.proj (𝕜 := ℝ) i).contDiff.contDiffAt, rfl⟩
  | k + 1 => by
    refine ⟨seedK_rep x vs i k, ?_⟩
    show Rep x vs k (ADNum.const (fin (vs k i))) fun y => fderiv ℝ (fun y : Pt n => y i) y (vs k)
    refine (rep_sound x vs k).congr ((rep_sound x vs k).const (vs k i)) (Filter.Eventually.of_forall fun y => ?_)
    show vs k i = fderiv ℝ (EuclideanSpace.proj (𝕜 := ℝ) i) y (vs k)
    rw [ContinuousLinearMap.fderiv]; rfl

theorem seedK_ok {n : ℕ} (x : Pt n) (vs : ℕ → Pt n) (k : ℕ) :
    ∀ i, Rep x vs k (seedK x vs k i) (fun y => y i) ∧ Tracked k (seedK x vs k i) :=
  fun i => ⟨seedK_rep x vs i k, seedK_tracked x vs i k⟩

/-! ### second derivatives -/

theorem tangent2 (d : Nested 2) : JVP.tangent (JVP.tangent (α := JVP XR) d) = comp (fun _ => true) 2 d := by
  obtain ⟨d, t⟩ := d
  cases t with
  | none => rfl
  | some t =>
    obtain ⟨t, s⟩ := t
    cases s <;> rfl

theorem hvpG_eq {n : ℕ} (F : GADF (Nested 2) n) (x v : Pt n) (j : Fin n) :
    hvpG F (efin x) (efin v) j = comp (fun _ => true) 2
      (F (seedK x (fun i => if i = 0 then v else EuclideanSpace.single j 1) 2)) := by
  rw [← tangent2, hvpG]
  have : (fun i => (⟨⟨efin x i, some (efin v i)⟩, some (ADNum.const (if i = j then 1 else 0))⟩ : JVP (JVP XR))) =
      seedK x (fun i => if i = 0 then v else EuclideanSpace.single j 1) 2 := by
    funext i
    simp only [seedK, one_ne_zero, if_false, if_true]
    show (_ : JVP (JVP XR)) = ⟨⟨fin (x i), some (fin (v i))⟩, some (ADNum.const _)⟩
    congr 3
    by_cases h : i = j
    · rw [if_pos h, h]; simp [one_eq]
    · rw [if_neg h]; simp [h, zero_eq]
  simp only [← this]

theorem hvpG_outcome' {n : ℕ} {p : Prop} {F : (k : ℕ) → GADF (Nested k) n} {f : Pt n → ℝ} {x : Pt n} (h : NestOutcome p F f x)
    (v : Pt n) (j : Fin n) :
    (p → hvpG (F 2) (efin x) (efin v) j = fin (fderiv ℝ (fun y => fderiv ℝ f y (EuclideanSpace.single j 1)) x v)) ∧
      (¬ p → hvpG (F 2) (efin x) (efin v) j = nan) := by
  rw [hvpG_eq]
  have h1 := h n 2 x (fun i => if i = 0 then v else EuclideanSpace.single j 1) _ (fun y => y) rfl (seedK_ok x _ 2)
  exact ⟨fun hp => (h1.1 hp).1.carries fun _ => true, fun hp => h1.2 hp _ ⟨0, by norm_num, rfl⟩⟩

theorem hvpG_outcome {n : ℕ} {p : Prop} {F : (k : ℕ) → GADF (Nested k) n} {f : Pt n → ℝ} {x : Pt n} (h : NestOutcome p F f x)
    (v : Pt n) (j : Fin n) :
    (p → hvpG (F 2) (efin x) (efin v) j = fin (hvp f x v j)) ∧ (¬ p → hvpG (F 2) (efin x) (efin v) j = nan) := by
  refine ⟨fun hp => ?_, (hvpG_outcome' h v j).2⟩
  rw [(hvpG_outcome' h v j).1 hp]
  have h1 := h n 0 x 0 _ (fun y => y) rfl (seedK_ok x _ 0)
  have hf : ContDiffAt ℝ ∞ f x := (rep_sound x _ 0).smooth (h1.1 hp).1
  congr 1
  rw [hvp, jvp]
  have hd : DifferentiableAt ℝ (jacfwd f) x := by
    rw [differentiableAt_pi]
    intro i
    exact (smooth_fderiv hf _).differentiableAt (by simp)
  have : (fun y => fderiv ℝ f y (EuclideanSpace.single j 1)) = fun y => jacfwd f y j := rfl
  rw [this, (hasFDerivAt_pi'.mp hd.hasFDerivAt j).fderiv]
  rfl

theorem laplaceG_outcome {n : ℕ} (hn : 0 < n) {p : Prop} {F : (k : ℕ) → GADF (Nested k) n} {f : Pt n → ℝ} {x : Pt n}
    (h : NestOutcome p F f x) :
    (p → laplaceG (F 2) (efin x) = fin (laplace f x)) ∧ (¬ p → laplaceG (F 2) (efin x) = nan) := by
  have hv (i : Fin n) : (fun j => if j = i then 1 else 0 : Vec n) = efin (unitVec i) := by
    funext j
    by_cases hji : j = i
    · subst hji; simp [unitVec, efin, one_eq]
    · simp [unitVec, efin, hji, zero_eq]
  have hl : laplaceG (F 2) (efin x) = ∑ i, ∑ j, hvpG (F 2) (efin x) (efin (unitVec i)) j * efin (unitVec i) j := by
    simp only [← hv]; rfl
  rw [hl]
  refine ⟨fun hp => ?_, fun hp => ?_⟩
  · rw [laplace, ← fin_sum]
    refine Finset.sum_congr rfl fun i _ => ?_
    rw [hessianDiag, ← fin_sum]
    refine Finset.sum_congr rfl fun j _ => ?_
    rw [(hvpG_outcome h (unitVec i) j).1 hp]
    show fin _ * fin (unitVec i j) = _
    rw [fin_mul, smul_eq_mul, mul_comm]
  · refine xr_sum_nan _ ⟨0, hn⟩ (xr_sum_nan _ ⟨0, hn⟩ ?_)
    rw [(hvpG_outcome h _ _).2 hp, xr_nan_mul]

end Verif
