import Mathlib.Algebra.BigOperators.Group.List.Lemmas
import Verif.Model.Training
import Verif.Props.TRRun
import Verif.Props.Energies
import Verif.Props.Magnetisation
import Verif.Props.Opt

/-! # Properties of the training loop of `hysteresis.ipynb`: C176 -/

namespace Verif

open XR

section
variable {n : ℕ} {A : Type}

/-! ## The callback -/

theorem update_iter (c : TRConf) (f : Objective n A) (params : Vec n) (s : TrState n A) (h : ¬ s.tr_radius ≤ fin c.min_tr_radius) :
    (TR.update c f params s).state.iter_num = s.iter_num + 1 := by
  by_cases ha : fin c.rho_accept ≤ TR.ratio c f params s
  · rw [update_accept c f params s h ha]
  · rw [update_reject c f params s h ha]

theorem update_iter_le (c : TRConf) (f : Objective n A) (params : Vec n) (s : TrState n A) :
    s.iter_num ≤ (TR.update c f params s).state.iter_num ∧ (TR.update c f params s).state.iter_num ≤ s.iter_num + 1 := by
  by_cases h : s.tr_radius ≤ fin c.min_tr_radius
  · rw [update_frozen c f params s h]; simp
  · rw [update_iter c f params s h]; simp

theorem loop_iter_le (c : TRConf) (f : Objective n A) (k : ℕ) (s : OptStep n A) :
    s.state.iter_num ≤ (TR.loop c f k s).state.iter_num ∧ (TR.loop c f k s).state.iter_num ≤ s.state.iter_num + k := by
  induction k generalizing s with
  | zero => exact ⟨le_rfl, le_rfl⟩
  | succ k ih =>
    rw [TR.loop]
    split_ifs with h
    · have h1 := update_iter_le c f s.params s.state
      have h2 := ih (TR.update c f s.params s.state)
      omega
    · omega

/-- The callback which appends `κ` of every step to a list. -/
def record (κ : OptStep n A → XR) (s : OptStep n A) (w : List XR) : Except Err (List XR) := .ok (w ++ [κ s])

theorem updates_succ' (c : TRConf) (f : Objective n A) (s : OptStep n A) (k : ℕ) :
    TR.updates c f s (k + 1) = TR.updates c f (TR.update c f s.params s.state) k := by
  rw [Nat.add_comm, updates_add]
  rfl

theorem loopCb_record (c : TRConf) (f : Objective n A) (κ : OptStep n A → XR) (k : ℕ) (s : OptStep n A) (w : List XR) :
    TR.loopCb c f (record κ) k s w = .ok (TR.loop c f k s, w ++
      (List.range ((TR.loop c f k s).state.iter_num - s.state.iter_num)).map fun j => κ (TR.updates c f s (j + 1))) := by
  induction k generalizing s w with
  | zero => simp [TR.loopCb, TR.loop]
  | succ k ih =>
    by_cases h : fin c.tol < s.state.error
    · rw [TR.loopCb, TR.loop, if_pos h, if_pos h]
      by_cases hr : s.state.tr_radius ≤ fin c.min_tr_radius
      · have e : TR.updateCb c f (record κ) s.params s.state w = .ok (s, w) := by
          rw [TR.updateCb, if_pos hr, update_frozen _ _ _ _ hr]
        rw [e, update_frozen _ _ _ _ hr]
        exact ih s w
      · have e : TR.updateCb c f (record κ) s.params s.state w =
            .ok (TR.update c f s.params s.state, w ++ [κ (TR.update c f s.params s.state)]) := by
          rw [TR.updateCb, if_neg hr]; rfl
        rw [e]
        show TR.loopCb c f (record κ) k _ _ = _
        rw [ih]
        have hi := update_iter c f s.params s.state hr
        have hl := loop_iter_le c f k (TR.update c f s.params s.state)
        have hd : (TR.loop c f k (TR.update c f s.params s.state)).state.iter_num - s.state.iter_num =
            ((TR.loop c f k (TR.update c f s.params s.state)).state.iter_num -
              (TR.update c f s.params s.state).state.iter_num) + 1 := by omega
        rw [hd, List.range_succ_eq_map]
        simp only [List.map_cons, List.map_map, List.append_assoc, List.cons_append, List.nil_append]
        congr 4
        exact List.map_congr_left fun j _ => congrArg κ (updates_succ' c f s (j + 1)).symm
    · rw [TR.loopCb, TR.loop, if_neg h, if_neg h]
      simp

/-- The values recorded during a run: one for each iteration, in order. -/
theorem runCb_record (c : TRConf) (f : Objective n A) (κ : OptStep n A → XR) (params : Vec n) (w : List XR) :
    TR.runCb c f (record κ) (.inl params) w = .ok (TR.run c f (.inl params), w ++
      (List.range (TR.run c f (.inl params)).state.iter_num).map fun j =>
        κ (TR.updates c f (TR.start c f (.inl params)) (j + 1))) := by
  rw [TR.runCb, TR.run]
  rcases c.maxiter with _ | m
  · have : (TR.start c f (.inl params)).state.iter_num = 0 := rfl
    simp [this]
  · simp only
    have h0 : (TR.start c f (.inl params)).state.iter_num = 0 := rfl
    set s := TR.start c f (.inl params)
    by_cases hr : s.state.tr_radius ≤ fin c.min_tr_radius
    · have e : TR.updateCb c f (record κ) s.params s.state w = .ok (s, w) := by
        rw [TR.updateCb, if_pos hr, update_frozen _ _ _ _ hr]
      rw [e, update_frozen _ _ _ _ hr]
      show TR.loopCb c f (record κ) m _ _ = _
      rw [loopCb_record, h0, Nat.sub_zero]
    · have e : TR.updateCb c f (record κ) s.params s.state w =
          .ok (TR.update c f s.params s.state, w ++ [κ (TR.update c f s.params s.state)]) := by
        rw [TR.updateCb, if_neg hr]; rfl
      rw [e]
      show TR.loopCb c f (record κ) m _ _ = _
      rw [loopCb_record]
      have hi := update_iter c f s.params s.state hr
      have hl := loop_iter_le c f m (TR.update c f s.params s.state)
      have hd : (TR.loop c f m (TR.update c f s.params s.state)).state.iter_num =
          ((TR.loop c f m (TR.update c f s.params s.state)).state.iter_num -
            (TR.update c f s.params s.state).state.iter_num) + 1 := by omega
      conv_rhs => rw [hd, List.range_succ_eq_map]
      simp only [List.map_cons, List.map_map, List.append_assoc, List.cons_append, List.nil_append]
      congr 4
      exact List.map_congr_left fun j _ => congrArg κ (updates_succ' c f s (j + 1)).symm

theorem run_iter (c : TRConf) (f : Objective n A) (params : Vec n) (hm : 0 < c.maxiter) (hr : c.min_tr_radius < c.init_tr_radius) :
    1 ≤ (TR.run c f (.inl params)).state.iter_num ∧ (TR.run c f (.inl params)).state.iter_num ≤ c.maxiter := by
  rw [TR.run]
  obtain ⟨m, hm⟩ : ∃ m, c.maxiter = m + 1 := ⟨c.maxiter - 1, by omega⟩
  rw [hm]
  simp only
  have hr' : ¬ (TR.start c f (.inl params)).state.tr_radius ≤ fin c.min_tr_radius := by
    show ¬ fin c.init_tr_radius ≤ _
    rw [fin_le]; exact not_le.mpr hr
  have hi := update_iter c f (TR.start c f (.inl params)).params (TR.start c f (.inl params)).state hr'
  have h0 : (TR.start c f (.inl params)).state.iter_num = 0 := rfl
  have hl := loop_iter_le c f m (TR.update c f (TR.start c f (.inl params)).params (TR.start c f (.inl params)).state)
  omega

/-- The state belongs to the parameters. -/
structure Belongs (f : Objective n A) (s : OptStep n A) : Prop where
  value : s.state.value = f.value s.params
  aux : s.state.aux = f.aux s.params
  grad : s.state.grad = f.grad s.params
  error : s.state.error = vnorm (f.grad s.params)

theorem belongs_updates (c : TRConf) (f : Objective n A) (init : Vec n ⊕ OptStep n A) (k : ℕ) :
    Belongs f (TR.updates c f (TR.start c f init) k) := by
  induction k with
  | zero => rcases init with p | s <;> exact ⟨rfl, rfl, rfl, rfl⟩
  | succ k ih =>
    rw [TR.updates]
    set s := TR.updates c f (TR.start c f init) k
    by_cases h : s.state.tr_radius ≤ fin c.min_tr_radius
    · rw [update_frozen _ _ _ _ h]; exact ih
    · by_cases ha : fin c.rho_accept ≤ TR.ratio c f s.params s.state
      · rw [update_accept _ _ _ _ h ha]; exact ⟨rfl, rfl, rfl, rfl⟩
      · rw [update_reject _ _ _ _ h ha]; exact ⟨rfl, rfl, rfl, rfl⟩

theorem belongs_run (c : TRConf) (f : Objective n A) (init : Vec n ⊕ OptStep n A) : Belongs f (TR.run c f init) := by
  rcases Nat.eq_zero_or_pos c.maxiter with h | h
  · rw [(C121_loop c f init).1 h]
    exact belongs_updates c f init 0
  · obtain ⟨k, -, -, e, -, -⟩ := (C121_loop c f init).2.1 h
    rw [e]
    exact belongs_updates c f init k

end

namespace Micromag

variable {n : ℕ} {A : Type}

/-! ## The loop over the fields -/

/-- The runs one after the other. -/
noncomputable def runs (c : TRConf) (loss : ℝ → Objective n A) : List ℝ → Vec n → List (OptStep n A)
  | [], _ => []
  | h :: t, p => TR.run c (loss h) (.inl p) :: runs c loss t (TR.run c (loss h) (.inl p)).params

/-- What is recorded in the runs. -/
noncomputable def recorded (c : TRConf) (loss : ℝ → Objective n A) (κ : OptStep n A → XR) : List ℝ → Vec n → List (List XR)
  | [], _ => []
  | h :: t, p => ((List.range (TR.run c (loss h) (.inl p)).state.iter_num).map fun j =>
      κ (TR.updates c (loss h) (TR.start c (loss h) (.inl p)) (j + 1))) :: recorded c loss κ t (TR.run c (loss h) (.inl p)).params

/-- The parameters at the beginning of the runs. -/
noncomputable def seqParams (c : TRConf) (loss : ℝ → Objective n A) : List ℝ → Vec n → ℕ → Vec n
  | [], p, _ => p
  | _ :: _, p, 0 => p
  | h :: t, p, i + 1 => seqParams c loss t (TR.run c (loss h) (.inl p)).params i

theorem seqParams_zero (c : TRConf) (loss : ℝ → Objective n A) (l : List ℝ) (p : Vec n) : seqParams c loss l p 0 = p := by
  cases l <;> rfl

theorem runs_length (c : TRConf) (loss : ℝ → Objective n A) (l : List ℝ) (p : Vec n) : (runs c loss l p).length = l.length := by
  induction l generalizing p with
  | nil => rfl
  | cons h t ih => simp [runs, ih]

theorem recorded_length (c : TRConf) (loss : ℝ → Objective n A) (κ : OptStep n A → XR) (l : List ℝ) (p : Vec n) :
    (recorded c loss κ l p).length = l.length := by
  induction l generalizing p with
  | nil => rfl
  | cons h t ih => simp [recorded, ih]

theorem runs_get (c : TRConf) (loss : ℝ → Objective n A) (l : List ℝ) (p : Vec n) (i : ℕ) (h : ℝ) (hi : l[i]? = some h) :
    (runs c loss l p)[i]? = some (TR.run c (loss h) (.inl (seqParams c loss l p i))) ∧
    seqParams c loss l p (i + 1) = (TR.run c (loss h) (.inl (seqParams c loss l p i))).params := by
  induction l generalizing p i with
  | nil => simp at hi
  | cons h' t ih =>
    cases i with
    | zero =>
      simp only [List.getElem?_cons_zero, Option.some.injEq] at hi
      subst hi
      exact ⟨rfl, seqParams_zero c loss t _⟩
    | succ i =>
      rw [List.getElem?_cons_succ] at hi
      have := ih (TR.run c (loss h') (.inl p)).params i hi
      exact ⟨by rw [runs, List.getElem?_cons_succ, this.1]; rfl, this.2⟩

theorem recorded_get (c : TRConf) (loss : ℝ → Objective n A) (κ : OptStep n A → XR) (l : List ℝ) (p : Vec n) (i : ℕ) (h : ℝ)
    (hi : l[i]? = some h) :
    (recorded c loss κ l p)[i]? = some ((List.range (TR.run c (loss h) (.inl (seqParams c loss l p i))).state.iter_num).map fun j =>
      κ (TR.updates c (loss h) (TR.start c (loss h) (.inl (seqParams c loss l p i))) (j + 1))) := by
  induction l generalizing p i with
  | nil => simp at hi
  | cons h' t ih =>
    cases i with
    | zero =>
      simp only [List.getElem?_cons_zero, Option.some.injEq] at hi
      subst hi
      rfl
    | succ i =>
      rw [List.getElem?_cons_succ] at hi
      rw [recorded, List.getElem?_cons_succ, ih _ i hi]
      rfl

theorem recorded_iters (c : TRConf) (loss : ℝ → Objective n A) (κ : OptStep n A → XR) (l : List ℝ) (p : Vec n) :
    (recorded c loss κ l p).map List.length = (runs c loss l p).map fun s => s.state.iter_num := by
  induction l generalizing p with
  | nil => rfl
  | cons h t ih => simp [recorded, runs, ih]

theorem trainLoop_ok (c : TRConf) (loss : ℝ → Objective n A) (mm : Vec n → XR) (κ : OptStep n A → XR) (l : List ℝ) (p : Vec n)
    (ss : List (TrState n A)) (ms cs : List XR) :
    trainLoop c loss mm (fun s => .ok (κ s)) l (p, ss, ms, cs) =
      .ok (seqParams c loss l p l.length, ss ++ (runs c loss l p).map (·.state), ms ++ (runs c loss l p).map (fun s => mm s.params),
        cs ++ (recorded c loss κ l p).flatten) := by
  induction l generalizing p ss ms cs with
  | nil => simp [trainLoop, seqParams, runs, recorded]
  | cons h t ih =>
    rw [trainLoop]
    have e : TR.runCb c (loss h) (fun step curvatures => do
        let k ← (Except.ok (κ step) : Except Err XR)
        return curvatures ++ [k]) (.inl p) cs = _ := runCb_record c (loss h) κ p cs
    simp only [e]
    show trainLoop c loss mm (fun s => .ok (κ s)) t _ = _
    rw [ih]
    simp [runs, recorded, seqParams, List.append_assoc]

/-! ## Lists -/

theorem cumsum_get (l : List ℕ) (i : ℕ) (hi : i < l.length) : ([0] ++ cumsum l).getD i 0 = (l.take i).sum := by
  cases i with
  | zero => rfl
  | succ i =>
    have : i < l.length := by omega
    simp [cumsum, List.getD, this]

theorem slice_flatten (L : List (List XR)) (i : ℕ) (hi : i < L.length) :
    pySlice L.flatten (([0] ++ cumsum (L.map List.length)).getD i 0)
      (([0] ++ cumsum (L.map List.length)).getD i 0 + (L.map List.length).getD i 0) = L[i] := by
  rw [cumsum_get _ _ (by simpa using hi), pySlice, ← List.drop_take_succ_flatten_eq_getElem L i hi]
  congr 2
  rw [List.sum_take_succ _ _ (by simpa using hi)]
  congr 1
  simp [List.getD, hi]

theorem foldl_min_mem (l : List XR) (a : XR) [∀ x y : XR, Decidable (x < y)] :
    l.foldl (fun m x => if x < m then x else m) a ∈ a :: l := by
  induction l generalizing a with
  | nil => simp
  | cons b l ih =>
    rw [List.foldl_cons]
    have := ih (if b < a then b else a)
    split_ifs at this ⊢ with h
    · exact List.mem_cons_of_mem _ this
    · rcases List.mem_cons.mp this with h | h
      · rw [h]; simp
      · simp [h]

theorem xr_le_of_lt {a b : XR} (h : b < a) : b ≤ a := by
  cases a <;> cases b <;> first | trivial | exact absurd h id | exact le_of_lt (α := ℝ) h

theorem xr_le_of_not_lt {a b : XR} (ha : a ≠ nan) (hb : b ≠ nan) (h : ¬ b < a) : a ≤ b := by
  cases a <;> cases b <;> first | trivial | exact absurd rfl ha | exact absurd rfl hb | exact absurd trivial h |
    exact not_lt (α := ℝ).mp h

theorem foldl_min_le (l : List XR) (a : XR) (hn : ∀ x ∈ a :: l, x ≠ nan) [∀ x y : XR, Decidable (x < y)] :
    ∀ x ∈ a :: l, l.foldl (fun m x => if x < m then x else m) a ≤ x := by
  induction l generalizing a with
  | nil =>
    intro x hx
    rw [List.mem_singleton.mp hx]
    exact le_refl_of_ne_nan (hn a (by simp))
  | cons b l ih =>
    intro x hx
    rw [List.foldl_cons]
    have ha := hn a (by simp)
    have hb := hn b (by simp)
    have hm : (if b < a then b else a) ≠ nan := by split_ifs <;> assumption
    have h1 := ih (if b < a then b else a) (fun y hy => by
      rcases List.mem_cons.mp hy with h | h
      · rw [h]; exact hm
      · exact hn y (by simp [h]))
    have hle : (if b < a then b else a) ≤ a ∧ (if b < a then b else a) ≤ b := by
      split_ifs with h
      · exact ⟨xr_le_of_lt h, le_refl_of_ne_nan hb⟩
      · exact ⟨le_refl_of_ne_nan ha, xr_le_of_not_lt ha hb h⟩
    rcases List.mem_cons.mp hx with h | h
    · rw [h]; exact le_trans' (h1 _ (by simp)) hle.1
    · rcases List.mem_cons.mp h with h | h
      · rw [h]; exact le_trans' (h1 _ (by simp)) hle.2
      · exact h1 x (by simp [h])

/-! ## C176 -/

theorem trainConf_ok (maxiter : ℕ) (tol init max : ℝ) : (trainConf maxiter tol init max).postInit = .ok (trainConf maxiter tol init max) := by
  rw [TRConf.postInit, if_neg]
  norm_num [trainConf, TRConf.default]

/-- **C176, the results.** If the callback reads a number `κ step` of every step, then `train` returns one state, one mean
magnetisation and one curvature for every field, in the order of the fields. The run for a field starts from the parameters found for
the field before, the first one from those given, and the state belongs to the parameters it ends with. The curvature is the smallest of the
numbers read in the iterations of that run and in no other run. -/
theorem C176_train (loss : ℝ → Objective n A) (mm : Vec n → XR) (κ : OptStep n A → XR) (hext : List ℝ) (params : Vec n) (maxiter : ℕ)
    (tol init max : ℝ) (hm : 0 < maxiter) (hr : 1e-4 < init) :
    ∃ (r : TrainResult n A) (P : ℕ → Vec n), train loss mm (fun s => .ok (κ s)) hext params maxiter tol init max = .ok r ∧
      P 0 = params ∧ r.params = P hext.length ∧ r.states.length = hext.length ∧ r.mean_mags.length = hext.length ∧
      r.curvatures.length = hext.length ∧ ∀ i h, hext[i]? = some h → ∃ state k,
        r.states[i]? = some state ∧ r.mean_mags[i]? = some (mm (P (i + 1))) ∧ r.curvatures[i]? = some k ∧
        TR.run (trainConf maxiter tol init max) (loss h) (.inl (P i)) = ⟨P (i + 1), state⟩ ∧
        state.value = (loss h).value (P (i + 1)) ∧ state.aux = (loss h).aux (P (i + 1)) ∧ state.grad = (loss h).grad (P (i + 1)) ∧
        1 ≤ state.iter_num ∧ state.iter_num ≤ maxiter ∧
        let step := TR.updates (trainConf maxiter tol init max) (loss h) (TR.start (trainConf maxiter tol init max) (loss h) (.inl (P i)))
        (∃ j, 1 ≤ j ∧ j ≤ state.iter_num ∧ k = κ (step j)) ∧
        ((∀ j, κ (step j) ≠ nan) → ∀ j, 1 ≤ j → j ≤ state.iter_num → k ≤ κ (step j)) := by
  classical
  set c := trainConf maxiter tol init max with hc
  have hm' : 0 < c.maxiter := hm
  have hr' : c.min_tr_radius < c.init_tr_radius := hr
  set P := seqParams c loss hext params with hP
  set R := runs c loss hext params with hR
  set L := recorded c loss κ hext params with hL
  have hLen : L.length = hext.length := recorded_length ..
  have hRen : R.length = hext.length := runs_length ..
  have hit : (R.map (·.state)).map (fun s => s.iter_num) = L.map List.length := by
    rw [hL, recorded_iters, List.map_map]; rfl
  have hne : ∀ l ∈ L, l ≠ [] := by
    intro l hl
    obtain ⟨i, hi, e⟩ := List.getElem_of_mem hl
    have hh : hext[i]? = some (hext[i]'(by omega)) := List.getElem?_eq_getElem _
    have := recorded_get c loss κ hext params i _ hh
    rw [← hL, List.getElem?_eq_getElem hi, Option.some.injEq] at this
    rw [← e, this]
    have h1 := (run_iter c (loss (hext[i]'(by omega))) (seqParams c loss hext params i) hm' hr').1
    simp
    omega
  have hmin : ∀ l ∈ L, pyMin l = .ok ((fun l => match l with
      | [] => nan
      | a :: l => (pyMin (a :: l)).toOption.getD nan) l) := by
    intro l hl
    cases l with
    | nil => exact absurd rfl (hne _ hl)
    | cons a l => rfl
  set g : List XR → XR := fun l => match l with
      | [] => nan
      | a :: l => (pyMin (a :: l)).toOption.getD nan with hg
  have hsl : (List.range (L.map List.length).length).map (fun i => pySlice L.flatten (([0] ++ cumsum (L.map List.length)).getD i 0)
      (([0] ++ cumsum (L.map List.length)).getD i 0 + (L.map List.length).getD i 0)) = L := by
    apply List.ext_getElem (by simp)
    intro i h1 h2
    rw [List.getElem_map, List.getElem_range]
    exact slice_flatten L i h2
  refine ⟨⟨P hext.length, R.map (fun s => mm s.params), L.map g, R.map (·.state)⟩, P, ?_, seqParams_zero .., rfl, by simp [hRen],
    by simp [hRen], by simp [hLen], fun i h hi => ?_⟩
  · rw [train, trainConf_ok]
    simp only [bind, Except.bind, trainLoop_ok, List.nil_append, ← hc, ← hP, ← hR, ← hL, hit, hsl]
    rw [mapM_ok_map (fun c => pyMin c) g L hmin]
    rfl
  · obtain ⟨h1, h2⟩ := runs_get c loss hext params i h hi
    have h3 := recorded_get c loss κ hext params i h hi
    rw [← hP] at h1 h2 h3
    rw [← hR] at h1
    rw [← hL] at h3
    have hb := belongs_run c (loss h) (.inl (P i))
    obtain ⟨hi1, hi2⟩ := run_iter c (loss h) (P i) hm' hr'
    set s := TR.run c (loss h) (.inl (P i)) with hs
    set q := (List.range s.state.iter_num).map fun j => κ (TR.updates c (loss h) (TR.start c (loss h) (.inl (P i))) (j + 1)) with hq
    have hqm : ∀ x, x ∈ q ↔ ∃ j, 1 ≤ j ∧ j ≤ s.state.iter_num ∧ x = κ (TR.updates c (loss h) (TR.start c (loss h) (.inl (P i))) j) := by
      intro x
      rw [hq, List.mem_map]
      constructor
      · rintro ⟨j, hj, e⟩
        exact ⟨j + 1, by omega, by have := List.mem_range.mp hj; omega, e.symm⟩
      · rintro ⟨j, hj1, hj2, e⟩
        exact ⟨j - 1, List.mem_range.mpr (by omega), by rw [e, Nat.sub_add_cancel hj1]⟩
    refine ⟨s.state, g q, by simp [h1], by simp [h1, h2], by simp [h3], by rw [h2], by rw [h2]; exact hb.value, by rw [h2]; exact hb.aux,
      by rw [h2]; exact hb.grad, hi1, hi2, ?_⟩
    have hcons : ∃ a l, q = a :: l := List.exists_cons_of_ne_nil (by rw [hq]; simp; omega)
    obtain ⟨a, l, e⟩ := hcons
    refine ⟨(hqm _).mp ?_, fun hn j hj1 hj2 => ?_⟩
    · rw [e]
      exact foldl_min_mem l a
    · have := (hqm _).mpr ⟨j, hj1, hj2, rfl⟩
      rw [e] at this ⊢
      refine foldl_min_le l a (fun x hx => ?_) _ this
      rw [← e] at hx
      obtain ⟨j, -, -, e'⟩ := (hqm x).mp hx
      rw [e']
      exact hn j

theorem hext_length : hext.length = 900 := by rw [hext, List.length_reverse, List.length_map, List.length_range]

/-- The configuration of the notebook (lines 236-241) with its fields (line 39). -/
example (loss : ℝ → Objective n A) (mm : Vec n → XR) (params : Vec n) : ∃ r : TrainResult n A,
    train loss mm (fun s => .ok s.state.subproblem_result.curvature) hext params 100 1e-4 0.1 1 = .ok r ∧ r.states.length = 900 := by
  obtain ⟨r, -, h, -, -, h1, -⟩ := C176_train loss mm (fun s => s.state.subproblem_result.curvature) hext params 100 1e-4 0.1 1 (by norm_num)
    (by norm_num)
  exact ⟨r, h, by rw [h1, hext_length]⟩

/-- **C176, failure.** The callback of the notebook asks for a field `TrState` does not have, so `train` raises for every objective, all parameters
and every list of fields which is not empty. -/
theorem C176_raises (loss : ℝ → Objective n A) (mm : Vec n → XR) (hext : List ℝ) (hh : hext ≠ []) (params : Vec n) (maxiter : ℕ)
    (tol init max : ℝ) (hm : 0 < maxiter) (hr : 1e-4 < init) :
    train loss mm steihaugCurvature hext params maxiter tol init max = .error .attributeError := by
  obtain ⟨h, t, rfl⟩ := List.exists_cons_of_ne_nil hh
  obtain ⟨m, rfl⟩ : ∃ m, maxiter = m + 1 := ⟨maxiter - 1, by omega⟩
  rw [train, trainConf_ok]
  set c := trainConf (m + 1) tol init max with hc
  have hr' : ¬ (TR.start c (loss h) (.inl params)).state.tr_radius ≤ fin c.min_tr_radius := by
    show ¬ fin init ≤ fin 1e-4
    rw [fin_le]; exact not_le.mpr hr
  have e : ∀ cb : OptStep n A → List XR → Except Err (List XR), (∀ s w, cb s w = .error .attributeError) →
      TR.runCb c (loss h) cb (.inl params) [] = .error .attributeError := by
    intro cb hcb
    rw [TR.runCb]
    show (do
      let (s, w) ← TR.updateCb c (loss h) cb _ _ []
      TR.loopCb c (loss h) cb m s w) = _
    rw [TR.updateCb, if_neg hr', hcb]
    rfl
  have e1 : trainLoop c loss mm steihaugCurvature (h :: t) (params, [], [], []) = .error .attributeError := by
    rw [trainLoop]
    have e2 := e (fun step curvatures => do
      let k ← steihaugCurvature step
      return curvatures ++ [k]) (fun s w => rfl)
    simp only [e2]
    rfl
  show (do
    let (params, states, mean_mags, curvatures) ← trainLoop c loss mm steihaugCurvature (h :: t) (params, [], [], [])
    _) = _
  rw [e1]
  rfl

example (loss : ℝ → Objective n A) (mm : Vec n → XR) (params : Vec n) :
    train loss mm steihaugCurvature hext params 100 1e-4 0.1 1 = .error .attributeError :=
  C176_raises loss mm hext (fun h => by have := hext_length; rw [h] at this; simp at this) params 100 _ _ _ (by norm_num) (by norm_num)

/-- **C176, descent.** For every field the loss at the parameters found is at most the loss for this field at the parameters found for the
field before, and all parameters are finite. The gradient and the Hessian need not belong to the values. -/
theorem C176_descent (loss : ℝ → Objective n A) (G : ℝ → Pt n → Pt n) (B : ℝ → Pt n → Pt n →ₗ[ℝ] Pt n) (mm : Vec n → XR)
    (κ : OptStep n A → XR) (hext : List ℝ) (x₀ : Pt n) (maxiter : ℕ) (tol init max : ℝ) (htol : 0 < tol) (hm : 0 < maxiter)
    (hr : 1e-4 < init) (hf : ∀ h, SecondOrder (trainConf maxiter tol init max) (loss h) (G h) (B h))
    (hv : ∀ h (x : Pt n), (loss h).value (efin x) ≠ nan) :
    ∃ (r : TrainResult n A) (x : ℕ → Pt n), train loss mm (fun s => .ok (κ s)) hext (efin x₀) maxiter tol init max = .ok r ∧
      x 0 = x₀ ∧ r.params = efin (x hext.length) ∧ ∀ i h, hext[i]? = some h → ∃ state, r.states[i]? = some state ∧
        state.value = (loss h).value (efin (x (i + 1))) ∧ state.value ≤ (loss h).value (efin (x i)) ∧
        TR.run (trainConf maxiter tol init max) (loss h) (.inl (efin (x i))) = ⟨efin (x (i + 1)), state⟩ := by
  have hc : (trainConf maxiter tol init max).Valid :=
    ⟨htol, by norm_num [trainConf, TRConf.default], by simp [trainConf, TRConf.default], by simp [trainConf, TRConf.default]⟩
  obtain ⟨r, P, h1, h2, h3, -, -, -, h4⟩ := C176_train loss mm κ hext (efin x₀) maxiter tol init max hm hr
  set c := trainConf maxiter tol init max
  have key : ∀ h (y : Pt n), (∃ z, (TR.run c (loss h) (.inl (efin y))).params = efin z) ∧
      (loss h).value (TR.run c (loss h) (.inl (efin y))).params ≤ (loss h).value (efin y) := by
    intro h y
    obtain ⟨k, -, -, e, -⟩ := (C121_loop c (loss h) (.inl (efin y))).2.1 hm
    rw [e]
    have hx : (TR.start c (loss h) (.inl (efin y))).params = efin y := rfl
    constructor
    · obtain ⟨z, Δ, hz⟩ := updates_regular hc (hf h) (regular_start (init := .inl (efin y)) hx rfl) k
      exact ⟨z, hz.params⟩
    · clear e
      induction k with
      | zero => exact le_refl_of_ne_nan (hv h y)
      | succ k ih =>
        exact le_trans' (C59_monotone c hc (by norm_num [c, trainConf]) (loss h) (G h) (B h) (hf h) (.inl (efin y)) y init hx rfl (hv h y) k) ih
  have hfin : ∀ i, i ≤ hext.length → ∃ y, P i = efin y := by
    intro i
    induction i with
    | zero => exact fun _ => ⟨x₀, h2⟩
    | succ i ih =>
      intro hi
      obtain ⟨y, hy⟩ := ih (by omega)
      obtain ⟨state, k, -, -, -, e, -⟩ := h4 i _ (List.getElem?_eq_getElem (show i < hext.length by omega))
      obtain ⟨z, hz⟩ := (key (hext[i]'(by omega)) y).1
      rw [← hy, e] at hz
      exact ⟨z, hz⟩
  choose! x hx using hfin
  refine ⟨r, x, h1, efin_inj.mp ((hx 0 (by omega)).symm.trans h2), h3.trans (hx _ le_rfl), fun i h hi => ?_⟩
  have hi' : i < hext.length := (List.getElem?_eq_some_iff.mp hi).1
  obtain ⟨state, k, e1, -, -, e2, e3, -⟩ := h4 i h hi
  rw [hx (i + 1) (by omega)] at e3
  refine ⟨state, e1, e3, ?_, by rw [← hx i (by omega), ← hx (i + 1) (by omega)]; exact e2⟩
  have := (key h (x i)).2
  rw [← hx i (by omega), e2] at this
  rw [e3, ← hx (i + 1) (by omega), ← hx i (by omega)]
  exact this

/-- A quadratic loss with its minimum at the field. -/
noncomputable def shifted (h : ℝ) : Objective 1 Unit :=
  ⟨fun p => fin (1 / 2) * ((p 0 - fin h) * (p 0 - fin h)), fun _ => (), fun p i => p i - fin h, fun _ v => v⟩

example (x₀ : Pt 1) : ∃ (r : TrainResult 1 Unit) (x : ℕ → Pt 1),
    train shifted (fun p => p 0) (fun s => .ok s.state.subproblem_result.curvature) hext (efin x₀) 100 1e-4 0.1 1 = .ok r ∧
      x 0 = x₀ ∧ r.params = efin (x hext.length) ∧ ∀ i h, hext[i]? = some h → ∃ state, r.states[i]? = some state ∧
        state.value = (shifted h).value (efin (x (i + 1))) ∧ state.value ≤ (shifted h).value (efin (x i)) ∧
        TR.run (trainConf 100 1e-4 0.1 1) (shifted h) (.inl (efin (x i))) = ⟨efin (x (i + 1)), state⟩ :=
  C176_descent shifted (fun h x => x - EuclideanSpace.single 0 h) (fun _ _ => LinearMap.id) _ (fun s => s.state.subproblem_result.curvature)
    hext x₀ 100 1e-4 0.1 1 (by norm_num) (by norm_num) (by norm_num)
    (fun h => ⟨fun x => by funext i; fin_cases i; simp [shifted, efin], fun x v => by
      simp [shifted, TR.hvp, trainConf, TRConf.default], fun x u v => rfl⟩)
    (fun h x => by simp [shifted, efin])

theorem trainLoop_mags (c : TRConf) (loss : ℝ → Objective n A) (mm : Vec n → XR) (curv : OptStep n A → Except Err XR) (l : List ℝ)
    (w w' : Vec n × List (TrState n A) × List XR × List XR) (h : trainLoop c loss mm curv l w = .ok w') :
    ∀ m ∈ w'.2.2.1, m ∈ w.2.2.1 ∨ ∃ q, m = mm q := by
  induction l generalizing w with
  | nil =>
    rw [trainLoop] at h
    cases h
    exact fun m hm => .inl hm
  | cons a t ih =>
    obtain ⟨p, ss, ms, cs⟩ := w
    rw [trainLoop] at h
    simp only at h
    set u := TR.runCb c (loss a) (fun step curvatures => do
      let k ← curv step
      return curvatures ++ [k]) (.inl p) cs
    rcases u with e | ⟨s, cs'⟩
    · cases h
    · intro m hm
      rcases ih _ h m hm with h1 | h1
      · rcases List.mem_append.mp h1 with h1 | h1
        · exact .inl h1
        · exact .inr ⟨s.params, List.mem_singleton.mp h1⟩
      · exact .inr h1

variable {D : Cuboid} {N : ℕ}

/-- **C176, magnetisation.** All mean magnetisations of the notebook are between `-1` and `1`, whatever the network, the objective and the callback are. -/
theorem C176_mean_mag (hN : N ≠ 0) (loss : ℝ → Objective n A) (apply : Vec n → Pt 3 → Pt 3) (axis : Pt 3) (ha : ‖axis‖ = 1)
    (x_val : Fin N → Pt 3) (curv : OptStep n A → Except Err XR) (hext : List ℝ) (params : Vec n) (maxiter : ℕ) (tol init max : ℝ)
    (r : TrainResult n A)
    (h : train loss (fun p => fin (mean_mag axis (fun x => mag D apply m0 x p) x_val)) curv hext params maxiter tol init max = .ok r) :
    ∀ m ∈ r.mean_mags, ∃ v : ℝ, m = fin v ∧ |v| ≤ 1 := by
  rw [train, trainConf_ok] at h
  simp only [bind, Except.bind] at h
  rcases e : trainLoop (trainConf maxiter tol init max) loss (fun p => fin (mean_mag axis (fun x => mag D apply m0 x p) x_val)) curv
    hext (params, [], [], []) with err | ⟨p, ss, ms, cs⟩
  · rw [e] at h; cases h
  · rw [e] at h
    simp only at h
    split at h
    · cases h
    · cases h
      intro m hm
      rcases trainLoop_mags _ _ _ _ _ _ _ e m hm with h1 | ⟨q, h1⟩
      · simp at h1
      · have h0 : ∀ x : Pt 3, ‖m0 x‖ = 1 := fun x => by simp [m0]
        have h2 := C165_mean_mag hN axis ha (fun x => mag D apply m0 x q) x_val fun i => C164_unit (D := D) apply m0 h0 (x_val i) q
        exact ⟨_, h1, h2.1⟩

/-- The axis of the field in the notebook (line 40) has norm one. -/
example : ‖((1 / Real.sqrt 101) • !₂[1, 0, 10] : Pt 3)‖ = 1 := by
  have h : ‖(!₂[1, 0, 10] : Pt 3)‖ = Real.sqrt 101 := by
    rw [EuclideanSpace.norm_eq, Fin.sum_univ_three]
    norm_num [show (![1, 0, 10] : Fin 3 → ℝ) 2 = 10 from rfl]
  rw [norm_smul, h, Real.norm_of_nonneg (by positivity), one_div, inv_mul_cancel₀ (by positivity)]

end Micromag

end Verif
