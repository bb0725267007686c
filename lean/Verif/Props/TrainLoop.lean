import Verif.Model.TrainLoop
import Verif.Props.Opt

/-! # Properties of the training loop of `mumag3.ipynb`: C177 -/

namespace Verif

namespace Micromag

variable {P S α : Type} [Add P]

/-- One step of the optimiser. -/
def optStep (o : Optimizer P S) (grad : P → Batch α → P) (w : P × S) (d : Batch α) : P × S :=
  (w.1 + (o.update (grad w.1 d) w.2 w.1).1, (o.update (grad w.1 d) w.2 w.1).2)

/-- The steps with the batches `data 0`, `data 1`, …. -/
def optSteps (o : Optimizer P S) (grad : P → Batch α → P) (data : ℕ → Batch α) (w : P × S) : ℕ → P × S
  | 0 => w
  | j + 1 => optStep o grad (optSteps o grad data w j) (data j)

theorem trainBatches_append (o : Optimizer P S) (loss : P → Batch α → ℝ × Energies) (grad : P → Batch α → P) (data : ℕ → Batch α)
    (l₁ l₂ : List ℕ) (w : P × S × List ℝ × List Energies) :
    trainBatches o loss grad data (l₁ ++ l₂) w = trainBatches o loss grad data l₂ (trainBatches o loss grad data l₁ w) := by
  induction l₁ generalizing w with
  | nil => rfl
  | cons a l ih =>
    obtain ⟨p, s, ls, es⟩ := w
    exact ih _

theorem trainBatches_range (o : Optimizer P S) (loss : P → Batch α → ℝ × Energies) (grad : P → Batch α → P) (data : ℕ → Batch α)
    (w : P × S) (m : ℕ) :
    trainBatches o loss grad data (List.range m) (w.1, w.2, [], []) =
      ((optSteps o grad data w m).1, (optSteps o grad data w m).2,
        (List.range m).map (fun j => (loss (optSteps o grad data w j).1 (data j)).1),
        (List.range m).map (fun j => (loss (optSteps o grad data w j).1 (data j)).2)) := by
  induction m with
  | zero => rfl
  | succ m ih =>
    rw [List.range_succ, trainBatches_append, ih]
    simp only [List.map_append, List.map_cons, List.map_nil]
    rfl

theorem optSteps_add (o : Optimizer P S) (grad : P → Batch α → P) (data : ℕ → Batch α) (w : P × S) (a j : ℕ) :
    optSteps o grad data w (a + j) = optSteps o grad (fun i => data (a + i)) (optSteps o grad data w a) j := by
  induction j with
  | zero => rfl
  | succ j ih => rw [← Nat.add_assoc, optSteps, ih]; rfl

theorem optSteps_congr (o : Optimizer P S) (grad : P → Batch α → P) (data data' : ℕ → Batch α) (w : P × S) (m : ℕ)
    (h : ∀ j < m, data j = data' j) : ∀ j ≤ m, optSteps o grad data w j = optSteps o grad data' w j := by
  intro j
  induction j with
  | zero => exact fun _ => rfl
  | succ j ih =>
    intro hj
    rw [optSteps, optSteps, ih (by omega), h j (by omega)]

variable [Inhabited α]

/-- The key at the beginning of an epoch. -/
def keyAt (key : Key) : ℕ → Key
  | 0 => key
  | e + 1 => (keyAt key e).child 0

theorem keyAt_child (key : Key) (e : ℕ) : keyAt (key.child 0) e = keyAt key (e + 1) := by
  induction e with
  | zero => rfl
  | succ e ih => rw [keyAt, ih]; rfl

/-- One epoch. -/
noncomputable def oneEpoch (permutation : Key → ℕ → List ℕ) (uniform : Key → ℕ → ℕ → List (List ℝ)) (o : Optimizer P S)
    (loss : P → Batch α → ℝ × Energies) (grad : P → Batch α → P) (x_dom x_tensor_dom : List α) (B L : ℕ) (key : Key)
    (w : P × S × List ℝ × List Energies) : Except Err (P × S × List ℝ × List Energies) := do
  let xs ← batchesWithoutReplacement permutation (key.child 1) [x_dom, x_tensor_dom] B
  let data : ℕ → Batch α := fun batch => ⟨(xs.getD 0 []).getD batch [], (xs.getD 1 []).getD batch [],
    (uniform (key.child 2) (xs.getD 0 []).length L).getD batch []⟩
  let r := trainBatches o loss grad data (List.range (xs.getD 0 []).length) (w.1, w.2.1, [], [])
  let e ← meanEnergies r.2.2.2
  return (r.1, r.2.1, w.2.2.1 ++ [meanList r.2.2.1], w.2.2.2 ++ [e])

section
variable (permutation : Key → ℕ → List ℕ) (uniform : Key → ℕ → ℕ → List (List ℝ)) (o : Optimizer P S)
  (loss : P → Batch α → ℝ × Energies) (grad : P → Batch α → P) (x_dom x_tensor_dom : List α) (B L : ℕ)

theorem trainEpochs_succ (E : ℕ) (key : Key) (w : P × S × List ℝ × List Energies) :
    trainEpochs permutation uniform o loss grad x_dom x_tensor_dom B L (E + 1) key w =
      (oneEpoch permutation uniform o loss grad x_dom x_tensor_dom B L key w).bind
        (trainEpochs permutation uniform o loss grad x_dom x_tensor_dom B L E (key.child 0)) := by
  obtain ⟨p, s, ls, es⟩ := w
  rw [trainEpochs, oneEpoch]
  simp only [bind, Except.bind, pure, Except.pure]
  rcases batchesWithoutReplacement permutation (key.child 1) [x_dom, x_tensor_dom] B with e | xs
  · rfl
  · simp only
    split <;> rfl

theorem trainEpochs_snoc (E : ℕ) (key : Key) (w : P × S × List ℝ × List Energies) :
    trainEpochs permutation uniform o loss grad x_dom x_tensor_dom B L (E + 1) key w =
      (trainEpochs permutation uniform o loss grad x_dom x_tensor_dom B L E key w).bind
        (oneEpoch permutation uniform o loss grad x_dom x_tensor_dom B L (keyAt key E)) := by
  induction E generalizing key w with
  | zero =>
    rw [trainEpochs_succ]
    show _ = oneEpoch permutation uniform o loss grad x_dom x_tensor_dom B L key w
    rcases oneEpoch permutation uniform o loss grad x_dom x_tensor_dom B L key w with e | w' <;> rfl
  | succ E ih =>
    rw [trainEpochs_succ]
    conv_rhs => rw [trainEpochs_succ]
    rcases oneEpoch permutation uniform o loss grad x_dom x_tensor_dom B L key w with e | w'
    · rfl
    · show trainEpochs permutation uniform o loss grad x_dom x_tensor_dom B L (E + 1) (key.child 0) w' = _
      rw [ih, keyAt_child]
      rfl

end

/-- A sum over a list of numbers below `m` is a sum. -/
theorem meanList_range (m : ℕ) (f : ℕ → ℝ) : meanList ((List.range m).map f) = (∑ j ∈ Finset.range m, f j) / m := by
  rw [meanList, List.length_map, List.length_range, Finset.sum_range]
  congr 1
  rw [← List.sum_ofFn]
  congr 1
  apply List.ext_getElem (by simp)
  simp

theorem batches_spec (permutation : Key → ℕ → List ℕ) (key : Key) (X : List (List α)) (B N : ℕ)
    (hperm : (permutation key N).Perm (List.range N)) (h0 : X ≠ []) (hX : ∀ x ∈ X, x.length = N) (hB : 1 ≤ B) :
    ∃ idx : List (List ℕ),
      batchesWithoutReplacement permutation key X B =
        .ok (X.map fun x => idx.map fun p => p.map fun i => x.getD i default) ∧
      idx.length = N / B ∧ (∀ p ∈ idx, p.length = B) ∧ idx.flatten.Nodup ∧ (∀ i ∈ idx.flatten, i < N) ∧
      ∀ j < N / B, idx.getD j [] = (List.range B).map fun i => (permutation key N).getD (j * B + i) 0 := by
  set b := N / B with hb
  have hbB : b * B ≤ N := Nat.div_mul_le_self N B
  have hlen : (permutation key N).length = N := by rw [hperm.length_eq, List.length_range]
  have htake : ((permutation key N).take (b * B)).length = b * B := by
    rw [List.length_take, hlen]; omega
  have hflat : (reshape2 ((permutation key N).take (b * B)) b B).flatten = (permutation key N).take (b * B) := by
    rw [reshape2_flatten]
    have := map_getD_range ((permutation key N).take (b * B))
    rwa [htake] at this
  have hnd : (permutation key N).Nodup := hperm.nodup_iff.mpr List.nodup_range
  have hlt : ∀ i ∈ (permutation key N).take (b * B), i < N := fun i hi =>
    List.mem_range.mp (hperm.mem_iff.mp (List.mem_of_mem_take hi))
  refine ⟨reshape2 ((permutation key N).take (b * B)) b B, ?_, by simp [reshape2], ?_, ?_, ?_, ?_⟩
  · unfold batchesWithoutReplacement
    rw [axisSize_rows h0 hX]
    simp only [bind, Except.bind]
    rw [if_neg (by omega)]
    congr 1
    refine List.map_congr_left fun x hx => ?_
    apply gather_eq
    intro p hp i hi
    rw [hX x hx]
    apply hlt
    rw [← hflat]
    exact List.mem_flatten.mpr ⟨p, hp, hi⟩
  · intro p hp
    simp only [reshape2, List.mem_map] at hp
    obtain ⟨i, -, rfl⟩ := hp
    simp
  · rw [hflat]; exact hnd.sublist (List.take_sublist _ _)
  · rw [hflat]; exact hlt
  · intro j hj
    rw [reshape2, List.getD, List.getElem?_map, List.getElem?_range hj, Option.map_some, Option.getD_some]
    refine List.map_congr_left fun i hi => ?_
    have hi := List.mem_range.mp hi
    have h1 : j * B + i < b * B := by
      calc j * B + i < j * B + B := by omega
        _ = (j + 1) * B := by ring
        _ ≤ b * B := Nat.mul_le_mul_right B hj
    rw [List.getD, List.getD, List.getElem?_take_of_lt h1]

theorem train_spec (permutation : Key → ℕ → List ℕ) (uniform : Key → ℕ → ℕ → List (List ℝ)) (key : Key) (o : Optimizer P S)
    (loss : P → Batch α → ℝ × Energies) (grad : P → Batch α → P) (x_dom x_tensor_dom : List α) (params : P) (epochs B L N : ℕ)
    (hperm : ∀ k, (permutation k N).Perm (List.range N))
    (hu : ∀ k b s, (uniform k b s).length = b ∧ ∀ row ∈ uniform k b s, row.length = s ∧ ∀ v ∈ row, 8 ≤ v ∧ v < 9)
    (hx : x_dom.length = N) (hxt : x_tensor_dom.length = N) (hB : 1 ≤ B) (hBN : B ≤ N) (hE : 1 ≤ epochs) :
    ∃ (W : ℕ → P × S) (data : ℕ → ℕ → Batch α) (idx : ℕ → List (List ℕ)) (losses : List ℝ) (energies : List Energies),
      trainMumag3 permutation uniform key o loss grad x_dom x_tensor_dom params epochs B L =
        .ok ((W (epochs * (N / B))).1, losses, energies) ∧
      losses.length = epochs ∧ energies.length = epochs ∧ W 0 = (params, o.init params) ∧ ∀ e < epochs,
        ((idx e).length = N / B ∧ (∀ p ∈ idx e, p.length = B) ∧ (idx e).flatten.Nodup ∧ ∀ i ∈ (idx e).flatten, i < N) ∧
        (∀ j < N / B, (data e j).x = ((idx e).getD j []).map (fun i => x_dom.getD i default) ∧
          (data e j).xt = ((idx e).getD j []).map (fun i => x_tensor_dom.getD i default) ∧
          (data e j).lam.length = L ∧ (∀ v ∈ (data e j).lam, 8 ≤ v ∧ v < 9) ∧
          let t := e * (N / B) + j
          let u := o.update (grad (W t).1 (data e j)) (W t).2 (W t).1
          W (t + 1) = ((W t).1 + u.1, u.2)) ∧
        (let at' := fun j => loss (W (e * (N / B) + j)).1 (data e j)
        losses[e]? = some ((∑ j ∈ Finset.range (N / B), (at' j).1) / (N / B : ℕ)) ∧ ∃ E, energies[e]? = some E ∧
          E.e_tot = (∑ j ∈ Finset.range (N / B), (at' j).2.e_tot) / (N / B : ℕ) ∧
          E.e_mag = (∑ j ∈ Finset.range (N / B), (at' j).2.e_mag) / (N / B : ℕ) ∧
          E.e_ex = (∑ j ∈ Finset.range (N / B), (at' j).2.e_ex) / (N / B : ℕ) ∧
          E.e_ani = (∑ j ∈ Finset.range (N / B), (at' j).2.e_ani) / (N / B : ℕ)) ∧
        ∀ j < N / B, (idx e).getD j [] = (List.range B).map (fun i => (permutation ((keyAt key e).child 1) N).getD (j * B + i) 0) ∧
          (data e j).lam = (uniform ((keyAt key e).child 2) (N / B) L).getD j [] := by
  set b := N / B with hb
  have hb0 : 0 < b := Nat.div_pos hBN hB
  have hpart := fun e => batches_spec permutation ((keyAt key e).child 1) [x_dom, x_tensor_dom] B N (hperm _) (by simp)
    (fun x h => by
      simp only [List.mem_cons, List.not_mem_nil, or_false] at h
      rcases h with rfl | rfl <;> assumption) hB
  choose idx h1 h2 h3 h4 h5 h6 using hpart
  set data : ℕ → ℕ → Batch α := fun e j => ⟨((idx e).map fun p => p.map fun i => x_dom.getD i default).getD j [],
    ((idx e).map fun p => p.map fun i => x_tensor_dom.getD i default).getD j [], (uniform ((keyAt key e).child 2) b L).getD j []⟩ with hdata
  set flat : ℕ → Batch α := fun t => data (t / b) (t % b) with hflat
  set W := optSteps o grad flat (params, o.init params) with hW
  have hfl : ∀ e, ∀ j < b, flat (e * b + j) = data e j := by
    intro e j hj
    simp only [hflat]
    rw [Nat.mul_comm, Nat.mul_add_div hb0, Nat.div_eq_of_lt hj, Nat.add_zero, Nat.mul_add_mod, Nat.mod_eq_of_lt hj]
  have hWs : ∀ e, ∀ j ≤ b, W (e * b + j) = optSteps o grad (data e) (W (e * b)) j := by
    intro e j hj
    rw [hW, optSteps_add]
    exact optSteps_congr o grad _ _ _ b (fun i hi => hfl e i hi) j hj
  set le : ℕ → ℝ := fun e => meanList ((List.range b).map fun j => (loss (W (e * b + j)).1 (data e j)).1) with hle
  set ee : ℕ → Energies := fun e =>
    let l := (List.range b).map fun j => (loss (W (e * b + j)).1 (data e j)).2
    ⟨meanList (l.map (·.e_tot)), meanList (l.map (·.e_mag)), meanList (l.map (·.e_ex)), meanList (l.map (·.e_ani)),
      meanList (l.map (·.e_ext))⟩ with hee
  have hone : ∀ e ls es, oneEpoch permutation uniform o loss grad x_dom x_tensor_dom B L (keyAt key e) ((W (e * b)).1, (W (e * b)).2, ls, es) =
      .ok ((W ((e + 1) * b)).1, (W ((e + 1) * b)).2, ls ++ [le e], es ++ [ee e]) := by
    intro e ls es
    rw [oneEpoch, h1]
    have hl : (((idx e).map fun p => p.map fun i => x_dom.getD i default)).length = b := by rw [List.length_map, h2]
    have hr := trainBatches_range o loss grad (data e) (W (e * b)) b
    have hd : (fun batch => (⟨((idx e).map fun p => p.map fun i => x_dom.getD i default).getD batch [],
        ((idx e).map fun p => p.map fun i => x_tensor_dom.getD i default).getD batch [],
        (uniform ((keyAt key e).child 2) b L).getD batch []⟩ : Batch α)) = data e := rfl
    simp only [bind, Except.bind, pure, Except.pure, List.map_cons, List.getD_cons_zero, List.getD_cons_succ, hl]
    rw [hd, hr]
    have hmap : ∀ {γ : Type} (g : ℝ × Energies → γ), (List.range b).map (fun j => g (loss (optSteps o grad (data e) (W (e * b)) j).1 (data e j))) =
        (List.range b).map fun j => g (loss (W (e * b + j)).1 (data e j)) := fun g => List.map_congr_left fun j hj => by
      rw [hWs e j (List.mem_range.mp hj).le]
    have hne : (List.range b).map (fun j => (loss (W (e * b + j)).1 (data e j)).2) ≠ [] := by
      simp; omega
    have hend : optSteps o grad (data e) (W (e * b)) b = W ((e + 1) * b) := by
      rw [← hWs e b le_rfl, Nat.add_mul, Nat.one_mul]
    simp only [hmap Prod.fst, hmap Prod.snd, meanEnergies, if_neg hne, hend]
    rfl
  have hall : ∀ E, trainEpochs permutation uniform o loss grad x_dom x_tensor_dom B L E key (params, o.init params, [], []) =
      .ok ((W (E * b)).1, (W (E * b)).2, (List.range E).map le, (List.range E).map ee) := by
    intro E
    induction E with
    | zero => rw [Nat.zero_mul]; rfl
    | succ E ih =>
      rw [trainEpochs_snoc, ih]
      show oneEpoch permutation uniform o loss grad x_dom x_tensor_dom B L (keyAt key E) _ = _
      rw [hone, List.range_succ, List.map_append, List.map_append]
      rfl
  refine ⟨W, data, idx, (List.range epochs).map le, (List.range epochs).map ee, ?_, by simp, by simp, rfl, fun e he => ⟨⟨h2 e, h3 e, h4 e, h5 e⟩,
    fun j hj => ⟨?_, ?_, ?_, ?_, ?_⟩, ⟨?_, ee e, by simp [he], ?_, ?_, ?_, ?_⟩, fun j hj => ⟨h6 e j hj, rfl⟩⟩⟩
  · rw [trainMumag3]
    simp only [hall, bind, Except.bind]
    rw [if_neg (by simp; omega)]
  · simp only [hdata, List.getD, List.getElem?_map]
    cases (idx e)[j]? <;> rfl
  · simp only [hdata, List.getD, List.getElem?_map]
    cases (idx e)[j]? <;> rfl
  · have hlen := (hu ((keyAt key e).child 2) b L).1
    have : (data e j).lam = (uniform ((keyAt key e).child 2) b L)[j]'(by omega) := by simp [hdata, List.getD, hlen, hj]
    rw [this]
    exact ((hu _ b L).2 _ (List.getElem_mem _)).1
  · have hlen := (hu ((keyAt key e).child 2) b L).1
    have : (data e j).lam = (uniform ((keyAt key e).child 2) b L)[j]'(by omega) := by simp [hdata, List.getD, hlen, hj]
    rw [this]
    exact ((hu _ b L).2 _ (List.getElem_mem _)).2
  · show W (e * b + j + 1) = _
    rw [← hfl e j hj]
    rfl
  · rw [List.getElem?_map, List.getElem?_range he, Option.map_some]
    exact congrArg some (meanList_range b _)
  all_goals
    simp only [hee, List.map_map]
    exact meanList_range b _

/-- **C177, training.** If the batch size is at least one and at most the number `N` of samples and there is at least one epoch, `train` makes `N / B`
steps of the optimiser in every epoch, one after the other. The batches of an epoch are disjoint, points and tensors of a sample stay
together, and all values of `lam` are between 8 and 9. The losses and energies returned for an epoch are the means of those computed in its steps, each before the
parameters are changed. -/
theorem C177_train (permutation : Key → ℕ → List ℕ) (uniform : Key → ℕ → ℕ → List (List ℝ)) (key : Key) (o : Optimizer P S)
    (loss : P → Batch α → ℝ × Energies) (grad : P → Batch α → P) (x_dom x_tensor_dom : List α) (params : P) (epochs B L N : ℕ)
    (hperm : ∀ k, (permutation k N).Perm (List.range N))
    (hu : ∀ k b s, (uniform k b s).length = b ∧ ∀ row ∈ uniform k b s, row.length = s ∧ ∀ v ∈ row, 8 ≤ v ∧ v < 9)
    (hx : x_dom.length = N) (hxt : x_tensor_dom.length = N) (hB : 1 ≤ B) (hBN : B ≤ N) (hE : 1 ≤ epochs) :
    ∃ (W : ℕ → P × S) (data : ℕ → ℕ → Batch α) (idx : ℕ → List (List ℕ)) (losses : List ℝ) (energies : List Energies),
      trainMumag3 permutation uniform key o loss grad x_dom x_tensor_dom params epochs B L =
        .ok ((W (epochs * (N / B))).1, losses, energies) ∧
      losses.length = epochs ∧ energies.length = epochs ∧ W 0 = (params, o.init params) ∧ ∀ e < epochs,
        ((idx e).length = N / B ∧ (∀ p ∈ idx e, p.length = B) ∧ (idx e).flatten.Nodup ∧ ∀ i ∈ (idx e).flatten, i < N) ∧
        (∀ j < N / B, (data e j).x = ((idx e).getD j []).map (fun i => x_dom.getD i default) ∧
          (data e j).xt = ((idx e).getD j []).map (fun i => x_tensor_dom.getD i default) ∧
          (data e j).lam.length = L ∧ (∀ v ∈ (data e j).lam, 8 ≤ v ∧ v < 9) ∧
          let t := e * (N / B) + j
          let u := o.update (grad (W t).1 (data e j)) (W t).2 (W t).1
          W (t + 1) = ((W t).1 + u.1, u.2)) ∧
        (let at' := fun j => loss (W (e * (N / B) + j)).1 (data e j)
        losses[e]? = some ((∑ j ∈ Finset.range (N / B), (at' j).1) / (N / B : ℕ)) ∧ ∃ E, energies[e]? = some E ∧
          E.e_tot = (∑ j ∈ Finset.range (N / B), (at' j).2.e_tot) / (N / B : ℕ) ∧
          E.e_mag = (∑ j ∈ Finset.range (N / B), (at' j).2.e_mag) / (N / B : ℕ) ∧
          E.e_ex = (∑ j ∈ Finset.range (N / B), (at' j).2.e_ex) / (N / B : ℕ) ∧
          E.e_ani = (∑ j ∈ Finset.range (N / B), (at' j).2.e_ani) / (N / B : ℕ)) := by
  obtain ⟨W, data, idx, losses, energies, h1, h2, h3, h4, h5⟩ := train_spec permutation uniform key o loss grad x_dom x_tensor_dom params epochs B L N hperm hu hx hxt hB hBN hE
  exact ⟨W, data, idx, losses, energies, h1, h2, h3, h4, fun e he => ⟨(h5 e he).1, (h5 e he).2.1, (h5 e he).2.2.1⟩⟩

/-- Two epochs with batches of three of seven samples, gradient descent with step size one and no random choices. -/
example : ∃ losses energies p, trainMumag3 (α := ℕ) (fun _ n => List.range n) (fun _ b s => List.replicate b (List.replicate s 8.5)) []
    (⟨fun _ => (), fun g s _ => (-g, s)⟩ : Optimizer ℝ Unit) (fun p d => (p ^ 2 * d.x.length, ⟨p, 0, p, 0, 0⟩)) (fun p d => 2 * p * d.x.length)
    (List.range 7) (List.range 7) 1 2 3 5 = .ok (p, losses, energies) ∧ losses.length = 2 ∧ energies.length = 2 := by
  obtain ⟨W, -, -, l, e, h, h1, h2, -⟩ := C177_train (α := ℕ) (fun _ n => List.range n)
    (fun _ b s => List.replicate b (List.replicate s 8.5)) [] (⟨fun _ => (), fun g s _ => (-g, s)⟩ : Optimizer ℝ Unit)
    (fun p d => (p ^ 2 * d.x.length, ⟨p, 0, p, 0, 0⟩)) (fun p d => 2 * p * d.x.length) (List.range 7) (List.range 7) 1 2 3 5 7
    (fun _ => List.Perm.refl _) (fun k b s => ⟨by simp, fun row hr => by
      rw [List.eq_of_mem_replicate hr]
      exact ⟨by simp, fun v hv => by rw [List.eq_of_mem_replicate hv]; norm_num⟩⟩) (by simp) (by simp) (by norm_num) (by norm_num) (by norm_num)
  exact ⟨l, e, _, h, h1, h2⟩

theorem keyAt_eq (key : Key) (e : ℕ) : keyAt key e = key ++ List.replicate e 0 := by
  induction e with
  | zero => simp [keyAt]
  | succ e ih => rw [keyAt, Key.child, ih, List.append_assoc, List.replicate_succ']

theorem keyAt_prefix (key : Key) {e e' c c' : ℕ} (hc : c ≠ 0) (h : (keyAt key e).child c <+: (keyAt key e').child c') : e = e' ∧ c = c' := by
  have hlen := h.length_le
  obtain ⟨t, ht⟩ := h
  simp only [Key.child, keyAt_eq, List.append_assoc, List.append_cancel_left_eq, List.length_append, List.length_replicate, List.length_singleton] at ht hlen
  obtain ⟨d, rfl⟩ : ∃ d, e' = e + d := ⟨e' - e, by omega⟩
  rw [List.replicate_add, List.append_assoc, List.append_cancel_left_eq] at ht
  rcases d with _ | d
  · simp only [List.replicate_zero, List.nil_append, List.cons_append, List.cons.injEq] at ht
    exact ⟨rfl, ht.1⟩
  · simp only [List.replicate_succ, List.cons_append, List.nil_append, List.cons.injEq] at ht
    exact absurd ht.1 hc

/-- **C177, random choices.** No key is used twice, and none which is split is used: there are keys, none of which is obtained from another one by splitting,
which depend only on the key given to `train`, such that batch `j` of an epoch consists of the samples at the places `j B, …, j B + B - 1` of the permutation for the first key of the epoch, and its values of `lam` are row `j` of the
uniform numbers for the second. -/
theorem C177_keys (key : Key) : ∃ K1 K2 : ℕ → Key,
    (∀ e e', (K1 e <+: K1 e' → e = e') ∧ (K2 e <+: K2 e' → e = e') ∧ ¬ K1 e <+: K2 e' ∧ ¬ K2 e <+: K1 e') ∧
    ∀ (permutation : Key → ℕ → List ℕ) (uniform : Key → ℕ → ℕ → List (List ℝ)) (o : Optimizer P S)
      (loss : P → Batch α → ℝ × Energies) (grad : P → Batch α → P) (x_dom x_tensor_dom : List α) (params : P) (epochs B L N : ℕ),
      (∀ k, (permutation k N).Perm (List.range N)) →
      (∀ k b s, (uniform k b s).length = b ∧ ∀ row ∈ uniform k b s, row.length = s ∧ ∀ v ∈ row, 8 ≤ v ∧ v < 9) →
      x_dom.length = N → x_tensor_dom.length = N → 1 ≤ B → B ≤ N → 1 ≤ epochs →
      ∃ (W : ℕ → P × S) (losses : List ℝ) (energies : List Energies),
        trainMumag3 permutation uniform key o loss grad x_dom x_tensor_dom params epochs B L = .ok ((W (epochs * (N / B))).1, losses, energies) ∧
        W 0 = (params, o.init params) ∧ ∀ e < epochs, ∀ j < N / B,
          let places := (List.range B).map fun i => (permutation (K1 e) N).getD (j * B + i) 0
          let data : Batch α := ⟨places.map fun i => x_dom.getD i default, places.map fun i => x_tensor_dom.getD i default,
            (uniform (K2 e) (N / B) L).getD j []⟩
          let t := e * (N / B) + j
          let u := o.update (grad (W t).1 data) (W t).2 (W t).1
          W (t + 1) = ((W t).1 + u.1, u.2) := by
  refine ⟨fun e => (keyAt key e).child 1, fun e => (keyAt key e).child 2, fun e e' => ⟨fun h => (keyAt_prefix key (by norm_num) h).1,
    fun h => (keyAt_prefix key (by norm_num) h).1, fun h => ?_, fun h => ?_⟩, ?_⟩
  · exact absurd (keyAt_prefix key (by norm_num) h).2 (by norm_num)
  · exact absurd (keyAt_prefix key (by norm_num) h).2 (by norm_num)
  · intro permutation uniform o loss grad x_dom x_tensor_dom params epochs B L N hperm hu hx hxt hB hBN hE
    obtain ⟨W, data, idx, losses, energies, h1, -, -, h4, h5⟩ := train_spec permutation uniform key o loss grad x_dom x_tensor_dom params epochs B L N hperm hu hx hxt hB hBN hE
    refine ⟨W, losses, energies, h1, h4, fun e he j hj => ?_⟩
    obtain ⟨-, g1, -, g2⟩ := h5 e he
    obtain ⟨k1, k2, -, -, k3⟩ := g1 j hj
    obtain ⟨k4, k5⟩ := g2 j hj
    have hd : data e j = ⟨((List.range B).map fun i => (permutation ((keyAt key e).child 1) N).getD (j * B + i) 0).map fun i => x_dom.getD i default,
        ((List.range B).map fun i => (permutation ((keyAt key e).child 1) N).getD (j * B + i) 0).map fun i => x_tensor_dom.getD i default,
        (uniform ((keyAt key e).child 2) (N / B) L).getD j []⟩ := by
      rw [← k4, ← k1, ← k2, ← k5]
    simp only at k3 ⊢
    rw [← hd]
    exact k3

/-- Two epochs with batches of three of seven samples, as above: the keys of the epochs differ, and the first step is for three samples. -/
example : ∃ (K1 K2 : ℕ → Key) (W : ℕ → ℝ × Unit), K1 0 ≠ K1 1 ∧ K2 0 ≠ K2 1 ∧ K1 1 ≠ K2 1 ∧ W 0 = (1, ()) ∧ W 1 = ((W 0).1 + -(2 * (W 0).1 * 3), ()) := by
  obtain ⟨K1, K2, h1, h⟩ := C177_keys (P := ℝ) (S := Unit) (α := ℕ) []
  obtain ⟨W, -, -, -, h4, h5⟩ := h (fun _ n => List.range n) (fun _ b s => List.replicate b (List.replicate s 8.5))
    (⟨fun _ => (), fun g s _ => (-g, s)⟩ : Optimizer ℝ Unit) (fun p d => (p ^ 2 * d.x.length, ⟨p, 0, p, 0, 0⟩)) (fun p d => 2 * p * d.x.length)
    (List.range 7) (List.range 7) 1 2 3 5 7 (fun _ => List.Perm.refl _) (fun k b s => ⟨by simp, fun row hr => by
      rw [List.eq_of_mem_replicate hr]
      exact ⟨by simp, fun v hv => by rw [List.eq_of_mem_replicate hv]; norm_num⟩⟩) (by simp) (by simp) (by norm_num) (by norm_num) (by norm_num)
  refine ⟨K1, K2, W, fun h => absurd ((h1 0 1).1 (h ▸ List.prefix_rfl)) (by norm_num), fun h => absurd ((h1 0 1).2.1 (h ▸ List.prefix_rfl)) (by norm_num),
    fun h => (h1 1 1).2.2.1 (h ▸ List.prefix_rfl), h4, ?_⟩
  have := h5 0 (by norm_num) 0 (by norm_num)
  simpa using this

/-- **C177, consistency.** If in every step the total energy is the sum of the energies and the loss is the sum of the total and the magnetic energy,
as is the case for the loss of the notebook, this holds for the values returned for every epoch. -/
theorem C177_energies (permutation : Key → ℕ → List ℕ) (uniform : Key → ℕ → ℕ → List (List ℝ)) (key : Key) (o : Optimizer P S)
    (loss : P → Batch α → ℝ × Energies) (grad : P → Batch α → P) (x_dom x_tensor_dom : List α) (params : P) (epochs B L N : ℕ)
    (hperm : ∀ k, (permutation k N).Perm (List.range N))
    (hu : ∀ k b s, (uniform k b s).length = b ∧ ∀ row ∈ uniform k b s, row.length = s ∧ ∀ v ∈ row, 8 ≤ v ∧ v < 9)
    (hx : x_dom.length = N) (hxt : x_tensor_dom.length = N) (hB : 1 ≤ B) (hBN : B ≤ N) (hE : 1 ≤ epochs)
    (hloss : ∀ p d, (loss p d).2.e_tot = (loss p d).2.e_ex + (loss p d).2.e_ani + (loss p d).2.e_mag ∧
      (loss p d).1 = (loss p d).2.e_tot + (loss p d).2.e_mag) :
    ∃ (p : P) (losses : List ℝ) (energies : List Energies),
      trainMumag3 permutation uniform key o loss grad x_dom x_tensor_dom params epochs B L = .ok (p, losses, energies) ∧
      ∀ e < epochs, ∃ l E, losses[e]? = some l ∧ energies[e]? = some E ∧ E.e_tot = E.e_ex + E.e_ani + E.e_mag ∧ l = E.e_tot + E.e_mag := by
  obtain ⟨W, data, idx, losses, energies, h, -, -, -, h1⟩ := C177_train permutation uniform key o loss grad x_dom x_tensor_dom params
    epochs B L N hperm hu hx hxt hB hBN hE
  refine ⟨_, losses, energies, h, fun e he => ?_⟩
  obtain ⟨-, -, h2, E, h3, e1, e2, e3, e4⟩ := h1 e he
  refine ⟨_, E, h2, h3, ?_, ?_⟩
  · rw [e1, e2, e3, e4, ← add_div, ← add_div, ← Finset.sum_add_distrib, ← Finset.sum_add_distrib]
    congr 1
    exact Finset.sum_congr rfl fun j _ => (hloss _ _).1
  · rw [e1, e2, ← add_div, ← Finset.sum_add_distrib]
    congr 1
    exact Finset.sum_congr rfl fun j _ => (hloss _ _).2

/-- The hypothesis on the loss is met with energies which depend on the parameter and the batch. -/
example (p : ℝ) (d : Batch ℕ) : let r : ℝ × Energies := (p + d.x.length + 2 * p, ⟨2 * p + d.x.length, p, p, d.x.length, 0⟩)
    r.2.e_tot = r.2.e_ex + r.2.e_ani + r.2.e_mag ∧ r.1 = r.2.e_tot + r.2.e_mag := ⟨by simp; ring, by simp; ring⟩

/-- **C177, failure.** `train` raises if there is no epoch, if the batch is larger than the set of samples (in both cases `tree_map` is called
without a tree) and if the batch size is zero. -/
theorem C177_raises (permutation : Key → ℕ → List ℕ) (uniform : Key → ℕ → ℕ → List (List ℝ)) (key : Key) (o : Optimizer P S)
    (loss : P → Batch α → ℝ × Energies) (grad : P → Batch α → P) (x_dom x_tensor_dom : List α) (params : P) (epochs B L N : ℕ)
    (hperm : ∀ k, (permutation k N).Perm (List.range N)) (hx : x_dom.length = N) (hxt : x_tensor_dom.length = N) :
    (epochs = 0 → trainMumag3 permutation uniform key o loss grad x_dom x_tensor_dom params epochs B L = .error .typeError) ∧
    (1 ≤ epochs → N < B → trainMumag3 permutation uniform key o loss grad x_dom x_tensor_dom params epochs B L = .error .typeError) ∧
    (1 ≤ epochs → B = 0 → trainMumag3 permutation uniform key o loss grad x_dom x_tensor_dom params epochs B L = .error .zeroDivision) := by
  have hl : ∀ x ∈ [x_dom, x_tensor_dom], x.length = N := fun x h => by
    simp only [List.mem_cons, List.not_mem_nil, or_false] at h
    rcases h with rfl | rfl <;> assumption
  refine ⟨?_, ?_, ?_⟩
  · rintro rfl
    simp [trainMumag3, trainEpochs, bind, Except.bind]
  · intro hE hB
    obtain ⟨E, rfl⟩ : ∃ E, epochs = E + 1 := ⟨epochs - 1, by omega⟩
    obtain ⟨idx, h1, h2, -⟩ := C54_partition permutation (key.child 1) [x_dom, x_tensor_dom] B N (hperm _) (by simp) hl (by omega)
    rw [Nat.div_eq_of_lt hB, List.length_eq_zero_iff] at h2
    subst h2
    have : oneEpoch permutation uniform o loss grad x_dom x_tensor_dom B L key (params, o.init params, [], []) = .error .typeError := by
      rw [oneEpoch, h1]
      rfl
    rw [trainMumag3, trainEpochs_succ, this]
    rfl
  · rintro hE rfl
    obtain ⟨E, rfl⟩ : ∃ E, epochs = E + 1 := ⟨epochs - 1, by omega⟩
    have h1 := (C54_errors permutation (key.child 1) [x_dom, x_tensor_dom] 0).2 N (by simp) hl rfl
    have : oneEpoch permutation uniform o loss grad x_dom x_tensor_dom 0 L key (params, o.init params, [], []) = .error .zeroDivision := by
      rw [oneEpoch, h1]
      rfl
    rw [trainMumag3, trainEpochs_succ, this]
    rfl

example : (List.range 7).length < 8 := by simp

end Micromag

end Verif
