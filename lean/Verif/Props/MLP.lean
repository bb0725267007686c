import Verif.Props.BC
import Mathlib.Data.Matrix.Mul

/-! # What a multi layer perceptron computes -/

namespace Verif

open XR Matrix

/-- The parameters of a dense layer with the kernel `W` and the bias `b`. -/
def denseOf {a b : ℕ} (W : Matrix (Fin a) (Fin b) ℝ) (c : Fin b → ℝ) : DenseParams :=
  ⟨List.ofFn fun i => List.ofFn fun j => fin (W i j), List.ofFn fun j => fin (c j)⟩

/-- Spec: the values of the neurons after `k` hidden layers, layer `i` having `dims i` inputs. -/
def netState (σ : ℝ → ℝ) (dims : ℕ → ℕ) (W : (i : ℕ) → Matrix (Fin (dims i)) (Fin (dims (i + 1))) ℝ)
    (c : (i : ℕ) → Fin (dims (i + 1)) → ℝ) (x : Fin (dims 0) → ℝ) : (k : ℕ) → Fin (dims k) → ℝ
  | 0 => x
  | k + 1 => fun j => σ ((netState σ dims W c x k ᵥ* W k) j + c k j)

theorem denseOf_shape {a b : ℕ} (W : Matrix (Fin a) (Fin b) ℝ) (c : Fin b → ℝ) : (denseOf W c).HasShape a b := by
  refine ⟨by simp [denseOf], fun row hrow => ?_, by simp [denseOf]⟩
  simp only [denseOf, List.mem_ofFn] at hrow
  obtain ⟨i, rfl⟩ := hrow
  simp

theorem sum_ofFn_fin {n : ℕ} (f : Fin n → ℝ) : (List.ofFn fun i => fin (f i)).sum = fin (∑ i, f i) := by
  induction n with
  | zero => simp [zero_eq]
  | succ n ih => rw [List.ofFn_succ, List.sum_cons, ih, Fin.sum_univ_succ, fin_add]

/-- A dense layer computes `x W + b`. -/
theorem dense_denseOf {a b : ℕ} (W : Matrix (Fin a) (Fin b) ℝ) (c : Fin b → ℝ) (x : Fin a → ℝ) :
    dense b (denseOf W c) (List.ofFn fun i => fin (x i)) = .ok (List.ofFn fun j => fin ((x ᵥ* W) j + c j)) := by
  rw [dense, if_pos (by simpa using denseOf_shape W c)]
  congr 1
  refine List.ext_getElem (by simp) fun j hj _ => ?_
  have hjb : j < b := by simpa using hj
  have hz : List.zipWith (fun x row => x * row.getD j 0) (List.ofFn fun i => fin (x i)) (denseOf W c).kernel =
      List.ofFn fun i => fin (x i * W i ⟨j, hjb⟩) := by
    refine List.ext_getElem (by simp [denseOf]) fun i hi _ => ?_
    simp [denseOf, List.getD_eq_getElem?_getD, hjb]
  simp only [List.getElem_map, List.getElem_range, List.getElem_ofFn, hz, sum_ofFn_fin]
  simp [denseOf, List.getD_eq_getElem?_getD, hjb, vecMul, dotProduct]

/-- C100. An MLP with real parameters computes, for an activation with real values, the composition of the hidden
layers `z ↦ σ (z W + b)` followed by the output layer `z ↦ z W + b` without activation; the value is a number if the
output layer has one neuron. -/
theorem C100_value (σ : ℝ → ℝ) (act : XR → XR) (hact : ∀ a, act (fin a) = fin (σ a)) (dims : ℕ → ℕ)
    (W : (i : ℕ) → Matrix (Fin (dims i)) (Fin (dims (i + 1))) ℝ) (c : (i : ℕ) → Fin (dims (i + 1)) → ℝ) (k : ℕ)
    (x : Fin (dims 0) → ℝ) (out : Fin (dims (k + 1)) → ℝ)
    (hout : out = netState σ dims W c x k ᵥ* W k + c k) :
    MLP.apply ((List.range (k + 1)).map fun i => dims (i + 1)) act ⟨fun i => denseOf (W i) (c i), denseOf (W k) (c k)⟩
        (List.ofFn fun i => fin (x i)) =
      .ok (if h : dims (k + 1) = 1 then .inl (fin (out ⟨0, by omega⟩)) else .inr (List.ofFn fun j => fin (out j))) := by
  have hid : ∀ m, MLP.hidden act ⟨fun i => denseOf (W i) (c i), denseOf (W k) (c k)⟩
      ((List.range m).map fun i => dims (i + 1)) (List.ofFn fun i => fin (x i)) =
      .ok (List.ofFn fun j => fin (netState σ dims W c x m j)) := by
    intro m
    induction m with
    | zero => rfl
    | succ m ih =>
      rw [MLP.hidden] at ih ⊢
      rw [List.range_succ, List.map_append, List.zipIdx_append, List.foldlM_append, ih]
      simp only [bind, Except.bind, List.map_cons, List.map_nil, List.zipIdx_singleton, List.length_map, List.length_range,
        Nat.zero_add, List.foldlM_cons, List.foldlM_nil, pure, Except.pure, dense_denseOf]
      congr 1
      rw [List.map_ofFn]
      congr 1
      funext j
      simp [hact, netState]
  rw [List.range_succ, List.map_append, MLP.apply]
  simp only [List.map_cons, List.map_nil, List.dropLast_concat, hid, List.getLast?_concat, bind, Except.bind, dense_denseOf]
  subst hout
  by_cases h : dims (k + 1) = 1
  · rw [if_pos h, dif_pos h]
    simp [List.getD_eq_getElem?_getD, h]
    rfl
  · rw [if_neg h, dif_neg h]
    rfl

/-- One hidden layer with two neurons and the activation `a ↦ a ^ 2`: the network computes `(x + y)² - (x - y)² + 1`. -/
example (x y : ℝ) : MLP.apply [2, 1] (fun a => a * a)
    ⟨fun _ => denseOf !![1, 1; 1, -1] ![0, 0], denseOf !![1; -1] ![1]⟩ [fin x, fin y] =
      .ok (.inl (fin ((x + y) ^ 2 - (x - y) ^ 2 + 1))) := by
  have h := C100_value (fun a => a * a) (fun a => a * a) (fun a => by simp)
    (fun i => match i with | 0 => 2 | 1 => 2 | _ => 1)
    (fun i => match i with | 0 => !![1, 1; 1, -1] | 1 => !![1; -1] | (_ + 2) => fun _ _ => 0)
    (fun i => match i with | 0 => ![0, 0] | 1 => ![1] | (_ + 2) => fun _ => 0) 1 ![x, y] ![(x + y) ^ 2 - (x - y) ^ 2 + 1] (by
      funext j
      fin_cases j
      change (x + y) ^ 2 - (x - y) ^ 2 + 1 = (∑ i : Fin 2, ((∑ l : Fin 2, ![x, y] l * !![1, 1; 1, -1] l i) + ![0, 0] i) *
        ((∑ l : Fin 2, ![x, y] l * !![1, 1; 1, -1] l i) + ![0, 0] i) * !![1; -1] i 0) + 1
      simp [Fin.sum_univ_two]
      ring)
  exact h

end Verif
