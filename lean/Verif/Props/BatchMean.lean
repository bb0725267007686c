import Verif.Props.Opt
import Mathlib.Algebra.BigOperators.Group.Finset.Basic
import Mathlib.Algebra.BigOperators.Ring.Finset
import Mathlib.GroupTheory.Perm.Basic
import Mathlib.Data.Fintype.Perm
import Mathlib.Data.Fintype.CardEmbedding
import Mathlib.Data.Real.Basic
import Mathlib.Tactic.Module
import Mathlib.Tactic.FieldSimp
import Mathlib.Tactic.LinearCombination

/-! # Means over batches are unbiased (C148)

The random number generator is ideal: all permutations (draws) are equally likely. -/

namespace Verif

open Equiv

/-! ## Specification -/

/-- The mean over all cases, which are equally likely. -/
noncomputable def avg {ι : Type*} [Fintype ι] {E : Type*} [AddCommGroup E] [Module ℝ E] (φ : ι → E) : E :=
  (Fintype.card ι : ℝ)⁻¹ • ∑ i, φ i

/-- Row `i` of all leaves. -/
def dataRow {α : Type} [Inhabited α] (X : List (List α)) (i : ℕ) : List α := X.map fun x => x.getD i default

/-- Row `j` of batch `k` of all leaves. -/
def batchRow {α : Type} [Inhabited α] (out : List (List (List α))) (k j : ℕ) : List α :=
  out.map fun x => (x.getD k []).getD j default

/-! ## Sums over permutations -/

section
variable {N : ℕ} {E : Type*} [AddCommGroup E] [Module ℝ E]

theorem avg_congr {ι κ : Type*} [Fintype ι] [Fintype κ] (e : ι ≃ κ) (φ : κ → E) :
    avg (fun i => φ (e i)) = avg φ := by
  rw [avg, avg, Fintype.card_congr e, e.sum_comp]

theorem avg_const {ι : Type*} [Fintype ι] [Nonempty ι] (c : E) : avg (fun _ : ι => c) = c := by
  have : (Fintype.card ι : ℝ) ≠ 0 := by exact_mod_cast Fintype.card_ne_zero
  rw [avg, Finset.sum_const, Finset.card_univ, ← Nat.cast_smul_eq_nsmul ℝ, smul_smul, inv_mul_cancel₀ this, one_smul]

theorem avg_comm {ι κ : Type*} [Fintype ι] [Fintype κ] (φ : ι → κ → E) :
    avg (fun i => avg (φ i)) = avg fun j => avg fun i => φ i j := by
  simp only [avg, ← Finset.smul_sum]
  rw [Finset.sum_comm, smul_comm]

theorem avg_add {ι : Type*} [Fintype ι] (φ ψ : ι → E) : avg (fun i => φ i + ψ i) = avg φ + avg ψ := by
  simp only [avg, Finset.sum_add_distrib, smul_add]

theorem avg_smul {ι : Type*} [Fintype ι] (c : ℝ) (φ : ι → E) : avg (fun i => c • φ i) = c • avg φ := by
  simp only [avg, ← Finset.smul_sum]
  rw [smul_comm]

theorem avg_sum {ι κ : Type*} [Fintype ι] [Fintype κ] (φ : ι → κ → E) :
    avg (fun i => ∑ j, φ i j) = ∑ j, avg fun i => φ i j := by
  simp only [avg, ← Finset.smul_sum]
  rw [Finset.sum_comm]

/-- The mean of `φ (τ a)` over all permutations `τ` is the mean of `φ`. -/
theorem avg_perm (φ : Fin N → E) (a : Fin N) : avg (fun τ : Perm (Fin N) => φ (τ a)) = avg φ := by
  have hN : Nonempty (Fin N) := ⟨a⟩
  have hind : ∀ b, avg (fun τ : Perm (Fin N) => φ (τ b)) = avg (fun τ : Perm (Fin N) => φ (τ a)) := by
    intro b
    rw [← avg_congr (Equiv.mulRight (swap a b)) fun τ : Perm (Fin N) => φ (τ b)]
    simp
  calc avg (fun τ : Perm (Fin N) => φ (τ a)) = avg fun b => avg fun τ : Perm (Fin N) => φ (τ b) := by
        simp only [hind, avg_const]
    _ = avg fun τ : Perm (Fin N) => avg fun b => φ (τ b) := avg_comm _
    _ = avg φ := by simp only [avg_congr, avg_const]

/-- The mean of `φ (τ a) * φ (τ b)` over all permutations, for different `a` and `b`. -/
theorem avg_perm_pair (φ : Fin N → ℝ) {a b : Fin N} (hab : a ≠ b) :
    (N * (N - 1) : ℝ) * avg (fun τ : Perm (Fin N) => φ (τ a) * φ (τ b)) = (∑ i, φ i) ^ 2 - ∑ i, φ i ^ 2 := by
  have hN : Nonempty (Fin N) := ⟨a⟩
  have hind : ∀ c d, c ≠ d → avg (fun τ : Perm (Fin N) => φ (τ c) * φ (τ d)) =
      avg (fun τ : Perm (Fin N) => φ (τ a) * φ (τ b)) := by
    intro c d hcd
    -- a permutation which maps `c` to `a` and `d` to `b`
    obtain ⟨π, h1, h2⟩ : ∃ π : Perm (Fin N), π c = a ∧ π d = b := by
      refine ⟨swap (swap c a d) b * swap c a, ?_, ?_⟩
      · rw [Perm.mul_apply, swap_apply_left]
        refine swap_apply_of_ne_of_ne ?_ hab
        intro h
        have := (swap c a).injective ((swap_apply_left c a).trans h)
        exact hcd this
      · rw [Perm.mul_apply, swap_apply_left]
    rw [← avg_congr (Equiv.mulRight π) fun τ : Perm (Fin N) => φ (τ c) * φ (τ d)]
    simp [h1, h2]
  -- the mean over all permutations of the square of the sum
  have hsq : avg (fun τ : Perm (Fin N) => ∑ c, ∑ d, φ (τ c) * φ (τ d)) = (∑ i, φ i) ^ 2 := by
    have : ∀ τ : Perm (Fin N), ∑ c, ∑ d, φ (τ c) * φ (τ d) = (∑ i, φ i) ^ 2 := by
      intro τ
      rw [← Finset.sum_mul_sum, Equiv.sum_comp τ φ, sq]
    simp only [this, avg_const]
  have hsum : avg (fun τ : Perm (Fin N) => ∑ c, ∑ d, φ (τ c) * φ (τ d)) =
      ∑ c, ∑ d, avg fun τ : Perm (Fin N) => φ (τ c) * φ (τ d) := by
    rw [avg_sum]
    exact Finset.sum_congr rfl fun c _ => avg_sum _
  have hdiag : ∀ c, avg (fun τ : Perm (Fin N) => φ (τ c) * φ (τ c)) = avg fun i => φ i ^ 2 := by
    intro c
    rw [avg_perm (fun i => φ i * φ i) c]
    simp only [sq]
  have hrow : ∀ c, ∑ d, avg (fun τ : Perm (Fin N) => φ (τ c) * φ (τ d)) =
      (avg fun i => φ i ^ 2) + (N - 1 : ℝ) * avg fun τ : Perm (Fin N) => φ (τ a) * φ (τ b) := by
    intro c
    rw [← Finset.add_sum_erase Finset.univ _ (Finset.mem_univ c), hdiag]
    congr 1
    rw [Finset.sum_congr rfl (g := fun _ => avg fun τ : Perm (Fin N) => φ (τ a) * φ (τ b))
      fun d hd => hind c d (Finset.ne_of_mem_erase hd).symm, Finset.sum_const, Finset.card_erase_of_mem (Finset.mem_univ c),
      Finset.card_univ, Fintype.card_fin, nsmul_eq_mul, Nat.cast_sub (Fin.pos c), Nat.cast_one]
  have hNr : (N : ℝ) ≠ 0 := by
    have := Fin.pos a
    positivity
  rw [hsum] at hsq
  simp only [hrow, Finset.sum_const, Finset.card_univ, Fintype.card_fin, nsmul_eq_mul] at hsq
  have hav : (N : ℝ) * avg (fun i => φ i ^ 2) = ∑ i, φ i ^ 2 := by
    rw [avg, Fintype.card_fin, smul_eq_mul, mul_inv_cancel_left₀ hNr]
  linear_combination hsq - hav

/-- The mean of a square is the variance plus the square of the mean. -/
theorem avg_variance {ι : Type*} [Fintype ι] [Nonempty ι] (φ : ι → ℝ) (c : ℝ) (hc : avg φ = c) :
    avg (fun i => (φ i - c) ^ 2) = avg (fun i => φ i ^ 2) - c ^ 2 := by
  have h : (fun i => (φ i - c) ^ 2) = fun i => φ i ^ 2 + ((-2 * c) • φ i + c ^ 2) := by
    funext i; rw [smul_eq_mul]; ring
  rw [h, avg_add, avg_add, avg_smul, avg_const, hc, smul_eq_mul]
  ring

/-! ## Families of draws -/

/-- The mean of a batch, for draws which are invariant under permutations of the rows: it is unbiased. -/
theorem draws_unbiased {ι : Type*} [Fintype ι] [Nonempty ι] {B : ℕ} (hB : 0 < B) (draw : ι → Fin B → Fin N)
    (hinv : ∀ τ : Perm (Fin N), ∃ e : ι ≃ ι, ∀ i j, draw (e i) j = τ (draw i j)) (g : Fin N → E) :
    avg (fun i => avg fun j => g (draw i j)) = avg g := by
  have hN : Nonempty (Fin N) := ⟨draw (Classical.arbitrary ι) ⟨0, hB⟩⟩
  have hBn : Nonempty (Fin B) := ⟨⟨0, hB⟩⟩
  have h1 : ∀ τ : Perm (Fin N), avg (fun i => avg fun j => g (τ (draw i j))) = avg fun i => avg fun j => g (draw i j) := by
    intro τ
    obtain ⟨e, he⟩ := hinv τ
    rw [← avg_congr e fun i => avg fun j => g (draw i j)]
    simp only [he]
  calc avg (fun i => avg fun j => g (draw i j)) =
        avg fun τ : Perm (Fin N) => avg fun i => avg fun j => g (τ (draw i j)) := by simp only [h1, avg_const]
    _ = avg fun i => avg fun j => avg fun τ : Perm (Fin N) => g (τ (draw i j)) := by
        rw [avg_comm]
        simp only [avg_comm (κ := Fin B)]
    _ = avg g := by simp only [avg_perm, avg_const]

theorem avg_sum_sum {ι κ μ : Type*} [Fintype ι] [Fintype κ] [Fintype μ] (φ : ι → κ → μ → E) :
    avg (fun i => ∑ j, ∑ l, φ i j l) = ∑ j, ∑ l, avg fun i => φ i j l := by
  rw [avg_sum]
  exact Finset.sum_congr rfl fun j _ => avg_sum _

theorem avg_mul_avg {ι : Type*} [Fintype ι] (φ : ι → ℝ) :
    (avg φ) ^ 2 = ((Fintype.card ι : ℝ)⁻¹) ^ 2 * ∑ i, ∑ j, φ i * φ j := by
  rw [avg, smul_eq_mul, mul_pow, ← Finset.sum_mul_sum, sq (∑ i, φ i)]

/-- The variance of the mean of a batch of different rows. -/
theorem draws_variance {ι : Type*} [Fintype ι] [Nonempty ι] {B : ℕ} (hB : 0 < B) (hN2 : 2 ≤ N) (draw : ι → Fin B → Fin N)
    (hinj : ∀ i, Function.Injective (draw i))
    (hinv : ∀ τ : Perm (Fin N), ∃ e : ι ≃ ι, ∀ i j, draw (e i) j = τ (draw i j)) (g : Fin N → ℝ) :
    avg (fun i => ((avg fun j => g (draw i j)) - avg g) ^ 2) =
      (N - B : ℝ) / (N - 1) / B * avg fun a => (g a - avg g) ^ 2 := by
  have hN : Nonempty (Fin N) := ⟨⟨0, by omega⟩⟩
  have hBn : Nonempty (Fin B) := ⟨⟨0, hB⟩⟩
  rw [avg_variance _ _ (draws_unbiased hB draw hinv g), avg_variance g _ rfl]
  have hNr : (N : ℝ) ≠ 0 := by positivity
  have hN1 : (N : ℝ) - 1 ≠ 0 := by
    have : (2 : ℝ) ≤ N := by exact_mod_cast hN2
    linarith
  have hBr : (B : ℝ) ≠ 0 := by positivity
  -- mean over the permutations of the square, for one draw
  have hone : ∀ i, avg (fun τ : Perm (Fin N) => (avg fun j => g (τ (draw i j))) ^ 2) =
      ((B : ℝ)⁻¹) ^ 2 * (B * avg (fun a => g a ^ 2) +
        B * (B - 1) * (((∑ a, g a) ^ 2 - ∑ a, g a ^ 2) / (N * (N - 1)))) := by
    intro i
    have hpair : ∀ j l, avg (fun τ : Perm (Fin N) => g (τ (draw i j)) * g (τ (draw i l))) =
        if j = l then avg (fun a => g a ^ 2) else ((∑ a, g a) ^ 2 - ∑ a, g a ^ 2) / (N * (N - 1)) := by
      intro j l
      split_ifs with h
      · subst h
        rw [avg_perm (fun a => g a * g a) (draw i j)]
        simp only [sq]
      · have h2 := avg_perm_pair g (a := draw i j) (b := draw i l) fun h' => h (hinj i h')
        rw [← h2]
        field_simp
    simp only [avg_mul_avg, Fintype.card_fin]
    have e1 : avg (fun τ : Perm (Fin N) => ((B : ℝ)⁻¹) ^ 2 * ∑ j, ∑ l, g (τ (draw i j)) * g (τ (draw i l))) =
        ((B : ℝ)⁻¹) ^ 2 * ∑ j, ∑ l, avg fun τ : Perm (Fin N) => g (τ (draw i j)) * g (τ (draw i l)) := by
      rw [← avg_sum_sum, ← smul_eq_mul, ← avg_smul]
      simp only [smul_eq_mul]
    rw [e1]
    congr 1
    have hrow : ∀ j : Fin B, ∑ l, avg (fun τ : Perm (Fin N) => g (τ (draw i j)) * g (τ (draw i l))) =
        avg (fun a => g a ^ 2) + (B - 1) * (((∑ a, g a) ^ 2 - ∑ a, g a ^ 2) / (N * (N - 1))) := by
      intro j
      simp only [hpair]
      rw [← Finset.add_sum_erase Finset.univ _ (Finset.mem_univ j), if_pos rfl]
      congr 1
      rw [Finset.sum_congr rfl (g := fun _ => ((∑ a, g a) ^ 2 - ∑ a, g a ^ 2) / (N * (N - 1)))
        fun l hl => if_neg (Finset.ne_of_mem_erase hl).symm, Finset.sum_const, Finset.card_erase_of_mem (Finset.mem_univ j),
        Finset.card_univ, Fintype.card_fin, nsmul_eq_mul, Nat.cast_sub hB, Nat.cast_one]
    simp only [hrow, Finset.sum_const, Finset.card_univ, Fintype.card_fin, nsmul_eq_mul]
    ring
  have h1 : ∀ τ : Perm (Fin N), avg (fun i => (avg fun j => g (τ (draw i j))) ^ 2) =
      avg fun i => (avg fun j => g (draw i j)) ^ 2 := by
    intro τ
    obtain ⟨e, he⟩ := hinv τ
    rw [← avg_congr e fun i => (avg fun j => g (draw i j)) ^ 2]
    simp only [he]
  have hsq : avg (fun i => (avg fun j => g (draw i j)) ^ 2) =
      ((B : ℝ)⁻¹) ^ 2 * (B * avg (fun a => g a ^ 2) +
        B * (B - 1) * (((∑ a, g a) ^ 2 - ∑ a, g a ^ 2) / (N * (N - 1)))) := by
    calc avg (fun i => (avg fun j => g (draw i j)) ^ 2) =
          avg fun τ : Perm (Fin N) => avg fun i => (avg fun j => g (τ (draw i j))) ^ 2 := by simp only [h1, avg_const]
      _ = avg fun i => avg fun τ : Perm (Fin N) => (avg fun j => g (τ (draw i j))) ^ 2 := avg_comm _
      _ = _ := by simp only [hone, avg_const]
  rw [hsq]
  have a1 : avg g = (N : ℝ)⁻¹ * ∑ a, g a := by rw [avg, Fintype.card_fin, smul_eq_mul]
  have a2 : avg (fun a => g a ^ 2) = (N : ℝ)⁻¹ * ∑ a, g a ^ 2 := by rw [avg, Fintype.card_fin, smul_eq_mul]
  rw [a1, a2]
  field_simp
  ring

end

/-! ## `batches_without_replacement` -/

section
variable {α : Type} [Inhabited α] {E : Type*} [AddCommGroup E] [Module ℝ E] {N B : ℕ}

theorem getD_of_lt {β : Type} (l : List β) (d : β) {i : ℕ} (h : i < l.length) : l.getD i d = l[i] := by
  simp [h]

theorem getD_getD_of_lt {β : Type} (l : List (List β)) (d : β) {i j : ℕ} (h : i < l.length) (h' : j < l[i].length) :
    (l.getD i []).getD j d = l[i][j] := by
  rw [getD_of_lt l [] h, getD_of_lt _ d h']

/-- The rows of the batches: row `j` of batch `k` is row `σ (k * B + j)` of the data. -/
theorem batchRow_without (σ : Perm (Fin N)) (permutation : Key → ℕ → List ℕ) (key : Key)
    (hperm : permutation key N = List.ofFn fun j => (σ j : ℕ)) (X : List (List α)) (h0 : X ≠ [])
    (hX : ∀ x ∈ X, x.length = N) (hB : 0 < B) (out : List (List (List α)))
    (hout : batchesWithoutReplacement permutation key X B = .ok out) (k : ℕ) (hk : k < N / B) (j : Fin B) (l : Fin N)
    (hl : (l : ℕ) = k * B + j) :
    batchRow out k j = dataRow X (σ l) := by
  have hkB : (k + 1) * B ≤ N := le_trans (Nat.mul_le_mul_right B hk) (Nat.div_mul_le_self N B)
  have hj := j.isLt
  unfold batchesWithoutReplacement at hout
  rw [axisSize_rows h0 hX] at hout
  simp only [bind, Except.bind] at hout
  rw [if_neg (by omega)] at hout
  injection hout with hout
  subst hout
  rw [batchRow, dataRow, List.map_map]
  refine List.map_congr_left fun x hx => ?_
  have hxl := hX x hx
  have hlb : k * B + j < N / B * B := by
    calc k * B + j < k * B + B := by omega
      _ = (k + 1) * B := by ring
      _ ≤ N / B * B := Nat.mul_le_mul_right B hk
  have hbN : N / B * B ≤ N := Nat.div_mul_le_self N B
  have hs : (σ l : ℕ) < N := (σ l).isLt
  simp only [Function.comp_apply, gather, reshape2, hperm]
  rw [getD_getD_of_lt _ _ (by simpa using hk) (by simp)]
  simp only [List.getElem_map, List.getElem_range]
  have e : ((List.ofFn fun j => (σ j : ℕ)).take (N / B * B)).getD (k * B + j) 0 = (σ l : ℕ) := by
    rw [getD_of_lt _ _ (by simp; omega)]
    rw [List.getElem_take, List.getElem_ofFn]
    congr 2
    exact Fin.ext hl.symm
  rw [e, hxl, Nat.min_eq_left (by omega)]

/-- The draws of batch `k`. -/
theorem without_draw (k : ℕ) (hk : k < N / B) : ∃ pos : Fin B → Fin N, Function.Injective pos ∧
    ∀ j, (pos j : ℕ) = k * B + j := by
  have hkB : (k + 1) * B ≤ N := le_trans (Nat.mul_le_mul_right B hk) (Nat.div_mul_le_self N B)
  refine ⟨fun j => ⟨k * B + j, ?_⟩, ?_, fun j => rfl⟩
  · have := j.isLt
    calc k * B + j < k * B + B := by omega
      _ = (k + 1) * B := by ring
      _ ≤ N := hkB
  · intro i j h
    have : k * B + (i : ℕ) = k * B + j := congrArg Fin.val h
    exact Fin.ext (by omega)

/-- **C148** (without replacement). If all permutations are equally likely, the mean of any function of the rows over a
batch is an unbiased estimate of its mean over all rows, for every batch. -/
theorem C148_unbiased (permutation : Perm (Fin N) → Key → ℕ → List ℕ) (key : Key)
    (hperm : ∀ σ, permutation σ key N = List.ofFn fun j => (σ j : ℕ)) (X : List (List α)) (h0 : X ≠ [])
    (hX : ∀ x ∈ X, x.length = N) (hB : 0 < B) (out : Perm (Fin N) → List (List (List α)))
    (hout : ∀ σ, batchesWithoutReplacement (permutation σ) key X B = .ok (out σ)) (k : ℕ) (hk : k < N / B) (g : List α → E) :
    avg (fun σ => avg fun j : Fin B => g (batchRow (out σ) k j)) = avg fun i : Fin N => g (dataRow X i) := by
  obtain ⟨pos, -, hp⟩ := without_draw k hk
  have h := draws_unbiased hB (fun (σ : Perm (Fin N)) j => σ (pos j))
    (fun τ => ⟨Equiv.mulLeft τ, fun σ j => rfl⟩) fun i => g (dataRow X i)
  rw [← h]
  congr 1
  funext σ
  congr 1
  funext j
  rw [batchRow_without σ (permutation σ) key (hperm σ) X h0 hX hB (out σ) (hout σ) k hk j (pos j) (hp j)]

/-- **C148** (without replacement, variance). The variance of the mean over a batch is the variance of the rows divided
by the size of the batch, times `(N - B) / (N - 1)`. -/
theorem C148_variance (permutation : Perm (Fin N) → Key → ℕ → List ℕ) (key : Key)
    (hperm : ∀ σ, permutation σ key N = List.ofFn fun j => (σ j : ℕ)) (X : List (List α)) (h0 : X ≠ [])
    (hX : ∀ x ∈ X, x.length = N) (hB : 0 < B) (hN : 2 ≤ N) (out : Perm (Fin N) → List (List (List α)))
    (hout : ∀ σ, batchesWithoutReplacement (permutation σ) key X B = .ok (out σ)) (k : ℕ) (hk : k < N / B)
    (g : List α → ℝ) (c : ℝ) (hc : c = avg fun i : Fin N => g (dataRow X i)) :
    avg (fun σ => ((avg fun j : Fin B => g (batchRow (out σ) k j)) - c) ^ 2) =
      (N - B : ℝ) / (N - 1) / B * avg fun i : Fin N => (g (dataRow X i) - c) ^ 2 := by
  subst hc
  obtain ⟨pos, hinj, hp⟩ := without_draw k hk
  have h := draws_variance hB hN (fun (σ : Perm (Fin N)) j => σ (pos j))
    (fun σ i j h => hinj (σ.injective h)) (fun τ => ⟨Equiv.mulLeft τ, fun σ j => rfl⟩) fun i => g (dataRow X i)
  rw [← h]
  congr 1
  funext σ
  congr 3
  funext j
  rw [batchRow_without σ (permutation σ) key (hperm σ) X h0 hX hB (out σ) (hout σ) k hk j (pos j) (hp j)]

example (out : Perm (Fin 5) → List (List (List ℝ)))
    (hout : ∀ σ, batchesWithoutReplacement (fun _ _ => List.ofFn fun j => (σ j : ℕ)) [] [[1, 2, 3, 4, 10]] 2 = .ok (out σ)) :
    avg (fun σ => ((avg fun j : Fin 2 => (batchRow (out σ) 1 j).getD 0 0) - 4) ^ 2) = 15 / 4 := by
  rw [C148_variance (N := 5) (B := 2) (fun σ _ _ => List.ofFn fun j => (σ j : ℕ)) [] (fun σ => rfl) [[1, 2, 3, 4, 10]]
    (by simp) (by simp) two_pos (by norm_num) out hout 1 (by norm_num) (fun r => r.getD 0 0) 4
    (by simp [avg, dataRow, Fin.sum_univ_succ]; norm_num)]
  simp [avg, dataRow, Fin.sum_univ_succ]
  norm_num

/-! ## `batches_with_replacement` -/

/-- The rows of the batches: row `j` of batch `k` is the row with the number drawn for it. -/
theorem batchRow_with {b : ℕ} (c : Fin b → Fin B → Fin N) (choice : Key → ℕ → ℕ → Bool → Except Err (List ℕ)) (key : Key)
    (r : Bool) (hc : ∀ k : Fin b, choice (key.child k) N B r = .ok (List.ofFn fun j => (c k j : ℕ))) (X : List (List α))
    (h0 : X ≠ []) (hX : ∀ x ∈ X, x.length = N) (out : List (List (List α)))
    (hout : batchesWithReplacement choice key X b B r = .ok out) (k : Fin b) (j : Fin B) :
    batchRow out k j = dataRow X (c k j) := by
  unfold batchesWithReplacement at hout
  rw [axisSize_rows h0 hX] at hout
  simp only [bind, Except.bind] at hout
  have hm : ((List.range b).map fun i => key.child i).mapM (fun k => choice k N B r) =
      .ok (List.ofFn fun k => List.ofFn fun j => (c k j : ℕ)) := by
    rw [mapM_ok_iff, List.forall₂_iff_get]
    refine ⟨by simp, fun i h1 h2 => ?_⟩
    have hi : i < b := by simpa using h1
    simpa using hc ⟨i, hi⟩
  rw [hm] at hout
  injection hout with hout
  subst hout
  rw [batchRow, dataRow, List.map_map]
  refine List.map_congr_left fun x hx => ?_
  have hxl := hX x hx
  have hs : (c k j : ℕ) < N := (c k j).isLt
  simp only [Function.comp_apply, gather]
  rw [getD_getD_of_lt _ _ (by simp) (by simp)]
  simp only [List.getElem_map, List.getElem_ofFn, Fin.eta]
  rw [hxl, Nat.min_eq_left (by omega)]

/-- **C148** (with replacement). If all draws are equally likely (independent draws of rows for `replace_within_batch`,
otherwise draws of different rows), the mean over a batch is an unbiased estimate of the mean over all rows. -/
theorem C148_replacement {b : ℕ} (choice : (Fin b → Fin B → Fin N) → Key → ℕ → ℕ → Bool → Except Err (List ℕ)) (key : Key)
    (r : Bool) (hc : ∀ c k, choice c (key.child (k : Fin b)) N B r = .ok (List.ofFn fun j => (c k j : ℕ)))
    (X : List (List α)) (h0 : X ≠ []) (hX : ∀ x ∈ X, x.length = N) (hB : 0 < B) (hBN : B ≤ N)
    (out : (Fin b → Fin B → Fin N) → List (List (List α)))
    (hout : ∀ c, batchesWithReplacement (choice c) key X b B r = .ok (out c)) (k : Fin b) (g : List α → E) :
    avg (fun c => avg fun j : Fin B => g (batchRow (out c) k j)) = avg (fun i : Fin N => g (dataRow X i)) ∧
    avg (fun c : Fin b → Fin B ↪ Fin N => avg fun j : Fin B => g (batchRow (out fun k => c k) k j)) =
      avg fun i : Fin N => g (dataRow X i) := by
  have hN : Nonempty (Fin N) := ⟨⟨0, by omega⟩⟩
  have hemb : Nonempty (Fin B ↪ Fin N) := ⟨Fin.castLEEmb hBN⟩
  constructor
  · have h := draws_unbiased hB (fun (c : Fin b → Fin B → Fin N) j => c k j)
      (fun τ => ⟨Equiv.piCongrRight fun _ => Equiv.piCongrRight fun _ => τ, fun c j => rfl⟩) fun i => g (dataRow X i)
    rw [← h]
    congr 1
    funext c
    congr 1
    funext j
    rw [batchRow_with c (choice c) key r (hc c) X h0 hX (out c) (hout c) k j]
  · have h := draws_unbiased hB (fun (c : Fin b → Fin B ↪ Fin N) j => c k j)
      (fun τ => ⟨Equiv.piCongrRight fun _ => Equiv.embeddingCongr (Equiv.refl _) τ, fun c j => by simp⟩)
      fun i => g (dataRow X i)
    rw [← h]
    congr 1
    funext c
    congr 1
    funext j
    rw [batchRow_with (fun k => c k) (choice _) key r (hc _) X h0 hX (out _) (hout _) k j]

/-- **C148** (with replacement, variance). For independent draws the variance of the mean over a batch is the variance of
the rows divided by the size of the batch; for draws of different rows there is the factor `(N - B) / (N - 1)`. -/
theorem C148_replacement_variance {b : ℕ} (choice : (Fin b → Fin B → Fin N) → Key → ℕ → ℕ → Bool → Except Err (List ℕ))
    (key : Key) (r : Bool) (hc : ∀ c k, choice c (key.child (k : Fin b)) N B r = .ok (List.ofFn fun j => (c k j : ℕ)))
    (X : List (List α)) (h0 : X ≠ []) (hX : ∀ x ∈ X, x.length = N) (hB : 0 < B) (hBN : B ≤ N) (hN2 : 2 ≤ N)
    (out : (Fin b → Fin B → Fin N) → List (List (List α)))
    (hout : ∀ c, batchesWithReplacement (choice c) key X b B r = .ok (out c)) (k : Fin b) (g : List α → ℝ) (m : ℝ)
    (hm : m = avg fun i : Fin N => g (dataRow X i)) :
    avg (fun c => ((avg fun j : Fin B => g (batchRow (out c) k j)) - m) ^ 2) =
      1 / B * avg (fun i : Fin N => (g (dataRow X i) - m) ^ 2) ∧
    avg (fun c : Fin b → Fin B ↪ Fin N => ((avg fun j : Fin B => g (batchRow (out fun k => c k) k j)) - m) ^ 2) =
      (N - B : ℝ) / (N - 1) / B * avg fun i : Fin N => (g (dataRow X i) - m) ^ 2 := by
  subst hm
  have hN : Nonempty (Fin N) := ⟨⟨0, by omega⟩⟩
  have hBn : Nonempty (Fin B) := ⟨⟨0, hB⟩⟩
  have hemb : Nonempty (Fin B ↪ Fin N) := ⟨Fin.castLEEmb hBN⟩
  have hBr : (B : ℝ) ≠ 0 := by positivity
  constructor
  · have hrow : (fun c => ((avg fun j : Fin B => g (batchRow (out c) k j)) - avg fun i : Fin N => g (dataRow X i)) ^ 2) =
        fun c : Fin b → Fin B → Fin N => ((avg fun j : Fin B => g (dataRow X (c k j))) - avg fun i : Fin N => g (dataRow X i)) ^ 2 := by
      funext c
      congr 3
      funext j
      rw [batchRow_with c (choice c) key r (hc c) X h0 hX (out c) (hout c) k j]
    rw [hrow]
    set γ : Fin N → ℝ := fun i => g (dataRow X i) with hγ
    have hunb := draws_unbiased hB (fun (c : Fin b → Fin B → Fin N) j => c k j)
      (fun τ => ⟨Equiv.piCongrRight fun _ => Equiv.piCongrRight fun _ => τ, fun c j => rfl⟩) γ
    rw [avg_variance _ _ hunb, avg_variance γ _ rfl]
    -- the rows are drawn independently
    have hpair : ∀ j l : Fin B, avg (fun c : Fin b → Fin B → Fin N => γ (c k j) * γ (c k l)) =
        if j = l then avg (fun a => γ a ^ 2) else (avg γ) ^ 2 := by
      intro j l
      split_ifs with h
      · subst h
        have := draws_unbiased (B := 1) one_pos (fun (c : Fin b → Fin B → Fin N) (_ : Fin 1) => c k j)
          (fun τ => ⟨Equiv.piCongrRight fun _ => Equiv.piCongrRight fun _ => τ, fun c j => rfl⟩) fun i => γ i ^ 2
        rw [← this]
        simp only [avg_const, sq]
      · -- permute the values of entry `l` only
        have hinv : ∀ τ : Perm (Fin N), avg (fun c : Fin b → Fin B → Fin N => γ (c k j) * γ (τ (c k l))) =
            avg fun c : Fin b → Fin B → Fin N => γ (c k j) * γ (c k l) := by
          intro τ
          rw [← avg_congr (Equiv.piCongrRight fun k' : Fin b => Equiv.piCongrRight fun l' : Fin B =>
            if k' = k ∧ l' = l then τ else Equiv.refl (Fin N)) fun c : Fin b → Fin B → Fin N => γ (c k j) * γ (c k l)]
          congr 1
          funext c
          simp [h]
        have h2 : avg (fun c : Fin b → Fin B → Fin N => γ (c k j) * γ (c k l)) =
            avg fun c : Fin b → Fin B → Fin N => avg fun τ : Perm (Fin N) => γ (c k j) * γ (τ (c k l)) := by
          rw [avg_comm]
          simp only [hinv, avg_const]
        rw [h2]
        have h3 : ∀ c : Fin b → Fin B → Fin N, avg (fun τ : Perm (Fin N) => γ (c k j) * γ (τ (c k l))) =
            avg γ * γ (c k j) := by
          intro c
          have := avg_smul (γ (c k j)) fun τ : Perm (Fin N) => γ (τ (c k l))
          simp only [smul_eq_mul] at this
          rw [this, avg_perm, mul_comm]
        simp only [h3]
        have h4 := avg_smul (avg γ) fun c : Fin b → Fin B → Fin N => γ (c k j)
        simp only [smul_eq_mul] at h4
        rw [h4, sq]
        congr 1
        have := draws_unbiased (B := 1) one_pos (fun (c : Fin b → Fin B → Fin N) (_ : Fin 1) => c k j)
          (fun τ => ⟨Equiv.piCongrRight fun _ => Equiv.piCongrRight fun _ => τ, fun c j => rfl⟩) γ
        rw [← this]
        simp only [avg_const]
    have e1 : avg (fun c : Fin b → Fin B → Fin N => (avg fun j : Fin B => γ (c k j)) ^ 2) =
        ((B : ℝ)⁻¹) ^ 2 * ∑ j, ∑ l, avg fun c : Fin b → Fin B → Fin N => γ (c k j) * γ (c k l) := by
      simp only [avg_mul_avg, Fintype.card_fin]
      rw [← avg_sum_sum, ← smul_eq_mul, ← avg_smul]
      simp only [smul_eq_mul]
    rw [e1]
    have hrow : ∀ j : Fin B, ∑ l, avg (fun c : Fin b → Fin B → Fin N => γ (c k j) * γ (c k l)) =
        avg (fun a => γ a ^ 2) + (B - 1) * (avg γ) ^ 2 := by
      intro j
      simp only [hpair]
      rw [← Finset.add_sum_erase Finset.univ _ (Finset.mem_univ j), if_pos rfl]
      congr 1
      rw [Finset.sum_congr rfl (g := fun _ => (avg γ) ^ 2)
        fun l hl => if_neg (Finset.ne_of_mem_erase hl).symm, Finset.sum_const, Finset.card_erase_of_mem (Finset.mem_univ j),
        Finset.card_univ, Fintype.card_fin, nsmul_eq_mul, Nat.cast_sub hB, Nat.cast_one]
    simp only [hrow, Finset.sum_const, Finset.card_univ, Fintype.card_fin, nsmul_eq_mul]
    field_simp
    ring
  · have h := draws_variance hB hN2 (fun (c : Fin b → Fin B ↪ Fin N) j => c k j) (fun c => (c k).injective)
      (fun τ => ⟨Equiv.piCongrRight fun _ => Equiv.embeddingCongr (Equiv.refl _) τ, fun c j => by simp⟩)
      fun i => g (dataRow X i)
    rw [← h]
    congr 1
    funext c
    congr 3
    funext j
    rw [batchRow_with (fun k => c k) (choice _) key r (hc _) X h0 hX (out _) (hout _) k j]

end

/-- Five rows in batches of two: the mean of the second batch is unbiased. -/
example (out : Perm (Fin 5) → List (List (List ℝ)))
    (hout : ∀ σ, batchesWithoutReplacement (fun _ _ => List.ofFn fun j => (σ j : ℕ)) [] [[1, 2, 3, 4, 10]] 2 = .ok (out σ)) :
    avg (fun σ => avg fun j : Fin 2 => (batchRow (out σ) 1 j).getD 0 0) = 4 := by
  rw [C148_unbiased (N := 5) (B := 2) (fun σ _ _ => List.ofFn fun j => (σ j : ℕ)) [] (fun σ => rfl) [[1, 2, 3, 4, 10]]
    (by simp) (by simp) two_pos out hout 1 (by norm_num) fun r => r.getD 0 0]
  simp [avg, dataRow, Fin.sum_univ_succ]
  norm_num

end Verif
