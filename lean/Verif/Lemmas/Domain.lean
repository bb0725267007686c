import Verif.Model.Domain

/-! # Helpers for `domain.py` -/

namespace Verif

open XR

theorem argmaxBool_spec {m : ℕ} (p : Fin (m + 1) → Prop) (h : ∃ k, p k) :
    p (argmaxBool p) ∧ ∀ j < argmaxBool p, ¬ p j := by
  classical
  obtain ⟨k, hk⟩ := h
  unfold argmaxBool
  cases hf : (List.finRange (m + 1)).find? (fun k => @decide (p k) (Classical.decPred p k)) with
  | none =>
    rw [List.find?_eq_none] at hf
    exact absurd (by simpa using hk) (hf k (List.mem_finRange k))
  | some i =>
    simp only [Option.getD_some]
    have h1 := List.find?_some hf
    refine ⟨by simpa using h1, fun j hj hpj => ?_⟩
    rw [List.find?_eq_some_iff_getElem] at hf
    obtain ⟨-, n, hn, hi, hlt⟩ := hf
    simp only [List.getElem_finRange] at hi
    have hni : n = i.1 := by rw [← hi]; rfl
    have := hlt j.1 (by rw [hni]; exact hj)
    simp at this
    exact this hpj

theorem argmaxBool_eq {m : ℕ} {p : Fin (m + 1) → Prop} {k : Fin (m + 1)} (h : p k)
    (hlt : ∀ j < k, ¬ p j) : argmaxBool p = k := by
  obtain ⟨h1, h2⟩ := argmaxBool_spec p ⟨k, h⟩
  rcases lt_trichotomy (argmaxBool p) k with h3 | h3 | h3
  · exact absurd h1 (hlt _ h3)
  · exact h3
  · exact absurd h (h2 k h3)

theorem foldl_mul_fin {α : Type*} (l : List α) (f : α → ℝ) (a : ℝ) :
    l.foldl (fun acc i => acc * fin (f i)) (fin a) = fin (a * (l.map f).prod) := by
  induction l generalizing a with
  | nil => simp
  | cons b l ih => rw [List.foldl_cons, fin_mul, ih]; simp [mul_assoc]

theorem sum_filter_le_fin {m : ℕ} (f : Fin (m + 1) → ℝ) (g : ℕ → ℝ) (hg : ∀ j : Fin (m + 1), g j = f j)
    (k : Fin (m + 1)) :
    ∑ j ∈ Finset.univ.filter (· ≤ k), f j = ∑ j ∈ Finset.range (k.1 + 1), g j := by
  symm
  refine Finset.sum_bij' (fun j hj => (⟨j, by
      have := Finset.mem_range.mp hj
      omega⟩ : Fin (m + 1))) (fun j _ => j.1) ?_ ?_ ?_ ?_ ?_
  · intro j hj
    simp only [Finset.mem_filter, Finset.mem_univ, true_and, Fin.le_def]
    exact Nat.lt_succ_iff.mp (Finset.mem_range.mp hj)
  · intro j hj
    simp only [Finset.mem_filter, Finset.mem_univ, true_and, Fin.le_def] at hj
    exact Finset.mem_range.mpr (by omega)
  · intro j hj; rfl
  · intro j hj; rfl
  · intro j hj; exact hg ⟨j, _⟩

end Verif
