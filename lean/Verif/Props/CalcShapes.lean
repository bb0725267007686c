import Verif.Model.CalcShapes
import Verif.Props.Calc

/-! # Arguments passed by keyword, and shapes accepted by `divergence` (C150) -/

namespace Verif

section
variable {E : Type} [NormedAddCommGroup E] [NormedSpace ℝ E] {k : ℕ} {s : Fin k → ℕ}

/-- **C150** (keywords). If an argument is passed by keyword, the derivative with respect to its name is 0 and no error is
raised, whatever the function is; `f` is a function of the positional arguments and of the arguments passed by
keyword. -/
theorem C150_keyword {K : Type} (pos kw : List String) (hpos : pos.length = k) (name : String) (h1 : name ∉ pos)
    (h2 : name ∈ kw) (f : Args s → K → E) (y : K) : ∃ df, valueAndDerivative (pos ++ kw) (fun x => f x y) (.str name) none = .ok df ∧
      ∀ x, df x = (f x y, 0) := by
  have hidx : (pos ++ kw).idxOf name = k + kw.idxOf name := by
    rw [List.idxOf_append_of_notMem h1, hpos]
  refine ⟨fun args => jvp (fun x => f x y) args (fun _ _ => 0), ?_, fun x => ?_⟩
  · have hmem : name ∈ pos ++ kw := List.mem_append_right _ h2
    simp only [valueAndDerivative, hmem, if_true, pure, Except.pure, bind, Except.bind, derivativeDirection, hidx]
    congr 1
    funext args
    congr 1
    funext i _
    rw [if_neg]
    have := i.isLt
    push_cast
    omega
  · exact Prod.ext rfl (map_zero (fderiv ℝ (fun x => f x y) x))

end

/-- `f(x, y) = x * y` with `y` passed by keyword: the derivative by `y` is 0, not `x`. -/
example : ∃ df, valueAndDerivative (s := fun _ : Fin 1 => 1) ["x", "y"] (fun x => x 0 0 * (3 : ℝ)) (.str "y") none = .ok df ∧
    df (fun _ _ => 2) = (6, 0) := by
  obtain ⟨df, h1, h2⟩ := C150_keyword (s := fun _ : Fin 1 => 1) ["x"] ["y"] rfl "y" (by decide) (by decide)
    (fun (x : Args fun _ : Fin 1 => 1) (y : ℝ) => x 0 0 * y) 3
  exact ⟨df, h1, by rw [h2]; norm_num⟩

/-- **C150** (divergence). Values and argument must have one, two or three axes together: one or two give a number, three one
number for each entry of the first axis of the value; otherwise a `ValueError` is raised. -/
theorem C150_divergence (f x : List ℕ) :
    ((∃ r, divergenceShape f x = .ok r) ↔ 1 ≤ f.length + x.length ∧ f.length + x.length ≤ 3) ∧
    (1 ≤ f.length + x.length → f.length + x.length ≤ 2 → divergenceShape f x = .ok []) ∧
    (∀ b m n, f = [b, m] → x = [n] → divergenceShape f x = .ok [b]) ∧
    (f.length + x.length = 0 ∨ 3 < f.length + x.length → divergenceShape f x = .error .valueError) := by
  have hlen : (f ++ x).length = f.length + x.length := List.length_append
  have key : ∀ J : List ℕ, J.length = f.length + x.length → f ++ x = J →
      ((∃ r, divergenceShape f x = .ok r) ↔ 1 ≤ J.length ∧ J.length ≤ 3) ∧
      (1 ≤ J.length → J.length ≤ 2 → divergenceShape f x = .ok []) ∧
      (J.length = 0 ∨ 3 < J.length → divergenceShape f x = .error .valueError) := by
    intro J _ hJ
    simp only [divergenceShape, hJ]
    match J with
    | [] => simp [diagShape, bind, Except.bind]
    | [a] => simp [diagShape, bind, Except.bind, pure, Except.pure]
    | [a, b] => simp [diagShape, bind, Except.bind, pure, Except.pure]
    | [a, b, c] => simp [diagShape, bind, Except.bind, pure, Except.pure]
    | a :: b :: c :: d :: J => simp [diagShape, bind, Except.bind]
  obtain ⟨k1, k2, k3⟩ := key _ hlen rfl
  rw [hlen] at k1 k2 k3
  refine ⟨k1, k2, ?_, k3⟩
  rintro b m n rfl rfl
  simp [divergenceShape, diagShape, bind, Except.bind, pure, Except.pure]

example : divergenceShape [] [] = .error .valueError := (C150_divergence [] []).2.2.2 (.inl rfl)

end Verif
