import Verif.Props.Quadrature
import Mathlib.Algebra.MvPolynomial.Degrees
import Mathlib.MeasureTheory.Integral.Pi

/-! # Properties of `integrate`, `integrate_disk` and `integrate_sphere` -/

namespace Verif

open MeasureTheory

section
variable {E : Type*} [AddCommGroup E] [Module ℝ E]

/-! ## C48 -/

theorem quad_cons (w x : ℝ) (ws xs : List ℝ) (f : ℝ → E) :
    quad (w :: ws, x :: xs) f = w • f x + quad (ws, xs) f := by simp [quad]

theorem quad_add (r : List ℝ × List ℝ) (f g : ℝ → E) : quad r (fun x => f x + g x) = quad r f + quad r g := by
  obtain ⟨w, x⟩ := r
  induction w generalizing x with
  | nil => simp [quad]
  | cons w ws ih =>
    cases x with
    | nil => simp [quad]
    | cons x xs => rw [quad_cons, quad_cons, quad_cons, ih, smul_add]; abel

theorem quad_smul (r : List ℝ × List ℝ) (c : ℝ) (f : ℝ → E) : quad r (fun x => c • f x) = c • quad r f := by
  obtain ⟨w, x⟩ := r
  induction w generalizing x with
  | nil => simp [quad]
  | cons w ws ih =>
    cases x with
    | nil => simp [quad]
    | cons x xs => rw [quad_cons, quad_cons, ih, smul_add, smul_comm]

theorem quad_zero (r : List ℝ × List ℝ) : quad r (fun _ => (0 : E)) = 0 := by
  have := quad_smul r 0 (fun _ => (0 : E))
  simpa using this

theorem quad_comm (r s : List ℝ × List ℝ) (g : ℝ → ℝ → E) :
    quad r (fun x => quad s fun y => g x y) = quad s fun y => quad r fun x => g x y := by
  obtain ⟨w, x⟩ := r
  induction w generalizing x with
  | nil => simp only [quad, List.zipWith_nil_left, List.sum_nil]; exact (quad_zero s).symm
  | cons w ws ih =>
    cases x with
    | nil => simp only [quad, List.zipWith_nil_right, List.sum_nil]; exact (quad_zero s).symm
    | cons x xs =>
      simp only [quad_cons]
      rw [ih, quad_add, quad_smul]

theorem nestedQuad_add (rs : List (List ℝ × List ℝ)) (f g : List ℝ → E) :
    nestedQuad rs (fun p => f p + g p) = nestedQuad rs f + nestedQuad rs g := by
  induction rs generalizing f g with
  | nil => rfl
  | cons r rs ih => simp only [nestedQuad, ih, quad_add]

theorem nestedQuad_smul (rs : List (List ℝ × List ℝ)) (c : ℝ) (f : List ℝ → E) :
    nestedQuad rs (fun p => c • f p) = c • nestedQuad rs f := by
  induction rs generalizing f with
  | nil => rfl
  | cons r rs ih => simp only [nestedQuad, ih, quad_smul]

theorem tensordot_map_mul (c : ℝ) (W : List ℝ) (F : List E) :
    tensordot (W.map fun w => c * w) F = c • tensordot W F := by
  simp only [tensordot]
  induction W generalizing F with
  | nil => simp
  | cons w W ih =>
    cases F with
    | nil => simp
    | cons z F => simp only [List.map_cons, List.zipWith_cons_cons, List.sum_cons, ih, smul_add, mul_smul]

theorem tensordot_flatMap {A : ℝ → List ℝ} {B : ℝ → List E} (w x : List ℝ) (hwx : w.length = x.length)
    (hAB : ∀ a b, (A a).length = (B b).length) :
    tensordot (w.flatMap A) (x.flatMap B) = (List.zipWith (fun a b => tensordot (A a) (B b)) w x).sum := by
  induction w generalizing x with
  | nil => simp [tensordot]
  | cons a w ih =>
    cases x with
    | nil => simp at hwx
    | cons b x =>
      rw [List.zipWith_cons_cons, List.sum_cons, ← ih x (by simpa using hwx)]
      simp only [List.flatMap_cons, tensordot]
      rw [List.zipWith_append (hAB a b), List.sum_append]

theorem product_length (l m : List (List ℝ)) (h : l.map List.length = m.map List.length) :
    (product l).length = (product m).length := by
  induction l generalizing m with
  | nil => cases m with
    | nil => rfl
    | cons => simp at h
  | cons a l ih =>
    cases m with
    | nil => simp at h
    | cons b m =>
      simp only [List.map_cons, List.cons.injEq] at h
      simp [product, List.length_flatMap, h.1, ih m h.2]

theorem tensordot_product (rs : List (List ℝ × List ℝ)) (h : ∀ r ∈ rs, r.1.length = r.2.length) (f : List ℝ → E) :
    tensordot ((product (rs.map Prod.fst)).map List.prod) ((product (rs.map Prod.snd)).map f) = nestedQuad rs f := by
  induction rs generalizing f with
  | nil => simp [product, tensordot, nestedQuad]
  | cons r rs ih =>
    have hl : (product (rs.map Prod.fst)).length = (product (rs.map Prod.snd)).length := by
      apply product_length
      simp only [List.map_map]
      exact List.map_congr_left fun s hs => h s (by simp [hs])
    simp only [List.map_cons, product, List.map_flatMap, List.map_map]
    rw [tensordot_flatMap _ _ (h r (by simp)) (by intro a b; simp [hl]), nestedQuad, quad]
    congr 2
    funext w x
    have e : (List.prod ∘ fun p : List ℝ => w :: p) = (fun c => w * c) ∘ List.prod := by funext p; simp
    rw [e, ← List.map_map, tensordot_map_mul, ← ih (fun s hs => h s (by simp [hs])) (fun p => f (x :: p))]
    rfl

theorem tensordot_meshgrid (rs : List (List ℝ × List ℝ)) (h : ∀ r ∈ rs, r.1.length = r.2.length) (f : List ℝ → E) :
    tensordot ((meshgrid (rs.map Prod.fst)).map List.prod) ((meshgrid (rs.map Prod.snd)).map f) = nestedQuad rs f := by
  match rs, h with
  | [], _ => simp [meshgrid, product, tensordot, nestedQuad]
  | [r], h => exact tensordot_product [r] h f
  | r :: s :: rs, h =>
    have h' : ∀ r ∈ rs, r.1.length = r.2.length := fun t ht => h t (by simp [ht])
    have hl : (product (rs.map Prod.fst)).length = (product (rs.map Prod.snd)).length := by
      apply product_length
      simp only [List.map_map]
      exact List.map_congr_left h'
    have hr := h r (by simp)
    have hs := h s (by simp)
    simp only [List.map_cons, meshgrid, List.map_flatMap, List.map_map]
    rw [tensordot_flatMap _ _ hs (by intro a b; simp [List.length_flatMap, hl, hr])]
    simp only [nestedQuad]
    rw [quad_comm]
    conv_rhs => rw [quad]
    congr 2
    funext b y
    rw [tensordot_flatMap _ _ hr (by intro a b; simp [hl]), ← quad_smul, quad]
    congr 2
    funext a x
    have e : (List.prod ∘ fun p : List ℝ => a :: b :: p) = (fun c => a * c) ∘ (fun c => b * c) ∘ List.prod := by
      funext p; simp
    rw [e, ← List.map_map, ← List.map_map, tensordot_map_mul, tensordot_map_mul,
      ← tensordot_product rs h' (fun p => f (x :: y :: p))]
    rfl

/-- `integrate` on several grids is the nested quadrature, whatever the internal order of the axes is. -/
theorem C48_nested (f : List ℝ → E) (domain : List (List ℝ)) (method : QuadRule)
    (h : ∀ d ∈ domain, (method d).1.length = (method d).2.length) :
    integrateN f domain method = nestedQuad (domain.map method) f := by
  have := tensordot_meshgrid (domain.map method) (by
    intro r hr
    obtain ⟨d, hd, rfl⟩ := List.mem_map.mp hr
    exact h d hd) f
  simp only [List.map_map] at this
  exact this

example (f : List ℝ → ℝ) : integrateN f [[0, 1, 3], [0, 2]] trap = nestedQuad [trap [0, 1, 3], trap [0, 2]] f :=
  C48_nested f [[0, 1, 3], [0, 2]] trap fun d hd => (C46_trap d (by rintro rfl; simp at hd)).2.1

/-- `integrate` on one grid with an integrand which works elementwise (as with `apply_along_axis` the integrand
gets the whole array of nodes). -/
theorem C48_one_grid (g : ℝ → E) (d : List ℝ) (method : QuadRule)
    (h : (method d).1.length = (method d).2.length) :
    integrate1 (fun X => X.map g) d method = .ok (quad (method d) g) := by
  simp only [integrate1, List.length_map, h, if_true, tensordot, quad, List.zipWith_map_right]

example : integrate1 (fun X => X.map fun x => x ^ 3) [0, 1, 3] simpson = .ok (quad (simpson [0, 1, 3]) fun x => x ^ 3) :=
  C48_one_grid (fun x : ℝ => x ^ 3) [0, 1, 3] simpson (C46_simpson [0, 1, 3] (by simp) (by simp)).2.1

/-- An integrand which does not return one value for each node makes `integrate` on one grid fail, e.g. a constant
integrand which returns a scalar. -/
theorem C48_one_grid_error (f : List ℝ → List E) (d : List ℝ) (method : QuadRule)
    (h : (method d).1.length ≠ (f (method d).2).length) : integrate1 f d method = .error .typeError := by
  simp only [integrate1, h, if_false]

/-- The constant integrand `1` returns one number instead of three. -/
example : integrate1 (fun _ => [(1 : ℝ)]) [0, 1, 3] trap = .error .typeError :=
  C48_one_grid_error _ _ _ (by rw [(C46_trap [0, 1, 3] (by simp)).1]; simp)

theorem C48_linear (f g : List ℝ → E) (c : ℝ) (domain : List (List ℝ)) (method : QuadRule)
    (h : ∀ d ∈ domain, (method d).1.length = (method d).2.length) :
    integrateN (fun p => c • f p + g p) domain method =
      c • integrateN f domain method + integrateN g domain method := by
  simp only [C48_nested _ _ _ h, nestedQuad_add, nestedQuad_smul]

example (f g : List ℝ → ℝ) : integrateN (fun p => (2 : ℝ) • f p + g p) [[0, 1, 3], [0, 2]] trap =
    (2 : ℝ) • integrateN f [[0, 1, 3], [0, 2]] trap + integrateN g [[0, 1, 3], [0, 2]] trap :=
  C48_linear f g 2 [[0, 1, 3], [0, 2]] trap fun d hd => (C46_trap d (by rintro rfl; simp at hd)).2.1

/-- The result is linear also if the values pass through a linear map (in particular the components of vector valued
integrands are integrated separately). -/
theorem C48_map {F : Type*} [AddCommGroup F] [Module ℝ F] (L : E →ₗ[ℝ] F) (f : List ℝ → E)
    (domain : List (List ℝ)) (method : QuadRule) :
    L (integrateN f domain method) = integrateN (fun p => L (f p)) domain method := by
  simp only [integrateN, tensordot]
  rw [map_list_sum, List.map_zipWith]
  simp only [map_smul]
  rw [List.zipWith_map_right, List.zipWith_map_right]

end

/-- Product integrands: the result is the product of the one dimensional sums. -/
theorem nestedQuad_prod (k : ℕ) (r : Fin k → List ℝ × List ℝ) (g : Fin k → ℝ → ℝ) :
    nestedQuad (List.ofFn r) (fun p => ∏ i : Fin k, g i (p.getD i 0)) = ∏ i, quad (r i) (g i) := by
  induction k with
  | zero => simp [nestedQuad]
  | succ k ih =>
    rw [List.ofFn_succ, nestedQuad, Fin.prod_univ_succ]
    have := ih (fun i => r i.succ) (fun i => g i.succ)
    have e : ∀ x : ℝ, nestedQuad (List.ofFn fun i => r i.succ)
        (fun p => ∏ i : Fin (k + 1), g i ((x :: p).getD i 0)) = (∏ i : Fin k, quad (r i.succ) (g i.succ)) • g 0 x := by
      intro x
      rw [← this, smul_eq_mul, mul_comm, ← smul_eq_mul, ← nestedQuad_smul]
      congr 1
      funext p
      rw [Fin.prod_univ_succ]
      simp
    simp only [e]
    rw [quad_smul, smul_eq_mul, mul_comm]

theorem C48_product {k : ℕ} (g : Fin k → ℝ → ℝ) (d : Fin k → List ℝ) (method : QuadRule)
    (h : ∀ i, (method (d i)).1.length = (method (d i)).2.length) :
    integrateN (fun p => ∏ i : Fin k, g i (p.getD i 0)) (List.ofFn d) method = ∏ i, quad (method (d i)) (g i) := by
  rw [C48_nested _ _ _ (by
    intro x hx
    obtain ⟨i, rfl⟩ := List.mem_ofFn.mp hx
    exact h i), List.map_ofFn, ← nestedQuad_prod]
  rfl

/-- `sin x · exp y` with the trapezoidal rule. -/
example : integrateN (fun p => ∏ i : Fin 2, ![Real.sin, Real.exp] i (p.getD i 0)) (List.ofFn ![[0, 1, 3], [0, 2]]) trap =
    ∏ i, quad (trap (![[0, 1, 3], [0, 2]] i)) (![Real.sin, Real.exp] i) :=
  C48_product ![Real.sin, Real.exp] ![[0, 1, 3], [0, 2]] trap fun i => by
    fin_cases i
    · exact (C46_trap [0, 1, 3] (by simp)).2.1
    · exact (C46_trap [0, 2] (by simp)).2.1

theorem nestedQuad_sum {ι : Type*} (s : Finset ι) (rs : List (List ℝ × List ℝ)) (f : ι → List ℝ → ℝ) :
    nestedQuad rs (fun p => ∑ i ∈ s, f i p) = ∑ i ∈ s, nestedQuad rs (f i) := by
  classical
  induction s using Finset.induction_on with
  | empty =>
    have := nestedQuad_smul rs 0 (fun _ => (0 : ℝ))
    simpa using this
  | insert a s ha ih =>
    simp only [Finset.sum_insert ha]
    rw [nestedQuad_add, ih]

theorem exactOn_pow {r : List ℝ × List ℝ} {D e : ℕ} {a b : ℝ} (h : ExactOn r D a b) (he : e ≤ D) :
    quad r (fun x => x ^ e) = ∫ x in a..b, x ^ e := by
  simpa using h (Polynomial.X ^ e) (by simpa using he)

/-- Polynomials in `k` variables whose degree in variable `i` is at most the degree of exactness of the rule on
grid `i` are integrated exactly over the box. -/
theorem C48_polynomial_exact {k : ℕ} (d : Fin k → List ℝ) (method : QuadRule) (D : Fin k → ℕ) (a b : Fin k → ℝ)
    (hab : ∀ i, a i ≤ b i) (h : ∀ i, (method (d i)).1.length = (method (d i)).2.length)
    (he : ∀ i, ExactOn (method (d i)) (D i) (a i) (b i)) (P : MvPolynomial (Fin k) ℝ)
    (hP : ∀ i, P.degreeOf i ≤ D i) :
    integrateN (fun p => P.eval fun i : Fin _ => p.getD i 0) (List.ofFn d) method =
      ∫ x in Set.univ.pi (fun i => Set.Icc (a i) (b i)), P.eval x := by
  rw [C48_nested _ _ _ (by
    intro x hx
    obtain ⟨i, rfl⟩ := List.mem_ofFn.mp hx
    exact h i), List.map_ofFn]
  simp only [MvPolynomial.eval_eq']
  rw [nestedQuad_sum, integral_finsetSum]
  · refine Finset.sum_congr rfl fun m hm => ?_
    have e1 := nestedQuad_prod k (method ∘ d) (fun i x => x ^ m i)
    have e2 := nestedQuad_smul (List.ofFn (method ∘ d)) (P.coeff m)
      (fun p => ∏ i : Fin k, (p.getD i 0) ^ m i)
    simp only [smul_eq_mul] at e2
    rw [e2, e1, integral_const_mul]
    congr 1
    rw [volume_pi, Measure.restrict_pi_pi,
      integral_fintype_prod_eq_prod (𝕜 := ℝ) (fun i (x : ℝ) => x ^ m i)]
    refine Finset.prod_congr rfl fun i _ => ?_
    rw [Function.comp, exactOn_pow (he i) (le_trans (MvPolynomial.monomial_le_degreeOf i hm) (hP i)),
      intervalIntegral.integral_of_le (hab i), integral_Icc_eq_integral_Ioc]
  · intro m _
    apply ContinuousOn.integrableOn_compact
    · exact isCompact_univ_pi fun i => isCompact_Icc
    · fun_prop

/-- With Simpson's rule on grids with at least two increasing nodes every polynomial of degree at most three in each
variable is integrated exactly. -/
example (P : MvPolynomial (Fin 2) ℝ) (hP : ∀ i, P.degreeOf i ≤ 3) :
    integrateN (fun p => P.eval fun i : Fin _ => p.getD i 0) (List.ofFn fun _ : Fin 2 => [0, 1, 3]) simpson =
      ∫ x in Set.univ.pi (fun _ => Set.Icc 0 3), P.eval x :=
  C48_polynomial_exact _ _ (fun _ => 3) (fun _ => 0) (fun _ => 3) (by norm_num) (fun _ => simpson_length _)
    (fun _ => C45_simpson_exact [0, 1, 3] (by simp) (by simp)) P hP

/-! ## C49, C50 -/

theorem linspace_length (a b : ℝ) (n : ℕ) : (linspace a b n).length = n := by simp [linspace]

theorem linspace_ne_nil (a b : ℝ) {n : ℕ} (hn : 2 ≤ n) : linspace a b n ≠ [] := by
  intro h
  have := linspace_length a b n
  rw [h] at this
  simp at this; omega

theorem linspace_head (a b : ℝ) {n : ℕ} (hn : 2 ≤ n) : (linspace a b n).head (linspace_ne_nil a b hn) = a := by
  rw [List.head_eq_getElem]
  simp [linspace]

theorem linspace_getLast (a b : ℝ) {n : ℕ} (hn : 2 ≤ n) :
    (linspace a b n).getLast (linspace_ne_nil a b hn) = b := by
  rw [List.getLast_eq_getElem]
  simp only [linspace, List.getElem_map, List.getElem_range, List.length_map, List.length_range]
  have h1 : (n : ℝ) - 1 ≠ 0 := by
    have : (2 : ℝ) ≤ n := by exact_mod_cast hn
    linarith
  rw [if_neg (by omega), Nat.cast_sub (by omega)]
  field_simp
  push_cast
  ring

theorem exactRule_linspace {m : QuadRule} {D : ℕ} (hm : ExactRule m D) (a b : ℝ) {n : ℕ} (hn : 2 ≤ n) :
    (m (linspace a b n)).1.length = (m (linspace a b n)).2.length ∧ ExactOn (m (linspace a b n)) D a b := by
  have := hm (linspace a b n) (linspace_ne_nil a b hn) (by rw [linspace_length]; exact hn)
  rwa [linspace_head a b hn, linspace_getLast a b hn] at this

section
variable {E : Type*} [AddCommGroup E] [Module ℝ E]

theorem quad_smul_const (r : List ℝ × List ℝ) (g : ℝ → ℝ) (c : E) :
    quad r (fun x => g x • c) = quad r g • c := by
  obtain ⟨w, x⟩ := r
  induction w generalizing x with
  | nil => simp [quad]
  | cons w ws ih =>
    cases x with
    | nil => simp [quad]
    | cons x xs => rw [quad_cons, quad_cons, ih, smul_eq_mul, add_smul, mul_smul]

/-- The sum computed by `integrate_disk`: quadrature in the radius and the angle of `r f(o + r (cos, sin))`. -/
theorem C49_formula (f : ℝ → ℝ → E) (r : ℝ) (o : ℝ × ℝ) (n : ℕ × ℕ) (r_inner phi1 phi2 : ℝ) (method : QuadRule)
    (D : ℕ) (hm : ExactRule method D) (hn1 : 2 ≤ n.1) (hn2 : 2 ≤ n.2) :
    integrateDisk f r o n r_inner phi1 phi2 method =
      quad (method (linspace r_inner r n.1)) fun ρ => quad (method (linspace phi1 phi2 n.2)) fun φ =>
        ρ • f (o.1 + ρ * Real.cos φ) (o.2 + ρ * Real.sin φ) := by
  rw [integrateDisk, C48_nested]
  · simp [nestedQuad, integrateDisk.g, add_comm]
  · intro d hd
    simp only [List.mem_cons, List.not_mem_nil, or_false] at hd
    rcases hd with rfl | rfl
    · exact (exactRule_linspace hm _ _ hn1).1
    · exact (exactRule_linspace hm _ _ hn2).1

example (f : ℝ → ℝ → ℝ) : integrateDisk f 2 (1, 0) (5, 9) 0 0 (2 * Real.pi) simpson =
    quad (simpson (linspace 0 2 5)) fun ρ => quad (simpson (linspace 0 (2 * Real.pi) 9)) fun φ =>
      ρ • f (1 + ρ * Real.cos φ) (0 + ρ * Real.sin φ) :=
  C49_formula f 2 (1, 0) (5, 9) 0 0 (2 * Real.pi) simpson 3 C45_exactRule_simpson (by norm_num) (by norm_num)

/-- A constant over an annular sector: constant times the area of the sector. -/
theorem C49_constant (c : E) (r : ℝ) (o : ℝ × ℝ) (n : ℕ × ℕ) (r_inner phi1 phi2 : ℝ) (method : QuadRule)
    (D : ℕ) (hD : 1 ≤ D) (hm : ExactRule method D) (hn1 : 2 ≤ n.1) (hn2 : 2 ≤ n.2) :
    integrateDisk (fun _ _ => c) r o n r_inner phi1 phi2 method =
      ((r ^ 2 - r_inner ^ 2) / 2 * (phi2 - phi1)) • c := by
  rw [C49_formula _ _ _ _ _ _ _ _ D hm hn1 hn2]
  have e1 := exactOn_pow (exactRule_linspace hm r_inner r hn1).2 hD
  have e2 := exactOn_pow (exactRule_linspace hm phi1 phi2 hn2).2 (Nat.zero_le D)
  simp only [pow_one, pow_zero] at e1 e2
  have e3 : ∀ ρ : ℝ, quad (method (linspace phi1 phi2 n.2)) (fun _ => ρ • c) = ((phi2 - phi1) * ρ) • c := by
    intro ρ
    have := quad_smul_const (method (linspace phi1 phi2 n.2)) (fun _ => (1 : ℝ)) (ρ • c)
    simp only [one_smul] at this
    rw [this, e2, mul_smul]; simp
  simp only [e3]
  rw [quad_smul_const]
  have := quad_smul (method (linspace r_inner r n.1)) (phi2 - phi1) (fun x : ℝ => x)
  simp only [smul_eq_mul] at this
  rw [this, e1, integral_id]
  congr 1; ring

/-- The whole disk with the trapezoidal rule (the default): `π r²`. -/
example (r : ℝ) (n : ℕ × ℕ) (h1 : 2 ≤ n.1) (h2 : 2 ≤ n.2) :
    integrateDisk (fun _ _ => (1 : ℝ)) r (0, 0) n 0 0 (2 * Real.pi) trap = Real.pi * r ^ 2 := by
  rw [C49_constant _ _ _ _ _ _ _ _ 1 (le_refl _) C45_exactRule_trap h1 h2, smul_eq_mul]; ring

/-- The sum computed by `integrate_sphere`. -/
theorem C50_formula (f : ℝ → ℝ → ℝ → E) (r : ℝ) (o : ℝ × ℝ × ℝ) (n : ℕ × ℕ × ℕ)
    (r_inner phi1 phi2 theta1 theta2 : ℝ) (method : QuadRule) (D : ℕ) (hm : ExactRule method D)
    (hn1 : 2 ≤ n.1) (hn2 : 2 ≤ n.2.1) (hn3 : 2 ≤ n.2.2) :
    integrateSphere f r o n r_inner phi1 phi2 theta1 theta2 method =
      quad (method (linspace r_inner r n.1)) fun ρ => quad (method (linspace phi1 phi2 n.2.1)) fun φ =>
        quad (method (linspace theta1 theta2 n.2.2)) fun θ =>
          (ρ ^ 2 * Real.sin φ) • f (o.1 + ρ * Real.sin φ * Real.cos θ) (o.2.1 + ρ * Real.sin φ * Real.sin θ)
            (o.2.2 + ρ * Real.cos φ) := by
  rw [integrateSphere, C48_nested]
  · simp [nestedQuad, integrateSphere.g, add_comm]
  · intro d hd
    simp only [List.mem_cons, List.not_mem_nil, or_false] at hd
    rcases hd with rfl | rfl | rfl
    · exact (exactRule_linspace hm _ _ hn1).1
    · exact (exactRule_linspace hm _ _ hn2).1
    · exact (exactRule_linspace hm _ _ hn3).1

example (f : ℝ → ℝ → ℝ → ℝ) :
    integrateSphere f 2 (1, 0, 0) (5, 9, 7) 1 0 Real.pi 0 (2 * Real.pi) trap =
    quad (trap (linspace 1 2 5)) fun ρ => quad (trap (linspace 0 Real.pi 9)) fun φ =>
      quad (trap (linspace 0 (2 * Real.pi) 7)) fun θ =>
        (ρ ^ 2 * Real.sin φ) • f (1 + ρ * Real.sin φ * Real.cos θ) (0 + ρ * Real.sin φ * Real.sin θ) (0 + ρ * Real.cos φ) :=
  C50_formula f 2 (1, 0, 0) (5, 9, 7) 1 0 Real.pi 0 (2 * Real.pi) trap 1 C45_exactRule_trap (by norm_num) (by norm_num)
    (by norm_num)

/-- A constant over a sector of a spherical shell. -/
theorem C50_constant (c : E) (r : ℝ) (o : ℝ × ℝ × ℝ) (n : ℕ × ℕ × ℕ)
    (r_inner phi1 phi2 theta1 theta2 : ℝ) (method : QuadRule) (D : ℕ) (hD : 2 ≤ D) (hm : ExactRule method D)
    (hn1 : 2 ≤ n.1) (hn2 : 2 ≤ n.2.1) (hn3 : 2 ≤ n.2.2) :
    integrateSphere (fun _ _ _ => c) r o n r_inner phi1 phi2 theta1 theta2 method =
      ((r ^ 3 - r_inner ^ 3) / 3 * (theta2 - theta1) * quad (method (linspace phi1 phi2 n.2.1)) Real.sin) • c := by
  rw [C50_formula _ _ _ _ _ _ _ _ _ _ D hm hn1 hn2 hn3]
  have e1 := exactOn_pow (exactRule_linspace hm r_inner r hn1).2 hD
  have e2 := exactOn_pow (exactRule_linspace hm theta1 theta2 hn3).2 (Nat.zero_le D)
  simp only [pow_zero] at e2
  have e3 : ∀ a : ℝ, quad (method (linspace theta1 theta2 n.2.2)) (fun _ => a • c) = ((theta2 - theta1) * a) • c := by
    intro a
    have := quad_smul_const (method (linspace theta1 theta2 n.2.2)) (fun _ => (1 : ℝ)) (a • c)
    simp only [one_smul] at this
    rw [this, e2, mul_smul]; simp
  simp only [e3, quad_smul_const]
  congr 1
  have e4 : ∀ ρ : ℝ, quad (method (linspace phi1 phi2 n.2.1)) (fun φ => (theta2 - theta1) * (ρ ^ 2 * Real.sin φ)) =
      ((theta2 - theta1) * quad (method (linspace phi1 phi2 n.2.1)) Real.sin) * ρ ^ 2 := by
    intro ρ
    have := quad_smul (method (linspace phi1 phi2 n.2.1)) ((theta2 - theta1) * ρ ^ 2) Real.sin
    simp only [smul_eq_mul] at this
    rw [mul_right_comm, ← this]
    congr 1; funext φ; ring
  simp only [e4]
  have := quad_smul (method (linspace r_inner r n.1))
    ((theta2 - theta1) * quad (method (linspace phi1 phi2 n.2.1)) Real.sin) (fun x : ℝ => x ^ 2)
  simp only [smul_eq_mul] at this
  rw [this, e1, integral_pow]
  push_cast; ring

example (n : ℕ × ℕ × ℕ) (h1 : 2 ≤ n.1) (h2 : 2 ≤ n.2.1) (h3 : 2 ≤ n.2.2) :
    integrateSphere (fun _ _ _ => (1 : ℝ)) 2 (0, 0, 0) n 1 0 Real.pi 0 (2 * Real.pi) simpson =
      7 / 3 * (2 * Real.pi) * quad (simpson (linspace 0 Real.pi n.2.1)) Real.sin := by
  rw [C50_constant _ _ _ _ _ _ _ _ _ _ 3 (by norm_num) C45_exactRule_simpson h1 h2 h3, smul_eq_mul]; norm_num

end

end Verif
