import Verif.Props.TR
import Mathlib.Analysis.Calculus.MeanValue
import Mathlib.Analysis.Calculus.Deriv.Pow
import Mathlib.Analysis.Calculus.FDeriv.Comp

/-! # The sub-problem as a solver of linear systems, quadratic objectives, finite differences -/

namespace Verif

open XR

local notation "⟪" x ", " y "⟫" => inner ℝ x y

section
variable {n : ℕ} {A : Type*}

/-! ## C101 -/

/-- For linear Hessian-vector products: if the step does not reach the boundary, the reported `norm_r` is the norm of
the residual `g + H p`, and if the loop has converged the residual is smaller than the tolerance. -/
theorem C101_residual (Δ ε : ℝ) (hΔ : 0 < Δ) (hε : 0 < ε) (hvp : Vec n → Vec n) (H : Pt n →ₗ[ℝ] Pt n)
    (hH : ∀ x, hvp (efin x) = efin (H x)) (g : Pt n) (m : Option ℕ) (p : Pt n)
    (hp : (steihaug (efin g) hvp (fin Δ) (fin ε) m).p = efin p) (hin : ‖p‖ < Δ) :
    (steihaug (efin g) hvp (fin Δ) (fin ε) m).norm_r = fin ‖g + H p‖ ∧
      ((steihaug (efin g) hvp (fin Δ) (fin ε) m).converged ↔ ‖g + H p‖ < ε) := by
  rcases final_induct hΔ hε hH g m (fun _ z _ r => r = g + H z) (fun _ _ => True) (by simp) (by
      intro s z d r _ hr _ _ _
      refine ⟨fun α β _ _ _ _ => ?_, fun _ _ _ _ => trivial⟩
      rw [hr, map_add, map_smul, add_assoc]) with ⟨z, d, r, h, hr⟩ | ⟨z, h, -⟩
  · have hz : z = p := efin_inj.mp (h.hz.symm.trans hp)
    subst hz
    refine ⟨?_, ?_⟩
    · show (steihaug.final (efin g) hvp (fin Δ) (fin ε) m).norm_r = _
      rw [h.norm_r, hr]
    · show ¬ steihaug.condition (fin Δ) (fin ε) (steihaug.final (efin g) hvp (fin Δ) (fin ε) m) ↔ _
      rw [condition_inside h, hr, not_le]
  · have hz : z = p := efin_inj.mp (h.hz.symm.trans hp)
    subst hz
    exact absurd h.norm hin.ne

example (g p : Pt 2) (hp : (steihaug (efin g) (fun v => fun i => fin 2 * v i) (fin 9) (fin (1/100)) none).p = efin p)
    (hin : ‖p‖ < 9) :
    (steihaug (efin g) (fun v => fun i => fin 2 * v i) (fin 9) (fin (1/100)) none).norm_r = fin ‖g + (2 : ℝ) • p‖ := by
  have := (C101_residual 9 (1/100) (by norm_num) (by norm_num) (fun v => fun i => fin 2 * v i) ((2 : ℝ) • LinearMap.id)
    (fun x => by funext i; simp [efin]) g none p hp hin).1
  rwa [LinearMap.smul_apply, LinearMap.id_apply] at this

/-- The iterates of the conjugate gradient method. -/
noncomputable def cgIter (g : Pt n) (H : Pt n → Pt n) : ℕ → Pt n
  | 0 => 0
  | k + 1 => cgIter g H k + (‖(cg g H k).1‖ ^ 2 / ⟪(cg g H k).2, H (cg g H k).2⟫) • (cg g H k).2

theorem cg_residual (g : Pt n) (H : Pt n →ₗ[ℝ] Pt n) (k : ℕ) : (cg g H k).1 = g + H (cgIter g H k) := by
  induction k with
  | zero => simp [cg, cgIter]
  | succ k ih => rw [cg_succ_fst, cgIter, map_add, map_smul, ← add_assoc, ← ih]

theorem cg_dir_ne (g : Pt n) (H : Pt n →ₗ[ℝ] Pt n) (k : ℕ)
    (hd : ⟪(cg g H k).1, (cg g H k).2⟫ = -‖(cg g H k).1‖ ^ 2) (hr : (cg g H k).1 ≠ 0) : (cg g H k).2 ≠ 0 := by
  intro h
  rw [h, inner_zero_right] at hd
  have : 0 < ‖(cg g H k).1‖ := norm_pos_iff.mpr hr
  nlinarith

/-- For positive definite `H` all curvatures before the first zero residual are positive. -/
theorem cg_curv (g : Pt n) (H : Pt n →ₗ[ℝ] Pt n) (hsym : ∀ x y, ⟪H x, y⟫ = ⟪x, H y⟫)
    (hpos : ∀ v, v ≠ 0 → 0 < ⟪v, H v⟫) (k : ℕ) (hr : ∀ i < k, (cg g H i).1 ≠ 0) :
    ∀ i < k, 0 < ⟪(cg g H i).2, H (cg g H i).2⟫ := by
  induction k with
  | zero => simp
  | succ k ih =>
    have h1 := ih fun i hi => hr i (by omega)
    intro i hi
    rcases Nat.lt_succ_iff_lt_or_eq.mp hi with h | rfl
    · exact h1 i h
    · have := cg_orthogonal g H hsym i h1 fun j hj => hr j (by omega)
      exact hpos _ (cg_dir_ne g H i this.2.2.2 (hr i (by omega)))

/-- The iterates are orthogonal to the residual, point in the direction of the search directions, and their norms
increase. -/
theorem cgIter_mono (g : Pt n) (H : Pt n →ₗ[ℝ] Pt n) (hsym : ∀ x y, ⟪H x, y⟫ = ⟪x, H y⟫)
    (hpos : ∀ v, v ≠ 0 → 0 < ⟪v, H v⟫) (k : ℕ) (hr : ∀ i < k, (cg g H i).1 ≠ 0) :
    (∀ w, (∀ i < k, ⟪w, (cg g H i).2⟫ = 0) → ⟪w, cgIter g H k⟫ = 0) ∧ 0 ≤ ⟪cgIter g H k, (cg g H k).2⟫ ∧
      ∀ i ≤ k, ‖cgIter g H i‖ ≤ ‖cgIter g H k‖ := by
  induction k with
  | zero => simp [cgIter]
  | succ k ih =>
    obtain ⟨h1, h2, h3⟩ := ih fun i hi => hr i (by omega)
    have hκ := cg_curv g H hsym hpos (k + 1) hr
    have hκk := hκ k (by omega)
    have h1' : ∀ w, (∀ i < k + 1, ⟪w, (cg g H i).2⟫ = 0) → ⟪w, cgIter g H (k + 1)⟫ = 0 := by
      intro w hw
      rw [cgIter, inner_add_right, inner_smul_right, h1 w fun i hi => hw i (by omega), hw k (by omega)]
      ring
    have hα : 0 ≤ ‖(cg g H k).1‖ ^ 2 / ⟪(cg g H k).2, H (cg g H k).2⟫ := by positivity
    refine ⟨h1', ?_, fun i hi => ?_⟩
    · obtain ⟨-, -, hc, -⟩ := cg_orthogonal g H hsym (k + 1) hκ hr
      rw [cg_succ_snd, inner_add_right, inner_neg_right, real_inner_comm, h1' _ hc, inner_smul_right, cgIter,
        inner_add_left, inner_smul_left, conj_trivial, real_inner_self_eq_norm_sq]
      positivity
    · have hk : ‖cgIter g H k‖ ≤ ‖cgIter g H (k + 1)‖ := by
        refine le_of_sq_le_sq ?_ (norm_nonneg _)
        rw [cgIter, norm_add_sq_real, inner_smul_right]
        nlinarith [mul_nonneg hα h2, sq_nonneg ‖(‖(cg g H k).1‖ ^ 2 / ⟪(cg g H k).2, H (cg g H k).2⟫) • (cg g H k).2‖]
      rcases hi.lt_or_eq with h | rfl
      · exact (h3 i (by omega)).trans hk
      · exact le_rfl

/-- No iterate is longer than the solution of `H p = -g`. -/
theorem cgIter_le (g : Pt n) (H : Pt n →ₗ[ℝ] Pt n) (hsym : ∀ x y, ⟪H x, y⟫ = ⟪x, H y⟫)
    (hpos : ∀ v, v ≠ 0 → 0 < ⟪v, H v⟫) (q : Pt n) (hq : H q = -g) (k : ℕ) (hr : ∀ i < k, (cg g H i).1 ≠ 0) :
    ‖cgIter g H k‖ ≤ ‖q‖ := by
  by_cases hall : ∀ i, (cg g H i).1 ≠ 0
  · exact absurd (cg_lt g H hsym n (cg_curv g H hsym hpos n fun i _ => hall i) fun i _ => hall i) (lt_irrefl n)
  · push Not at hall
    obtain ⟨m, hm, hmin⟩ : ∃ m, (cg g H m).1 = 0 ∧ ∀ i < m, (cg g H i).1 ≠ 0 := by
      classical
      exact ⟨Nat.find hall, Nat.find_spec hall, fun i hi => Nat.find_min hall hi⟩
    have hkm : k ≤ m := by
      by_contra h
      exact hr m (by omega) hm
    have heq : cgIter g H m = q := by
      by_contra hne
      have h1 := cg_residual g H m
      rw [hm] at h1
      have h2 : H (cgIter g H m - q) = 0 := by
        rw [map_sub, hq, sub_neg_eq_add, add_comm]; exact h1.symm
      have h3 := hpos _ (sub_ne_zero.mpr hne)
      rw [h2, inner_zero_right] at h3
      exact lt_irrefl _ h3
    rw [← heq]
    exact (cgIter_mono g H hsym hpos m hmin).2.2 k hkm

/-- For a symmetric, positive definite Hessian whose Newton step `q` lies inside the trust region, `steihaug` does not
touch the boundary: its step is not longer than `q` and solves the Newton equation up to the tolerance. -/
theorem C101_newton (Δ ε : ℝ) (hε : 0 < ε) (hvp : Vec n → Vec n) (H : Pt n →ₗ[ℝ] Pt n)
    (hH : ∀ x, hvp (efin x) = efin (H x)) (hsym : ∀ x y, ⟪H x, y⟫ = ⟪x, H y⟫)
    (hpos : ∀ v, v ≠ 0 → 0 < ⟪v, H v⟫) (g q : Pt n) (hq : H q = -g) (hqΔ : ‖q‖ < Δ)
    (m : Option ℕ) (hm : ∀ k, m = some k → n ≤ k) :
    ∃ p : Pt n, (steihaug (efin g) hvp (fin Δ) (fin ε) m).p = efin p ∧ ‖p‖ ≤ ‖q‖ ∧ ‖g + H p‖ < ε := by
  have hΔ : 0 < Δ := lt_of_le_of_lt (norm_nonneg _) hqΔ
  rcases final_induct hΔ hε hH g m
    (fun s z d r => z = cgIter g H s.iter_num ∧ r = (cg g H s.iter_num).1 ∧ d = (cg g H s.iter_num).2 ∧
      (∀ i < s.iter_num, (cg g H i).1 ≠ 0))
    (fun s z => False)
    (by refine ⟨rfl, rfl, rfl, ?_⟩; intro i hi; exact absurd hi (Nat.not_lt_zero i))
    (by
      rintro s z d r hin ⟨hz, hr, hd, hne⟩ hεr hr0 hd0
      have hne' : ∀ i < s.iter_num + 1, (cg g H i).1 ≠ 0 := by
        intro i hi
        rcases Nat.lt_succ_iff_lt_or_eq.mp hi with h | rfl
        · exact hne i h
        · rw [← hr]; exact hr0
      have hz' : z + (‖r‖ ^ 2 / ⟪d, H d⟫) • d = cgIter g H (s.iter_num + 1) := by
        rw [cgIter, ← hz, ← hr, ← hd]
      constructor
      · intro α β hpos hα hβ hI
        have e1 : r + α • H d = (cg g H (s.iter_num + 1)).1 := by
          rw [cg_succ_fst, ← hr, ← hd, hα]
        refine ⟨?_, e1, ?_, hne'⟩
        · rw [hα]; exact hz'
        · show _ = (cg g H (s.iter_num + 1)).2
          rw [cg_succ_snd, ← e1, ← hr, ← hd, hβ]
      · intro τ hτ hL hout
        have h1 := hout (hpos d hd0)
        rw [hz'] at h1
        exact absurd (cgIter_le g H hsym hpos q hq _ hne') (not_le.mpr (lt_of_lt_of_le hqΔ h1))) with
    ⟨z, d, r, h, hz, -, -, hne⟩ | ⟨z, h, hf⟩
  · have hzq : ‖z‖ ≤ ‖q‖ := by rw [hz]; exact cgIter_le g H hsym hpos q hq _ hne
    have hres := C101_residual Δ ε hΔ hε hvp H hH g m z h.hz (lt_of_le_of_lt hzq hqΔ)
    exact ⟨z, h.hz, hzq, hres.2.mp (C63_terminates Δ ε hΔ hε hvp H hH hsym g m hm).1⟩
  · exact hf.elim

/-- The Hessian `diag(2, 6)` and the gradient `(2, 6)`: the Newton step `(-1, -1)` lies in the region of radius 2. -/
example : ∃ p : Pt 2, (steihaug (efin !₂[2, 6]) (sampleObjective.hvp (efin 0)) (fin 2) (fin (1/100)) none).p = efin p ∧
    ‖p‖ ≤ ‖(!₂[-1, -1] : Pt 2)‖ ∧ ‖!₂[2, 6] + sampleHessian p‖ < 1/100 := by
  refine C101_newton 2 (1/100) (by norm_num) _ sampleHessian (fun x => ?_) (fun x y => ?_) (fun v hv => ?_) _ !₂[-1, -1]
    ?_ ?_ none (by simp)
  · funext i; fin_cases i <;> simp [sampleObjective, sampleHessian, efin]
  · exact sampleObjective_contract.symm 0 x y
  · have : v 0 ≠ 0 ∨ v 1 ≠ 0 := by
      by_contra h
      push Not at h
      exact hv (by ext i; fin_cases i <;> simp [h])
    simp only [sampleHessian, LinearMap.coe_mk, AddHom.coe_mk, PiLp.inner_apply, Fin.sum_univ_two]
    simp
    rcases this with h | h <;> nlinarith [sq_nonneg (v 0), sq_nonneg (v 1), sq_pos_of_ne_zero h]
  · ext i; fin_cases i <;> simp [sampleHessian]
  · rw [EuclideanSpace.norm_eq, Real.sqrt_lt' two_pos]
    norm_num [Fin.sum_univ_two]

/-! ## C102 -/

/-- Spec: the objective is the quadratic function `a + ⟪b, x⟫ + ½ ⟪x, H x⟫` with its derivatives. (With `approx_hvp` the
Hessian-vector product is not used.) -/
structure IsQuadratic (c : TRConf) (f : Objective n A) (a : ℝ) (b : Pt n) (H : Pt n →ₗ[ℝ] Pt n) : Prop where
  value : ∀ x, f.value (efin x) = fin (a + ⟪b, x⟫ + 1 / 2 * ⟪x, H x⟫)
  grad : ∀ x, f.grad (efin x) = efin (b + H x)
  hvp : c.approx_hvp = false → ∀ x v, f.hvp (efin x) (efin v) = efin (H v)
  symm : ∀ u v, ⟪H u, v⟫ = ⟪u, H v⟫

/-- The Hessian-vector product is exact for quadratic functions, also the one by finite differences, for every
increment but zero. -/
theorem C102_hvp (c : TRConf) (hh : c.fd_h ≠ 0) (f : Objective n A) (a : ℝ) (b : Pt n) (H : Pt n →ₗ[ℝ] Pt n)
    (hf : IsQuadratic c f a b H) (x v : Pt n) : TR.hvp c f (efin x) (efin v) = efin (H v) := by
  unfold TR.hvp
  by_cases hc : c.approx_hvp
  · rw [if_pos hc]
    have e : (fun i => efin x i + fin c.fd_h * efin v i) = efin (x + c.fd_h • v) := addScalarMul_efin x c.fd_h v
    simp only [e, hf.grad]
    funext i
    simp only [efin, vfin, fin_sub, fin_mul, PiLp.add_apply, map_add, map_smul, PiLp.smul_apply, smul_eq_mul]
    rw [fin_inj]
    field_simp
    ring
  · rw [if_neg hc, hf.hvp (by simpa using hc)]

theorem quadratic_secondOrder {c : TRConf} (hh : c.fd_h ≠ 0) {f : Objective n A} {a : ℝ} {b : Pt n} {H : Pt n →ₗ[ℝ] Pt n}
    (hf : IsQuadratic c f a b H) : SecondOrder c f (fun x => b + H x) fun _ => H :=
  ⟨hf.grad, C102_hvp c hh f a b H hf, fun _ => hf.symm⟩

/-- On a quadratic objective (convex or not) the model is exact: as long as the gradient is not below the tolerance and
the radius above its minimum, every step has the ratio 1, is accepted, and the radius does not shrink. -/
theorem C102_accepted (c : TRConf) (hc : c.Valid) (hh : c.fd_h ≠ 0) (ha : c.rho_accept ≤ 1) (hd : c.rho_decrease ≤ 1)
    (hinc : 1 ≤ c.increase_factor) (f : Objective n A) (a : ℝ) (b : Pt n) (H : Pt n →ₗ[ℝ] Pt n)
    (hf : IsQuadratic c f a b H) (init : Vec n ⊕ OptStep n A) (x₀ : Pt n) (Δ₀ : ℝ)
    (hx₀ : (TR.start c f init).params = efin x₀) (hΔ₀ : (TR.start c f init).state.tr_radius = fin Δ₀) (k : ℕ) (Δ : ℝ)
    (hrad : (TR.updates c f (TR.start c f init) k).state.tr_radius = fin Δ)
    (hfr : c.min_tr_radius < Δ) (hmax : Δ ≤ c.max_tr_radius)
    (htol : fin c.tol ≤ (TR.updates c f (TR.start c f init) k).state.error) :
    (TR.updates c f (TR.start c f init) (k + 1)).state.rho = fin 1 ∧
    (TR.updates c f (TR.start c f init) (k + 1)).state.accepted ∧
    ∃ Δ', (TR.updates c f (TR.start c f init) (k + 1)).state.tr_radius = fin Δ' ∧ Δ ≤ Δ' := by
  have hs := quadratic_secondOrder hh hf
  obtain ⟨x, Δ1, h⟩ := updates_regular hc hs (regular_start hx₀ hΔ₀) k
  set s := TR.updates c f (TR.start c f init) k with hsdef
  obtain rfl : Δ1 = Δ := fin_inj.mp (h.radius.symm.trans hrad)
  obtain ⟨p, e, hp, hlen, -, he, hte, -, hleg, hpos, -⟩ := subproblem_regular hc hs h hfr
  have hg : c.tol ≤ ‖b + H x‖ := by
    rw [h.error, hf.grad, vnorm_efin', fin_le] at htol; exact htol
  obtain ⟨-, hq, -⟩ := hpos (hleg hg)
  have hnew : (fun i => s.params i + (TR.subproblem c f s.params s.state).p i) = efin (x + p) := by
    rw [h.params] at hp ⊢; rw [hp, add_efin]
  have hratio : TR.ratio c f s.params s.state = fin 1 := by
    rw [TR.ratio, hnew, hp, h.params, denom_efin hs, hf.value, hf.value, fin_sub, fin_div _ hq.ne', fin_inj,
      div_eq_one_iff_eq hq.ne', qmodel]
    have h1 : ⟪p, H x⟫ = ⟪x, H p⟫ := by rw [← hf.symm, real_inner_comm]
    have h2 : ⟪H x, p⟫ = ⟪x, H p⟫ := hf.symm x p
    simp only [map_add, inner_add_left, inner_add_right, h1, h2]
    ring
  have hfr' : ¬ s.state.tr_radius ≤ fin c.min_tr_radius := by rw [h.radius, fin_le]; exact not_le.mpr hfr
  have hacc : fin c.rho_accept ≤ TR.ratio c f s.params s.state := by rw [hratio, fin_le]; exact ha
  have hupd : TR.updates c f (TR.start c f init) (k + 1) = TR.update c f s.params s.state := rfl
  rw [hupd, update_accept c f _ _ hfr' hacc]
  refine ⟨hratio, trivial, ?_⟩
  show ∃ Δ', TR.newRadius c f s.params s.state = fin Δ' ∧ _
  have h0 : 0 < Δ1 := lt_of_le_of_lt hc.min_radius hfr
  have hnd : ¬ fin (1 : ℝ) < fin c.rho_decrease := by rw [fin_lt]; exact not_lt.mpr hd
  rw [TR.newRadius, h.radius, hratio, updateTrRadius, if_neg hnd]
  split
  · refine ⟨_, by rw [fin_mul, fin_min, fin_max], ?_⟩
    exact (le_min (by nlinarith) hmax).trans (le_max_left _ _)
  · exact ⟨_, by rw [fin_max], le_max_left _ _⟩

theorem sampleObjective_quadratic (c : TRConf) : IsQuadratic c sampleObjective 0 0 sampleHessian where
  value x := by
    simp [sampleObjective, sampleHessian, efin, PiLp.inner_apply, Fin.sum_univ_two]
    ring
  grad x := by rw [zero_add]; exact sampleObjective_contract.grad x
  hvp _ x v := by funext i; fin_cases i <;> simp [sampleObjective, sampleHessian, efin]
  symm u v := sampleObjective_contract.symm 0 u v

example (x v : Pt 2) : TR.hvp { TRConf.default with approx_hvp := true } sampleObjective (efin x) (efin v) = efin (sampleHessian v) :=
  C102_hvp _ (by norm_num [TRConf.default]) _ _ _ _ (sampleObjective_quadratic _) x v

/-- The first step from `(1, 1)` is accepted and decreases the objective. -/
example : ∃ x p : Pt 2, x = !₂[1, 1] ∧ 0 < -qmodel (sampleHessian x) sampleHessian p ∧
    sampleObjective.value (efin (x + p)) ≤ sampleObjective.value (efin x) - fin (1 / 4 * -qmodel (sampleHessian x) sampleHessian p) := by
  have hacc : (TR.updates .default sampleObjective (TR.start .default sampleObjective (.inl (efin !₂[1, 1]))) 1).state.accepted := by
    refine (C102_accepted .default default_valid ?_ ?_ ?_ ?_ _ _ _ _ (sampleObjective_quadratic _)
      (.inl (efin !₂[1, 1])) !₂[1, 1] 1 rfl rfl 0 1 rfl ?_ ?_ ?_).2.1
    case refine_7 =>
      show fin (1e-2) ≤ vnorm (sampleObjective.grad (efin !₂[1, 1]))
      rw [sampleObjective_contract.grad, vnorm_efin', fin_le, EuclideanSpace.norm_eq]
      refine Real.le_sqrt_of_sq_le ?_
      norm_num [Fin.sum_univ_two, sampleHessian]
    all_goals norm_num [TRConf.default]
  obtain ⟨x, p, h1, -, h2, h3, -⟩ := C59_accepted .default default_valid _ _ _ sampleObjective_contract (.inl (efin !₂[1, 1]))
    !₂[1, 1] 1 rfl rfl 0 (by
      show ¬ fin 1 ≤ fin (1e-4)
      rw [fin_le]; norm_num) hacc
  have hx : x = !₂[1, 1] := efin_inj.mp (h1.symm.trans rfl)
  exact ⟨x, p, hx, h2, h3⟩

/-- With finite differences and otherwise default parameters, the first step from `(1, 1)` has the ratio 1. -/
example : (TR.updates { TRConf.default with approx_hvp := true } sampleObjective
    (TR.start { TRConf.default with approx_hvp := true } sampleObjective (.inl (efin !₂[1, 1]))) 1).state.rho = fin 1 := by
  refine (C102_accepted { TRConf.default with approx_hvp := true } ?_ ?_ ?_ ?_ ?_ _ _ _ _ (sampleObjective_quadratic _)
    (.inl (efin !₂[1, 1])) !₂[1, 1] 1 rfl rfl 0 1 rfl ?_ ?_ ?_).1
  · exact ⟨default_valid.tol, default_valid.min_radius, default_valid.damping, default_valid.steihaug⟩
  case refine_8 =>
    show fin (1e-2) ≤ vnorm (sampleObjective.grad (efin !₂[1, 1]))
    rw [sampleObjective_contract.grad, vnorm_efin', fin_le, EuclideanSpace.norm_eq]
    refine Real.le_sqrt_of_sq_le ?_
    norm_num [Fin.sum_univ_two, sampleHessian]
  all_goals norm_num [TRConf.default]

/-! ## C103 -/

theorem norm_sub_linear_le {G : Pt n → Pt n} {DG : Pt n → Pt n →L[ℝ] Pt n} (hG : ∀ x, HasFDerivAt G (DG x) x)
    {L : ℝ} (hL : ∀ x y, ‖DG x - DG y‖ ≤ L * ‖x - y‖) (x v : Pt n) :
    ‖G (x + v) - G x - DG x v‖ ≤ L / 2 * ‖v‖ ^ 2 := by
  set φ : ℝ → Pt n := fun t => G (x + t • v) - G x - t • DG x v with hφ
  have hline : ∀ t : ℝ, HasDerivAt (fun t : ℝ => x + t • v) v t := by
    intro t
    simpa using ((hasDerivAt_id t).smul_const v).const_add x
  have hd : ∀ t, HasDerivAt φ (DG (x + t • v) v - DG x v) t := by
    intro t
    have h1 : HasDerivAt (fun t : ℝ => G (x + t • v)) (DG (x + t • v) v) t :=
      (hG (x + t • v)).comp_hasDerivAt t (hline t)
    have h2 : HasDerivAt (fun t : ℝ => t • DG x v) (DG x v) t := by
      simpa using (hasDerivAt_id t).smul_const (DG x v)
    exact (h1.sub_const (G x)).fun_sub h2
  have hB : ∀ t : ℝ, HasDerivAt (fun t : ℝ => L / 2 * ‖v‖ ^ 2 * t ^ 2) (L * t * ‖v‖ ^ 2) t := by
    intro t
    have := ((hasDerivAt_pow 2 t).const_mul (L / 2 * ‖v‖ ^ 2))
    refine this.congr_deriv ?_
    simp
    ring
  have := image_norm_le_of_norm_deriv_right_le_deriv_boundary (f := φ) (f' := fun t => DG (x + t • v) v - DG x v)
    (a := 0) (b := 1) (fun t _ => (hd t).continuousAt.continuousWithinAt) (fun t _ => (hd t).hasDerivWithinAt)
    (B := fun t : ℝ => L / 2 * ‖v‖ ^ 2 * t ^ 2) (B' := fun t => L * t * ‖v‖ ^ 2) (by simp [hφ]) (fun t => hB t)
    (fun t ht => by
      have h1 : ‖DG (x + t • v) v - DG x v‖ ≤ ‖DG (x + t • v) - DG x‖ * ‖v‖ :=
        (DG (x + t • v) - DG x).le_opNorm v
      have h2 := hL (x + t • v) x
      rw [add_sub_cancel_left, norm_smul, Real.norm_of_nonneg ht.1] at h2
      calc ‖DG (x + t • v) v - DG x v‖ ≤ ‖DG (x + t • v) - DG x‖ * ‖v‖ := h1
        _ ≤ L * (t * ‖v‖) * ‖v‖ := by gcongr
        _ = L * t * ‖v‖ ^ 2 := by ring) (Set.right_mem_Icc.mpr zero_le_one)
  simpa [hφ] using this

/-- The Hessian-vector product by finite differences: if the Hessian is Lipschitz continuous with constant `L`, its
error is at most `L / 2 * |fd_h| * ‖p‖²`. -/
theorem C103_error (c : TRConf) (happrox : c.approx_hvp = true) (hh : c.fd_h ≠ 0) (f : Objective n A) (G : Pt n → Pt n)
    (DG : Pt n → Pt n →L[ℝ] Pt n) (hgrad : ∀ x, f.grad (efin x) = efin (G x)) (hG : ∀ x, HasFDerivAt G (DG x) x)
    (L : ℝ) (hL : ∀ x y, ‖DG x - DG y‖ ≤ L * ‖x - y‖) (x p : Pt n) :
    ∃ v, TR.hvp c f (efin x) (efin p) = efin v ∧ ‖v - DG x p‖ ≤ L / 2 * |c.fd_h| * ‖p‖ ^ 2 := by
  refine ⟨(1 / c.fd_h) • (G (x + c.fd_h • p) - G x), ?_, ?_⟩
  · unfold TR.hvp
    rw [if_pos happrox]
    have e : (fun i => efin x i + fin c.fd_h * efin p i) = efin (x + c.fd_h • p) := addScalarMul_efin x c.fd_h p
    simp only [e, hgrad]
    funext i
    simp [efin]
  · have h := norm_sub_linear_le hG hL x (c.fd_h • p)
    have e : (1 / c.fd_h) • (G (x + c.fd_h • p) - G x) - DG x p =
        (1 / c.fd_h) • (G (x + c.fd_h • p) - G x - DG x (c.fd_h • p)) := by
      rw [map_smul, smul_sub _ (_ - _), smul_smul, one_div_mul_cancel hh, one_smul]
    rw [e, norm_smul, Real.norm_eq_abs]
    have h0 : 0 < |c.fd_h| := abs_pos.mpr hh
    calc |1 / c.fd_h| * ‖G (x + c.fd_h • p) - G x - DG x (c.fd_h • p)‖
        ≤ |1 / c.fd_h| * (L / 2 * ‖c.fd_h • p‖ ^ 2) := by gcongr
      _ = L / 2 * |c.fd_h| * ‖p‖ ^ 2 := by
        rw [norm_smul, Real.norm_eq_abs, abs_div, abs_one]
        field_simp

/-- The objective `x³ / 3` with the gradient `x²`, whose derivative has the Lipschitz constant 2; increment `1e-4`. -/
example (x p : Pt 1) :
    ∃ v, TR.hvp { TRConf.default with approx_hvp := true }
      { value := fun v => v 0 * v 0 * v 0 / 3, aux := fun _ => (), grad := fun v i => v 0 * v i, hvp := fun _ v => v }
      (efin x) (efin p) = efin v ∧
      ‖v - (x 0 • p + p 0 • x)‖ ≤ 2 / 2 * |1e-4| * ‖p‖ ^ 2 := by
  have habs : ∀ u : Pt 1, |u 0| ≤ ‖u‖ := fun u => by simpa using PiLp.norm_apply_le u 0
  have h := C103_error { TRConf.default with approx_hvp := true } rfl ?_
    { value := fun v => v 0 * v 0 * v 0 / 3, aux := fun _ => (), grad := fun v i => v 0 * v i, hvp := fun _ v => v }
    (fun x => x 0 • x) (fun x => x 0 • ContinuousLinearMap.id ℝ (Pt 1) + (EuclideanSpace.proj (0 : Fin 1)).smulRight x)
    (fun x => ?_) (fun x => ?_) 2 (fun x y => ?_) x p
  · obtain ⟨v, h1, h2⟩ := h
    exact ⟨v, h1, by simpa [TRConf.default] using h2⟩
  · norm_num [TRConf.default]
  · funext i; simp [efin]
  · exact (EuclideanSpace.proj (0 : Fin 1) : Pt 1 →L[ℝ] ℝ).hasFDerivAt.smul (hasFDerivAt_id x)
  · refine ContinuousLinearMap.opNorm_le_bound _ (by positivity) fun u => ?_
    have e : (x 0 • ContinuousLinearMap.id ℝ (Pt 1) + (EuclideanSpace.proj (0 : Fin 1) : Pt 1 →L[ℝ] ℝ).smulRight x -
        (y 0 • ContinuousLinearMap.id ℝ (Pt 1) + (EuclideanSpace.proj (0 : Fin 1) : Pt 1 →L[ℝ] ℝ).smulRight y)) u =
        (x - y) 0 • u + u 0 • (x - y) := by
      ext i
      simp
      ring
    rw [e]
    calc ‖(x - y) 0 • u + u 0 • (x - y)‖ ≤ ‖(x - y) 0 • u‖ + ‖u 0 • (x - y)‖ := norm_add_le _ _
      _ = |(x - y) 0| * ‖u‖ + |u 0| * ‖x - y‖ := by rw [norm_smul, norm_smul, Real.norm_eq_abs, Real.norm_eq_abs]
      _ ≤ ‖x - y‖ * ‖u‖ + ‖u‖ * ‖x - y‖ := by gcongr <;> apply habs
      _ = 2 * ‖x - y‖ * ‖u‖ := by ring

end

end Verif
