import Verif.Lemmas.JetSwap

/-! # The derivative of the stray field with respect to the parameters of the magnetisation -/

namespace Verif

open Filter Topology

variable {P : Type} [NormedAddCommGroup P] [NormedSpace ℝ P] {G : Type} [NormedAddCommGroup G] [NormedSpace ℝ G]
  {G' : Type} [NormedAddCommGroup G'] [NormedSpace ℝ G']

/-- The derivative of `Φ (m p)` in direction `v` is `Φ` of the derivative of `m p` in direction `v`. -/
def JetLin (m : P → Pt 3 → Pt 3) (p0 : P) (Φ : (Pt 3 → Pt 3) → G) : Prop :=
  ∃ L : P →L[ℝ] G, HasFDerivAt (fun p => Φ (m p)) L p0 ∧ ∀ v, L v = Φ fun y => fderiv ℝ (fun p => m p y) p0 v

variable {m : P → Pt 3 → Pt 3} {p0 : P}

theorem JetLin.clm {Φ : (Pt 3 → Pt 3) → G} (h : JetLin m p0 Φ) (l : G →L[ℝ] G') : JetLin m p0 fun u => l (Φ u) := by
  obtain ⟨L, h1, h2⟩ := h
  exact ⟨l.comp L, l.hasFDerivAt.comp p0 h1, fun v => by rw [ContinuousLinearMap.comp_apply, h2]⟩

theorem JetLin.add {Φ Ψ : (Pt 3 → Pt 3) → G} (h : JetLin m p0 Φ) (h' : JetLin m p0 Ψ) : JetLin m p0 fun u => Φ u + Ψ u := by
  obtain ⟨L, h1, h2⟩ := h
  obtain ⟨L', h1', h2'⟩ := h'
  exact ⟨L + L', h1.add h1', fun v => by rw [add_apply, h2, h2']⟩

theorem JetLin.neg {Φ : (Pt 3 → Pt 3) → G} (h : JetLin m p0 Φ) : JetLin m p0 fun u => -Φ u := by
  obtain ⟨L, h1, h2⟩ := h
  exact ⟨-L, h1.neg, fun v => by rw [neg_apply, h2]⟩

theorem JetLin.sub {Φ Ψ : (Pt 3 → Pt 3) → G} (h : JetLin m p0 Φ) (h' : JetLin m p0 Ψ) : JetLin m p0 fun u => Φ u - Ψ u := by
  simpa only [sub_eq_add_neg] using h.add h'.neg

theorem JetLin.const_smul {Φ : (Pt 3 → Pt 3) → G} (h : JetLin m p0 Φ) (c : ℝ) : JetLin m p0 fun u => c • Φ u :=
  h.clm (c • ContinuousLinearMap.id ℝ G)

theorem JetLin.smul_const {Φ : (Pt 3 → Pt 3) → ℝ} (h : JetLin m p0 Φ) (g : G) : JetLin m p0 fun u => Φ u • g :=
  h.clm (ContinuousLinearMap.toSpanSingleton ℝ g)

theorem JetLin.zero : JetLin m p0 fun _ => (0 : G) := ⟨0, hasFDerivAt_const _ _, fun _ => rfl⟩

theorem JetLin.sum {ι : Type} (s : Finset ι) {Φ : ι → (Pt 3 → Pt 3) → G} (h : ∀ i ∈ s, JetLin m p0 (Φ i)) :
    JetLin m p0 fun u => ∑ i ∈ s, Φ i u := by
  classical
  induction s using Finset.induction_on with
  | empty => simpa using JetLin.zero
  | insert a s ha ih =>
    simp only [Finset.sum_insert ha]
    exact (h a (by simp)).add (ih fun i hi => h i (by simp [hi]))

theorem JetLin.listSum {ι : Type} (l : List ι) {Φ : ι → (Pt 3 → Pt 3) → G} (h : ∀ i ∈ l, JetLin m p0 (Φ i)) :
    JetLin m p0 fun u => (l.map fun i => Φ i u).sum := by
  induction l with
  | nil => simpa using JetLin.zero
  | cons a l ih =>
    simp only [List.map_cons, List.sum_cons]
    exact (h a (by simp)).add (ih fun i hi => h i (by simp [hi]))

variable {N k r : ℕ} (s : StrayField N k r)

theorem jetLin_value {y : Pt 3} (hm : ContDiffAt ℝ 1 (Function.uncurry m) (p0, y)) : JetLin m p0 fun u => u y :=
  ⟨_, (param_differentiable hm).hasFDerivAt, fun _ => rfl⟩

theorem jetLin_jacfwd {y : Pt 3} (hm : ContDiffAt ℝ 2 (Function.uncurry m) (p0, y)) (j : Fin 3) : JetLin m p0 fun u => jacfwd u y j :=
  swap1 hm _

theorem jetLin_params (hm : ∀ n, ContDiffAt ℝ 4 (Function.uncurry m) (p0, s.X_dom n)) (a : Fin k) :
    JetLin m p0 fun u => s.params_phi1 u a := by
  simp only [StrayField.params_phi1, Matrix.mulVec, dotProduct, divergence, valueAndDivergence, sumDiag, jacMatrix, mul_neg,
    Finset.mul_sum]
  exact .sum _ fun n _ => .neg <| .sum _ fun i _ =>
    ((jetLin_jacfwd ((hm n).of_le (by norm_num)) _).clm (EuclideanSpace.proj (𝕜 := ℝ) _ : Pt 3 →L[ℝ] ℝ)).const_smul _

theorem params_contDiff (hm : ∀ n, ContDiffAt ℝ 4 (Function.uncurry m) (p0, s.X_dom n)) (a : Fin k) :
    ContDiffAt ℝ 3 (fun p => s.params_phi1 (m p) a) p0 := by
  simp only [StrayField.params_phi1, Matrix.mulVec, dotProduct, divergence, valueAndDivergence, sumDiag, jacMatrix]
  refine ContDiffAt.sum fun n _ => contDiffAt_const.mul (ContDiffAt.neg (ContDiffAt.sum fun i _ => ?_))
  have h1 := partial_contDiffAt (j := 3) (k := 4) (hm n) (by norm_num) (unitVec ⟨i, lt_of_lt_of_le i.isLt (min_le_right 3 3)⟩)
  have h2 : ContDiffAt ℝ 3 (fun p : P => (p, s.X_dom n)) p0 := by fun_prop
  have h3 := ContDiffAt.comp p0 (f := fun p : P => (p, s.X_dom n)) h1 h2
  exact (EuclideanSpace.proj (𝕜 := ℝ) _ : Pt 3 →L[ℝ] ℝ).contDiff.contDiffAt.comp p0 h3

section
variable {xs ys zs : List ℝ} (hD : Cuboid.init xs ys zs = .ok s.domain)
  (hlt : ∀ i, gridLo ![xs, ys, zs] i < gridHi ![xs, ys, zs] i) (hX : ∀ n, ContDiffAt ℝ 4 (Function.uncurry m) (p0, s.X_dom n))
include hD hlt hX

theorem g_contDiff {y : Pt 3} (hm : ContDiffAt ℝ 3 (Function.uncurry m) (p0, y)) (z : Pt 3) :
    ContDiffAt ℝ 3 (Function.uncurry fun p y => s.g (m p) z y) (p0, y) := by
  refine (hm.inner ℝ contDiffAt_const).add (ContDiffAt.sum fun a _ => ContDiffAt.mul ?_ ?_)
  · exact ((h_elm_contDiff s hD hlt a 3).comp contDiff_snd).contDiffAt
  · exact ContDiffAt.comp (p0, y) (f := Prod.fst) (params_contDiff s hX a) contDiffAt_fst

omit hD hlt in
theorem g_param {y : Pt 3} (hm : ContDiffAt ℝ 1 (Function.uncurry m) (p0, y)) (z : Pt 3) : JetLin m p0 fun u => s.g u z y := by
  have h1 : JetLin m p0 fun u => inner ℝ (u y) (s.domain.normalVec z) := by
    simpa only [innerSL_apply_apply, real_inner_comm] using (jetLin_value hm).clm (innerSL ℝ (s.domain.normalVec z))
  exact h1.add (.sum _ fun a _ => (jetLin_params s hX a).const_smul (s.h_elm y a))

theorem g_eventually {y : Pt 3} (hm : ContDiffAt ℝ 3 (Function.uncurry m) (p0, y)) (z : Pt 3) (v : P) :
    (fun y => fderiv ℝ (fun p => s.g (m p) z y) p0 v) =ᶠ[𝓝 y] fun y => s.g (fun y => fderiv ℝ (fun p => m p y) p0 v) z y := by
  have hcy : Tendsto (fun y => (p0, y)) (𝓝 y) (𝓝 (p0, y)) := (Continuous.prodMk_right p0).tendsto y
  filter_upwards [hcy.eventually (hm.eventually (by simp))] with y hy
  obtain ⟨L, h1, h2⟩ := g_param s hX (hy.of_le (by norm_num)) z
  rw [h1.fderiv, h2]

theorem jetLin_g1 {y : Pt 3} (hm : ContDiffAt ℝ 3 (Function.uncurry m) (p0, y)) (z : Pt 3) (i : Fin 3) :
    JetLin m p0 fun u => jacfwd (s.g u z) y i := by
  obtain ⟨L, h1, h2⟩ := swap1 ((g_contDiff s hD hlt hX hm z).of_le (by norm_num)) (unitVec i)
  exact ⟨L, h1, fun v => by
    rw [h2, (g_eventually s hD hlt hX hm z v).fderiv_eq]
    rfl⟩

theorem jetLin_g2 {y : Pt 3} (hm : ContDiffAt ℝ 3 (Function.uncurry m) (p0, y)) (z : Pt 3) (i j : Fin 3) :
    JetLin m p0 fun u => jacfwd (fun y => jacfwd (s.g u z) y i) y j := by
  obtain ⟨L, h1, h2⟩ := swap2 (g_contDiff s hD hlt hX hm z) (unitVec i) (unitVec j)
  refine ⟨L, h1, fun v => ?_⟩
  rw [h2]
  have h3 := (g_eventually s hD hlt hX hm z v).fderiv (𝕜 := ℝ)
  have h4 : (fun y => fderiv ℝ (fun y => fderiv ℝ (fun p => s.g (m p) z y) p0 v) y (unitVec i)) =ᶠ[𝓝 y]
      fun y => fderiv ℝ (fun y => s.g (fun y => fderiv ℝ (fun p => m p y) p0 v) z y) y (unitVec i) := h3.mono fun y h => congrArg (fun l => l (unitVec i)) h
  rw [h4.fderiv_eq]
  rfl

theorem jetLin_coefs (F : Face) (d1 d2 : ℝ × ℝ) (hm : ContDiffAt ℝ 3 (Function.uncurry m)
    (p0, planePoint F.const_axis F.const_val ((d1.1 + d1.2) / 2) ((d2.1 + d2.2) / 2))) (i : Fin 6) :
    JetLin m p0 fun u => cellCoefs (s.g u) F d1 d2 i := by
  fin_cases i
  · exact g_param s hX (hm.of_le (by norm_num)) _
  · exact jetLin_g1 s hD hlt hX hm _ _
  · exact jetLin_g1 s hD hlt hX hm _ _
  · exact (jetLin_g2 s hD hlt hX hm _ _ _).const_smul (1 / 2)
  · exact jetLin_g2 s hD hlt hX hm _ _ _
  · exact (jetLin_g2 s hD hlt hX hm _ _ _).const_smul (1 / 2)

/-- The field at a point of the open box, as a function of the magnetisation. -/
theorem jetLin_field (hF : ∀ F ∈ s.domain.faces, ∀ row ∈ F.midpoints, ∀ y ∈ row, ContDiffAt ℝ 3 (Function.uncurry m) (p0, y))
    {x : Pt 3} (hx : x.ofLp ∈ interior (Set.Icc (gridLo ![xs, ys, zs]) (gridHi ![xs, ys, zs]))) (l : ℕ)
    (hl : s.subintervals = .int l) (dt : List (List (List (Fin 6 → Pt 3))))
    (hdt : surfaceTensorsGrad x s.domain s.subintervals s.method = .ok dt) :
    ∃ H : (Pt 3 → Pt 3) → Pt 3, (∀ u, s.hsTensors u x dt = .ok (H u)) ∧ JetLin m p0 H := by
  have hside : ∀ F ∈ s.domain.faces, F.IsSide := by
    obtain ⟨-, -, -, h⟩ := init_inv hD
    rw [h]
    exact fun F hF => isSide_of_mem hF
  rw [hl, surfaceTensorsGrad_eq] at hdt
  obtain rfl := Except.ok.inj hdt
  refine ⟨fun u => -jacVec (s.phi1 u) x - (1 / (4 * Real.pi)) • (s.domain.faces.map fun F => ((gridCells F.axis1_vals).map fun d1 =>
    ((gridCells F.axis2_vals).map fun d2 => ∑ k, cellCoefs (s.g u) F d1 d2 k • jacVec (entryFun s.method l F d1 d2 k) x).sum).sum).sum,
    fun u => ?_, ?_⟩
  · rw [StrayField.hsTensors, charges_eq _ hside]
    simp only [solve_tabulate]
    rfl
  · refine JetLin.sub (.neg ?_) (.const_smul (.listSum _ fun F h1 => .listSum _ fun d1 h2 => .listSum _ fun d2 h3 => .sum _ fun i _ =>
      (jetLin_coefs s hD hlt hX F d1 d2 ?_ i).smul_const _) _)
    · have hu : ∀ a, DifferentiableAt ℝ (fun y => s.u_elm y a) x :=
        differentiableAt_pi.mp ((u_elm_contDiff s hD hlt hx 1).differentiableAt (by norm_num))
      have e : ∀ u, jacVec (s.phi1 u) x = ∑ a, s.params_phi1 u a • jacVec (fun y => s.u_elm y a) x := by
        intro u
        have := (jacVec_list_sum (List.finRange k) (fun a y => s.params_phi1 u a * s.u_elm y a) x fun a _ => (hu a).const_mul _).2
        simp only [jacVec_const_mul (hu _)] at this
        have e : ∀ {M : Type} [AddCommMonoid M] (g : Fin k → M), ((List.finRange k).map g).sum = ∑ k, g k := by
          intro M _ g
          rw [← List.ofFn_eq_map, List.sum_ofFn]
        rw [e] at this
        rw [← this]
        congr 1
        funext y
        rw [StrayField.phi1, e]
        exact Finset.sum_congr rfl fun a _ => mul_comm _ _
      simp only [e]
      exact .sum _ fun a _ => (jetLin_params s hX a).smul_const _
    · refine hF F h1 ((gridCells F.axis2_vals).map fun d2 =>
        planePoint F.const_axis F.const_val ((d1.1 + d1.2) / 2) ((d2.1 + d2.2) / 2)) ?_ _ (List.mem_map_of_mem h3)
      obtain ⟨-, -, h⟩ := hside F h1
      rw [h, midpoints_eq]
      exact List.mem_map.mpr ⟨d1, h2, rfl⟩

end

end Verif
