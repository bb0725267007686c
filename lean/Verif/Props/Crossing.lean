import Mathlib.Topology.Order.IntermediateValue
import Verif.Model.Crossing
import Verif.Props.LossGradient

/-! # Properties of the comparison of energies in `mumag3.ipynb`: C178 -/

namespace Verif

open Micromag

theorem callFun_ok {F : ℝ → ℝ} (x : ℝ) : callFun (fun x => .ok (F x)) x = .ok (F x) := rfl

/-- The loop finds a zero between the ends of an interval at which the signs differ. -/
theorem bisectLoop_spec {F : ℝ → ℝ} (fa xtol rtol : ℝ) (hx : 0 < xtol) (hr : 0 ≤ rtol) (i : ℕ) (xa dm : ℝ) (hd : 0 < dm)
    (hF : ContinuousOn F (Set.Icc xa (xa + dm))) (ha : F xa ≠ 0) (hsa : F xa < 0 ↔ fa < 0) (hsb : ¬ (F (xa + dm) < 0 ↔ fa < 0))
    (hi : dm / 2 ^ i < xtol) (hi0 : 0 < i) :
    ∃ y z, bisectLoop (fun x => .ok (F x)) fa xtol rtol i xa dm = .ok y ∧ y ∈ Set.Icc xa (xa + dm) ∧ z ∈ Set.Icc xa (xa + dm) ∧ F z = 0 ∧
      |y - z| < xtol + rtol * |y| := by
  induction i generalizing xa dm with
  | zero => omega
  | succ i ih =>
    rw [bisectLoop]
    simp only [callFun_ok, bind, Except.bind]
    set d := dm * (1 / 2) with hd'
    have hd0 : 0 < d := by rw [hd']; linarith
    have hdd : dm = d + d := by rw [hd']; ring
    have hroot : ∀ u v, u ≤ v → xa ≤ u → v ≤ xa + dm → F u ≠ 0 → (F u < 0 ↔ fa < 0) → ¬ (F v < 0 ↔ fa < 0) → ∃ z ∈ Set.Icc u v, F z = 0 := by
      intro u v huv hu hv h0 h1 h2
      have hc : ContinuousOn F (Set.Icc u v) := hF.mono (Set.Icc_subset_Icc hu hv)
      by_cases hn : fa < 0
      · have h3 : F u < 0 := h1.mpr hn
        have h4 : 0 ≤ F v := not_lt.mp fun h => h2 ⟨fun _ => hn, fun _ => h⟩
        obtain ⟨z, hz, e⟩ := intermediate_value_Icc huv hc ⟨h3.le, h4⟩
        exact ⟨z, hz, e⟩
      · have h3 : 0 ≤ F u := not_lt.mp fun h => hn (h1.mp h)
        have h4 : F v < 0 := by
          by_contra h
          exact h2 ⟨fun h' => absurd h' h, fun h' => absurd h' hn⟩
        obtain ⟨z, hz, e⟩ := intermediate_value_Icc' huv hc ⟨h4.le, h3⟩
        exact ⟨z, hz, e⟩
    by_cases hstop : F (xa + d) = 0 ∨ |d| < xtol + rtol * |xa + d|
    · rw [if_pos hstop]
      have hmem : xa + d ∈ Set.Icc xa (xa + dm) := ⟨by linarith, by linarith⟩
      by_cases h0 : F (xa + d) = 0
      · exact ⟨xa + d, xa + d, rfl, hmem, hmem, h0, by rw [sub_self, abs_zero]; positivity⟩
      · have hlt := hstop.resolve_left h0
        rw [abs_of_pos hd0] at hlt
        by_cases hs : F (xa + d) < 0 ↔ fa < 0
        · obtain ⟨z, hz, e⟩ := hroot (xa + d) (xa + dm) hmem.2 hmem.1 le_rfl h0 hs hsb
          refine ⟨xa + d, z, rfl, hmem, ⟨by linarith [hz.1], hz.2⟩, e, lt_of_le_of_lt ?_ hlt⟩
          rw [abs_le]; constructor <;> linarith [hz.1, hz.2]
        · obtain ⟨z, hz, e⟩ := hroot xa (xa + d) hmem.1 le_rfl hmem.2 ha hsa hs
          refine ⟨xa + d, z, rfl, hmem, ⟨hz.1, by linarith [hz.2]⟩, e, lt_of_le_of_lt ?_ hlt⟩
          rw [abs_le]; constructor <;> linarith [hz.1, hz.2]
    · rw [if_neg hstop]
      push Not at hstop
      have hi1 : d / 2 ^ i < xtol := by
        refine lt_of_eq_of_lt ?_ hi
        rw [hdd, pow_succ]; field_simp; ring
      have hi2 : 0 < i := by
        rcases Nat.eq_zero_or_pos i with h | h
        · subst h
          have h3 := hstop.2
          rw [abs_of_pos hd0] at h3
          have : 0 ≤ rtol * |xa + d| := by positivity
          simp at hi1
          linarith
        · exact h
      by_cases hs : F (xa + d) < 0 ↔ fa < 0
      · rw [if_pos hs]
        have e : xa + d + d = xa + dm := by linarith
        obtain ⟨y, z, h1, h2, h3, h4, h5⟩ := ih (xa + d) d hd0 (hF.mono (Set.Icc_subset_Icc (by linarith) (by linarith))) hstop.1 hs
          (by rwa [e]) hi1 hi2
        rw [e] at h2 h3
        exact ⟨y, z, h1, ⟨by linarith [h2.1], h2.2⟩, ⟨by linarith [h3.1], h3.2⟩, h4, h5⟩
      · rw [if_neg hs]
        obtain ⟨y, z, h1, h2, h3, h4, h5⟩ := ih xa d hd0 (hF.mono (Set.Icc_subset_Icc le_rfl (by linarith))) ha hsa hs hi1 hi2
        exact ⟨y, z, h1, ⟨h2.1, by linarith [h2.2]⟩, ⟨h3.1, by linarith [h3.2]⟩, h4, h5⟩

/-- **C178, bisection.** For a continuous function the result is in the interval and closer than the tolerance to a zero in the interval, if the function has
a zero at an end or values of different signs there; otherwise the signs are rejected. The number of iterations must suffice for `xtol`. -/
theorem C178_bisect {F : ℝ → ℝ} (a b xtol rtol : ℝ) (maxiter : ℕ) (hab : a < b) (hF : ContinuousOn F (Set.Icc a b)) (hx : 0 < xtol)
    (hr : 0 ≤ rtol) (hm : (b - a) / 2 ^ maxiter < xtol) (hm0 : 0 < maxiter) :
    (F a * F b ≤ 0 → ∃ y z, bisect (fun x => .ok (F x)) a b xtol rtol maxiter = .ok y ∧ y ∈ Set.Icc a b ∧ z ∈ Set.Icc a b ∧ F z = 0 ∧
      |y - z| < xtol + rtol * |y|) ∧
    (0 < F a * F b → bisect (fun x => .ok (F x)) a b xtol rtol maxiter = .error .sign) := by
  have hab' : a + (b - a) = b := by ring
  constructor
  · intro h
    rw [bisect]
    simp only [callFun_ok, bind, Except.bind]
    by_cases ha : F a = 0
    · rw [if_pos ha]
      exact ⟨a, a, rfl, ⟨le_rfl, hab.le⟩, ⟨le_rfl, hab.le⟩, ha, by rw [sub_self, abs_zero]; positivity⟩
    · rw [if_neg ha]
      by_cases hb : F b = 0
      · rw [if_pos hb]
        exact ⟨b, b, rfl, ⟨hab.le, le_rfl⟩, ⟨hab.le, le_rfl⟩, hb, by rw [sub_self, abs_zero]; positivity⟩
      · have hs : ¬ (F a < 0 ↔ F b < 0) := by
          intro hs
          rcases lt_or_gt_of_ne ha with h1 | h1
          · nlinarith [hs.mp h1]
          · have h2 : 0 < F b := lt_of_le_of_ne (not_lt.mp fun h => absurd (hs.mpr h) (not_lt.mpr h1.le)) (Ne.symm hb)
            nlinarith
        rw [if_neg hb, if_neg hs]
        have := bisectLoop_spec (F := F) (F a) xtol rtol hx hr maxiter a (b - a) (by linarith) (by rwa [hab']) ha Iff.rfl
          (by rw [hab']; exact fun h => hs h.symm) hm hm0
        rwa [hab'] at this
  · intro h
    have ha : F a ≠ 0 := fun e => by rw [e, zero_mul] at h; exact lt_irrefl _ h
    have hb : F b ≠ 0 := fun e => by rw [e, mul_zero] at h; exact lt_irrefl _ h
    have hs : F a < 0 ↔ F b < 0 := by
      constructor <;> intro h1 <;> by_contra h2 <;> nlinarith
    rw [bisect]
    simp only [callFun_ok, bind, Except.bind]
    rw [if_neg ha, if_neg hb, if_pos hs]

/-- `x ^ 2 - 2` on `[1, 2]`: the result is close to the square root of two; on `[2, 3]` there is no change of sign. -/
example : (∃ y, bisect (fun x => .ok (x ^ 2 - 2)) 1 2 1e-3 0 10 = .ok y ∧ |y - √2| < 1e-3) ∧
    bisect (fun x => .ok (x ^ 2 - 2)) 2 3 1e-3 0 10 = .error .sign := by
  constructor
  · obtain ⟨y, z, h1, -, h3, h4, h5⟩ := (C178_bisect (F := fun x => x ^ 2 - 2) 1 2 1e-3 0 10 (by norm_num) (by fun_prop) (by norm_num) le_rfl
      (by norm_num) (by norm_num)).1 (by norm_num)
    have hz : z = √2 := by
      rw [eq_comm, Real.sqrt_eq_iff_eq_sq (by norm_num) (by linarith [h3.1])]
      linarith
    exact ⟨y, h1, by rw [← hz]; simpa using h5⟩
  · exact (C178_bisect (F := fun x => x ^ 2 - 2) 2 3 1e-3 0 10 (by norm_num) (by fun_prop) (by norm_num) le_rfl (by norm_num)
      (by norm_num)).2 (by norm_num)

/-- **C178, reported energies.** The energies are those which are reported with the loss if the parameters are not held fixed. -/
theorem C178_reported {n N k r : ℕ} (s : StrayField N k r) (m : ℝ → Pt 3 → Pt 3) (x : Fin n → Pt 3)
    (xt : Fin n → List (List (List (Fin 6 → Pt 3)))) (lam : ℝ) :
    total_energy s m x xt lam = (mumag3Loss lam s m x xt lam lam).map (·.2) := by
  rw [total_energy, mumag3Loss]
  cases h : mag_energy 1 (s.hsTensors (m lam)) (m lam) x xt with
  | error e => simp [bind, Except.bind, Except.map]
  | ok e => simp [bind, Except.bind, Except.map, pure, Except.pure]

section
variable {n N k r : ℕ} (s : StrayField N k r) {xs ys zs : List ℝ} (hD : Cuboid.init xs ys zs = .ok s.domain)
  (hlt : ∀ i, gridLo ![xs, ys, zs] i < gridHi ![xs, ys, zs] i) (l : ℕ) (hl : s.subintervals = .int l)
  (x : Fin n → Pt 3) (hx : ∀ i, (x i).ofLp ∈ interior (Set.Icc (gridLo ![xs, ys, zs]) (gridHi ![xs, ys, zs])))
  (xt : Fin n → List (List (List (Fin 6 → Pt 3)))) (hxt : ∀ i, surfaceTensorsGrad (x i) s.domain s.subintervals s.method = .ok (xt i))

/-- The magnetisation is smooth, in `lam` and in space, at the points at which the energy looks. -/
def SmoothMag {n N k r : ℕ} (s : StrayField N k r) (x : Fin n → Pt 3) (m : ℝ → Pt 3 → Pt 3) (lam : ℝ) : Prop :=
  (∀ a, ContDiffAt ℝ 4 (Function.uncurry m) (lam, s.X_dom a)) ∧
  (∀ F ∈ s.domain.faces, ∀ row ∈ F.midpoints, ∀ y ∈ row, ContDiffAt ℝ 3 (Function.uncurry m) (lam, y)) ∧
  ∀ i, ContDiffAt ℝ 2 (Function.uncurry m) (lam, x i)

include hD hlt hl hx hxt

/-- **C178, energy.** The total energy exists for every `lam`, and it is differentiable at every `lam` other than zero at which the
magnetisation is smooth. -/
theorem C178_energy (m : ℝ → Pt 3 → Pt 3) :
    ∃ E : ℝ → ℝ, (∀ lam, energy s m x xt lam = .ok (E lam)) ∧ ∀ lam, lam ≠ 0 → SmoothMag s x m lam → DifferentiableAt ℝ E lam := by
  have hH : ∀ i, ∃ H : (Pt 3 → Pt 3) → Pt 3, ∀ u, s.hsTensors u (x i) (xt i) = .ok (H u) := fun i => by
    obtain ⟨H, h, -⟩ := jetLin_field (m := fun (_ : ℝ) (_ : Pt 3) => (0 : Pt 3)) (p0 := 0) s hD hlt (fun _ => contDiffAt_const)
      (fun _ _ _ _ _ _ => contDiffAt_const) (hx i) l hl (xt i) (hxt i)
    exact ⟨H, h⟩
  choose H hH using hH
  have key : ∀ lam lam', ∃ l E, mumag3Loss lam' s m x xt lam lam = .ok (l, E) ∧ E.e_tot = exchange_energy (1 / lam' ^ 2) (m lam) x +
      ani_energy 0.1 (EuclideanSpace.single 2 1) (m lam) x + -((∑ i, inner ℝ (m lam (x i)) (H i (m lam))) / n) := fun lam lam' => by
    obtain ⟨l, E, e1, e2, e3, e4, e5, -⟩ := C165_mumag3_loss s m x xt lam lam lam' _ fun i => hH i (m lam)
    exact ⟨l, E, e1, by rw [e5, e2, e3, e4]⟩
  refine ⟨fun lam => exchange_energy (1 / lam ^ 2) (m lam) x + ani_energy 0.1 (EuclideanSpace.single 2 1) (m lam) x +
    -((∑ i, inner ℝ (m lam (x i)) (H i (m lam))) / n), fun lam => ?_, fun lam h0 hs => ?_⟩
  · obtain ⟨l, E, e1, e2⟩ := key lam lam
    rw [energy, C178_reported, e1]
    exact congrArg Except.ok e2
  · obtain ⟨hX, hF, hm⟩ := hs
    have h1 : DifferentiableAt ℝ (fun lam => exchange_energy 1 (m lam) x) lam := exchange_differentiable 1 hm
    have h2 := ani_differentiable 0.1 (EuclideanSpace.single 2 1) hm
    have h3 : ∀ i, DifferentiableAt ℝ (fun lam => m lam (x i)) lam := fun i => param_differentiable ((hm i).of_le (by norm_num))
    have h4 : ∀ i, DifferentiableAt ℝ (fun lam => H i (m lam)) lam := fun i => by
      obtain ⟨H', a, L, b, -⟩ := jetLin_field s hD hlt hX hF (hx i) l hl (xt i) (hxt i)
      obtain rfl : H i = H' := funext fun u => Except.ok.inj ((hH i u).symm.trans (a u))
      exact b.differentiableAt
    have h5 : DifferentiableAt ℝ (fun lam => ∑ i, inner ℝ (m lam (x i)) (H i (m lam))) lam :=
      DifferentiableAt.fun_sum fun i _ => (h3 i).inner ℝ (h4 i)
    have h6 : DifferentiableAt ℝ (fun lam : ℝ => 1 / lam ^ 2) lam := by
      have : lam ^ 2 ≠ 0 := pow_ne_zero 2 h0
      fun_prop (disch := assumption)
    have h7 : (fun lam => exchange_energy (1 / lam ^ 2) (m lam) x) = fun lam => 1 / lam ^ 2 * exchange_energy 1 (m lam) x := by
      funext lam
      simp only [exchange_energy, one_mul]
    have h8 : DifferentiableAt ℝ (fun lam => exchange_energy (1 / lam ^ 2) (m lam) x) lam := by
      rw [h7]
      exact h6.mul h1
    exact (h8.add h2).add (h5.mul_const (n : ℝ)⁻¹).neg

/-- **C178, crossing.** If both magnetisations are smooth, the result of the bisection is closer than `2.1e-12` to a `lam` in `[8, 9]` at
which vortex and flower state have the same energy, provided that one state has not the lower energy at both ends; otherwise the bisection raises a
`ValueError`. -/
theorem C178_crossing (m_vortex m_flower : ℝ → Pt 3 → Pt 3) (hv : ∀ lam ∈ Set.Icc (8 : ℝ) 9, SmoothMag s x m_vortex lam)
    (hf : ∀ lam ∈ Set.Icc (8 : ℝ) 9, SmoothMag s x m_flower lam) :
    ∃ V F : ℝ → ℝ, (∀ lam, energy s m_vortex x xt lam = .ok (V lam)) ∧ (∀ lam, energy s m_flower x xt lam = .ok (F lam)) ∧
      ((V 8 - F 8) * (V 9 - F 9) ≤ 0 → ∃ y z, cross_section s m_vortex m_flower x xt = .ok y ∧ y ∈ Set.Icc 8 9 ∧ z ∈ Set.Icc 8 9 ∧ V z = F z ∧
        |y - z| < 2.1e-12) ∧
      (0 < (V 8 - F 8) * (V 9 - F 9) → cross_section s m_vortex m_flower x xt = .error .sign) := by
  obtain ⟨V, hV, hV'⟩ := C178_energy s hD hlt l hl x hx xt hxt m_vortex
  obtain ⟨F, hF, hF'⟩ := C178_energy s hD hlt l hl x hx xt hxt m_flower
  have hd : energy_difference s m_vortex m_flower x xt = fun lam => .ok ((fun lam => V lam - F lam) lam) := by
    funext lam
    rw [energy_difference, hV, hF]
    rfl
  have hc : ContinuousOn (fun lam => V lam - F lam) (Set.Icc 8 9) := fun lam h => by
    have h0 : lam ≠ 0 := by linarith [h.1] |> fun (h : (0 : ℝ) < lam) => h.ne'
    exact ((hV' lam h0 (hv lam h)).sub (hF' lam h0 (hf lam h))).continuousAt.continuousWithinAt
  have := C178_bisect (F := fun lam => V lam - F lam) 8 9 2e-12 (4 * 2 ^ (-52 : ℤ)) 100 (by norm_num) hc (by norm_num) (by positivity)
    (by norm_num) (by norm_num)
  refine ⟨V, F, hV, hF, fun h => ?_, fun h => ?_⟩
  · obtain ⟨y, z, h1, h2, h3, h4, h5⟩ := this.1 h
    refine ⟨y, z, by rw [cross_section, hd]; exact h1, h2, h3, sub_eq_zero.mp h4, h5.trans_le ?_⟩
    rw [abs_of_nonneg (by linarith [h2.1])]
    have := h2.2
    norm_num
    linarith
  · rw [cross_section, hd]
    exact this.2 h

end

/-- Two uniform magnetisations which turn in opposite directions have the same energy near the result. -/
example : ∃ (s : StrayField 1 1 1) (xt : List (List (List (Fin 6 → Pt 3)))) (y : ℝ),
    cross_section s (fun lam _ => !₂[Real.sin lam, 0, Real.cos lam]) (fun lam _ => !₂[Real.sin (17 - lam), 0, Real.cos (17 - lam)])
      (fun _ : Fin 1 => 0) (fun _ => xt) = .ok y := by
  have g : IsGrid [-1, 1] := ⟨by simp, by simp⟩
  obtain ⟨D, hD⟩ : ∃ D, Cuboid.init [-1, 1] [-1, 1] [-1, 1] = .ok D := ⟨_, init_ok g g g⟩
  let s : StrayField 1 1 1 := ⟨fun _ => 0, D, fun _ _ => 1, fun _ => 0, midpoint, .int 1, 1, fun _ => 1, 1⟩
  have hlt : ∀ i, gridLo ![[-1, 1], [-1, 1], [-1, 1]] i < gridHi ![[-1, 1], [-1, 1], [-1, 1]] i := fun i => by
    fin_cases i <;> simp [gridLo, gridHi]
  have hx : (0 : Pt 3).ofLp ∈ interior (Set.Icc (gridLo ![[-1, 1], [-1, 1], [-1, 1]]) (gridHi ![[-1, 1], [-1, 1], [-1, 1]])) := by
    rw [← Set.pi_univ_Icc, interior_pi_set Set.finite_univ]
    intro i _
    simp only [interior_Icc]
    fin_cases i <;> simp [gridLo, gridHi]
  obtain ⟨φ, -, -, dt, hdt, -⟩ := C99_inside _ _ _ s hD 1 rfl 0 0 hlt hx
  let u : ℝ → Pt 3 := fun lam => !₂[Real.sin lam, 0, Real.cos lam]
  have hu : ContDiff ℝ 4 u := by
    refine contDiff_piLp 2 |>.mpr fun i => ?_
    fin_cases i
    · exact Real.contDiff_sin
    · exact contDiff_const
    · exact Real.contDiff_cos
  have sm : ∀ w : ℝ → Pt 3, ContDiff ℝ 4 w → ∀ lam, SmoothMag s (fun _ : Fin 1 => (0 : Pt 3)) (fun lam _ => w lam) lam := by
    intro w hw lam
    have h : ContDiff ℝ 4 (Function.uncurry fun lam (_ : Pt 3) => w lam) := hw.comp contDiff_fst
    exact ⟨fun _ => h.contDiffAt, fun _ _ _ _ _ _ => h.contDiffAt.of_le (by norm_num), fun _ => h.contDiffAt.of_le (by norm_num)⟩
  have hu' : ContDiff ℝ 4 fun lam => u (17 - lam) := hu.comp (contDiff_const.sub contDiff_id)
  obtain ⟨V, F, hV, hF, h, -⟩ := C178_crossing s hD hlt 1 rfl (fun _ : Fin 1 => 0) (fun _ => hx) (fun _ => dt) (fun _ => hdt)
    (fun lam _ => u lam) (fun lam _ => u (17 - lam)) (fun lam _ => sm u hu lam) (fun lam _ => sm _ hu' lam)
  have hex : ∀ A (c : Pt 3), exchange_energy A (fun _ => c) (fun _ : Fin 1 => (0 : Pt 3)) = 0 := fun A c => by
    rw [exchange_eq]
    simp
  have hVF : ∀ lam, V lam = F (17 - lam) := fun lam => by
    have h1 := hV lam
    have h2 := hF (17 - lam)
    rw [energy, total_energy] at h1 h2
    simp only [hex, sub_sub_cancel] at h1 h2
    exact Except.ok.inj (h1.symm.trans h2)
  have e8 : V 8 = F 9 := by rw [hVF]; norm_num
  have e9 : V 9 = F 8 := by rw [hVF]; norm_num
  obtain ⟨y, -, hy, -⟩ := h (by rw [e8, e9]; nlinarith [sq_nonneg (F 9 - F 8)])
  exact ⟨s, dt, y, hy⟩

end Verif
