import Verif.Props.Crossing
import Verif.Props.TrainAD

/-! # The crossing of the energies for the networks, initial states and grid of `mumag3.ipynb`: C178 -/

namespace Verif

open Micromag XR
open scoped ContDiff

theorem le_infty (k : ℕ) : ((k : ℕ) : WithTop ℕ∞) ≤ ∞ := by
  exact_mod_cast (le_top : ((k : ℕ) : ℕ∞) ≤ ⊤)

theorem FunSound.contDiffAt {a b : ℕ} {F : FunG a b} {f : Pt a → Pt b} {x : Pt a} (h : FunSound F f x) : ContDiffAt ℝ ∞ f x :=
  contDiffAt_piLp 2 |>.mpr fun i => (C171_grad (L := fun α _ _ c => F α c i) (l := fun y => f y i) (p := x)
    fun α _ _ E _ _ w R S T c P hP hc => h α E w R S T c P hP hc i).1

theorem gelu_smooth : ContDiff ℝ ∞ gelu := by
  unfold gelu
  refine ContDiff.div_const (contDiff_id.mul (contDiff_const.add (real_tanh_smooth.comp ?_))) 2
  fun_prop

theorem affine_smooth {V : Type} [NormedAddCommGroup V] [NormedSpace ℝ V] {a b : ℕ} (W : Fin a → Fin b → ℝ) (c : Fin b → ℝ) {y : V → Fin a → ℝ}
    (hy : ∀ i, ContDiff ℝ ∞ fun v => y v i) (j : Fin b) : ContDiff ℝ ∞ fun v => affine W c (y v) j := by
  unfold affine
  exact (ContDiff.sum fun i _ => contDiff_const.mul (hy i)).add contDiff_const

/-- The network is smooth in its inputs, also in `lam`. -/
theorem pinn_smooth {q nodes depth : ℕ} (ix : PinnIndex q (3 + 1) nodes depth) (p : Pt q) :
    ContDiff ℝ ∞ fun z : ℝ × Pt 3 => pinn ix (fun _ : Fin 1 => z.1) p z.2 := by
  have hh : ∀ (ls : List (Fin depth)) (y : ℝ × Pt 3 → Fin nodes → ℝ), (∀ i, ContDiff ℝ ∞ fun z => y z i) →
      ∀ i, ContDiff ℝ ∞ fun z => pinnHidden ix p (y z) ls i := by
    intro ls
    induction ls with
    | nil => exact fun y hy => hy
    | cons l ls ih => exact fun y hy => ih _ fun i => gelu_smooth.comp (affine_smooth _ _ hy i)
  unfold pinn
  refine contDiff_piLp 2 |>.mpr fun i => affine_smooth (fun i j => p (ix.kernelOut i j)) (fun j => p (ix.biasOut j))
    (hh (List.finRange depth) (fun z j => gelu (affine (fun i j => p (ix.kernel1 i j)) (fun j => p (ix.bias1 j))
      (Fin.append z.2.ofLp fun _ => z.1) j)) fun j => gelu_smooth.comp (affine_smooth _ _ (fun k => ?_) j)) i
  refine Fin.addCases (fun k => ?_) (fun k => ?_) k
  · simp only [Fin.append_left]
    exact (PiLp.proj 2 (𝕜 := ℝ) (fun _ : Fin 3 => ℝ) k).contDiff.comp contDiff_snd
  · simp only [Fin.append_right]
    exact contDiff_fst

/-- The magnetisation of `mumag3.ipynb` as function of `lam` and the point. -/
noncomputable abbrev pinnMag {q nodes depth : ℕ} (D : Cuboid) (ix : PinnIndex q (3 + 1) nodes depth) (g : Pt 3 → Pt 3) (p : Pt q) (lam : ℝ) (x : Pt 3) :
    Pt 3 := mag D (pinn ix fun _ => lam) g x p

theorem pinnMag_smooth {xs ys zs : List ℝ} {D : Cuboid} (hD : Cuboid.init xs ys zs = .ok D)
    (hlt : ∀ i, gridLo ![xs, ys, zs] i < gridHi ![xs, ys, zs] i) {q nodes depth : ℕ} (ix : PinnIndex q (3 + 1) nodes depth) (g : Pt 3 → Pt 3)
    (p : Pt q) (lam : ℝ) (x : Pt 3) (hg : ContDiffAt ℝ ∞ g (normalizeReal D x)) :
    ContDiffAt ℝ ∞ (Function.uncurry (pinnMag D ix g p)) (lam, x) := by
  have hφ : ContDiff ℝ ∞ (normalizeReal D) := by
    refine contDiff_piLp 2 |>.mpr fun i => ?_
    simp only [normalize_toReal hD hlt]
    fun_prop
  have h1 : ContDiff ℝ ∞ fun z : ℝ × Pt 3 => normalizeReal D z.2 := hφ.comp contDiff_snd
  exact cayley_contDiff (v := (lam, x)) (p := fun z : ℝ × Pt 3 => pinn ix (fun _ => z.1) p (normalizeReal D z.2)) (x := fun z => g (normalizeReal D z.2))
    ((pinn_smooth ix p).comp (contDiff_fst.prodMk h1)).contDiffAt (hg.comp (lam, x) h1.contDiffAt)

/-- Vortex and flower state as real functions. -/
noncomputable abbrev vortexReal (y : Pt 3) : Pt 3 := WithLp.toLp 2 fun i => XR.toReal (m_vortex (efin y) i)
noncomputable abbrev flowerReal (y : Pt 3) : Pt 3 := WithLp.toLp 2 fun i => XR.toReal (m_flower (efin y) i)

theorem linspace_half (k : ℕ) (hk : 0 < k) : linspace (-1 / 2) (1 / 2) (k + 1) = (List.range (k + 1)).map fun i : ℕ => -1 / 2 + (i : ℝ) / k := by
  rw [linspace]
  refine List.map_congr_left fun i _ => ?_
  rw [if_neg (by omega)]
  push_cast
  rw [add_sub_cancel_right]
  ring

theorem half_mids (k : ℕ) (hk : 0 < k) (t : ℝ) :
    t ∈ List.zipWith (fun p q : ℝ => (p + q) / 2) (linspace (-1 / 2) (1 / 2) (k + 1)).tail (linspace (-1 / 2) (1 / 2) (k + 1)).dropLast ↔
      ∃ i < k, t = -1 / 2 + (2 * (i : ℝ) + 1) / (2 * k) := by
  have hk' : (k : ℝ) ≠ 0 := Nat.cast_ne_zero.mpr hk.ne'
  rw [linspace_half k hk]
  have e : List.zipWith (fun p q : ℝ => (p + q) / 2) ((List.range (k + 1)).map fun i : ℕ => -1 / 2 + (i : ℝ) / k).tail
      ((List.range (k + 1)).map fun i : ℕ => -1 / 2 + (i : ℝ) / k).dropLast = (List.range k).map fun i : ℕ => -1 / 2 + (2 * (i : ℝ) + 1) / (2 * k) := by
    refine List.ext_getElem (by simp) fun i h1 h2 => ?_
    simp
    field_simp
    ring
  rw [e, List.mem_map]
  constructor
  · rintro ⟨i, h, rfl⟩
    exact ⟨i, List.mem_range.mp h, rfl⟩
  · rintro ⟨i, h, rfl⟩
    exact ⟨i, List.mem_range.mpr h, rfl⟩

theorem half_grid (k : ℕ) (hk : 0 < k) : IsGrid (linspace (-1 / 2) (1 / 2) (k + 1)) ∧ (linspace (-1 / 2) (1 / 2) (k + 1)).headD 0 = -1 / 2 ∧
    (linspace (-1 / 2) (1 / 2) (k + 1)).getLastD 0 = 1 / 2 := by
  have hk' : (0 : ℝ) < k := Nat.cast_pos.mpr hk
  rw [linspace_half k hk]
  refine ⟨⟨by simp; omega, ?_⟩, ?_, ?_⟩
  · rw [List.pairwise_map]
    refine List.pairwise_lt_range.imp fun {a b} h => ?_
    have : (a : ℝ) ≤ b := by exact_mod_cast h.le
    have := div_le_div_of_nonneg_right this hk'.le
    linarith
  · rw [List.range_succ_eq_map]
    simp
  · rw [List.range_succ, List.map_append]
    simp
    field_simp
    norm_num

section
variable {D : Cuboid} {k : ℕ}

theorem half_box (hk : 0 < k)
    (hD : Cuboid.init (linspace (-1 / 2) (1 / 2) (k + 1)) (linspace (-1 / 2) (1 / 2) (k + 1)) (linspace (-1 / 2) (1 / 2) (k + 1)) = .ok D) :
    (∀ i, gridLo ![linspace (-1 / 2) (1 / 2) (k + 1), linspace (-1 / 2) (1 / 2) (k + 1), linspace (-1 / 2) (1 / 2) (k + 1)] i = -1 / 2 ∧
      gridHi ![linspace (-1 / 2) (1 / 2) (k + 1), linspace (-1 / 2) (1 / 2) (k + 1), linspace (-1 / 2) (1 / 2) (k + 1)] i = 1 / 2) ∧
    (∀ x i, normalizeReal D x i = 2 * x i) ∧ ∀ x, D.normalize (efin x) = efin (normalizeReal D x) := by
  obtain ⟨-, h1, h2⟩ := half_grid k hk
  have h : ∀ i, gridLo ![linspace (-1 / 2) (1 / 2) (k + 1), linspace (-1 / 2) (1 / 2) (k + 1), linspace (-1 / 2) (1 / 2) (k + 1)] i = -1 / 2 ∧
      gridHi ![linspace (-1 / 2) (1 / 2) (k + 1), linspace (-1 / 2) (1 / 2) (k + 1), linspace (-1 / 2) (1 / 2) (k + 1)] i = 1 / 2 := fun i => by
    fin_cases i <;> exact ⟨h1, h2⟩
  refine ⟨h, fun x i => ?_, fun x => ?_⟩
  · show XR.toReal _ = _
    rw [normalize_toReal hD (fun i => by rw [(h i).1, (h i).2]; norm_num), (h i).1, (h i).2]
    ring
  · obtain ⟨-, -, -, e⟩ := init_inv hD
    have := normalize_fin D _ _ (congrArg (fun D => D.dom.lb) e) (congrArg (fun D => D.dom.ub) e)
      (fun i => by rw [show gridLo _ i = _ from (h i).1, show gridHi _ i = _ from (h i).2]; norm_num) x.ofLp
    funext i
    rw [show efin x = vfin x.ofLp from rfl, this]
    show _ = fin (XR.toReal (D.normalize (vfin x.ofLp) i))
    rw [this]
    rfl

/-- **C178, grid.** The midpoints of the cells of the cube `[-1/2, 1/2]³`, at which the solver evaluates the magnetisation, are off the
axis of the vortex if the number `k` of cells per axis is even, as in `mumag3.ipynb` where it is six. If it is odd, two of them are on the axis,
where the vortex state is `nan`. -/
theorem C178_grid (hk : 0 < k)
    (hD : Cuboid.init (linspace (-1 / 2) (1 / 2) (k + 1)) (linspace (-1 / 2) (1 / 2) (k + 1)) (linspace (-1 / 2) (1 / 2) (k + 1)) = .ok D) :
    (Even k → ∀ F ∈ D.faces, ∀ row ∈ F.midpoints, ∀ y ∈ row, y 0 ^ 2 + y 2 ^ 2 ≠ 0) ∧
    (Odd k → ∀ c : ℝ, c = -1 / 2 ∨ c = 1 / 2 → ∃ F ∈ D.faces, ∃ row ∈ F.midpoints, !₂[0, c, 0] ∈ row ∧
      ∀ i, m_vortex (D.normalize (efin !₂[0, c, 0])) i = nan) := by
  have hk' : (k : ℝ) ≠ 0 := Nat.cast_ne_zero.mpr hk.ne'
  obtain ⟨hb, hn, hn2⟩ := half_box hk hD
  obtain ⟨-, -, -, rfl⟩ := init_inv hD
  have hb2 : ∀ i, gridLo (grids (linspace (-1 / 2) (1 / 2) (k + 1)) (linspace (-1 / 2) (1 / 2) (k + 1)) (linspace (-1 / 2) (1 / 2) (k + 1))) i = -1 / 2 ∧
      gridHi (grids (linspace (-1 / 2) (1 / 2) (k + 1)) (linspace (-1 / 2) (1 / 2) (k + 1)) (linspace (-1 / 2) (1 / 2) (k + 1))) i = 1 / 2 := hb
  constructor
  · rintro ⟨l, hl⟩ F hF row hrow y hy
    have mid : ∀ i : ℕ, -1 / 2 + (2 * (i : ℝ) + 1) / (2 * k) ≠ 0 := fun i h => by
      field_simp at h
      have h2 : (2 * i + 1 : ℝ) = k := by linarith
      have h3 : 2 * i + 1 = k := by exact_mod_cast h2
      omega
    simp only [sides, hb2, List.mem_cons, List.not_mem_nil, or_false] at hF
    have key : ∀ a : Fin 3, ∀ c : ℝ, c ≠ 0 → row ∈ midpoints_ (linspace (-1 / 2) (1 / 2) (k + 1)) (linspace (-1 / 2) (1 / 2) (k + 1)) a c →
        y 0 ^ 2 + y 2 ^ 2 ≠ 0 := by
      intro a c hc hrow
      rw [midpoints_] at hrow
      obtain ⟨s, hs, rfl⟩ := List.mem_map.mp hrow
      obtain ⟨t, ht, rfl⟩ := List.mem_map.mp hy
      obtain ⟨i, -, rfl⟩ := (half_mids k hk s).mp hs
      obtain ⟨j, -, rfl⟩ := (half_mids k hk t).mp ht
      have pos : ∀ u v : ℝ, u ≠ 0 → u ^ 2 + v ^ 2 ≠ 0 := fun u v hu => by positivity
      fin_cases a
      · exact pos _ _ hc
      · exact pos _ _ (mid i)
      · exact pos _ _ (mid i)
    rcases hF with rfl | rfl | rfl | rfl | rfl | rfl <;> exact key _ _ (by norm_num) hrow
  · rintro ⟨l, hl⟩ c hc
    have h0 : (0 : ℝ) = -1 / 2 + (2 * (l : ℝ) + 1) / (2 * k) := by
      rw [hl]
      push_cast
      have : (2 * (l : ℝ) + 1) ≠ 0 := by positivity
      field_simp
      ring
    have hm : (0 : ℝ) ∈ List.zipWith (fun p q : ℝ => (p + q) / 2) (linspace (-1 / 2) (1 / 2) (k + 1)).tail
        (linspace (-1 / 2) (1 / 2) (k + 1)).dropLast := (half_mids k hk 0).mpr ⟨l, by omega, h0⟩
    have e : (!₂[0, c, 0] : Pt 3) = WithLp.toLp 2 ((1 : Fin 3).insertNth c ![0, 0]) := by
      congr 1
      funext i
      fin_cases i <;> rfl
    refine ⟨faces_.face 0 2 1 (linspace (-1 / 2) (1 / 2) (k + 1)) (linspace (-1 / 2) (1 / 2) (k + 1)) c, ?_, _,
      List.mem_map.mpr ⟨0, hm, rfl⟩, List.mem_map.mpr ⟨0, hm, e.symm⟩, ?_⟩
    · simp only [sides, hb2]
      rcases hc with rfl | rfl <;> simp
    · intro i
      rw [hn2]
      exact C164_vortex_axis _ (by rw [hn]; simp) (by rw [hn]; simp) i

end

/-- **C178, notebook.** With the networks, the initial states and the cube of `mumag3.ipynb` (`k` is 6), for all parameters of both networks and
all samples in the interior of the cube and off the axis of the vortex: the bisection gives a `lam` near which both states have the same energy if
neither has the lower energy for both `lam = 8` and `lam = 9`, and otherwise it fails. -/
theorem C178_notebook {n N K r k q nodes depth : ℕ} (s : StrayField N K r) (hk : 0 < k) (he : Even k)
    (hD : Cuboid.init (linspace (-1 / 2) (1 / 2) (k + 1)) (linspace (-1 / 2) (1 / 2) (k + 1)) (linspace (-1 / 2) (1 / 2) (k + 1)) = .ok s.domain)
    (l : ℕ) (hl : s.subintervals = .int l) (x : Fin n → Pt 3) (hx : ∀ i j, -1 / 2 < x i j ∧ x i j < 1 / 2)
    (ha : ∀ i, x i 0 ^ 2 + x i 2 ^ 2 ≠ 0) (hX : ∀ a, s.X_dom a 0 ^ 2 + s.X_dom a 2 ^ 2 ≠ 0)
    (xt : Fin n → List (List (List (Fin 6 → Pt 3)))) (hxt : ∀ i, surfaceTensorsGrad (x i) s.domain s.subintervals s.method = .ok (xt i))
    (ix : PinnIndex q (3 + 1) nodes depth) (params_vortex params_flower : Pt q) :
    ∃ V F : ℝ → ℝ, (∀ lam, energy s (pinnMag s.domain ix vortexReal params_vortex) x xt lam = .ok (V lam)) ∧
      (∀ lam, energy s (pinnMag s.domain ix flowerReal params_flower) x xt lam = .ok (F lam)) ∧
      (∀ lam, lam ≠ 0 → DifferentiableAt ℝ V lam ∧ DifferentiableAt ℝ F lam) ∧
      ((V 8 - F 8) * (V 9 - F 9) ≤ 0 → ∃ y z, cross_section s (pinnMag s.domain ix vortexReal params_vortex)
        (pinnMag s.domain ix flowerReal params_flower) x xt = .ok y ∧ y ∈ Set.Icc 8 9 ∧ z ∈ Set.Icc 8 9 ∧ V z = F z ∧ |y - z| < 2.1e-12) ∧
      (0 < (V 8 - F 8) * (V 9 - F 9) → cross_section s (pinnMag s.domain ix vortexReal params_vortex)
        (pinnMag s.domain ix flowerReal params_flower) x xt = .error .sign) := by
  obtain ⟨hb, hn, -⟩ := half_box hk hD
  have hlt : ∀ i, gridLo ![linspace (-1 / 2) (1 / 2) (k + 1), linspace (-1 / 2) (1 / 2) (k + 1), linspace (-1 / 2) (1 / 2) (k + 1)] i <
      gridHi ![linspace (-1 / 2) (1 / 2) (k + 1), linspace (-1 / 2) (1 / 2) (k + 1), linspace (-1 / 2) (1 / 2) (k + 1)] i := fun i => by
    rw [(hb i).1, (hb i).2]
    norm_num
  have hx' : ∀ i, (x i).ofLp ∈ interior (Set.Icc
      (gridLo ![linspace (-1 / 2) (1 / 2) (k + 1), linspace (-1 / 2) (1 / 2) (k + 1), linspace (-1 / 2) (1 / 2) (k + 1)])
      (gridHi ![linspace (-1 / 2) (1 / 2) (k + 1), linspace (-1 / 2) (1 / 2) (k + 1), linspace (-1 / 2) (1 / 2) (k + 1)])) := fun i => by
    rw [← Set.pi_univ_Icc, interior_pi_set Set.finite_univ]
    intro j _
    simp only [interior_Icc, (hb j).1, (hb j).2]
    exact hx i j
  have smf : ∀ lam y, ContDiffAt ℝ ∞ (Function.uncurry (pinnMag s.domain ix flowerReal params_flower)) (lam, y) := fun lam y =>
    pinnMag_smooth hD hlt ix _ _ lam y (C171_flower _).contDiffAt
  have smv : ∀ lam y, y 0 ^ 2 + y 2 ^ 2 ≠ 0 → ContDiffAt ℝ ∞ (Function.uncurry (pinnMag s.domain ix vortexReal params_vortex)) (lam, y) :=
    fun lam y hy => pinnMag_smooth hD hlt ix _ _ lam y (C171_vortex _ (by
      rw [hn, hn]
      intro h
      exact hy (by nlinarith))).contDiffAt
  have hf : ∀ lam, SmoothMag s x (pinnMag s.domain ix flowerReal params_flower) lam := fun lam =>
    ⟨fun a => (smf lam _).of_le (le_infty _), fun _ _ _ _ y _ => (smf lam y).of_le (le_infty _),
      fun i => (smf lam _).of_le (le_infty _)⟩
  have hv : ∀ lam, SmoothMag s x (pinnMag s.domain ix vortexReal params_vortex) lam := fun lam =>
    ⟨fun a => (smv lam _ (hX a)).of_le (le_infty _), fun F hF row hrow y hy =>
      (smv lam y ((C178_grid hk hD).1 he F hF row hrow y hy)).of_le (le_infty _),
      fun i => (smv lam _ (ha i)).of_le (le_infty _)⟩
  obtain ⟨V, F, h1, h2, h3, h4⟩ := C178_crossing s hD hlt l hl x hx' xt hxt _ _ (fun lam _ => hv lam) fun lam _ => hf lam
  obtain ⟨V', e1, d1⟩ := C178_energy s hD hlt l hl x hx' xt hxt (pinnMag s.domain ix vortexReal params_vortex)
  obtain ⟨F', e2, d2⟩ := C178_energy s hD hlt l hl x hx' xt hxt (pinnMag s.domain ix flowerReal params_flower)
  obtain rfl : V = V' := funext fun lam => Except.ok.inj ((h1 lam).symm.trans (e1 lam))
  obtain rfl : F = F' := funext fun lam => Except.ok.inj ((h2 lam).symm.trans (e2 lam))
  exact ⟨V, F, h1, h2, fun lam h => ⟨d1 lam h (hv lam), d2 lam h (hf lam)⟩, h3, h4⟩

/-- The grid of `mumag3.ipynb` has six cells per axis; a network with two nodes and the sample `(1/4, 1/4, 1/4)`. -/
example (p p' : Pt 22) (ix : PinnIndex 22 (3 + 1) 2 1) : ∃ (s : StrayField 1 1 1) (xt : List (List (List (Fin 6 → Pt 3)))) (V F : ℝ → ℝ),
    Cuboid.init (linspace (-1 / 2) (1 / 2) 7) (linspace (-1 / 2) (1 / 2) 7) (linspace (-1 / 2) (1 / 2) 7) = .ok s.domain ∧
    (∀ lam, energy s (pinnMag s.domain ix vortexReal p) (fun _ : Fin 1 => !₂[1 / 4, 1 / 4, 1 / 4]) (fun _ => xt) lam = .ok (V lam)) ∧
    (∀ lam, energy s (pinnMag s.domain ix flowerReal p') (fun _ : Fin 1 => !₂[1 / 4, 1 / 4, 1 / 4]) (fun _ => xt) lam = .ok (F lam)) ∧
    (∀ lam, lam ≠ 0 → DifferentiableAt ℝ V lam ∧ DifferentiableAt ℝ F lam) := by
  obtain ⟨g, -⟩ := half_grid 6 (by norm_num)
  obtain ⟨D, hD⟩ : ∃ D, Cuboid.init (linspace (-1 / 2) (1 / 2) (6 + 1)) (linspace (-1 / 2) (1 / 2) (6 + 1)) (linspace (-1 / 2) (1 / 2) (6 + 1)) =
    .ok D := ⟨_, init_ok g g g⟩
  let s : StrayField 1 1 1 := ⟨fun _ => !₂[1, 0, 0], D, fun _ _ => 1, fun _ => 0, midpoint, .int 1, 1, fun _ => 1, 1⟩
  have hx : ∀ j : Fin 3, -1 / 2 < (!₂[1 / 4, 1 / 4, 1 / 4] : Pt 3) j ∧ (!₂[1 / 4, 1 / 4, 1 / 4] : Pt 3) j < 1 / 2 := fun j => by
    fin_cases j <;> norm_num
  obtain ⟨hb, -, -⟩ := half_box (by norm_num) hD
  have hx' : (!₂[1 / 4, 1 / 4, 1 / 4] : Pt 3).ofLp ∈ interior (Set.Icc
      (gridLo ![linspace (-1 / 2) (1 / 2) (6 + 1), linspace (-1 / 2) (1 / 2) (6 + 1), linspace (-1 / 2) (1 / 2) (6 + 1)])
      (gridHi ![linspace (-1 / 2) (1 / 2) (6 + 1), linspace (-1 / 2) (1 / 2) (6 + 1), linspace (-1 / 2) (1 / 2) (6 + 1)])) := by
    rw [← Set.pi_univ_Icc, interior_pi_set Set.finite_univ]
    intro j _
    simp only [interior_Icc, (hb j).1, (hb j).2]
    exact hx j
  obtain ⟨φ, -, -, dt, hdt, -⟩ := C99_inside _ _ _ s hD 1 rfl 0 (!₂[1 / 4, 1 / 4, 1 / 4] : Pt 3)
    (fun i => by rw [(hb i).1, (hb i).2]; norm_num) hx'
  obtain ⟨V, F, h1, h2, h3, -⟩ := C178_notebook s (k := 6) (by norm_num) ⟨3, rfl⟩ hD 1 rfl (fun _ : Fin 1 => !₂[1 / 4, 1 / 4, 1 / 4]) (fun _ => hx)
    (fun _ => by simp) (fun _ => by simp [s]) (fun _ => dt) (fun _ => hdt) ix p p'
  exact ⟨s, dt, V, F, hD, h1, h2, h3⟩

end Verif
