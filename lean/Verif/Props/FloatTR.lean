import Verif.Model.FloatTR
import Verif.Props.FloatR
import Mathlib.Algebra.Order.Archimedean.Basic
import Mathlib.Analysis.SpecificLimits.Basic

/-! # C152: the decisions of the trust region method in floating point arithmetic -/

namespace Verif

open XR

variable {n : ℕ} {A : Type*}

/-- A configuration whose numbers survive the conversion to the format. -/
structure FlConf (F : Fmt) (c : TRConf) : Prop where
  accept_pos : (2 : ℝ) ^ (F.emin + F.p) ≤ c.rho_accept
  accept_le : c.rho_accept ≤ c.rho_decrease
  decrease_le : c.rho_decrease ≤ 1
  min_pos : (2 : ℝ) ^ (F.emin + F.p) ≤ c.min_tr_radius
  min_le : c.min_tr_radius ≤ c.init_tr_radius
  le_max : c.init_tr_radius ≤ c.max_tr_radius
  max_top : c.max_tr_radius ≤ 2 ^ F.emax
  factor_pos : 0 ≤ c.decrease_factor
  factor_le : c.decrease_factor ≤ 1 / 2
  inc_ge : 1 ≤ c.increase_factor
  inc_le : c.increase_factor ≤ 2 ^ F.emax

/-- The finite numbers of a format. -/
def Fmt.Num (F : Fmt) (x : ℝ) : Prop := F.Rep x ∧ |x| < 2 ^ (F.emax + 1)

section
variable (F : Fmt)

theorem Fmt.finite_num : {x : ℝ | F.Num x}.Finite := by
  have h0 : (0 : ℝ) < 2 ^ F.emin := by positivity
  obtain ⟨k, hk⟩ := Fmt.two_zpow_mul (show F.emin ≤ F.emax + 1 by have := F.hmin; have := F.hmax; omega)
  refine ((Set.finite_Icc (-2 ^ k : ℤ) (2 ^ k)).image fun m : ℤ => (m : ℝ) * 2 ^ F.emin).subset ?_
  rintro x ⟨hx, hlt⟩
  obtain ⟨m, rfl⟩ := hx.mul_emin
  refine ⟨m, ?_, rfl⟩
  rw [hk, abs_mul, abs_of_pos h0, mul_lt_mul_iff_left₀ h0] at hlt
  have h1 : |m| < 2 ^ k := by exact_mod_cast hlt
  rw [abs_lt] at h1
  exact ⟨h1.1.le, h1.2.le⟩

theorem Fmt.const_fin {x : ℝ} (h : |x| ≤ 2 ^ F.emax) : F.const x = fin (F.rndR x) := F.rnd_fin h

theorem Fmt.one_le_max : (1 : ℝ) ≤ 2 ^ F.emax := one_le_zpow₀ (by norm_num) (by have := F.hmax; omega)

theorem Fmt.rnd_ne_nan {x : XR} (h : x ≠ nan) : F.rnd x ≠ nan := by
  cases x with
  | nan => exact absurd rfl h
  | pinf => simp [Fmt.rnd]
  | ninf => simp [Fmt.rnd]
  | fin x =>
    rw [Fmt.rnd]
    split_ifs with h1
    · simp
    · rw [infSign]
      split_ifs with h2 h3
      · simp
      · simp
      · have : x = 0 := le_antisymm (not_lt.mp h2) (not_lt.mp h3)
        rw [this, F.rndR_zero, abs_zero] at h1
        exact absurd (by positivity) h1

theorem Fmt.pos_of_rnd {x : XR} (h : fin 0 < F.rnd x) : fin 0 < x := by
  cases x with
  | nan => exact h
  | pinf => trivial
  | ninf => exact h
  | fin x =>
    rw [fin_lt]
    rw [Fmt.rnd] at h
    split_ifs at h with h1
    · rw [fin_lt] at h
      by_contra hc
      exact absurd h (not_lt.mpr (F.rndR_nonpos (not_lt.mp hc)))
    · rw [infSign] at h
      split_ifs at h with h2 h3
      · exact h2
      · exact absurd h id
      · exact absurd h id

theorem pos_of_div {x : XR} {d : ℝ} (hd : 0 < d) (h : fin 0 < x / fin d) : fin 0 < x := by
  cases x with
  | nan => simp at h
  | pinf => trivial
  | ninf =>
    rw [show (ninf : XR) / fin d = if d < 0 then pinf else ninf from rfl, if_neg (not_lt.mpr hd.le)] at h
    exact h
  | fin x =>
    rw [fin_div _ hd.ne', fin_lt] at h
    rw [fin_lt]
    exact (div_pos_iff_of_pos_right hd).mp h

theorem lt_of_sub_pos {a b : XR} (h : fin 0 < a - b) : b < a := by
  cases a <;> cases b <;> first
    | trivial
    | exact absurd h id
    | (rw [fin_sub, fin_lt] at h; rw [fin_lt]; linarith)

theorem lt_of_le_fin {a : ℝ} {x : XR} (ha : 0 < a) (h : fin a ≤ x) : fin 0 < x := by
  cases x with
  | nan => exact h
  | pinf => trivial
  | ninf => exact h
  | fin x => rw [fin_le] at h; rw [fin_lt]; linarith

theorem not_le_lt {a : ℝ} {x : XR} (hx : x ≠ nan) (h : ¬ fin a ≤ x) : x < fin a := by
  cases x with
  | nan => exact absurd rfl hx
  | pinf => exact absurd trivial h
  | ninf => trivial
  | fin x => rw [fin_le, not_le] at h; rwa [fin_lt]

end

namespace FlConf

variable {F : Fmt} {c : TRConf} (h : FlConf F c)
include h

theorem mins : F.const c.min_tr_radius = fin (F.rndR c.min_tr_radius) :=
  F.const_fin (by
    have h0 : (0 : ℝ) < 2 ^ (F.emin + F.p) := by positivity
    rw [abs_of_pos (lt_of_lt_of_le h0 h.min_pos)]
    exact h.min_le.trans (h.le_max.trans h.max_top))

theorem inits : F.const c.init_tr_radius = fin (F.rndR c.init_tr_radius) :=
  F.const_fin (by
    have h0 : (0 : ℝ) < 2 ^ (F.emin + F.p) := by positivity
    rw [abs_of_pos (lt_of_lt_of_le h0 (h.min_pos.trans h.min_le))]
    exact h.le_max.trans h.max_top)

theorem maxs : F.const c.max_tr_radius = fin (F.rndR c.max_tr_radius) :=
  F.const_fin (by
    have h0 : (0 : ℝ) < 2 ^ (F.emin + F.p) := by positivity
    rw [abs_of_pos (lt_of_lt_of_le h0 (h.min_pos.trans (h.min_le.trans h.le_max)))]
    exact h.max_top)

theorem accepts : F.const c.rho_accept = fin (F.rndR c.rho_accept) :=
  F.const_fin (by
    have h0 : (0 : ℝ) < 2 ^ (F.emin + F.p) := by positivity
    rw [abs_of_pos (lt_of_lt_of_le h0 h.accept_pos)]
    exact h.accept_le.trans (h.decrease_le.trans F.one_le_max))

theorem decreases : F.const c.rho_decrease = fin (F.rndR c.rho_decrease) :=
  F.const_fin (by
    have h0 : (0 : ℝ) < 2 ^ (F.emin + F.p) := by positivity
    rw [abs_of_pos (lt_of_lt_of_le h0 (h.accept_pos.trans h.accept_le))]
    exact h.decrease_le.trans F.one_le_max)

theorem factors : F.const c.decrease_factor = fin (F.rndR c.decrease_factor) :=
  F.const_fin (by
    rw [abs_of_nonneg h.factor_pos]
    exact h.factor_le.trans (by linarith [F.one_le_max]))

theorem incs : F.const c.increase_factor = fin (F.rndR c.increase_factor) :=
  F.const_fin (by rw [abs_of_nonneg (by linarith [h.inc_ge])]; exact h.inc_le)

theorem factor_half : F.rndR c.decrease_factor ≤ 1 / 2 := by
  have := F.rndR_le (z := 1 / 2) (by
    have := F.rep_two_zpow (k := -1) (by have := F.hmin; have := F.hp; omega)
    norm_num at this ⊢; exact this) h.factor_le
  exact this

theorem min_normal : (2 : ℝ) ^ (F.emin + F.p) ≤ F.rndR c.min_tr_radius :=
  F.le_rndR (F.rep_two_zpow (by omega)) h.min_pos

theorem accept_normal : (2 : ℝ) ^ (F.emin + F.p) ≤ F.rndR c.rho_accept :=
  F.le_rndR (F.rep_two_zpow (by omega)) h.accept_pos

/-- What `update_tr_radius` returns. -/
theorem radius {r : ℝ} (hr : F.Rep r) (h1 : F.rndR c.min_tr_radius ≤ r) (h2 : r ≤ F.rndR c.max_tr_radius) (rho stepsize : XR) :
    ∃ r' : ℝ, updateTrRadiusFl F (fin r) c.max_tr_radius c.min_tr_radius rho stepsize c.rho_increase c.rho_decrease
        c.increase_factor c.decrease_factor = fin r' ∧ F.Rep r' ∧ F.rndR c.min_tr_radius ≤ r' ∧ r' ≤ F.rndR c.max_tr_radius ∧
      (rho < F.const c.rho_decrease → r' = max (F.rndR (r * F.rndR c.decrease_factor)) (F.rndR c.min_tr_radius) ∧
        r' ≤ max (3 / 4 * r) (F.rndR c.min_tr_radius)) ∧
      (rho = nan → r' = r) := by
  have hpos : (0 : ℝ) < 2 ^ (F.emin + F.p) := by positivity
  have hr0 : 0 < r := lt_of_lt_of_le hpos (h.min_normal.trans h1)
  have hmm : F.rndR c.min_tr_radius ≤ F.rndR c.max_tr_radius := h1.trans h2
  have hmaxle : F.rndR c.max_tr_radius ≤ 2 ^ F.emax := F.rndR_le (F.rep_two_zpow F.emin_le) h.max_top
  have hhalf := h.factor_half
  have hfac0 : 0 ≤ F.rndR c.decrease_factor := F.rndR_nonneg h.factor_pos
  unfold updateTrRadiusFl
  simp only [h.mins, h.maxs, h.factors, h.incs]
  by_cases hd : rho < F.const c.rho_decrease
  · have hle : r * F.rndR c.decrease_factor ≤ r / 2 := by nlinarith
    have hmul : F.mul (fin r) (fin (F.rndR c.decrease_factor)) = fin (F.rndR (r * F.rndR c.decrease_factor)) := by
      rw [Fmt.mul, fin_mul, F.rnd_fin]
      rw [abs_of_nonneg (by positivity)]
      linarith
    rw [if_pos hd, hmul, fin_max]
    have hbound : F.rndR (r * F.rndR c.decrease_factor) ≤ 3 / 4 * r := by
      refine (F.rndR_mono hle).trans ?_
      have hp := F.hp
      have e1 : (2 : ℝ) ^ (F.emin + ((F.p : ℤ) - 1)) ≤ |r / 2| := by
        rw [abs_of_pos (by positivity), le_div_iff₀ (by norm_num), ← zpow_add_one₀ (by norm_num)]
        refine le_trans (le_of_eq ?_) (h.min_normal.trans h1)
        congr 1; ring
      have e2 := (abs_le.mp (F.rndR_rel e1)).2
      rw [abs_of_pos (by positivity : (0 : ℝ) < r / 2)] at e2
      have e3 : (2 : ℝ) ^ (-(F.p : ℤ)) ≤ 2 ^ (-1 : ℤ) := zpow_le_zpow_right₀ (by norm_num) (by omega)
      have e4 : r / 2 * (2 : ℝ) ^ (-(F.p : ℤ)) ≤ r / 2 * 2 ^ (-1 : ℤ) := by gcongr
      rw [show (2 : ℝ) ^ (-1 : ℤ) = 1 / 2 by norm_num] at e4
      linarith
    refine ⟨_, rfl, ?_, le_max_right _ _, max_le ?_ hmm, fun _ => ⟨rfl, max_le_max hbound le_rfl⟩, ?_⟩
    · rcases max_choice (F.rndR (r * F.rndR c.decrease_factor)) (F.rndR c.min_tr_radius) with e | e <;> rw [e] <;>
        exact F.rep_rndR _
    · linarith
    · rintro rfl
      simp at hd
  · rw [if_neg hd]
    by_cases hi : F.const c.rho_increase < rho ∧ iscloseFl F stepsize (fin r)
    · rw [if_pos hi]
      have hinc : 1 ≤ F.rndR c.increase_factor := by
        have := F.le_rndR (x := c.increase_factor) (z := 1) (by
          simpa using F.rep_two_zpow (k := 0) (by have := F.hmin; omega)) h.inc_ge
        exact this
      have hmin : ∃ m : ℝ, minimum (F.mul (fin r) (fin (F.rndR c.increase_factor))) (fin (F.rndR c.max_tr_radius)) = fin m ∧
          F.Rep m ∧ m ≤ F.rndR c.max_tr_radius := by
        rw [Fmt.mul, fin_mul, Fmt.rnd]
        split_ifs with hov
        · rw [fin_min]
          refine ⟨_, rfl, ?_, min_le_right _ _⟩
          rcases min_choice (F.rndR (r * F.rndR c.increase_factor)) (F.rndR c.max_tr_radius) with e | e <;> rw [e] <;>
            exact F.rep_rndR _
        · have hp : 0 < r * F.rndR c.increase_factor := by positivity
          rw [infSign, if_pos hp]
          refine ⟨F.rndR c.max_tr_radius, ?_, F.rep_rndR _, le_rfl⟩
          rw [minimum, if_neg] <;> simp [show ¬ (pinf : XR) ≤ fin (F.rndR c.max_tr_radius) from id]
      obtain ⟨m, hm, hrep, hle⟩ := hmin
      rw [hm, fin_max]
      refine ⟨_, rfl, ?_, le_max_right _ _, max_le hle hmm, fun h' => absurd h' hd, ?_⟩
      · rcases max_choice m (F.rndR c.min_tr_radius) with e | e <;> rw [e]
        · exact hrep
        · exact F.rep_rndR _
      · rintro rfl
        simp at hi
    · rw [if_neg hi, fin_max, max_eq_left h1]
      exact ⟨r, rfl, hr, h1, h2, fun h' => absurd h' hd, fun _ => rfl⟩

end FlConf

theorem updateFl_frozen (F : Fmt) (c : TRConf) (f : Computed n A) (x : Vec n) (s : TrState n A)
    (h : s.tr_radius ≤ F.const c.min_tr_radius) : TR.updateFl F c f x s = ⟨x, s⟩ := by
  simp only [TR.updateFl, if_pos h]

/-- The radius is a number of the format within the (rounded) bounds of the configuration, after any number of updates, whatever
is computed: also if values of the objective, steps or predictions are `nan` or infinite. -/
theorem C152_radius (F : Fmt) (c : TRConf) (hc : FlConf F c) (f : Computed n A) (x₀ : Vec n) (k : ℕ) :
    ∃ r : ℝ, (TR.updatesFl F c f (TR.startFl F c f x₀) k).state.tr_radius = fin r ∧ F.Rep r ∧
      F.rndR c.min_tr_radius ≤ r ∧ r ≤ F.rndR c.max_tr_radius := by
  induction k with
  | zero => exact ⟨_, hc.inits, F.rep_rndR _, F.rndR_mono hc.min_le, F.rndR_mono hc.le_max⟩
  | succ k ih =>
    obtain ⟨r, hr, hrep, h1, h2⟩ := ih
    by_cases hfr : (TR.updatesFl F c f (TR.startFl F c f x₀) k).state.tr_radius ≤ F.const c.min_tr_radius
    · rw [TR.updatesFl, updateFl_frozen _ _ _ _ _ hfr]
      exact ⟨r, hr, hrep, h1, h2⟩
    · obtain ⟨r', h3, h4, h5, h6, -, -⟩ := hc.radius hrep h1 h2
        (F.div (F.sub (f.value (TR.updatesFl F c f (TR.startFl F c f x₀) k).params) (f.value fun i =>
          F.add ((TR.updatesFl F c f (TR.startFl F c f x₀) k).params i)
            ((f.subproblem (TR.updatesFl F c f (TR.startFl F c f x₀) k).params
              (TR.updatesFl F c f (TR.startFl F c f x₀) k).state).p i)))
          (f.denom (TR.updatesFl F c f (TR.startFl F c f x₀) k).params
            (f.subproblem (TR.updatesFl F c f (TR.startFl F c f x₀) k).params
              (TR.updatesFl F c f (TR.startFl F c f x₀) k).state).p))
        (f.subproblem (TR.updatesFl F c f (TR.startFl F c f x₀) k).params
              (TR.updatesFl F c f (TR.startFl F c f x₀) k).state).step_length
      refine ⟨r', ?_, h4, h5, h6⟩
      rw [← h3, ← hr, TR.updatesFl, TR.updateFl, if_neg hfr]
      dsimp only
      split_ifs <;> rfl

/-- At the minimal radius nothing changes any more. The comparison is exact: a radius which was set to the minimal radius is
recognised. -/
theorem C152_frozen (F : Fmt) (c : TRConf) (f : Computed n A) (s : OptStep n A)
    (h : s.state.tr_radius ≤ F.const c.min_tr_radius) (k : ℕ) : TR.updatesFl F c f s k = s := by
  induction k with
  | zero => rfl
  | succ k ih => rw [TR.updatesFl, ih, updateFl_frozen _ _ _ _ _ h]

/-- The trial point. -/
noncomputable def trialFl (F : Fmt) (f : Computed n A) (x : Vec n) (s : TrState n A) : Vec n :=
  fun i => F.add (x i) ((f.subproblem x s).p i)

/-- The ratio. -/
noncomputable def ratioFl (F : Fmt) (f : Computed n A) (x : Vec n) (s : TrState n A) : XR :=
  F.div (F.sub (f.value x) (f.value (trialFl F f x s))) (f.denom x (f.subproblem x s).p)

theorem updateFl_accept (F : Fmt) (c : TRConf) (f : Computed n A) (x : Vec n) (s : TrState n A)
    (hfr : ¬ s.tr_radius ≤ F.const c.min_tr_radius) (h : (TR.updateFl F c f x s).state.accepted) :
    F.const c.rho_accept ≤ ratioFl F f x s ∧ (TR.updateFl F c f x s).params = trialFl F f x s ∧
      (TR.updateFl F c f x s).state.value = f.value (trialFl F f x s) := by
  by_cases ha : F.const c.rho_accept ≤ ratioFl F f x s
  · refine ⟨ha, ?_⟩
    rw [TR.updateFl, if_neg hfr]
    dsimp only
    rw [if_pos (by exact ha)]
    exact ⟨rfl, rfl⟩
  · rw [TR.updateFl, if_neg hfr] at h
    dsimp only at h
    rw [if_neg (by exact ha)] at h
    exact h.elim

theorem updateFl_reject (F : Fmt) (c : TRConf) (f : Computed n A) (x : Vec n) (s : TrState n A)
    (hfr : ¬ s.tr_radius ≤ F.const c.min_tr_radius) (h : ¬ (TR.updateFl F c f x s).state.accepted) :
    ¬ F.const c.rho_accept ≤ ratioFl F f x s ∧ (TR.updateFl F c f x s).params = x ∧
      (TR.updateFl F c f x s).state.value = f.value x ∧ (TR.updateFl F c f x s).state.rho = ratioFl F f x s ∧
      (TR.updateFl F c f x s).state.tr_radius = updateTrRadiusFl F s.tr_radius c.max_tr_radius c.min_tr_radius (ratioFl F f x s)
        (f.subproblem x s).step_length c.rho_increase c.rho_decrease c.increase_factor c.decrease_factor := by
  by_cases ha : F.const c.rho_accept ≤ ratioFl F f x s
  · rw [TR.updateFl, if_neg hfr] at h
    dsimp only at h
    rw [if_pos (by exact ha)] at h
    exact absurd trivial h
  · refine ⟨ha, ?_⟩
    rw [TR.updateFl, if_neg hfr]
    dsimp only
    rw [if_neg (by exact ha)]
    exact ⟨rfl, rfl, rfl, rfl⟩

/-- A step is only accepted if the computed value of the objective gets strictly smaller, provided that the computed prediction is
positive. The values may be anything, also infinite. -/
theorem C152_accepted (F : Fmt) (c : TRConf) (hc : FlConf F c) (f : Computed n A) (x : Vec n) (s : TrState n A) (d : ℝ)
    (hfr : ¬ s.tr_radius ≤ F.const c.min_tr_radius) (hd : 0 < d) (hden : f.denom x (f.subproblem x s).p = fin d)
    (hacc : (TR.updateFl F c f x s).state.accepted) :
    f.value (TR.updateFl F c f x s).params < f.value x ∧
      (TR.updateFl F c f x s).params = (fun i => F.add (x i) ((f.subproblem x s).p i)) ∧
      (TR.updateFl F c f x s).state.value = f.value (TR.updateFl F c f x s).params := by
  obtain ⟨h1, h2, h3⟩ := updateFl_accept F c f x s hfr hacc
  refine ⟨?_, h2, by rw [h3, h2]⟩
  rw [h2]
  rw [hc.accepts, ratioFl, hden, Fmt.div] at h1
  have h0 : (0 : ℝ) < 2 ^ (F.emin + F.p) := by positivity
  exact lt_of_sub_pos (F.pos_of_rnd (pos_of_div hd (F.pos_of_rnd (lt_of_le_fin (lt_of_lt_of_le h0 hc.accept_normal) h1))))

/-- The decrease of the computed objective is at least the fraction `rho_accept` of the computed prediction, up to the error of two
roundings. -/
theorem C152_decrease (F : Fmt) (c : TRConf) (hc : FlConf F c) (f : Computed n A) (x : Vec n) (s : TrState n A) (d v w : ℝ)
    (hfr : ¬ s.tr_radius ≤ F.const c.min_tr_radius) (hd : 0 < d) (hdm : d < 2 ^ (F.emax + 1))
    (hden : f.denom x (f.subproblem x s).p = fin d)
    (hacc : (TR.updateFl F c f x s).state.accepted) (hv : f.value x = fin v) (hw : f.value (TR.updateFl F c f x s).params = fin w)
    (hvr : F.Rep v) (hwr : F.Rep w) :
    F.rndR c.rho_accept * d ≤ (1 + 2 ^ (-(F.p : ℤ))) ^ 2 * (v - w) := by
  have hlt := (C152_accepted F c hc f x s d hfr hd hden hacc).1
  rw [hv, hw, fin_lt] at hlt
  obtain ⟨h1, h2, h3⟩ := updateFl_accept F c f x s hfr hacc
  rw [h2] at hw
  rw [hc.accepts, ratioFl, hden, hv, hw, Fmt.div, Fmt.sub, fin_sub] at h1
  have h0 : (0 : ℝ) < 2 ^ (F.emin + F.p) := by positivity
  have hn := hc.accept_normal
  have ha1 : F.rndR c.rho_accept ≤ 1 :=
    F.rndR_le (by simpa using F.rep_two_zpow (k := 0) (by have := F.hmin; omega)) (hc.accept_le.trans hc.decrease_le)
  set u : ℝ := 2 ^ (-(F.p : ℤ)) with hu
  have hu0 : 0 < u := by positivity
  set a := F.rndR c.rho_accept with hadef
  have hsub : F.rndR (v - w) ≤ (1 + u) * (v - w) := by
    have := (abs_le.mp (F.rndR_add hvr hwr.neg)).2
    rw [← sub_eq_add_neg, abs_of_pos (by linarith : 0 < v - w)] at this
    linarith
  have hsub0 : 0 ≤ F.rndR (v - w) := F.rndR_nonneg (by linarith)
  have ha0 : 0 < a := lt_of_lt_of_le h0 hn
  by_cases hov : |F.rndR (v - w)| < 2 ^ (F.emax + 1)
  · rw [Fmt.rnd, if_pos hov, fin_div _ hd.ne'] at h1
    have hq : a ≤ F.rndR (F.rndR (v - w) / d) := by
      rw [Fmt.rnd] at h1
      split_ifs at h1 with hov2
      · exact h1
      · have h5 : (2 : ℝ) ^ (F.emax + 1) ≤ F.rndR (F.rndR (v - w) / d) := by
          rwa [not_lt, abs_of_nonneg (F.rndR_nonneg (div_nonneg hsub0 hd.le))] at hov2
        have h6 : (1 : ℝ) ≤ 2 ^ (F.emax + 1) := one_le_zpow₀ (by norm_num) (by have := F.hmax; omega)
        linarith
    set q := F.rndR (v - w) / d with hqdef
    have hq0 : 0 ≤ q := div_nonneg hsub0 hd.le
    have hqn : (2 : ℝ) ^ (F.emin + ((F.p : ℤ) - 1)) ≤ |q| := by
      rw [abs_of_nonneg hq0]
      by_contra hcon
      push Not at hcon
      have h7 := F.rndR_le (F.rep_two_zpow (k := F.emin + ((F.p : ℤ) - 1)) (by have := F.hp; omega)) hcon.le
      have h8 : (2 : ℝ) ^ (F.emin + ((F.p : ℤ) - 1)) < 2 ^ (F.emin + F.p) := zpow_lt_zpow_right₀ (by norm_num) (by omega)
      linarith
    have h9 := (abs_le.mp (F.rndR_rel hqn)).2
    rw [abs_of_nonneg hq0] at h9
    have h10 : a ≤ (1 + u) * q := by linarith
    calc a * d ≤ (1 + u) * q * d := by gcongr
      _ = (1 + u) * F.rndR (v - w) := by rw [hqdef]; field_simp
      _ ≤ (1 + u) * ((1 + u) * (v - w)) := by gcongr
      _ = _ := by ring
  · rw [not_lt, abs_of_nonneg hsub0] at hov
    have h6 : d ≤ (1 + u) * (v - w) := by linarith
    calc a * d ≤ 1 * d := by gcongr
      _ ≤ (1 + u) * (v - w) := by linarith
      _ ≤ (1 + u) * ((1 + u) * (v - w)) := by
        have : (1 + u) * (v - w) ≤ (1 + u) * (v - w) + u * ((1 + u) * (v - w)) := by
          have : 0 ≤ u * ((1 + u) * (v - w)) := mul_nonneg hu0.le (mul_nonneg (by linarith) (by linarith))
          linarith
        linarith
      _ = _ := by ring

/-- A rejected step keeps the parameters. Unless the ratio is `nan`, the radius shrinks by a quarter at least or is the minimal
radius, and then the solver is frozen. -/
theorem C152_rejected (F : Fmt) (c : TRConf) (hc : FlConf F c) (f : Computed n A) (x : Vec n) (s : TrState n A) (r : ℝ)
    (hs : s.tr_radius = fin r) (hr : F.Rep r) (h1 : F.rndR c.min_tr_radius < r) (h2 : r ≤ F.rndR c.max_tr_radius)
    (hrej : ¬ (TR.updateFl F c f x s).state.accepted) :
    (TR.updateFl F c f x s).params = x ∧ (TR.updateFl F c f x s).state.value = f.value x ∧
    ((TR.updateFl F c f x s).state.rho ≠ nan →
      ∃ r' : ℝ, (TR.updateFl F c f x s).state.tr_radius = fin r' ∧
        r' = max (F.rndR (r * F.rndR c.decrease_factor)) (F.rndR c.min_tr_radius) ∧
        r' ≤ max (3 / 4 * r) (F.rndR c.min_tr_radius)) ∧
    ((TR.updateFl F c f x s).state.rho = nan → (TR.updateFl F c f x s).state.tr_radius = fin r) := by
  have hfr : ¬ s.tr_radius ≤ F.const c.min_tr_radius := by
    rw [hs, hc.mins, fin_le]; exact not_le.mpr h1
  obtain ⟨h3, h4, h5, h6, h7⟩ := updateFl_reject F c f x s hfr hrej
  obtain ⟨r', h8, -, -, -, h9, h10⟩ := hc.radius hr h1.le h2 (ratioFl F f x s) (f.subproblem x s).step_length
  rw [hs] at h7
  refine ⟨h4, h5, fun hn => ⟨r', by rw [h7, h8], ?_⟩, fun hn => ?_⟩
  · rw [h6] at hn
    apply h9
    rw [hc.accepts] at h3
    have h11 := not_le_lt hn h3
    rw [hc.decreases]
    have h12 := F.rndR_mono hc.accept_le
    revert h11
    cases ratioFl F f x s with
    | nan => exact id
    | pinf => exact fun h => h.elim
    | ninf => exact fun _ => trivial
    | fin q => rw [fin_lt, fin_lt]; exact fun h => lt_of_lt_of_le h h12
  · rw [h6] at hn
    rw [h7, h8, h10 hn]

/-- Numbers which an objective can have in a format: finite numbers and `inf`. -/
def Fmt.Value (F : Fmt) (y : XR) : Prop := y = pinf ∨ ∃ v, F.Num v ∧ y = fin v

section
variable {F : Fmt} {c : TRConf} {f : Computed n A}

theorem ratio_ne_nan {x : Vec n} {s : TrState n A} {v d : ℝ} (hv : f.value x = fin v) (ht : F.Value (f.value (trialFl F f x s)))
    (hd : 0 < d) (hden : f.denom x (f.subproblem x s).p = fin d) : ratioFl F f x s ≠ nan := by
  rw [ratioFl, hden, hv, Fmt.div]
  apply F.rnd_ne_nan
  have hnom : F.sub (fin v) (f.value (trialFl F f x s)) ≠ nan := by
    apply F.rnd_ne_nan
    rcases ht with h | ⟨w, -, h⟩ <;> rw [h]
    · rw [show (fin v : XR) - pinf = ninf from rfl]; simp
    · simp
  revert hnom
  cases F.sub (fin v) (f.value (trialFl F f x s)) with
  | nan => exact fun h => absurd rfl h
  | pinf =>
    intro _
    rw [show (pinf : XR) / fin d = if d < 0 then ninf else pinf from rfl, if_neg (not_lt.mpr hd.le)]; simp
  | ninf =>
    intro _
    rw [show (ninf : XR) / fin d = if d < 0 then pinf else ninf from rfl, if_neg (not_lt.mpr hd.le)]; simp
  | fin a => intro _; rw [fin_div _ hd.ne']; simp

end

/-- In floating point arithmetic the solver always comes to rest: as long as the computed predictions are positive, the computed
objective never increases and after finitely many updates the radius is the minimal radius, from where nothing changes any more.
This holds for every objective whose values are numbers of the format or `inf`. -/
theorem C152_terminates (F : Fmt) (c : TRConf) (hc : FlConf F c) (f : Computed n A) (hf : ∀ x, F.Value (f.value x)) (x₀ : Vec n)
    (h0 : f.value x₀ ≠ pinf)
    (hpred : ∀ k, (TR.updatesFl F c f (TR.startFl F c f x₀) k).state.tr_radius ≤ F.const c.min_tr_radius ∨
      ∃ d : ℝ, 0 < d ∧ f.denom (TR.updatesFl F c f (TR.startFl F c f x₀) k).params
        (f.subproblem (TR.updatesFl F c f (TR.startFl F c f x₀) k).params (TR.updatesFl F c f (TR.startFl F c f x₀) k).state).p = fin d) :
    (∀ k, f.value (TR.updatesFl F c f (TR.startFl F c f x₀) (k + 1)).params ≤
      f.value (TR.updatesFl F c f (TR.startFl F c f x₀) k).params) ∧
    ∃ N, ∀ k, N ≤ k → TR.updatesFl F c f (TR.startFl F c f x₀) k = TR.updatesFl F c f (TR.startFl F c f x₀) N ∧
      (TR.updatesFl F c f (TR.startFl F c f x₀) k).state.tr_radius = F.const c.min_tr_radius := by
  set S := TR.updatesFl F c f (TR.startFl F c f x₀) with hS
  have hstep : ∀ k, S (k + 1) = TR.updateFl F c f (S k).params (S k).state := fun _ => rfl
  have hval : ∀ k, ∃ v, F.Num v ∧ f.value (S k).params = fin v ∧
      ∃ v', F.Num v' ∧ f.value (S (k + 1)).params = fin v' ∧ v' ≤ v ∧
        (¬ (S k).state.tr_radius ≤ F.const c.min_tr_radius → (S (k + 1)).state.accepted → v' < v) := by
    have key : ∀ k v, F.Num v → f.value (S k).params = fin v →
        ∃ v', F.Num v' ∧ f.value (S (k + 1)).params = fin v' ∧ v' ≤ v ∧
          (¬ (S k).state.tr_radius ≤ F.const c.min_tr_radius → (S (k + 1)).state.accepted → v' < v) := by
      intro k v hv hkv
      rcases hpred k with hfr | ⟨d, hd, hden⟩
      · refine ⟨v, hv, ?_, le_rfl, fun h => absurd hfr h⟩
        rw [hstep, updateFl_frozen _ _ _ _ _ hfr, hkv]
      by_cases hfr : (S k).state.tr_radius ≤ F.const c.min_tr_radius
      · refine ⟨v, hv, ?_, le_rfl, fun h => absurd hfr h⟩
        rw [hstep, updateFl_frozen _ _ _ _ _ hfr, hkv]
      by_cases hacc : (S (k + 1)).state.accepted
      · have h1 := (C152_accepted F c hc f _ _ d hfr hd hden hacc).1
        rw [← hstep, hkv] at h1
        rcases hf (S (k + 1)).params with h2 | ⟨w, hw, h2⟩
        · rw [h2] at h1; exact h1.elim
        · rw [h2, fin_lt] at h1
          exact ⟨w, hw, h2, h1.le, fun _ _ => h1⟩
      · have h1 := (updateFl_reject F c f _ _ hfr hacc).2.1
        refine ⟨v, hv, ?_, le_rfl, fun _ h => absurd h hacc⟩
        rw [hstep, h1, hkv]
    have base : ∀ k, ∃ v, F.Num v ∧ f.value (S k).params = fin v := by
      intro k
      induction k with
      | zero =>
        rcases hf (S 0).params with h | h
        · exact absurd h h0
        · exact h
      | succ k ih =>
        obtain ⟨v, hv, hkv⟩ := ih
        obtain ⟨v', h1, h2, -⟩ := key k v hv hkv
        exact ⟨v', h1, h2⟩
    intro k
    obtain ⟨v, hv, hkv⟩ := base k
    exact ⟨v, hv, hkv, key k v hv hkv⟩
  choose v hvn hvk v' hv'n hv'k hle hlt using hval
  have hvs : ∀ k, v' k = v (k + 1) := fun k => by
    have := (hv'k k).symm.trans (hvk (k + 1))
    rwa [fin_inj] at this
  simp only [hvs] at hle hlt
  have hanti : Antitone v := antitone_nat_of_succ_le hle
  refine ⟨fun k => by rw [hvk, hvk, fin_le]; exact hle k, ?_⟩
  -- the values do not change after a while
  obtain ⟨N, hN⟩ : ∃ N, ∀ k, N ≤ k → v k = v N := by
    have hfin : (Set.range v).Finite := F.finite_num.subset (by rintro _ ⟨k, rfl⟩; exact hvn k)
    obtain ⟨m, ⟨N, rfl⟩, hm⟩ := Set.exists_min_image (Set.range v) id hfin ⟨v 0, 0, rfl⟩
    exact ⟨N, fun k hk => le_antisymm (hanti hk) (hm _ ⟨k, rfl⟩)⟩
  have hrad := C152_radius F c hc f x₀
  have hpos : 0 < F.rndR c.min_tr_radius := lt_of_lt_of_le (by positivity) hc.min_normal
  -- it freezes
  obtain ⟨M, hM⟩ : ∃ M, (S M).state.tr_radius ≤ F.const c.min_tr_radius := by
    by_contra hcon
    push Not at hcon
    choose r hr hrep hr1 hr2 using hrad
    have hshrink : ∀ k, N ≤ k → r (k + 1) ≤ 3 / 4 * r k := by
      intro k hk
      have hrk : F.rndR c.min_tr_radius < r k := by
        have := hcon k
        rw [hr, hc.mins, fin_le] at this
        exact not_le.mp this
      have hrk' : F.rndR c.min_tr_radius < r (k + 1) := by
        have := hcon (k + 1)
        rw [hr, hc.mins, fin_le] at this
        exact not_le.mp this
      have hnacc : ¬ (S (k + 1)).state.accepted := fun hacc => by
        have := hlt k (hcon k) hacc
        rw [hN k hk, hN (k + 1) (by omega)] at this
        exact lt_irrefl _ this
      obtain ⟨d, hd, hden⟩ := (hpred k).resolve_left (hcon k)
      have hnn := ratio_ne_nan (hvk k) (hf _) hd hden
      have hrho := (updateFl_reject F c f _ _ (hcon k) hnacc).2.2.2.1
      obtain ⟨-, -, h3, -⟩ := C152_rejected F c hc f _ _ _ (hr k) (hrep k) hrk (hr2 k) hnacc
      obtain ⟨r', h4, -, h5⟩ := h3 (by rw [hrho]; exact hnn)
      have h6 : r' = r (k + 1) := by
        have := h4.symm.trans (hr (k + 1))
        rwa [fin_inj] at this
      rw [h6] at h5
      rcases le_max_iff.mp h5 with h7 | h7
      · exact h7
      · exact absurd h7 (not_le.mpr hrk')
    have hgeo : ∀ j, r (N + j) ≤ (3 / 4) ^ j * r N := by
      intro j
      induction j with
      | zero => simp
      | succ j ih =>
        have := hshrink (N + j) (by omega)
        rw [← add_assoc, pow_succ]
        linarith
    have hrN : 0 < r N := lt_of_lt_of_le hpos (hr1 N)
    obtain ⟨j, hj⟩ := exists_pow_lt_of_lt_one (div_pos hpos hrN) (show (3 / 4 : ℝ) < 1 by norm_num)
    rw [lt_div_iff₀ hrN] at hj
    have := hgeo j
    have := hr1 (N + j)
    linarith
  refine ⟨M, fun k hk => ?_⟩
  have hconst : ∀ j, S (M + j) = S M := by
    intro j
    induction j with
    | zero => rfl
    | succ j ih =>
      rw [← add_assoc, hstep, ih, updateFl_frozen _ _ _ _ _ hM]
  obtain ⟨j, rfl⟩ := Nat.exists_eq_add_of_le hk
  refine ⟨hconst j, ?_⟩
  rw [hconst j]
  obtain ⟨r, hr, -, h1, -⟩ := hrad M
  have hM' := hM
  rw [hr, hc.mins, fin_le] at hM'
  rw [hr, hc.mins, fin_inj]
  exact le_antisymm hM' h1

/-- The default configuration in single precision. -/
theorem flConf_default : FlConf Fmt.single TRConf.default := by
  constructor <;> norm_num [TRConf.default, Fmt.single]

example (f : Computed 2 Unit) (s : OptStep 2 Unit) (hs : s.state.tr_radius = fin 0) (k : ℕ) :
    TR.updatesFl Fmt.single .default f s k = s := by
  refine C152_frozen Fmt.single .default f s ?_ k
  rw [hs, flConf_default.mins, fin_le]
  exact Fmt.single.le_rndR Fmt.single.rep_zero (by norm_num [TRConf.default])

/-- An objective with two values: the step leads to zero. -/
noncomputable def stepObjective (d : ℝ) : Computed 1 Unit where
  value x := by classical exact if x 0 = fin 0 then fin 0 else fin 1
  aux _ := ()
  grad x := x
  subproblem x s :=
    { iter_num := 1, converged := True, limit_step := True, step_length := 1, curvature := 1, p := fun i => -x i, eps := 1,
      norm_r := 0 }
  denom _ _ := fin d
  norm x := abs (x 0)

theorem stepObjective_value (d : ℝ) (x : Vec 1) : Fmt.single.Value ((stepObjective d).value x) := by
  refine .inr ?_
  unfold stepObjective
  dsimp only
  split_ifs
  · exact ⟨0, ⟨Fmt.single.rep_zero, by rw [abs_zero]; positivity⟩, rfl⟩
  · refine ⟨1, ⟨by simpa using Fmt.single.rep_two_zpow (k := 0) (by decide), ?_⟩, rfl⟩
    rw [abs_one]; exact one_lt_zpow₀ (by norm_num) (by decide)

example : ∃ N, ∀ k, N ≤ k →
    (TR.updatesFl Fmt.single .default (stepObjective 1) (TR.startFl Fmt.single .default (stepObjective 1) fun _ => fin 1) k).state.tr_radius =
      Fmt.single.const TRConf.default.min_tr_radius := by
  obtain ⟨-, N, hN⟩ := C152_terminates Fmt.single .default flConf_default (stepObjective 1) (stepObjective_value 1) (fun _ => fin 1)
    (by simp [stepObjective]) (fun k => .inr ⟨1, one_pos, rfl⟩)
  exact ⟨N, fun k hk => (hN k hk).2⟩

theorem startFl_unfrozen (f : Computed 1 Unit) (x : Vec 1) :
    ¬ (TR.startFl Fmt.single .default f x).state.tr_radius ≤ Fmt.single.const TRConf.default.min_tr_radius := by
  show ¬ Fmt.single.const TRConf.default.init_tr_radius ≤ _
  rw [flConf_default.mins, flConf_default.inits, fin_le, not_le]
  have e1 : Fmt.single.rndR TRConf.default.init_tr_radius = 1 := rndR_one _
  have e2 : Fmt.single.rndR TRConf.default.min_tr_radius ≤ 2 ^ (-1 : ℤ) :=
    Fmt.single.rndR_le (Fmt.single.rep_two_zpow (by decide)) (by norm_num [TRConf.default])
  rw [e1]
  exact lt_of_le_of_lt e2 (by norm_num)

theorem trialFl_step (f : Computed 1 Unit) (hf : f.subproblem = (stepObjective 1).subproblem) (x : ℝ) (s : TrState 1 Unit) :
    trialFl Fmt.single f (fun _ => fin x) s = fun _ => fin 0 := by
  funext i
  rw [trialFl, hf]
  show Fmt.single.rnd (fin x + -fin x) = fin 0
  rw [fin_neg, fin_add, add_neg_cancel, rnd_zero]

/-- The first step of the example is accepted. -/
theorem stepObjective_accepted : (TR.updateFl Fmt.single .default (stepObjective 1) (fun _ => fin 1)
    (TR.startFl Fmt.single .default (stepObjective 1) fun _ => fin 1).state).state.accepted := by
  classical
  have h1 : Fmt.single.rnd (fin 1) = fin 1 := rnd_one _
  by_contra h
  obtain ⟨h2, -⟩ := updateFl_reject _ _ _ _ _ (startFl_unfrozen _ _) h
  rw [ratioFl, trialFl_step _ rfl] at h2
  have hv : (stepObjective 1).value (fun _ => fin 1) = fin 1 := by simp [stepObjective]
  have hv' : (stepObjective 1).value (fun _ => fin 0) = fin 0 := by simp [stepObjective]
  rw [hv, hv', Fmt.sub, Fmt.div, fin_sub, sub_zero, h1, show (stepObjective 1).denom _ _ = fin 1 from rfl,
    fin_div _ one_ne_zero, div_one, h1, flConf_default.accepts, fin_le] at h2
  exact h2 (Fmt.single.rndR_le (by simpa using Fmt.single.rep_two_zpow (k := 0) (by decide)) (by norm_num [TRConf.default]))

example : Fmt.single.rndR TRConf.default.rho_accept * 1 ≤ (1 + 2 ^ (-(Fmt.single.p : ℤ))) ^ 2 * ((1 : ℝ) - 0) := by
  have hv' : (stepObjective 1).value (fun _ => fin 0) = fin 0 := by simp [stepObjective]
  refine C152_decrease Fmt.single .default flConf_default (stepObjective 1) (fun _ => fin 1) _ 1 1 0 (startFl_unfrozen _ _) one_pos
    (one_lt_zpow₀ (by norm_num) (by decide)) rfl stepObjective_accepted (by simp [stepObjective]) ?_
    (by simpa using Fmt.single.rep_two_zpow (k := 0) (by decide)) Fmt.single.rep_zero
  rw [(C152_accepted Fmt.single .default flConf_default (stepObjective 1) (fun _ => fin 1) _ 1 (startFl_unfrozen _ _) one_pos rfl
    stepObjective_accepted).2.1]
  exact (congrArg _ (trialFl_step (stepObjective 1) rfl 1 _)).trans hv'

/-- At the minimum the step is rejected and the radius is divided by four. -/
example : (TR.updateFl Fmt.single .default (stepObjective 1) (fun _ => fin 0)
    (TR.startFl Fmt.single .default (stepObjective 1) fun _ => fin 0).state).state.tr_radius ≠ fin 1 := by
  have hv' : (stepObjective 1).value (fun _ => fin 0) = fin 0 := by simp [stepObjective]
  have e1 : Fmt.single.rndR TRConf.default.init_tr_radius = 1 := rndR_one _
  have e2 : Fmt.single.rndR TRConf.default.min_tr_radius ≤ 2 ^ (-1 : ℤ) :=
    Fmt.single.rndR_le (Fmt.single.rep_two_zpow (by decide)) (by norm_num [TRConf.default])
  have e3 : Fmt.single.rndR TRConf.default.min_tr_radius < 1 := lt_of_le_of_lt e2 (by norm_num)
  have hr : ratioFl Fmt.single (stepObjective 1) (fun _ => fin 0)
      (TR.startFl Fmt.single .default (stepObjective 1) fun _ => fin 0).state = fin 0 := by
    rw [ratioFl, trialFl_step _ rfl, hv', Fmt.sub, Fmt.div, fin_sub, sub_zero, rnd_zero,
      show (stepObjective 1).denom _ _ = fin 1 from rfl, fin_div _ one_ne_zero, zero_div, rnd_zero]
  have hrej : ¬ (TR.updateFl Fmt.single .default (stepObjective 1) (fun _ => fin 0)
      (TR.startFl Fmt.single .default (stepObjective 1) fun _ => fin 0).state).state.accepted := fun h => by
    have := (updateFl_accept _ _ _ _ _ (startFl_unfrozen _ _) h).1
    rw [hr, flConf_default.accepts, fin_le] at this
    exact absurd (lt_of_lt_of_le (by positivity) flConf_default.accept_normal) (not_lt.mpr this)
  obtain ⟨-, -, h1, -⟩ := C152_rejected Fmt.single .default flConf_default (stepObjective 1) (fun _ => fin 0) _ 1
    (by rw [← e1]; exact flConf_default.inits) (by rw [← e1]; exact Fmt.single.rep_rndR _) e3
    (by rw [← e1]; exact Fmt.single.rndR_mono flConf_default.le_max) hrej
  obtain ⟨r', h2, -, h3⟩ := h1 (by rw [(updateFl_reject _ _ _ _ _ (startFl_unfrozen _ _) hrej).2.2.2.1, hr]; simp)
  rw [h2, Ne, fin_inj]
  rintro rfl
  rcases le_max_iff.mp h3 with h4 | h4
  · norm_num at h4
  · linarith

/-- If rounding errors make the prediction negative, then a step which increases the objective is accepted: the ratio of two negative
numbers is positive. -/
theorem C152_prediction_counterexample : ∃ (f : Computed 1 Unit) (x : Vec 1) (s : TrState 1 Unit),
    f.denom x (f.subproblem x s).p = fin (-1) ∧ (TR.updateFl Fmt.single .default f x s).state.accepted ∧
    f.value x < f.value (TR.updateFl Fmt.single .default f x s).params := by
  classical
  let f : Computed 1 Unit := { stepObjective (-1) with value := fun x => if x 0 = fin 0 then fin 1 else fin 0 }
  let s := (TR.startFl Fmt.single .default f fun _ => fin 1).state
  have h1 : Fmt.single.rnd (fin 1) = fin 1 := rnd_one _
  have hfr : ¬ s.tr_radius ≤ Fmt.single.const TRConf.default.min_tr_radius := startFl_unfrozen _ _
  have htr := trialFl_step f rfl 1 s
  have hrho : ratioFl Fmt.single f (fun _ => fin 1) s = fin 1 := by
    rw [ratioFl, htr]
    show Fmt.single.rnd (Fmt.single.rnd ((if fin 1 = fin 0 then fin 1 else fin 0) - (if fin 0 = fin 0 then fin 1 else fin 0)) / fin (-1)) = _
    rw [if_neg (by simp), if_pos rfl, fin_sub, zero_sub]
    have e : Fmt.single.rnd (fin (-1)) = fin (-1) := by
      rw [Fmt.single.rnd_rep]
      · have := (Fmt.single.rep_two_zpow (k := 0) (by decide)).neg
        simpa using this
      · rw [abs_neg, abs_one]; exact one_lt_zpow₀ (by norm_num) (by decide)
    rw [e, fin_div _ (by norm_num), div_self (by norm_num), h1]
  have hacc : (TR.updateFl Fmt.single .default f (fun _ => fin 1) s).state.accepted := by
    by_contra h
    obtain ⟨h2, -⟩ := updateFl_reject _ _ _ _ _ hfr h
    rw [hrho, flConf_default.accepts, fin_le] at h2
    refine h2 (Fmt.single.rndR_le (by simpa using Fmt.single.rep_two_zpow (k := 0) (by decide)) (by norm_num [TRConf.default]))
  refine ⟨f, fun _ => fin 1, s, rfl, hacc, ?_⟩
  rw [(updateFl_accept _ _ _ _ _ hfr hacc).2.1, htr]
  show (if fin 1 = fin 0 then fin 1 else fin 0) < (if fin 0 = fin 0 then fin 1 else fin 0)
  rw [if_neg (by simp), if_pos rfl, fin_lt]
  norm_num

end Verif
