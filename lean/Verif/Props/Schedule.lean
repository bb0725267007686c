import Verif.Model.Schedule
import Verif.Props.NanTraining
import Mathlib.Algebra.Order.Chebyshev
import Mathlib.Analysis.SpecialFunctions.Log.Basic
import Mathlib.Analysis.SpecialFunctions.Pow.Real
import Mathlib.Analysis.SpecificLimits.Basic

/-!
# C182: step sizes and size of the parameters in the training of `mumag3.ipynb`
-/

namespace Verif

open XR Micromag

theorem decay_eq {init T : ℝ} (hT : 0 < T) (n : ℕ) : exponentialDecay init T 0.1 n = init * (0.1 : ℝ) ^ ((n : ℝ) / T) := by
  rw [exponentialDecay, if_neg (by norm_num [hT.not_ge])]
  split_ifs with h
  · rw [h]; simp
  · rfl

theorem transition_pos {N B epochs R : ℕ} (hB : 1 ≤ B) (hBN : B ≤ N) (hE : 1 ≤ epochs) (hR : 1 ≤ R) : 0 < transitionSteps N B epochs R := by
  have h1 : 0 < N / B := Nat.div_pos hBN hB
  rw [transitionSteps]
  positivity

/-- **C182, step sizes.** The step sizes are positive, start with the given one and get strictly smaller. After a number of updates which is
the part `k / R` of all updates of the training they are `10 ^ k` times smaller; at the end of the training they are `10 ^ R` times smaller. -/
theorem C182_schedule {N B epochs R : ℕ} (hB : 1 ≤ B) (hBN : B ≤ N) (hE : 1 ≤ epochs) (hR : 1 ≤ R) {init : ℝ} (hi : 0 < init) :
    exponentialDecay init (transitionSteps N B epochs R) 0.1 0 = init ∧
    (∀ n, 0 < exponentialDecay init (transitionSteps N B epochs R) 0.1 n) ∧
    StrictAnti (exponentialDecay init (transitionSteps N B epochs R) 0.1) ∧
    (∀ n k : ℕ, n * R = k * (epochs * (N / B)) → exponentialDecay init (transitionSteps N B epochs R) 0.1 n = init / 10 ^ k) ∧
    exponentialDecay init (transitionSteps N B epochs R) 0.1 (epochs * (N / B)) = init / 10 ^ R := by
  have hT := transition_pos hB hBN hE hR
  have key : ∀ n k : ℕ, n * R = k * (epochs * (N / B)) → exponentialDecay init (transitionSteps N B epochs R) 0.1 n = init / 10 ^ k := by
    intro n k h
    have e : (n : ℝ) / transitionSteps N B epochs R = k := by
      rw [div_eq_iff hT.ne', transitionSteps]
      have h' : (n : ℝ) * R = k * (epochs * ((N / B : ℕ) : ℝ)) := by exact_mod_cast h
      have hR' : (R : ℝ) ≠ 0 := by positivity
      field_simp
      linarith
    rw [decay_eq hT, e, Real.rpow_natCast, show (0.1 : ℝ) = 10⁻¹ by norm_num, inv_pow, div_eq_mul_inv]
  refine ⟨?_, fun n => ?_, ?_, key, key _ _ (mul_comm _ _)⟩
  · rw [decay_eq hT]; simp
  · rw [decay_eq hT]; positivity
  · intro n m h
    simp only [decay_eq hT]
    refine mul_lt_mul_of_pos_left (Real.rpow_lt_rpow_of_exponent_gt (by norm_num) (by norm_num) ?_) hi
    exact div_lt_div_of_pos_right (by exact_mod_cast h) hT

/-- The training for the flower state with 1000 samples in batches of 100. -/
example : exponentialDecay 1e-5 (transitionSteps 1000 100 6000 3) 0.1 20000 = 1e-5 / 10 ∧
    exponentialDecay 1e-5 (transitionSteps 1000 100 6000 3) 0.1 60000 = 1e-5 / 10 ^ 3 := by
  obtain ⟨-, -, -, h1, h2⟩ := C182_schedule (N := 1000) (B := 100) (epochs := 6000) (R := 3) (by norm_num) (by norm_num) (by norm_num) (by norm_num)
    (init := 1e-5) (by norm_num)
  exact ⟨by simpa using h1 20000 1 (by norm_num), by simpa using h2⟩

/-- The sum of the step sizes of any number of updates. -/
theorem decay_sum {init T : ℝ} (hi : 0 ≤ init) (hT : 0 < T) (n : ℕ) :
    ∑ t ∈ Finset.range n, exponentialDecay init T 0.1 t ≤ init * (1 + T / Real.log 10) := by
  have hlog : 0 < Real.log 10 := Real.log_pos (by norm_num)
  set a := Real.log 10 / T with ha
  have ha0 : 0 < a := div_pos hlog hT
  have hx : ∀ t : ℕ, exponentialDecay init T 0.1 t = init * Real.exp (-a) ^ t := fun t => by
    rw [decay_eq hT, Real.rpow_def_of_pos (by norm_num), ← Real.exp_nat_mul, show (0.1 : ℝ) = 10⁻¹ by norm_num, Real.log_inv, ha]
    congr 2
    ring
  have h2 : Real.exp (-a) * (1 + a) ≤ 1 := by
    have := Real.add_one_le_exp a
    calc Real.exp (-a) * (1 + a) ≤ Real.exp (-a) * Real.exp a := mul_le_mul_of_nonneg_left (by linarith) (Real.exp_pos _).le
      _ = 1 := by rw [← Real.exp_add]; simp
  simp only [hx]
  rw [← Finset.mul_sum]
  refine mul_le_mul_of_nonneg_left ?_ hi
  have h3 : (∑ t ∈ Finset.range n, Real.exp (-a) ^ t) * (1 - Real.exp (-a)) = 1 - Real.exp (-a) ^ n := by
    rw [geom_sum_mul_neg]
  have h4 : 0 ≤ Real.exp (-a) ^ n := by positivity
  have h5 : 1 + T / Real.log 10 = (1 + a) / a := by
    rw [ha]
    field_simp
    ring
  rw [h5, le_div_iff₀ ha0]
  set S := ∑ t ∈ Finset.range n, Real.exp (-a) ^ t
  have hS : 0 ≤ S := Finset.sum_nonneg fun t _ => by positivity
  have h6 : a ≤ (1 - Real.exp (-a)) * (1 + a) := by linarith
  calc S * a ≤ S * ((1 - Real.exp (-a)) * (1 + a)) := mul_le_mul_of_nonneg_left h6 hS
    _ = (1 - Real.exp (-a) ^ n) * (1 + a) := by rw [← h3]; ring
    _ ≤ 1 * (1 + a) := mul_le_mul_of_nonneg_right (by linarith) (by linarith)
    _ = 1 + a := one_mul _

/-- The mean of the gradients compared with the mean of their squares, with the weights of `adamw`. -/
theorem expMean_le (g : ℕ → ℝ) (n : ℕ) : |expMean 0.9 g n| ≤ 11 * Real.sqrt (expMean 0.999 (fun k => g k ^ 2) n) := by
  have hcs : (∑ k ∈ Finset.range (n + 1), (0.9 : ℝ) ^ (n - k) * g k) ^ 2 ≤
      (∑ k ∈ Finset.range (n + 1), (0.81 / 0.999 : ℝ) ^ (n - k)) * ∑ k ∈ Finset.range (n + 1), (0.999 : ℝ) ^ (n - k) * g k ^ 2 := by
    refine Finset.sum_sq_le_sum_mul_sum_of_sq_le_mul _ (fun k _ => by positivity) (fun k _ => by positivity) fun k _ => le_of_eq ?_
    have e : ((0.9 : ℝ) ^ (n - k)) ^ 2 = (0.81 / 0.999) ^ (n - k) * 0.999 ^ (n - k) := by
      rw [← mul_pow, ← pow_mul, mul_comm (n - k) 2, pow_mul]
      norm_num
    rw [mul_pow, e, mul_assoc]
  have g1 := expGeom 0.9 n
  have g2 := expGeom 0.999 n
  have g3 := expGeom (0.81 / 0.999) n
  set S1 := ∑ k ∈ Finset.range (n + 1), (0.9 : ℝ) ^ (n - k) with hS1
  set S2 := ∑ k ∈ Finset.range (n + 1), (0.999 : ℝ) ^ (n - k) with hS2
  set S3 := ∑ k ∈ Finset.range (n + 1), (0.81 / 0.999 : ℝ) ^ (n - k) with hS3
  set G := ∑ k ∈ Finset.range (n + 1), (0.999 : ℝ) ^ (n - k) * g k ^ 2 with hG
  have hG0 : 0 ≤ G := Finset.sum_nonneg fun k _ => by positivity
  have p1 : 0 < S1 := Finset.sum_pos (fun k _ => by positivity) (by simp)
  have p2 : 0 < S2 := Finset.sum_pos (fun k _ => by positivity) (by simp)
  have p3 : 0 < S3 := Finset.sum_pos (fun k _ => by positivity) (by simp)
  have b2 : S2 ≤ 100 * S1 := by
    have : (0.9 : ℝ) ^ (n + 1) ≤ 0.999 ^ (n + 1) := pow_le_pow_left₀ (by norm_num) (by norm_num) _
    linarith
  have b3 : S3 ≤ 1.06 * S1 := by
    have h1 : (0.9 ^ (n + 1) : ℝ) ^ 2 ≤ (0.81 / 0.999) ^ (n + 1) := by
      rw [← pow_mul, mul_comm, pow_mul]
      exact pow_le_pow_left₀ (by norm_num) (by norm_num) _
    have h2 : (0.9 : ℝ) ^ (n + 1) ≤ 1 := pow_le_one₀ (by norm_num) (by norm_num)
    have h3 : 0 ≤ (0.9 : ℝ) ^ (n + 1) := by positivity
    nlinarith
  rw [← Real.sqrt_sq (show (0 : ℝ) ≤ 11 by norm_num), ← Real.sqrt_mul (by norm_num)]
  refine Real.abs_le_sqrt ?_
  show ((∑ k ∈ Finset.range (n + 1), (0.9 : ℝ) ^ (n - k) * g k) / S1) ^ 2 ≤ 11 ^ 2 * (G / S2)
  rw [div_pow, ← mul_div_assoc, div_le_div_iff₀ (by positivity) p2]
  calc _ ≤ S3 * G * S2 := mul_le_mul_of_nonneg_right hcs p2.le
    _ = S3 * S2 * G := by ring
    _ ≤ (1.06 * S1) * (100 * S1) * G := mul_le_mul_of_nonneg_right (mul_le_mul b3 b2 p2.le (by positivity)) hG0
    _ ≤ 11 ^ 2 * G * S1 ^ 2 := by
      have : 0 ≤ G * S1 ^ 2 := by positivity
      linarith

/-- **C182, size of the parameters.** As long as the gradients are finite, `adamw` moves no parameter away from zero by more than eleven times the sum
of the step sizes in a run of `U` updates, whatever the gradients are. -/
theorem C182_bounded {q : ℕ} (schedule : ℕ → ℝ) (h1 : ∀ n, 0 ≤ schedule n) (h2 : ∀ n, schedule n ≤ 10 ^ 4) (g p : ℕ → Fin q → ℝ) (s : ℕ → AdamState q)
    (h0 : s 0 = (adamw schedule).init (vfin (p 0)))
    {U : ℕ} (hs : ∀ n < U, s (n + 1) = ((adamw schedule).update (vfin (g n)) (s n) (vfin (p n))).2)
    (hp : ∀ n < U, ∀ j, fin (p (n + 1) j) = fin (p n j) + ((adamw schedule).update (vfin (g n)) (s n) (vfin (p n))).1 j) {n : ℕ} (hn : n ≤ U) (j : Fin q) :
    |p n j| ≤ |p 0 j| + 11 * ∑ t ∈ Finset.range n, schedule t := by
  induction n with
  | zero => simp
  | succ n ih =>
    have ih := ih (by omega)
    have e := hp n (by omega) j
    rw [C179_step schedule g p s h0 hs (by omega) j, fin_add, fin_inj] at e
    set m := expMean 0.9 (fun k => g k j) n with hm
    set v := Real.sqrt (expMean 0.999 (fun k => g k j ^ 2) n) with hv
    have hmv : |m| ≤ 11 * v := expMean_le (fun k => g k j) n
    have hv0 : 0 ≤ v := Real.sqrt_nonneg _
    have hq : |m / (v + 1e-8)| ≤ 11 := by
      rw [abs_div, abs_of_pos (show 0 < v + 1e-8 by positivity), div_le_iff₀ (by positivity)]
      linarith
    have hη := h1 n
    have hη2 := h2 n
    have e2 : p (n + 1) j = (1 - schedule n * 1e-4) * p n j - schedule n * (m / (v + 1e-8)) := by rw [e]; ring
    rw [Finset.sum_range_succ, e2]
    have hc : |1 - schedule n * 1e-4| ≤ 1 := by rw [abs_le]; constructor <;> linarith
    calc _ ≤ |(1 - schedule n * 1e-4) * p n j| + |schedule n * (m / (v + 1e-8))| := abs_sub _ _
      _ ≤ 1 * |p n j| + schedule n * 11 := by
        rw [abs_mul, abs_mul, abs_of_nonneg hη]
        exact add_le_add (mul_le_mul_of_nonneg_right hc (abs_nonneg _)) (mul_le_mul_of_nonneg_left hq hη)
      _ ≤ _ := by linarith

/-- One parameter, which is 1 at first, with the derivatives 3 and -5. -/
example (s : ℕ → AdamState 1) (p : ℕ → Fin 1 → ℝ) (h0 : s 0 = (adamw fun _ => 1e-3).init (vfin (p 0))) (hp0 : p 0 = fun _ => 1)
    (hs : ∀ n < 2, s (n + 1) = ((adamw fun _ => 1e-3).update (vfin (![fun _ => 3, fun _ => -5] (Fin.ofNat 2 n))) (s n) (vfin (p n))).2)
    (hp : ∀ n < 2, ∀ j, fin (p (n + 1) j) = fin (p n j) +
      ((adamw fun _ => 1e-3).update (vfin (![fun _ => 3, fun _ => -5] (Fin.ofNat 2 n))) (s n) (vfin (p n))).1 j) : |p 2 0| ≤ 1.022 := by
  refine (C182_bounded (fun _ => 1e-3) (fun _ => by norm_num) (fun _ => by norm_num) (fun n => ![fun _ => 3, fun _ => -5] (Fin.ofNat 2 n)) p s h0 hs hp le_rfl
    0).trans ?_
  rw [hp0]
  norm_num

/-- **C182, unused parameters.** A parameter whose derivative is always zero is multiplied by one minus `1e-4` times the step size in every update. -/
theorem C182_unused {q : ℕ} (schedule : ℕ → ℝ) (g p : ℕ → Fin q → ℝ) (s : ℕ → AdamState q) (h0 : s 0 = (adamw schedule).init (vfin (p 0)))
    {U : ℕ} (hs : ∀ n < U, s (n + 1) = ((adamw schedule).update (vfin (g n)) (s n) (vfin (p n))).2)
    (hp : ∀ n < U, ∀ j, fin (p (n + 1) j) = fin (p n j) + ((adamw schedule).update (vfin (g n)) (s n) (vfin (p n))).1 j) {j : Fin q}
    (hg : ∀ n < U, g n j = 0) {n : ℕ} (hn : n ≤ U) : p n j = p 0 j * ∏ t ∈ Finset.range n, (1 - 1e-4 * schedule t) := by
  induction n with
  | zero => simp
  | succ n ih =>
    have e := hp n (by omega) j
    have hm : expMean 0.9 (fun k => g k j) n = 0 := by
      rw [expMean, Finset.sum_eq_zero, zero_div]
      intro k hk
      rw [hg k (by have := Finset.mem_range.mp hk; omega), mul_zero]
    rw [C179_step schedule g p s h0 hs (by omega) j, fin_add, fin_inj, hm, zero_div, zero_add] at e
    rw [Finset.prod_range_succ, ← mul_assoc, ← ih (by omega), e]
    ring

/-- **C182, direction.** If all derivatives so far by a parameter are positive, the update makes it smaller than the weight decay alone does; if all are negative,
larger. -/
theorem C182_direction {q : ℕ} (schedule : ℕ → ℝ) (g p : ℕ → Fin q → ℝ) (s : ℕ → AdamState q) (h0 : s 0 = (adamw schedule).init (vfin (p 0)))
    {U : ℕ} (hs : ∀ n < U, s (n + 1) = ((adamw schedule).update (vfin (g n)) (s n) (vfin (p n))).2)
    (hp : ∀ n < U, ∀ j, fin (p (n + 1) j) = fin (p n j) + ((adamw schedule).update (vfin (g n)) (s n) (vfin (p n))).1 j) {j : Fin q} {n : ℕ} (hn : n < U)
    (hη : 0 < schedule n) :
    ((∀ k ≤ n, 0 < g k j) → p (n + 1) j < (1 - 1e-4 * schedule n) * p n j) ∧
    ((∀ k ≤ n, g k j < 0) → (1 - 1e-4 * schedule n) * p n j < p (n + 1) j) := by
  have e := hp n hn j
  rw [C179_step schedule g p s h0 hs hn.le j, fin_add, fin_inj] at e
  have hw : 0 < ∑ k ∈ Finset.range (n + 1), (0.9 : ℝ) ^ (n - k) := Finset.sum_pos (fun k _ => by positivity) (by simp)
  have hv : 0 < Real.sqrt (expMean 0.999 (fun k => g k j ^ 2) n) + 1e-8 := add_pos_of_nonneg_of_pos (Real.sqrt_nonneg _) (by norm_num)
  have e2 : p (n + 1) j = (1 - 1e-4 * schedule n) * p n j -
      schedule n * (expMean 0.9 (fun k => g k j) n / (Real.sqrt (expMean 0.999 (fun k => g k j ^ 2) n) + 1e-8)) := by rw [e]; ring
  refine ⟨fun h => ?_, fun h => ?_⟩
  · have hm : 0 < expMean 0.9 (fun k => g k j) n :=
      div_pos (Finset.sum_pos (fun k hk => mul_pos (by positivity) (h k (Nat.lt_succ_iff.mp (Finset.mem_range.mp hk)))) (by simp)) hw
    have := mul_pos hη (div_pos hm hv)
    linarith
  · have hm : expMean 0.9 (fun k => g k j) n < 0 :=
      div_neg_of_neg_of_pos (Finset.sum_neg (fun k hk => mul_neg_of_pos_of_neg (by positivity) (h k (Nat.lt_succ_iff.mp (Finset.mem_range.mp hk)))) (by simp)) hw
    have := mul_neg_of_pos_of_neg hη (div_neg_of_neg_of_pos hm hv)
    linarith

/-- Two parameters which are 1 at first; the derivatives by the first one are zero, those by the second one are 3 and 5. -/
example (s : ℕ → AdamState 2) (p : ℕ → Fin 2 → ℝ) (h0 : s 0 = (adamw fun _ => 1e-3).init (vfin (p 0))) (hp0 : p 0 = fun _ => 1)
    (hs : ∀ n < 2, s (n + 1) = ((adamw fun _ => 1e-3).update (vfin ![0, 3 + 2 * n]) (s n) (vfin (p n))).2)
    (hp : ∀ n < 2, ∀ j, fin (p (n + 1) j) = fin (p n j) + ((adamw fun _ => 1e-3).update (vfin ![0, 3 + 2 * n]) (s n) (vfin (p n))).1 j) :
    p 2 0 = (1 - 1e-7) ^ 2 ∧ p 2 1 < (1 - 1e-7) * p 1 1 := by
  constructor
  · rw [C182_unused (fun _ => 1e-3) (fun n => ![0, 3 + 2 * n]) p s h0 hs hp (j := 0) (fun _ _ => rfl) le_rfl, hp0]
    norm_num
  · refine ((C182_direction (fun _ => 1e-3) (fun n => ![0, 3 + 2 * n]) p s h0 hs hp (j := 1) (n := 1) (by norm_num) (by norm_num)).1 fun k _ => ?_).trans_eq ?_
    · show (0 : ℝ) < 3 + 2 * k
      positivity
    · norm_num

/-- **C182, training.** If the initial magnetisation is smooth at all samples, `train` with `adamw` and step sizes which decay as in the notebook returns
parameters which are larger than the initial ones by at most `11 init (1 + T / log 10)`, for all batches and random choices. Here `T` is the number of
transition steps of the notebook. -/
theorem C182_train {q : ℕ} {α : Type} [Inhabited α] {nodes depth : ℕ} {xs ys zs : List ℝ} {D : Cuboid} (hD : Cuboid.init xs ys zs = .ok D)
    (hlt : ∀ i, gridLo ![xs, ys, zs] i < gridHi ![xs, ys, zs] i) (ix : PinnIndex q (3 + 1) nodes depth) {G : FunG 3 3} {g : Pt 3 → Pt 3} (pt : α → Pt 3)
    (field : Vec q → Batch α → ℕ → ℕ → Pt 3) (permutation : Key → ℕ → List ℕ) (uniform : Key → ℕ → ℕ → List (List ℝ)) (key : Key)
    {init : ℝ} (hi : 0 ≤ init) (hi' : init ≤ 10 ^ 4) {R : ℕ} (hR : 1 ≤ R) (loss : Vec q → Batch α → ℝ × Energies)
    (x_dom x_tensor_dom : List α) (p0 : Pt q) (epochs B L N : ℕ) (hperm : ∀ k, (permutation k N).Perm (List.range N))
    (hu : ∀ k b s, (uniform k b s).length = b ∧ ∀ row ∈ uniform k b s, row.length = s ∧ ∀ v ∈ row, 8 ≤ v ∧ v < 9)
    (hx : x_dom.length = N) (hxt : x_tensor_dom.length = N) (hB : 1 ≤ B) (hBN : B ≤ N) (hE : 1 ≤ epochs) (hL : 1 ≤ L)
    (hG : ∀ a ∈ x_dom, FunSound G g (normalizeReal D (pt a))) :
    ∃ (p : Pt q) (losses : List ℝ) (energies : List Energies),
      trainMumag3 permutation uniform key (adamw (exponentialDecay init (transitionSteps N B epochs R) 0.1)) loss
        (fun p d => (mumag3ValueAndGrad D ix G pt field p d).2) x_dom x_tensor_dom (efin p0) epochs B L = .ok (efin p, losses, energies) ∧
      ∀ j, |p j| ≤ |p0 j| + 11 * (init * (1 + transitionSteps N B epochs R / Real.log 10)) := by
  have hT := transition_pos hB hBN hE hR
  set T := transitionSteps N B epochs R with hTdef
  set schedule := exponentialDecay init T 0.1 with hsch
  obtain ⟨W, data, idx, losses, energies, e, -, -, hW, h⟩ := C177_train permutation uniform key (adamw schedule) loss
    (fun p d => (mumag3ValueAndGrad D ix G pt field p d).2) x_dom x_tensor_dom (efin p0) epochs B L N hperm hu hx hxt hB hBN hE
  set b := N / B with hb
  have hb0 : 0 < b := Nat.div_pos hBN hB
  have step : ∀ t < epochs * b, ∀ p : Pt q, (W t).1 = efin p → ∃ r : Pt q,
      W (t + 1) = ((W t).1 + ((adamw schedule).update (efin r) (W t).2 (efin p)).1, ((adamw schedule).update (efin r) (W t).2 (efin p)).2) := by
    intro t ht p hp
    have h1 : t / b < epochs := (Nat.div_lt_iff_lt_mul hb0).mpr (by omega)
    have h2 : t % b < b := Nat.mod_lt _ hb0
    have h3 : t / b * b + t % b = t := by rw [Nat.mul_comm]; exact Nat.div_add_mod t b
    obtain ⟨⟨g1, g2, -, g4⟩, g5, -⟩ := h _ h1
    obtain ⟨k1, -, k3, -, k5⟩ := g5 _ h2
    have hrow : (idx (t / b)).getD (t % b) [] ∈ idx (t / b) := by
      rw [List.getD_eq_getElem _ _ (h2.trans_eq g1.symm)]
      exact List.getElem_mem _
    obtain ⟨v, r, e2⟩ := grad_finite hD hlt ix pt field p (data (t / b) (t % b)) (by omega)
      (by rw [k1, List.length_map, g2 _ hrow]; omega) (G := G) (g := g) (by
        intro a ha
        rw [k1] at ha
        obtain ⟨i, hi, rfl⟩ := List.mem_map.mp ha
        have hiN := g4 i (List.mem_flatten.mpr ⟨_, hrow, hi⟩)
        refine hG _ ?_
        rw [List.getD_eq_getElem _ _ (hx ▸ hiN)]
        exact List.getElem_mem _)
    simp only at k5
    rw [h3, hp] at k5
    simp only [e2] at k5
    exact ⟨r, by rw [k5, hp]⟩
  have inv : ∀ t ≤ epochs * b, ∃ (p : Pt q) (c : ℕ) (mu nu : Fin q → ℝ), W t = (efin p, ⟨c, vfin mu, vfin nu⟩) ∧ ∀ j, 0 ≤ nu j := by
    intro t
    induction t with
    | zero =>
      refine fun _ => ⟨p0, 0, fun _ => 0, fun _ => 0, ?_, fun _ => le_rfl⟩
      rw [hW]
      simp only [adamw, zero_eq]
      rfl
    | succ t ih =>
      intro ht
      obtain ⟨p, c, mu, nu, e1, hnu⟩ := ih (by omega)
      obtain ⟨r, k5⟩ := step t (by omega) p (by rw [e1])
      rw [e1] at k5
      choose u m w a1 a2 a3 a4 using fun j => (C179_adamw schedule (efin r) c mu nu p.ofLp hnu j).2 (r j) rfl
      refine ⟨p + WithLp.toLp 2 u, c + 1, m, w, ?_, a4⟩
      rw [k5]
      refine Prod.ext (funext fun j => ?_) ?_
      · show fin (p j) + _ = fin (p j + u j)
        exact (congrArg (fin (p j) + ·) (a1 j)).trans (fin_add _ _)
      · show AdamState.mk (c + 1) _ _ = _
        congr 1
        · exact funext a2
        · exact funext a3
  have hP : ∀ t, ∃ p : Pt q, t ≤ epochs * b → (W t).1 = efin p := fun t => by
    by_cases ht : t ≤ epochs * b
    · obtain ⟨p, c, mu, nu, e1, -⟩ := inv t ht
      exact ⟨p, fun _ => by rw [e1]⟩
    · exact ⟨0, fun h => absurd h ht⟩
  choose P hP using hP
  have hr : ∀ t, ∃ r : Pt q, t < epochs * b →
      W (t + 1) = ((W t).1 + ((adamw schedule).update (efin r) (W t).2 (efin (P t))).1, ((adamw schedule).update (efin r) (W t).2 (efin (P t))).2) := fun t => by
    by_cases ht : t < epochs * b
    · obtain ⟨r, h1⟩ := step t ht (P t) (hP t ht.le)
      exact ⟨r, fun _ => h1⟩
    · exact ⟨0, fun h => absurd h ht⟩
  choose r hr using hr
  have hP0 : P 0 = p0 := by
    have h1 := hP 0 (Nat.zero_le _)
    rw [hW] at h1
    ext j
    exact (fin_inj.mp (congrFun h1 j)).symm
  refine ⟨P (epochs * b), losses, energies, by rw [e, hP _ le_rfl], fun j => ?_⟩
  have key := C182_bounded schedule (fun n => by rw [hsch, decay_eq hT]; positivity) (fun n => by
    rw [hsch, decay_eq hT]
    exact (mul_le_of_le_one_right hi (Real.rpow_le_one (by norm_num) (by norm_num) (by positivity))).trans hi')
    (fun t => (r t).ofLp) (fun t => (P t).ofLp) (fun t => (W t).2) (U := epochs * b) (by rw [hW]; rfl) (fun n hn => by
      rw [hr n hn]; rfl) (fun n hn i => by
      have h1 := hP (n + 1) hn
      rw [hr n hn, hP n hn.le] at h1
      exact (congrFun h1 i).symm) le_rfl j
  rw [hP0] at key
  have := decay_sum hi hT (epochs * b)
  exact key.trans (add_le_add le_rfl (mul_le_mul_of_nonneg_left this (by norm_num)))

/-- The training for the flower state with three samples in batches of two: no parameter gets larger by more than a quarter. -/
example (p0 : Pt 11) (loss : Vec 11 → Batch (Pt 3) → ℝ × Energies) (field : Vec 11 → Batch (Pt 3) → ℕ → ℕ → Pt 3) (xt : Fin 3 → Pt 3) :
    ∃ D p losses energies, Cuboid.init [-1, 1] [-1, 1] [-1, 1] = .ok D ∧
      trainMumag3 (fun _ n => List.range n) (fun _ b s => List.replicate b (List.replicate s 8)) default
        (adamw (exponentialDecay 1e-5 (transitionSteps 3 2 6000 3) 0.1)) loss
        (fun p d => (mumag3ValueAndGrad D tinyIndex m_flowerG id field p d).2) [!₂[1, 1, 1], 0, !₂[1 / 2, 0, 0]] (List.ofFn xt) (efin p0) 6000 2 3 =
        .ok (efin p, losses, energies) ∧ ∀ j, |p j| ≤ |p0 j| + 1 / 4 := by
  have g : IsGrid [-1, 1] := ⟨by simp, by simp⟩
  obtain ⟨D, hD⟩ : ∃ D, Cuboid.init [-1, 1] [-1, 1] [-1, 1] = .ok D := ⟨_, init_ok g g g⟩
  obtain ⟨p, losses, energies, e, h⟩ := C182_train hD (fun i => by fin_cases i <;> simp [gridLo, gridHi]) tinyIndex (id : Pt 3 → Pt 3) field
    (fun _ n => List.range n) (fun _ b s => List.replicate b (List.replicate s 8)) default (init := 1e-5) (by norm_num) (by norm_num) (R := 3) (by norm_num) loss
    [!₂[1, 1, 1], 0, !₂[1 / 2, 0, 0]] (List.ofFn xt) p0 6000 2 3 3 (fun _ => .refl _) uniform_eight rfl (by simp) (by norm_num) (by norm_num)
    (by norm_num) (by norm_num) fun _ _ => C171_flower _
  refine ⟨D, p, losses, energies, hD, e, fun j => (h j).trans (add_le_add le_rfl ?_)⟩
  have hT : transitionSteps 3 2 6000 3 = 2000 := by rw [transitionSteps]; norm_num
  have hlog : (0.9 : ℝ) ≤ Real.log 10 := le_trans (by norm_num) (Real.one_sub_inv_le_log_of_pos (show (0 : ℝ) < 10 by norm_num))
  have hdiv : (2000 : ℝ) / Real.log 10 ≤ 2000 / 0.9 := div_le_div_of_nonneg_left (by norm_num) (by norm_num) hlog
  rw [hT]
  calc (11 : ℝ) * (1e-5 * (1 + 2000 / Real.log 10)) ≤ 11 * (1e-5 * (1 + 2000 / 0.9)) := by gcongr
    _ ≤ 1 / 4 := by norm_num

end Verif
