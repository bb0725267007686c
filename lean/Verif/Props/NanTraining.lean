import Verif.Model.TrainStep
import Verif.Props.NanGradient
import Verif.Props.TrainLoop
import Verif.Props.TRRun
import Verif.Lemmas.FwdAD

/-! # What `nan` in the loss does to the training: C179 -/

namespace Verif

open Micromag XR

variable {q : ℕ} {j : Fin q}

theorem solve_nan_mat {m : ℕ} (A : Fin m → Fin m → XR) (v : Fin m → XR) (i d : Fin m) (h : A i d = nan) : ADSolve.solve A v = fun _ => nan := by
  classical
  simp only [ADSolve.solve]
  rw [if_neg]
  rintro ⟨h', -, -⟩
  have := h' i d
  rw [h] at this
  cases this

theorem cayley_val_nan_left (p v : Fin 3 → RevNum q XR) (hp : (p 0).val = nan) (i : Fin 3) : (cayleyRotationG p v i).val = nan := by
  have h : (toSkewSimmetricMatrixG p 2 1).val = nan := by
    show (p 0).val - _ = nan
    rw [hp]
    exact XR.nan_sub _
  have := solve_nan_mat (fun i d => ((ADNum.const (if i = d then 1 else 0) : RevNum q XR) -ₐ toSkewSimmetricMatrixG p i d).val)
    (fun i => (sumG ((List.finRange 3).map fun d => ((ADNum.const (if i = d then 1 else 0) : RevNum q XR) +ₐ toSkewSimmetricMatrixG p i d) *ₐ v d)).val) 2 1
    (by
      show _ - (toSkewSimmetricMatrixG p 2 1).val = nan
      rw [h]
      exact XR.sub_nan _)
  exact congrFun this i

/-- **C179, `nan` stays.** If the parameters of the network are `nan`, then the loss and its gradient are `nan` for every batch, whatever the samples, the
initial magnetisation and the field are. -/
theorem C179_spread {n b nodes depth : ℕ} (D : Cuboid) (mag0 : FunG 3 3) (ix : PinnIndex q (3 + 1) nodes depth) (lam : Fin b → ℝ) (hb : b ≠ 0)
    (hn : n ≠ 0) (h : Fin b → Fin n → Pt 3) (x : Fin n → Pt 3) (p : Vec q) (hp : p (ix.biasOut 0) = nan) :
    (LossG.valueAndGrad (fun _ _ _ => mumag3BatchLossG lam h (fun l => magG D (pinnG ix fun _ => lam l) mag0) x) p).1 = nan ∧
    ∀ j, ix.Used j → (LossG.valueAndGrad (fun _ _ _ => mumag3BatchLossG lam h (fun l => magG D (pinnG ix fun _ => lam l) mag0) x) p).2 j = nan := by
  let l : Fin b := ⟨0, Nat.pos_of_ne_zero hb⟩
  let i : Fin n := ⟨0, Nat.pos_of_ne_zero hn⟩
  have hv : (pinnG ix (fun _ => lam l) (RevNum q XR) (RevNum.seed p) (D.normalizeG (constG (x i))) 0).val = nan := by
    simp only [pinnG]
    show _ + p (ix.biasOut 0) = nan
    rw [hp]
    exact XR.add_nan _
  obtain ⟨h3, h4⟩ := loss_poison lam h (fun l => magG D (pinnG ix fun _ => lam l) mag0) x p l i fun k => cayley_val_nan_left _ _ hv k
  refine ⟨h3, fun j hj => h4 j fun k => ?_⟩
  obtain ⟨o, ho⟩ := pinn_kills ix (fun _ => lam l) p (D.normalizeG (constG (x i))) hj
  exact cayley_kills _ _ o ho k

/-- One parameter of the small network is `nan`, for the flower state. -/
example (D : Cuboid) : LossG.valueAndGrad (fun _ _ _ => mumag3BatchLossG (fun _ : Fin 1 => 8) (fun _ (_ : Fin 1) => 0)
    (fun _ => magG D (pinnG tinyIndex fun _ => 8) m_flowerG) (fun _ => !₂[1 / 2, 1 / 2, 0])) (Function.update 0 5 nan) = (nan, fun _ => nan) := by
  obtain ⟨h1, h2⟩ := C179_spread D m_flowerG tinyIndex (fun _ : Fin 1 => 8) one_ne_zero one_ne_zero (fun _ (_ : Fin 1) => 0)
    (fun _ => !₂[1 / 2, 1 / 2, 0]) (Function.update 0 5 nan) (Function.update_self ..)
  exact Prod.ext h1 (funext fun j => h2 j (tinyIndex_used j))

/-- `adamw` changes a parameter by `nan` if the derivative by it is `nan`. -/
theorem adamw_nan (schedule : ℕ → ℝ) (g : Vec q) (s : AdamState q) (p : Vec q) (j : Fin q) (h : g j = nan) :
    ((adamw schedule).update g s p).1 j = nan := by
  show fin _ * ((fin _ * g j + _) / _ / _ + _) = nan
  rw [h, XR.mul_nan, XR.nan_add, XR.nan_div, XR.nan_div, XR.nan_add, XR.mul_nan]

/-- **C179, `adamw`.** As long as parameters, averages and step sizes are finite, `adamw` changes a parameter by `nan` exactly if the derivative by it is `nan`,
and by a finite number if the derivative is finite. -/
theorem C179_adamw (schedule : ℕ → ℝ) (g : Vec q) (count : ℕ) (mu nu p : Fin q → ℝ) (hnu : ∀ j, 0 ≤ nu j) (j : Fin q) :
    (g j = nan → ((adamw schedule).update g ⟨count, vfin mu, vfin nu⟩ (vfin p)).1 j = nan) ∧
    ∀ r, g j = fin r → ∃ u m v, ((adamw schedule).update g ⟨count, vfin mu, vfin nu⟩ (vfin p)).1 j = fin u ∧
      ((adamw schedule).update g ⟨count, vfin mu, vfin nu⟩ (vfin p)).2.mu j = fin m ∧
      ((adamw schedule).update g ⟨count, vfin mu, vfin nu⟩ (vfin p)).2.nu j = fin v ∧ 0 ≤ v := by
  refine ⟨adamw_nan schedule g _ _ j, fun r hr => ?_⟩
  have h1 : (1 - 0.9 ^ (count + 1) : ℝ) ≠ 0 := by
    have : (0.9 : ℝ) ^ (count + 1) < 1 := pow_lt_one₀ (by norm_num) (by norm_num) (by omega)
    linarith
  have h2 : 0 < (1 - 0.999 ^ (count + 1) : ℝ) := by
    have : (0.999 : ℝ) ^ (count + 1) < 1 := pow_lt_one₀ (by norm_num) (by norm_num) (by omega)
    linarith
  have h3 : 0 ≤ (1 - 0.999) * r ^ 2 + 0.999 * nu j := add_nonneg (mul_nonneg (by norm_num) (sq_nonneg r)) (mul_nonneg (by norm_num) (hnu j))
  have h4 := div_nonneg h3 h2.le
  refine ⟨-schedule count * (((1 - 0.9) * r + 0.9 * mu j) / (1 - 0.9 ^ (count + 1)) /
      (Real.sqrt (((1 - 0.999) * r ^ 2 + 0.999 * nu j) / (1 - 0.999 ^ (count + 1))) + 1e-8) + 1e-4 * p j),
    (1 - 0.9) * r + 0.9 * mu j, (1 - 0.999) * r ^ 2 + 0.999 * nu j, ?_, ?_, ?_, h3⟩
  · show fin (-schedule count) * ((fin _ * g j + fin _ * fin (mu j)) / fin _ / (XR.sqrt ((fin _ * g j ^ 2 + fin _ * fin (nu j)) / fin _) + fin _) + fin _ * fin (p j)) = _
    have h5 : 0 < Real.sqrt (((1 - 0.999) * r ^ 2 + 0.999 * nu j) / (1 - 0.999 ^ (count + 1))) + 1e-8 :=
      add_pos_of_nonneg_of_pos (Real.sqrt_nonneg _) (by norm_num)
    simp only [hr, fin_npow, fin_mul, fin_add]
    rw [fin_div _ h1, fin_div _ h2.ne', XR.fin_sqrt h4, fin_add, fin_div _ h5.ne', fin_add, fin_mul]
  · show fin _ * g j + fin _ * fin (mu j) = _
    simp only [hr, fin_mul, fin_add]
  · show fin _ * g j ^ 2 + fin _ * fin (nu j) = _
    simp only [hr, fin_npow, fin_mul, fin_add]

/-- The first step from the parameters 1 and 2, where one derivative is `nan`. -/
example : ∃ u, ((adamw fun _ => 1e-5).update ![nan, fin 3] ⟨0, vfin fun _ => 0, vfin fun _ => 0⟩ (vfin ![1, 2])).1 = ![nan, fin u] := by
  obtain ⟨u, -, -, h, -⟩ := (C179_adamw (fun _ => 1e-5) ![nan, fin 3] 0 (fun _ => 0) (fun _ => 0) ![1, 2] (fun _ => le_rfl) 1).2 3 rfl
  refine ⟨u, funext fun j => ?_⟩
  fin_cases j
  · exact (C179_adamw (fun _ => 1e-5) ![nan, fin 3] 0 (fun _ => 0) (fun _ => 0) ![1, 2] (fun _ => le_rfl) 0).1 rfl
  · exact h

/-- The mean of `a 0, …, a n` in which an entry counts `b` times as much as the next one. -/
noncomputable def expMean (b : ℝ) (a : ℕ → ℝ) (n : ℕ) : ℝ := (∑ k ∈ Finset.range (n + 1), b ^ (n - k) * a k) / ∑ k ∈ Finset.range (n + 1), b ^ (n - k)

theorem expSum_succ (b : ℝ) (a : ℕ → ℝ) (n : ℕ) :
    ∑ k ∈ Finset.range (n + 2), b ^ (n + 1 - k) * a k = a (n + 1) + b * ∑ k ∈ Finset.range (n + 1), b ^ (n - k) * a k := by
  rw [Finset.sum_range_succ, Finset.mul_sum, add_comm, Nat.sub_self, pow_zero, one_mul]
  congr 1
  refine Finset.sum_congr rfl fun k hk => ?_
  rw [Nat.succ_sub (Nat.lt_succ_iff.mp (Finset.mem_range.mp hk)), pow_succ]
  ring

theorem expGeom (b : ℝ) (n : ℕ) : 1 - b ^ (n + 1) = (1 - b) * ∑ k ∈ Finset.range (n + 1), b ^ (n - k) := by
  induction n with
  | zero => simp
  | succ n ih =>
    have := expSum_succ b (fun _ => 1) n
    simp only [mul_one] at this
    rw [this, mul_add, mul_left_comm, ← ih, pow_succ b (n + 1)]
    ring

theorem expMean_eq {b : ℝ} (h1 : b < 1) (a : ℕ → ℝ) (n : ℕ) :
    (1 - b) * (∑ k ∈ Finset.range (n + 1), b ^ (n - k) * a k) / (1 - b ^ (n + 1)) = expMean b a n := by
  have hb : 1 - b ≠ 0 := by linarith
  rw [expGeom, expMean, mul_div_mul_left _ _ hb]

/-- **C179, steps of `adamw`.** For finite gradients `g 0, g 1, …` at parameters `p 0, p 1, …` in a run of `U` updates, the step of number `n` divides the mean of the gradients so far
with weights `0.9` by the square root of the mean of their squares with weights `0.999`, adds the parameters times `1e-4` and multiplies by the negative step size. -/
theorem C179_step (schedule : ℕ → ℝ) (g p : ℕ → Fin q → ℝ) (s : ℕ → AdamState q) (h0 : s 0 = (adamw schedule).init (vfin (p 0)))
    {U : ℕ} (hs : ∀ n < U, s (n + 1) = ((adamw schedule).update (vfin (g n)) (s n) (vfin (p n))).2) {n : ℕ} (hn : n ≤ U) (j : Fin q) :
    ((adamw schedule).update (vfin (g n)) (s n) (vfin (p n))).1 j = fin (-schedule n *
      (expMean 0.9 (fun k => g k j) n / (Real.sqrt (expMean 0.999 (fun k => g k j ^ 2) n) + 1e-8) + 1e-4 * p n j)) := by
  have key : ∀ n ≤ U, (s n).count = n ∧
      (∀ j, fin (1 - 0.9) * fin (g n j) + fin 0.9 * (s n).mu j = fin ((1 - 0.9) * ∑ k ∈ Finset.range (n + 1), 0.9 ^ (n - k) * g k j)) ∧
      ∀ j, fin (1 - 0.999) * fin (g n j) ^ 2 + fin 0.999 * (s n).nu j = fin ((1 - 0.999) * ∑ k ∈ Finset.range (n + 1), 0.999 ^ (n - k) * g k j ^ 2) := by
    intro n
    induction n with
    | zero =>
      intro _
      rw [h0]
      refine ⟨rfl, fun j => ?_, fun j => ?_⟩
      · show fin _ * fin _ + fin _ * (0 : XR) = _
        rw [zero_eq, fin_mul, fin_mul, fin_add]
        simp
      · show fin _ * fin _ ^ 2 + fin _ * (0 : XR) = _
        rw [zero_eq, fin_npow, fin_mul, fin_mul, fin_add]
        simp
    | succ n ih =>
      intro hn
      obtain ⟨i1, i2, i3⟩ := ih (by omega)
      rw [hs n (by omega)]
      refine ⟨congrArg (· + 1) i1, fun j => ?_, fun j => ?_⟩
      · show fin _ * fin _ + fin _ * (fin _ * fin (g n j) + fin _ * (s n).mu j) = _
        rw [i2, fin_mul, fin_mul, fin_add, expSum_succ]
        congr 1
        ring
      · show fin _ * fin _ ^ 2 + fin _ * (fin _ * fin (g n j) ^ 2 + fin _ * (s n).nu j) = _
        rw [i3, fin_npow, fin_mul, fin_mul, fin_add, expSum_succ 0.999 (fun k => g k j ^ 2)]
        congr 1
        ring
  obtain ⟨k1, k2, k3⟩ := key n hn
  have h1 : (1 - 0.9 ^ (n + 1) : ℝ) ≠ 0 := by
    have : (0.9 : ℝ) ^ (n + 1) < 1 := pow_lt_one₀ (by norm_num) (by norm_num) (by omega)
    linarith
  have h2 : (1 - 0.999 ^ (n + 1) : ℝ) ≠ 0 := by
    have : (0.999 : ℝ) ^ (n + 1) < 1 := pow_lt_one₀ (by norm_num) (by norm_num) (by omega)
    linarith
  have h4 : 0 ≤ expMean 0.999 (fun k => g k j ^ 2) n :=
    div_nonneg (Finset.sum_nonneg fun k _ => by positivity) (Finset.sum_nonneg fun k _ => by positivity)
  have h5 : 0 < Real.sqrt (expMean 0.999 (fun k => g k j ^ 2) n) + 1e-8 := add_pos_of_nonneg_of_pos (Real.sqrt_nonneg _) (by norm_num)
  show fin (-schedule (s n).count) * ((fin _ * fin (g n j) + fin _ * (s n).mu j) / fin (1 - 0.9 ^ ((s n).count + 1)) /
    (XR.sqrt ((fin _ * fin (g n j) ^ 2 + fin _ * (s n).nu j) / fin (1 - 0.999 ^ ((s n).count + 1))) + fin _) + fin _ * fin (p n j)) = _
  rw [k1, k2, k3, fin_div _ h1, fin_div _ h2, expMean_eq (by norm_num), expMean_eq (b := 0.999) (by norm_num) fun k => g k j ^ 2,
    XR.fin_sqrt h4, fin_add, fin_div _ h5.ne', fin_mul, fin_add, fin_mul]

/-- The second step for the derivatives 1 and -1 of one parameter, which is 2. -/
example (s : ℕ → AdamState 1) (h0 : s 0 = (adamw fun _ => 1e-3).init (vfin fun _ => 2))
    (hs : ∀ n, s (n + 1) = ((adamw fun _ => 1e-3).update (vfin fun _ => (-1) ^ n) (s n) (vfin fun _ => 2)).2) :
    ((adamw fun _ => 1e-3).update (vfin fun _ => (-1) ^ 1) (s 1) (vfin fun _ => 2)).1 0 = fin (-1e-3 * (-1 / 19 / (1 + 1e-8) + 1e-4 * 2)) := by
  rw [C179_step (fun _ => 1e-3) (fun n _ => (-1) ^ n) (fun _ _ => 2) s h0 (fun n _ => hs n) le_rfl 0]
  have e1 : expMean 0.9 (fun k => (-1) ^ k) 1 = -1 / 19 := by
    rw [expMean, Finset.sum_range_succ, Finset.sum_range_one, Finset.sum_range_succ, Finset.sum_range_one]
    norm_num
  have e2 : expMean 0.999 (fun k => ((-1) ^ k) ^ 2) 1 = 1 := by
    rw [expMean, Finset.sum_range_succ, Finset.sum_range_one, Finset.sum_range_succ, Finset.sum_range_one]
    norm_num
  rw [e1, e2, Real.sqrt_one]

/-- `C179_axis` for a batch. -/
theorem axis_batch {α : Type} {nodes depth : ℕ} {xs ys zs : List ℝ} {D : Cuboid} (hD : Cuboid.init xs ys zs = .ok D)
    (hlt : ∀ i, gridLo ![xs, ys, zs] i < gridHi ![xs, ys, zs] i) (ix : PinnIndex q (3 + 1) nodes depth) (pt : α → Pt 3)
    (field : Vec q → Batch α → ℕ → ℕ → Pt 3) (p : Vec q) (d : Batch α) (hl : d.lam.length ≠ 0) (a : α) (ha : a ∈ d.x)
    (h0 : pt a 0 = (gridLo ![xs, ys, zs] 0 + gridHi ![xs, ys, zs] 0) / 2) (h2 : pt a 2 = (gridLo ![xs, ys, zs] 2 + gridHi ![xs, ys, zs] 2) / 2) :
    (mumag3ValueAndGrad D ix m_vortexG pt field p d).1 = nan ∧
    ∀ j, ix.Used j → (mumag3ValueAndGrad D ix m_vortexG pt field p d).2 j = nan := by
  obtain ⟨i, hi, e⟩ := List.getElem_of_mem ha
  exact C179_axis hD hlt ix (fun l : Fin d.lam.length => d.lam[l]) hl (fun l i => field p d l i) (fun i : Fin d.x.length => pt d.x[i]) p ⟨i, hi⟩
    (by simpa [e] using h0) (by simpa [e] using h2)

/-- **C179, training.** If there is a sample on the axis of the vortex and all samples are used in an epoch, then `train` returns `nan` for every parameter
of the network. -/
theorem C179_train {S α : Type} [Inhabited α] {nodes depth : ℕ} {xs ys zs : List ℝ} {D : Cuboid} (hD : Cuboid.init xs ys zs = .ok D)
    (hlt : ∀ i, gridLo ![xs, ys, zs] i < gridHi ![xs, ys, zs] i) (ix : PinnIndex q (3 + 1) nodes depth) (pt : α → Pt 3)
    (field : Vec q → Batch α → ℕ → ℕ → Pt 3) (permutation : Key → ℕ → List ℕ) (uniform : Key → ℕ → ℕ → List (List ℝ)) (key : Key)
    (o : Optimizer (Vec q) S) (ho : ∀ g s p j, g j = nan → (o.update g s p).1 j = nan) (loss : Vec q → Batch α → ℝ × Energies)
    (x_dom x_tensor_dom : List α) (params : Vec q) (epochs B L N : ℕ) (hperm : ∀ k, (permutation k N).Perm (List.range N))
    (hu : ∀ k b s, (uniform k b s).length = b ∧ ∀ row ∈ uniform k b s, row.length = s ∧ ∀ v ∈ row, 8 ≤ v ∧ v < 9)
    (hx : x_dom.length = N) (hxt : x_tensor_dom.length = N) (hB : 1 ≤ B) (hBN : B ∣ N) (hE : 1 ≤ epochs) (hL : 1 ≤ L) (a : α) (ha : a ∈ x_dom)
    (h0 : pt a 0 = (gridLo ![xs, ys, zs] 0 + gridHi ![xs, ys, zs] 0) / 2) (h2 : pt a 2 = (gridLo ![xs, ys, zs] 2 + gridHi ![xs, ys, zs] 2) / 2) :
    ∃ p losses energies, trainMumag3 permutation uniform key o loss (fun p d => (mumag3ValueAndGrad D ix m_vortexG pt field p d).2) x_dom
        x_tensor_dom params epochs B L = .ok (p, losses, energies) ∧ ∀ j, ix.Used j → p j = nan := by
  have hN : 0 < N := hx ▸ List.length_pos_of_mem ha
  have hle : B ≤ N := Nat.le_of_dvd hN hBN
  obtain ⟨W, data, idx, losses, energies, e, -, -, -, h⟩ := C177_train permutation uniform key o loss
    (fun p d => (mumag3ValueAndGrad D ix m_vortexG pt field p d).2) x_dom x_tensor_dom params epochs B L N hperm hu hx hxt hB hle hE
  refine ⟨_, _, _, e, ?_⟩
  set b := N / B with hb
  have hb0 : 0 < b := Nat.div_pos hle hB
  -- every sample is in a batch of the first epoch
  obtain ⟨j0, hj0, ha0⟩ : ∃ j0 < b, a ∈ (data 0 j0).x := by
    obtain ⟨⟨g1, g2, g3, g4⟩, g5, -⟩ := h 0 hE
    have hlen : (idx 0).flatten.length = N := by
      rw [List.length_flatten, List.map_congr_left (g := fun _ => B) fun p hp => g2 p hp]
      simp [g1, hb, Nat.div_mul_cancel hBN]
    obtain ⟨i, hi, rfl⟩ := List.getElem_of_mem ha
    have hsub : List.range N ⊆ (idx 0).flatten := by
      have : (idx 0).flatten.toFinset = Finset.range N := by
        refine Finset.eq_of_subset_of_card_le (fun k hk => Finset.mem_range.mpr (g4 k (List.mem_toFinset.mp hk))) ?_
        rw [List.toFinset_card_of_nodup g3, hlen, Finset.card_range]
      intro k hk
      exact List.mem_toFinset.mp (this ▸ Finset.mem_range.mpr (List.mem_range.mp hk))
    obtain ⟨r, hr, hir⟩ := List.mem_flatten.mp (hsub (List.mem_range.mpr (hx ▸ hi)))
    obtain ⟨j0, hj0, rfl⟩ := List.getElem_of_mem hr
    have hj0' : j0 < b := g1 ▸ hj0
    refine ⟨j0, hj0', ?_⟩
    rw [(g5 j0 hj0').1, List.getD_eq_getElem _ _ hj0]
    refine List.mem_map.mpr ⟨i, hir, ?_⟩
    rw [List.getD_eq_getElem _ _ hi]
  -- a step with `nan` as gradient
  have step : ∀ e < epochs, ∀ k < b, (∀ j, ix.Used j → (mumag3ValueAndGrad D ix m_vortexG pt field (W (e * b + k)).1 (data e k)).2 j = nan) →
      ∀ j, ix.Used j → (W (e * b + k + 1)).1 j = nan := by
    intro e he k hk hg j hj
    have := ((h e he).2.1 k hk).2.2.2.2
    simp only at this
    rw [this]
    show _ + (o.update _ _ _).1 j = nan
    rw [ho _ _ _ j (hg j hj)]
    exact XR.add_nan _
  have hlam : ∀ e < epochs, ∀ k < b, (data e k).lam.length ≠ 0 := fun e he k hk => by
    rw [((h e he).2.1 k hk).2.2.1]
    omega
  have hxl : ∀ e < epochs, ∀ k < b, (data e k).x.length ≠ 0 := fun e he k hk => by
    rw [((h e he).2.1 k hk).1, List.length_map, List.getD_eq_getElem _ _ ((h e he).1.1 ▸ hk), (h e he).1.2.1 _ (List.getElem_mem _)]
    omega
  have first : ∀ j, ix.Used j → (W (j0 + 1)).1 j = nan := by
    have := step 0 hE j0 hj0 ?_
    · simpa using this
    · exact (axis_batch hD hlt ix pt field _ _ (hlam 0 hE j0 hj0) a ha0 h0 h2).2
  have all : ∀ t, j0 + 1 ≤ t → t ≤ epochs * b → ∀ j, ix.Used j → (W t).1 j = nan := by
    intro t ht
    induction t, ht using Nat.le_induction with
    | base => exact fun _ => first
    | succ t ht ih =>
      intro hte
      have ih := ih (by omega)
      have h1 : t / b < epochs := (Nat.div_lt_iff_lt_mul hb0).mpr (by omega)
      have h2 : t % b < b := Nat.mod_lt _ hb0
      have h3 : t / b * b + t % b = t := by rw [Nat.mul_comm]; exact Nat.div_add_mod t b
      have := step (t / b) h1 (t % b) h2 ?_
      · rwa [h3] at this
      · rw [h3]
        exact (C179_spread D m_vortexG ix (fun l : Fin (data (t / b) (t % b)).lam.length => (data (t / b) (t % b)).lam[l]) (hlam _ h1 _ h2) (hxl _ h1 _ h2)
          (fun l i => field (W t).1 (data (t / b) (t % b)) l i) (fun i : Fin (data (t / b) (t % b)).x.length => pt (data (t / b) (t % b)).x[i]) (W t).1
          (ih _ (.inr (.inr (.inr (.inr (.inr ⟨0, rfl⟩))))))).2
  exact all _ (by nlinarith) le_rfl

/-- All values of `lam` are 8. -/
theorem uniform_eight (_ : Key) (b s : ℕ) : (List.replicate b (List.replicate s (8 : ℝ))).length = b ∧
    ∀ row ∈ List.replicate b (List.replicate s (8 : ℝ)), row.length = s ∧ ∀ v ∈ row, 8 ≤ v ∧ v < 9 := ⟨by simp, fun row hr => by
  obtain ⟨-, rfl⟩ := List.mem_replicate.mp hr
  refine ⟨by simp, fun v hv => ?_⟩
  obtain ⟨-, rfl⟩ := List.mem_replicate.mp hv
  norm_num⟩

/-- Four samples, one of which is the centre, batches of two, 6000 epochs and the optimiser of the notebook. -/
example (p0 : Vec 11) (loss : Vec 11 → Batch (Pt 3) → ℝ × Energies) (field : Vec 11 → Batch (Pt 3) → ℕ → ℕ → Pt 3) (schedule : ℕ → ℝ) (xt : Fin 4 → Pt 3) :
    ∃ D losses energies, Cuboid.init [-1, 1] [-1, 1] [-1, 1] = .ok D ∧
      trainMumag3 (fun _ n => List.range n) (fun _ b s => List.replicate b (List.replicate s 8)) default (adamw schedule) loss
        (fun p d => (mumag3ValueAndGrad D tinyIndex m_vortexG id field p d).2) [!₂[1, 1, 1], 0, !₂[1 / 2, 0, 0], !₂[0, 0, 1 / 2]] (List.ofFn xt) p0 6000 2
        3 = .ok (fun _ => nan, losses, energies) := by
  have g : IsGrid [-1, 1] := ⟨by simp, by simp⟩
  obtain ⟨D, hD⟩ : ∃ D, Cuboid.init [-1, 1] [-1, 1] [-1, 1] = .ok D := ⟨_, init_ok g g g⟩
  obtain ⟨p, losses, energies, e, h⟩ := C179_train hD (fun i => by fin_cases i <;> simp [gridLo, gridHi]) tinyIndex (id : Pt 3 → Pt 3) field
    (fun _ n => List.range n) (fun _ b s => List.replicate b (List.replicate s 8)) default (adamw schedule) (adamw_nan schedule) loss
    [!₂[1, 1, 1], 0, !₂[1 / 2, 0, 0], !₂[0, 0, 1 / 2]] (List.ofFn xt) p0 6000 2 3 4 (fun _ => .refl _)
    uniform_eight rfl (by simp) (by norm_num) (by norm_num) (by norm_num) (by norm_num) 0 (by simp) (by simp [gridLo, gridHi]) (by simp [gridLo, gridHi])
  refine ⟨D, losses, energies, hD, ?_⟩
  rw [e, show p = fun _ => nan from funext fun j => h j (tinyIndex_used j)]

/-- The gradient of a batch is finite if the initial magnetisation is smooth at its samples. -/
theorem grad_finite {α : Type} {nodes depth : ℕ} {xs ys zs : List ℝ} {D : Cuboid} (hD : Cuboid.init xs ys zs = .ok D)
    (hlt : ∀ i, gridLo ![xs, ys, zs] i < gridHi ![xs, ys, zs] i) (ix : PinnIndex q (3 + 1) nodes depth) {G : FunG 3 3} {g : Pt 3 → Pt 3} (pt : α → Pt 3)
    (field : Vec q → Batch α → ℕ → ℕ → Pt 3) (p : Pt q) (d : Batch α) (hl : d.lam.length ≠ 0) (hx : d.x.length ≠ 0)
    (hG : ∀ a ∈ d.x, FunSound G g (normalizeReal D (pt a))) : ∃ v r, mumag3ValueAndGrad D ix G pt field (efin p) d = (fin v, efin r) := by
  have hm : ∀ (l : Fin d.lam.length) (i : Fin d.x.length), NetSound (magG D (pinnG ix fun _ => d.lam[l]) G)
      (fun p y => mag D (pinn ix fun _ => d.lam[l]) g y p) p (pt d.x[i]) := fun l i =>
    C171_mag hD hlt (C171_pinn ix _ p _) (hG _ (List.getElem_mem _))
  have h := C171_grad (C171_batch_program hm hx hl (fun l => d.lam[l]) fun l i => field (efin p) d l i)
  exact ⟨_, _, Prod.ext (congrArg Prod.fst h.2.2.1 :) h.2.2.2⟩

/-- **C179, training stays finite.** If the initial magnetisation is smooth at all samples, `train` with `adamw` returns finite parameters for all
step sizes, batches and random choices. -/
theorem C179_finite {α : Type} [Inhabited α] {nodes depth : ℕ} {xs ys zs : List ℝ} {D : Cuboid} (hD : Cuboid.init xs ys zs = .ok D)
    (hlt : ∀ i, gridLo ![xs, ys, zs] i < gridHi ![xs, ys, zs] i) (ix : PinnIndex q (3 + 1) nodes depth) {G : FunG 3 3} {g : Pt 3 → Pt 3} (pt : α → Pt 3)
    (field : Vec q → Batch α → ℕ → ℕ → Pt 3) (permutation : Key → ℕ → List ℕ) (uniform : Key → ℕ → ℕ → List (List ℝ)) (key : Key)
    (schedule : ℕ → ℝ) (loss : Vec q → Batch α → ℝ × Energies)
    (x_dom x_tensor_dom : List α) (p0 : Pt q) (epochs B L N : ℕ) (hperm : ∀ k, (permutation k N).Perm (List.range N))
    (hu : ∀ k b s, (uniform k b s).length = b ∧ ∀ row ∈ uniform k b s, row.length = s ∧ ∀ v ∈ row, 8 ≤ v ∧ v < 9)
    (hx : x_dom.length = N) (hxt : x_tensor_dom.length = N) (hB : 1 ≤ B) (hBN : B ≤ N) (hE : 1 ≤ epochs) (hL : 1 ≤ L)
    (hG : ∀ a ∈ x_dom, FunSound G g (normalizeReal D (pt a))) :
    ∃ (p : Pt q) (losses : List ℝ) (energies : List Energies), trainMumag3 permutation uniform key (adamw schedule) loss
      (fun p d => (mumag3ValueAndGrad D ix G pt field p d).2) x_dom x_tensor_dom (efin p0) epochs B L = .ok (efin p, losses, energies) := by
  obtain ⟨W, data, idx, losses, energies, e, -, -, hW, h⟩ := C177_train permutation uniform key (adamw schedule) loss
    (fun p d => (mumag3ValueAndGrad D ix G pt field p d).2) x_dom x_tensor_dom (efin p0) epochs B L N hperm hu hx hxt hB hBN hE
  set b := N / B with hb
  have hb0 : 0 < b := Nat.div_pos hBN hB
  have inv : ∀ t ≤ epochs * b, ∃ (p : Pt q) (c : ℕ) (mu nu : Fin q → ℝ), W t = (efin p, ⟨c, vfin mu, vfin nu⟩) ∧ ∀ j, 0 ≤ nu j := by
    intro t
    induction t with
    | zero =>
      refine fun _ => ⟨p0, 0, fun _ => 0, fun _ => 0, ?_, fun _ => le_rfl⟩
      rw [hW]
      simp only [adamw, zero_eq]
      rfl
    | succ t ih =>
      intro ht
      obtain ⟨p, c, mu, nu, e1, hnu⟩ := ih (by omega)
      have h1 : t / b < epochs := (Nat.div_lt_iff_lt_mul hb0).mpr (by omega)
      have h2 : t % b < b := Nat.mod_lt _ hb0
      have h3 : t / b * b + t % b = t := by rw [Nat.mul_comm]; exact Nat.div_add_mod t b
      obtain ⟨⟨g1, g2, -, g4⟩, g5, -⟩ := h _ h1
      obtain ⟨k1, -, k3, -, k5⟩ := g5 _ h2
      have hrow : (idx (t / b)).getD (t % b) [] ∈ idx (t / b) := by
        rw [List.getD_eq_getElem _ _ (h2.trans_eq g1.symm)]
        exact List.getElem_mem _
      obtain ⟨v, r, e2⟩ := grad_finite hD hlt ix pt field p (data (t / b) (t % b)) (by omega)
        (by rw [k1, List.length_map, g2 _ hrow]; omega) (G := G) (g := g) (by
          intro a ha
          rw [k1] at ha
          obtain ⟨i, hi, rfl⟩ := List.mem_map.mp ha
          have hiN := g4 i (List.mem_flatten.mpr ⟨_, hrow, hi⟩)
          refine hG _ ?_
          rw [List.getD_eq_getElem _ _ (hx ▸ hiN)]
          exact List.getElem_mem _)
      simp only at k5
      rw [h3, e1] at k5
      simp only [e2] at k5
      choose u m w a1 a2 a3 a4 using fun j => (C179_adamw schedule (efin r) c mu nu p.ofLp hnu j).2 (r j) rfl
      refine ⟨p + WithLp.toLp 2 u, c + 1, m, w, ?_, a4⟩
      rw [k5]
      refine Prod.ext (funext fun j => ?_) ?_
      · show fin (p j) + _ = fin (p j + u j)
        exact (congrArg (fin (p j) + ·) (a1 j)).trans (fin_add _ _)
      · show AdamState.mk (c + 1) _ _ = _
        congr 1
        · exact funext a2
        · exact funext a3
  obtain ⟨p, c, mu, nu, e1, -⟩ := inv _ le_rfl
  refine ⟨p, losses, energies, ?_⟩
  rw [e, e1]

/-- Three samples in batches of two, one of which is the centre, with the flower state. -/
example (p0 : Pt 11) (loss : Vec 11 → Batch (Pt 3) → ℝ × Energies) (field : Vec 11 → Batch (Pt 3) → ℕ → ℕ → Pt 3) (schedule : ℕ → ℝ) (xt : Fin 3 → Pt 3) :
    ∃ D p losses energies, Cuboid.init [-1, 1] [-1, 1] [-1, 1] = .ok D ∧
      trainMumag3 (fun _ n => List.range n) (fun _ b s => List.replicate b (List.replicate s 8)) default (adamw schedule) loss
        (fun p d => (mumag3ValueAndGrad D tinyIndex m_flowerG id field p d).2) [!₂[1, 1, 1], 0, !₂[1 / 2, 0, 0]] (List.ofFn xt) (efin p0) 6000 2 3 =
        .ok (efin p, losses, energies) := by
  have g : IsGrid [-1, 1] := ⟨by simp, by simp⟩
  obtain ⟨D, hD⟩ : ∃ D, Cuboid.init [-1, 1] [-1, 1] [-1, 1] = .ok D := ⟨_, init_ok g g g⟩
  obtain ⟨p, losses, energies, e⟩ := C179_finite hD (fun i => by fin_cases i <;> simp [gridLo, gridHi]) tinyIndex (id : Pt 3 → Pt 3) field
    (fun _ n => List.range n) (fun _ b s => List.replicate b (List.replicate s 8)) default schedule loss
    [!₂[1, 1, 1], 0, !₂[1 / 2, 0, 0]] (List.ofFn xt) p0 6000 2 3 3 (fun _ => .refl _) uniform_eight rfl (by simp) (by norm_num) (by norm_num)
    (by norm_num) (by norm_num) fun _ _ => C171_flower _
  exact ⟨D, p, losses, energies, hD, e⟩

/-- **C179, the two states of the notebook.** Training from the flower state returns finite parameters. Training from the vortex state does so too exactly
if no sample is on its axis; otherwise all parameters are `nan` in the end. -/
theorem C179_states {α : Type} [Inhabited α] {nodes depth : ℕ} {xs ys zs : List ℝ} {D : Cuboid} (hD : Cuboid.init xs ys zs = .ok D)
    (hlt : ∀ i, gridLo ![xs, ys, zs] i < gridHi ![xs, ys, zs] i) (ix : PinnIndex q (3 + 1) nodes depth) (pt : α → Pt 3)
    (field : Vec q → Batch α → ℕ → ℕ → Pt 3) (permutation : Key → ℕ → List ℕ) (uniform : Key → ℕ → ℕ → List (List ℝ)) (key : Key)
    (schedule : ℕ → ℝ) (loss : Vec q → Batch α → ℝ × Energies)
    (x_dom x_tensor_dom : List α) (p0 : Pt q) (epochs B L N : ℕ) (hperm : ∀ k, (permutation k N).Perm (List.range N))
    (hu : ∀ k b s, (uniform k b s).length = b ∧ ∀ row ∈ uniform k b s, row.length = s ∧ ∀ v ∈ row, 8 ≤ v ∧ v < 9)
    (hx : x_dom.length = N) (hxt : x_tensor_dom.length = N) (hB : 1 ≤ B) (hN : 0 < N) (hBN : B ∣ N) (hE : 1 ≤ epochs) (hL : 1 ≤ L) :
    (∃ (p : Pt q) (losses : List ℝ) (energies : List Energies), trainMumag3 permutation uniform key (adamw schedule) loss
      (fun p d => (mumag3ValueAndGrad D ix m_flowerG pt field p d).2) x_dom x_tensor_dom (efin p0) epochs B L = .ok (efin p, losses, energies)) ∧
    ∃ (p : Vec q) (losses : List ℝ) (energies : List Energies), trainMumag3 permutation uniform key (adamw schedule) loss
      (fun p d => (mumag3ValueAndGrad D ix m_vortexG pt field p d).2) x_dom x_tensor_dom (efin p0) epochs B L = .ok (p, losses, energies) ∧
      ((∀ a ∈ x_dom, pt a 0 ≠ (gridLo ![xs, ys, zs] 0 + gridHi ![xs, ys, zs] 0) / 2 ∨ pt a 2 ≠ (gridLo ![xs, ys, zs] 2 + gridHi ![xs, ys, zs] 2) / 2) ↔
        ∃ y : Pt q, p = efin y) ∧
      ((∃ y : Pt q, p = efin y) ∨ ∀ j, ix.Used j → p j = nan) := by
  have hle : B ≤ N := Nat.le_of_dvd hN hBN
  refine ⟨C179_finite hD hlt ix pt field permutation uniform key schedule loss x_dom x_tensor_dom p0 epochs B L N hperm hu hx hxt hB hle hE hL
    fun _ _ => C171_flower _, ?_⟩
  by_cases ha : ∃ a ∈ x_dom, pt a 0 = (gridLo ![xs, ys, zs] 0 + gridHi ![xs, ys, zs] 0) / 2 ∧ pt a 2 = (gridLo ![xs, ys, zs] 2 + gridHi ![xs, ys, zs] 2) / 2
  · obtain ⟨a, ha, h0, h2⟩ := ha
    obtain ⟨p, losses, energies, e, h⟩ := C179_train hD hlt ix pt field permutation uniform key (adamw schedule) (adamw_nan schedule) loss x_dom
      x_tensor_dom (efin p0) epochs B L N hperm hu hx hxt hB hBN hE hL a ha h0 h2
    refine ⟨p, losses, energies, e, ⟨fun h' => ?_, fun ⟨y, hy⟩ => ?_⟩, .inr h⟩
    · exact absurd (h' a ha) (by simp [h0, h2])
    · have := h (ix.biasOut 0) (.inr (.inr (.inr (.inr (.inr ⟨0, rfl⟩)))))
      rw [hy] at this
      cases this
  · have hoff : ∀ a ∈ x_dom, pt a 0 ≠ (gridLo ![xs, ys, zs] 0 + gridHi ![xs, ys, zs] 0) / 2 ∨
        pt a 2 ≠ (gridLo ![xs, ys, zs] 2 + gridHi ![xs, ys, zs] 2) / 2 := fun a h => by
      by_contra hc
      push Not at hc
      exact ha ⟨a, h, hc⟩
    obtain ⟨p, losses, energies, e⟩ := C179_finite hD hlt ix (G := m_vortexG) pt field permutation uniform key schedule loss x_dom x_tensor_dom p0 epochs
      B L N hperm hu hx hxt hB hle hE hL fun a h => C171_vortex _ (by
        have hk : ∀ k, pt a k ≠ (gridLo ![xs, ys, zs] k + gridHi ![xs, ys, zs] k) / 2 → normalizeReal D (pt a) k ≠ 0 := fun k hk h0 => hk (by
          replace h0 : XR.toReal (D.normalize (efin (pt a)) k) = 0 := h0
          rw [normalize_toReal hD hlt] at h0
          have := sub_pos.mpr (hlt k)
          field_simp at h0
          linarith)
        intro h3
        have h4 : normalizeReal D (pt a) 0 = 0 := by nlinarith [sq_nonneg (normalizeReal D (pt a) 0), sq_nonneg (normalizeReal D (pt a) 2)]
        have h5 : normalizeReal D (pt a) 2 = 0 := by nlinarith [sq_nonneg (normalizeReal D (pt a) 0), sq_nonneg (normalizeReal D (pt a) 2)]
        rcases hoff a h with h6 | h6
        · exact hk 0 h6 h4
        · exact hk 2 h6 h5)
    exact ⟨efin p, losses, energies, e, ⟨fun _ => ⟨p, rfl⟩, fun _ => hoff⟩, .inl ⟨p, rfl⟩⟩

/-- Two samples off the axis of the vortex. -/
example (p0 : Pt 11) (loss : Vec 11 → Batch (Pt 3) → ℝ × Energies) (field : Vec 11 → Batch (Pt 3) → ℕ → ℕ → Pt 3) (schedule : ℕ → ℝ) (xt : Fin 2 → Pt 3) :
    ∃ D p losses energies, Cuboid.init [-1, 1] [-1, 1] [-1, 1] = .ok D ∧
      trainMumag3 (fun _ n => List.range n) (fun _ b s => List.replicate b (List.replicate s 8)) default (adamw schedule) loss
        (fun p d => (mumag3ValueAndGrad D tinyIndex m_vortexG id field p d).2) [!₂[1, 1, 1], !₂[1 / 2, 0, 0]] (List.ofFn xt) (efin p0) 6000 1 3 =
        .ok (efin p, losses, energies) := by
  have g : IsGrid [-1, 1] := ⟨by simp, by simp⟩
  obtain ⟨D, hD⟩ : ∃ D, Cuboid.init [-1, 1] [-1, 1] [-1, 1] = .ok D := ⟨_, init_ok g g g⟩
  obtain ⟨-, p, losses, energies, e, h, -⟩ := C179_states hD (fun i => by fin_cases i <;> simp [gridLo, gridHi]) tinyIndex (id : Pt 3 → Pt 3) field
    (fun _ n => List.range n) (fun _ b s => List.replicate b (List.replicate s 8)) default schedule loss
    [!₂[1, 1, 1], !₂[1 / 2, 0, 0]] (List.ofFn xt) p0 6000 1 3 2 (fun _ => .refl _) uniform_eight rfl (by simp) (by norm_num) (by norm_num)
    (by norm_num) (by norm_num) (by norm_num)
  obtain ⟨y, rfl⟩ := h.mp (fun a ha => by
    simp only [List.mem_cons, List.not_mem_nil, or_false] at ha
    rcases ha with rfl | rfl <;> left <;> simp [gridLo, gridHi])
  exact ⟨D, y, losses, energies, hD, e⟩

/-- **C179, trust region method.** From parameters at which the value of the objective is `nan`, no update leaves. If also the gradient contains
`nan`, `run` makes one update and reports no error. -/
theorem C179_trust_region {n : ℕ} {A : Type} (c : TRConf) (f : Objective n A) (init : Vec n ⊕ OptStep n A)
    (h : f.value (TR.start c f init).params = nan) :
    (∀ k, (TR.updates c f (TR.start c f init) k).params = (TR.start c f init).params) ∧ (TR.run c f init).params = (TR.start c f init).params ∧
    ((∃ j, f.grad (TR.start c f init).params j = nan) → (TR.run c f init).state.error = nan ∧
      (0 < c.maxiter → TR.run c f init = TR.updates c f (TR.start c f init) 1)) := by
  have h1 : ∀ k, (TR.updates c f (TR.start c f init) k).params = (TR.start c f init).params := by
    intro k
    induction k with
    | zero => rfl
    | succ k ih =>
      show (TR.update c f _ _).params = _
      rw [ih]
      simp only [TR.update]
      split_ifs with h2 h3
      · rfl
      · exfalso
        rw [h, XR.nan_sub, XR.nan_div] at h3
        exact absurd h3 (not_le_nan _)
      · rfl
  have h2 : (TR.run c f init).params = (TR.start c f init).params := by
    rcases Nat.eq_zero_or_pos c.maxiter with h0 | h0
    · rw [(C121_loop c f init).1 h0]
    · obtain ⟨k, -, -, e, -⟩ := (C121_loop c f init).2.1 h0
      rw [e, h1]
  refine ⟨h1, h2, fun ⟨j, hj⟩ => ?_⟩
  have h3 : vnorm (f.grad (TR.start c f init).params) = nan := by
    unfold vnorm
    rw [xr_sum_nan _ j (by rw [hj]; exact XR.nan_mul _)]
    rfl
  have h4 : (TR.run c f init).state.error = nan := by
    rw [(C121_loop c f init).2.2, TR.optimalityFun, h2, h3]
  refine ⟨h4, fun h0 => C121_nan c f init h0 ?_⟩
  show (TR.update c f (TR.start c f init).params (TR.start c f init).state).state.error = nan
  simp only [TR.update]
  split_ifs with h5 h6
  · exact h3
  · exfalso
    rw [h, XR.nan_sub, XR.nan_div] at h6
    exact absurd h6 (not_le_nan _)
  · exact h3

/-- The loss of the notebook with a sample on the axis as objective, started anywhere. -/
example (p : Vec 11) (field : Vec 11 → Batch (Pt 3) → ℕ → ℕ → Pt 3) (hvp : Vec 11 → Vec 11 → Vec 11) :
    ∃ (D : Cuboid) (d : Batch (Pt 3)) (f : Objective 11 Unit), Cuboid.init [-1, 1] [-1, 1] [-1, 1] = .ok D ∧
      d = ⟨[!₂[1 / 2, 0, 0], 0], [], [8]⟩ ∧ (∀ p, f.value p = (mumag3ValueAndGrad D tinyIndex m_vortexG id field p d).1) ∧
      (∀ p, f.grad p = (mumag3ValueAndGrad D tinyIndex m_vortexG id field p d).2) ∧ f.hvp = hvp ∧
      (TR.run .default f (.inl p)).params = p ∧ (TR.run .default f (.inl p)).state.error = nan := by
  have g : IsGrid [-1, 1] := ⟨by simp, by simp⟩
  obtain ⟨D, hD⟩ : ∃ D, Cuboid.init [-1, 1] [-1, 1] [-1, 1] = .ok D := ⟨_, init_ok g g g⟩
  obtain ⟨d, hd⟩ : ∃ d : Batch (Pt 3), d = ⟨[!₂[1 / 2, 0, 0], 0], [], [8]⟩ := ⟨_, rfl⟩
  obtain ⟨f, hv, hg, hh⟩ : ∃ f : Objective 11 Unit, (∀ p, f.value p = (mumag3ValueAndGrad D tinyIndex m_vortexG id field p d).1) ∧
      (∀ p, f.grad p = (mumag3ValueAndGrad D tinyIndex m_vortexG id field p d).2) ∧ f.hvp = hvp :=
    ⟨⟨fun p => (mumag3ValueAndGrad D tinyIndex m_vortexG id field p d).1, fun _ => (),
      fun p => (mumag3ValueAndGrad D tinyIndex m_vortexG id field p d).2, hvp⟩, fun _ => rfl, fun _ => rfl, rfl⟩
  obtain ⟨h1, h2⟩ := axis_batch hD (fun i => by fin_cases i <;> simp [gridLo, gridHi]) tinyIndex id field p d (by simp [hd]) 0 (by simp [hd])
    (by simp [gridLo, gridHi]) (by simp [gridLo, gridHi])
  have hp : (TR.start .default f (.inl p)).params = p := rfl
  obtain ⟨-, h3, h4⟩ := C179_trust_region .default f (.inl p) (by rw [hp, hv, h1])
  exact ⟨D, d, f, hD, hd, hv, hg, hh, h3, (h4 ⟨0, by rw [hp, hg, h2 0 (tinyIndex_used 0)]⟩).1⟩

end Verif
