import Verif.Props.TrainAD

/-! # A sample on the axis of the vortex: C179 -/

namespace Verif

open Micromag XR

variable {q : ℕ} {j : Fin q}

/-- The cotangent `nan` of the number gives the cotangent `nan` to the input `j`. -/
def Kills (y : RevNum q XR) (j : Fin q) : Prop := y.back nan j = some nan

/-- Every cotangent of the number gives the cotangent `nan` to the input `j`. -/
def Poison (y : RevNum q XR) (j : Fin q) : Prop := ∀ c, y.back c j = some nan

theorem addT_nan_left (t : Option XR) : JVP.addT (some nan) t = some nan := by
  cases t
  · rfl
  · exact congrArg some (XR.nan_add _)

theorem addT_nan_right (t : Option XR) : JVP.addT t (some nan) = some nan := by
  cases t
  · rfl
  · exact congrArg some (XR.add_nan _)

variable {a b : RevNum q XR}

theorem back_add (c : XR) : (a +ₐ b).back c j = JVP.addT (JVP.addT none (a.back c j)) (b.back c j) := rfl
theorem back_sub (c : XR) : (a -ₐ b).back c j = JVP.addT (JVP.addT none (a.back c j)) (b.back (-c) j) := rfl
theorem back_mul (c : XR) : (a *ₐ b).back c j = JVP.addT (JVP.addT none (a.back (c * b.val) j)) (b.back (a.val * c) j) := rfl
theorem back_div (c : XR) : (a /ₐ b).back c j =
    JVP.addT (JVP.addT none (a.back (c / b.val) j)) (b.back (-(c * XR.zpow b.val (-2) * a.val)) j) := rfl
theorem back_neg (c : XR) : (ADNum.neg a).back c j = JVP.addT none (a.back (-c) j) := rfl
theorem back_sq (c : XR) : (ADNum.ipow a 2).back c j = a.back (c * (fin (2 : ℤ) * XR.zpow a.val (2 - 1))) j := by
  show (revOp (.ipow 0 2) ![a]).back c j = _
  simp only [revOp, Prim.transpose]
  rw [if_neg (by norm_num)]
  rfl

theorem val_add : (a +ₐ b).val = a.val + b.val := rfl

theorem Kills.eq (h : Kills a j) : a.back nan j = some nan := h

theorem Kills.add_left (h : Kills a j) (b : RevNum q XR) : Kills (a +ₐ b) j := by
  rw [Kills, back_add, h.eq]
  exact addT_nan_left _

theorem Kills.add_right (h : Kills b j) (a : RevNum q XR) : Kills (a +ₐ b) j := by
  rw [Kills, back_add, h.eq]
  exact addT_nan_right _

theorem Kills.sub_left (h : Kills a j) (b : RevNum q XR) : Kills (a -ₐ b) j := by
  rw [Kills, back_sub, h.eq]
  exact addT_nan_left _

theorem Kills.sub_right (h : Kills b j) (a : RevNum q XR) : Kills (a -ₐ b) j := by
  rw [Kills, back_sub, XR.neg_nan, h.eq]
  exact addT_nan_right _

theorem Kills.mul_left (h : Kills a j) (b : RevNum q XR) : Kills (a *ₐ b) j := by
  rw [Kills, back_mul, XR.nan_mul, h.eq]
  exact addT_nan_left _

theorem Kills.mul_right (h : Kills b j) (a : RevNum q XR) : Kills (a *ₐ b) j := by
  rw [Kills, back_mul, XR.mul_nan a.val, h.eq]
  exact addT_nan_right _

theorem Kills.neg (h : Kills a j) : Kills (ADNum.neg a) j := by
  rw [Kills, back_neg, XR.neg_nan, h.eq]
  rfl

theorem Poison.add_left (h : Poison a j) (b : RevNum q XR) : Poison (a +ₐ b) j := fun c => by
  rw [back_add, h c]
  exact addT_nan_left _

theorem Poison.add_right (h : Poison b j) (a : RevNum q XR) : Poison (a +ₐ b) j := fun c => by
  rw [back_add, h c]
  exact addT_nan_right _

theorem Poison.sub_right (h : Poison b j) (a : RevNum q XR) : Poison (a -ₐ b) j := fun c => by
  rw [back_sub, h]
  exact addT_nan_right _

theorem Poison.mul_right (h : Poison b j) (a : RevNum q XR) : Poison (a *ₐ b) j := fun c => by
  rw [back_mul, h]
  exact addT_nan_right _

theorem Poison.div_left (h : Poison a j) (b : RevNum q XR) : Poison (a /ₐ b) j := fun c => by
  rw [back_div, h]
  exact addT_nan_left _

theorem Poison.sq (h : Kills a j) (hv : a.val = nan) : Poison (ADNum.ipow a 2) j := fun c => by
  have e : XR.zpow nan (2 - 1) = nan := by
    show XR.npow nan 0 * nan = nan
    exact XR.mul_nan _
  rw [back_sq, hv, e, XR.mul_nan, XR.mul_nan, h.eq]

theorem foldl_ind {P : RevNum q XR → Prop} (hl : ∀ a b, P a → P (a +ₐ b)) (hr : ∀ a b, P b → P (a +ₐ b)) (l : List (RevNum q XR)) :
    ∀ s, (P s ∨ ∃ x ∈ l, P x) → P (l.foldl ADNum.add s) := by
  induction l with
  | nil => exact fun s h => h.resolve_right (by simp)
  | cons y l ih =>
    intro s h
    refine ih _ ?_
    rcases h with h | ⟨x, hx, h⟩
    · exact .inl (hl _ _ h)
    · rcases List.mem_cons.mp hx with rfl | hx
      · exact .inl (hr _ _ h)
      · exact .inr ⟨x, hx, h⟩

theorem sumG_ind {P : RevNum q XR → Prop} (hl : ∀ a b, P a → P (a +ₐ b)) (hr : ∀ a b, P b → P (a +ₐ b)) {n : ℕ} (f : Fin n → RevNum q XR)
    (i : Fin n) (h : P (f i)) : P (sumG ((List.finRange n).map f)) :=
  foldl_ind hl hr _ _ (.inr ⟨f i, List.mem_map.mpr ⟨i, List.mem_finRange i, rfl⟩, h⟩)

theorem sumG_kills {n : ℕ} (f : Fin n → RevNum q XR) (i : Fin n) (h : Kills (f i) j) : Kills (sumG ((List.finRange n).map f)) j :=
  sumG_ind (P := (Kills · j)) (fun _ b h => h.add_left b) (fun a _ h => h.add_right a) f i h

theorem sumG_poison {n : ℕ} (f : Fin n → RevNum q XR) (i : Fin n) (h : Poison (f i) j) : Poison (sumG ((List.finRange n).map f)) j :=
  sumG_ind (P := (Poison · j)) (fun _ b h => h.add_left b) (fun a _ h => h.add_right a) f i h

theorem sumG_val_nan {n : ℕ} (f : Fin n → RevNum q XR) (i : Fin n) (h : (f i).val = nan) : (sumG ((List.finRange n).map f)).val = nan :=
  sumG_ind (P := fun y => y.val = nan) (fun a b h => by rw [val_add, h, XR.nan_add]) (fun a b h => by rw [val_add, h, XR.add_nan]) f i h

theorem meanG_poison {n : ℕ} (f : Fin n → RevNum q XR) (i : Fin n) (h : Poison (f i) j) : Poison (meanG f) j := (sumG_poison f i h).div_left _

theorem meanG_val_nan {n : ℕ} (f : Fin n → RevNum q XR) (i : Fin n) (h : (f i).val = nan) : (meanG f).val = nan :=
  (congrArg (· / fin (n : ℝ)) (sumG_val_nan f i h)).trans (XR.nan_div _)

/-! ## Networks -/

/-- The parameter `j` is an entry of a kernel or of a bias. -/
def PinnIndex.Used {a nodes depth : ℕ} (ix : PinnIndex q a nodes depth) (j : Fin q) : Prop :=
  (∃ i o, ix.kernel1 i o = j) ∨ (∃ o, ix.bias1 o = j) ∨ (∃ l i o, ix.kernels l i o = j) ∨ (∃ l o, ix.biases l o = j) ∨
  (∃ i o, ix.kernelOut i o = j) ∨ ∃ o, ix.biasOut o = j

theorem seed_kills (p : Vec q) (j : Fin q) : Kills (RevNum.seed p j) j := by
  show Function.update (fun _ => none) j (some nan) j = _
  rw [Function.update_self]

theorem dense_kills {m k : ℕ} {kernel : Fin m → Fin k → RevNum q XR} {bias : Fin k → RevNum q XR} {x : Fin m → RevNum q XR} {o : Fin k}
    (h : (∃ i, Kills (x i) j) ∨ (∃ i, Kills (kernel i o) j) ∨ Kills (bias o) j) : Kills (denseParG kernel bias x o) j := by
  rcases h with ⟨i, h⟩ | ⟨i, h⟩ | h
  · exact (sumG_kills _ i (h.mul_left _)).add_left _
  · exact (sumG_kills _ i (h.mul_right _)).add_left _
  · exact h.add_right _

theorem gelu_kills (h : Kills a j) : Kills (geluG a) j := h.mul_left _

theorem hidden_kills {m nodes depth : ℕ} (ix : PinnIndex q m nodes depth) (p : Vec q) (ls : List (Fin depth)) :
    ∀ y : Fin nodes → RevNum q XR, ((∃ o, Kills (y o) j) ∨ (∃ l ∈ ls, (∃ i o, ix.kernels l i o = j) ∨ ∃ o, ix.biases l o = j)) →
      ∃ o, Kills (ls.foldl (fun y l => fun o => geluG (denseParG (fun i o => RevNum.seed p (ix.kernels l i o))
        (fun o => RevNum.seed p (ix.biases l o)) y o)) y o) j := by
  induction ls with
  | nil => exact fun y h => h.resolve_right (by simp)
  | cons l ls ih =>
    intro y h
    refine ih _ ?_
    rcases h with ⟨o, h⟩ | ⟨l', hl, h⟩
    · exact .inl ⟨o, gelu_kills (dense_kills (.inl ⟨o, h⟩))⟩
    · rcases List.mem_cons.mp hl with rfl | hl
      · rcases h with ⟨i, o, rfl⟩ | ⟨o, rfl⟩
        · exact .inl ⟨o, gelu_kills (dense_kills (.inr (.inl ⟨i, seed_kills p _⟩)))⟩
        · exact .inl ⟨o, gelu_kills (dense_kills (.inr (.inr (seed_kills p _))))⟩
      · exact .inr ⟨l', hl, h⟩

theorem pinn_kills {nodes depth e : ℕ} (ix : PinnIndex q (3 + e) nodes depth) (lam : Fin e → ℝ) (p : Vec q) (x : Fin 3 → RevNum q XR)
    (hj : ix.Used j) : ∃ o, Kills (pinnG ix lam (RevNum q XR) (RevNum.seed p) x o) j := by
  have out : ((∃ i o, ix.kernel1 i o = j) ∨ (∃ o, ix.bias1 o = j) ∨ (∃ l i o, ix.kernels l i o = j) ∨ ∃ l o, ix.biases l o = j) →
      ∃ o, Kills (pinnG ix lam (RevNum q XR) (RevNum.seed p) x o) j := by
    intro h
    have := hidden_kills (j := j) ix p (List.finRange depth) (fun o => geluG (denseParG (fun i o => RevNum.seed p (ix.kernel1 i o))
      (fun o => RevNum.seed p (ix.bias1 o)) (Fin.append x fun i => ADNum.const (fin (lam i))) o)) ?_
    · simp only [pinnG]
      exact ⟨0, dense_kills (.inl this)⟩
    rcases h with ⟨i, o, rfl⟩ | ⟨o, rfl⟩ | ⟨l, i, o, h⟩ | ⟨l, o, h⟩
    · exact .inl ⟨o, gelu_kills (dense_kills (.inr (.inl ⟨i, seed_kills p _⟩)))⟩
    · exact .inl ⟨o, gelu_kills (dense_kills (.inr (.inr (seed_kills p _))))⟩
    · exact .inr ⟨l, List.mem_finRange l, .inl ⟨i, o, h⟩⟩
    · exact .inr ⟨l, List.mem_finRange l, .inr ⟨o, h⟩⟩
  rcases hj with h | h | h | h | ⟨i, o, h⟩ | ⟨o, h⟩
  · exact out (.inl h)
  · exact out (.inr (.inl h))
  · exact out (.inr (.inr (.inl h)))
  · exact out (.inr (.inr (.inr h)))
  · simp only [pinnG]
    exact ⟨o, dense_kills (.inr (.inl ⟨i, h ▸ seed_kills p _⟩))⟩
  · simp only [pinnG]
    exact ⟨o, dense_kills (.inr (.inr (h ▸ seed_kills p _)))⟩

/-! ## The magnetisation -/

theorem solve_nan {m : ℕ} (A : Fin m → Fin m → XR) (v : Fin m → XR) (i : Fin m) (h : v i = nan) : ADSolve.solve A v = fun _ => nan := by
  classical
  simp only [ADSolve.solve]
  rw [if_neg]
  rintro ⟨-, h', -⟩
  have := h' i
  rw [h] at this
  cases this

theorem cayley_val_nan (p v : Fin 3 → RevNum q XR) (k : Fin 3) (hv : (v k).val = nan) (i : Fin 3) : (cayleyRotationG p v i).val = nan := by
  have := solve_nan (fun i d => ((ADNum.const (if i = d then 1 else 0) : RevNum q XR) -ₐ toSkewSimmetricMatrixG p i d).val)
    (fun i => (sumG ((List.finRange 3).map fun d => ((ADNum.const (if i = d then 1 else 0) : RevNum q XR) +ₐ toSkewSimmetricMatrixG p i d) *ₐ v d)).val) 0
    (sumG_val_nan _ k ((congrArg (_ * ·) hv).trans (XR.mul_nan _)))
  exact congrFun this i

theorem sumT_nan {m : ℕ} (f : Fin m → Option XR) (i : Fin m) (h : f i = some nan) : sumT ((List.finRange m).map f) = some nan := by
  have : ∀ (l : List (Option XR)) s, (s = some nan ∨ some nan ∈ l) → l.foldl JVP.addT s = some nan := by
    intro l
    induction l with
    | nil => exact fun s h => h.resolve_right (by simp)
    | cons y l ih =>
      intro s h
      refine ih _ ?_
      rcases h with rfl | h
      · exact .inl (addT_nan_left _)
      · rcases List.mem_cons.mp h with rfl | h
        · exact .inl (addT_nan_right _)
        · exact .inr h
  exact this _ _ (.inr (List.mem_map.mpr ⟨i, List.mem_finRange i, h⟩))

theorem skew_kills (p : Fin 3 → RevNum q XR) (k : Fin 3) (h : Kills (p k) j) : ∃ i d, Kills (toSkewSimmetricMatrixG p i d) j := by
  fin_cases k
  · exact ⟨2, 1, Kills.sub_left (a := p 0) h _⟩
  · exact ⟨2, 0, Kills.sub_left (a := ADNum.neg (p 1)) h.neg _⟩
  · exact ⟨1, 0, Kills.sub_left (a := p 2) h _⟩

theorem cayley_kills (p v : Fin 3 → RevNum q XR) (k : Fin 3) (h : Kills (p k) j) (i : Fin 3) : Kills (cayleyRotationG p v i) j := by
  obtain ⟨s, d, h⟩ := skew_kills p k h
  set A : Fin 3 → Fin 3 → RevNum q XR := fun i d => ADNum.const (if i = d then 1 else 0) -ₐ toSkewSimmetricMatrixG p i d with hA
  have hw := solve_nan (fun i d => (A d i).val) (fun a => if a = i then nan else ADNum.const 0) i (if_pos rfl)
  refine sumT_nan _ s ?_
  have h2 : ∀ z, (A s d).back (-(nan * z)) j = some nan := fun z => by
    rw [XR.nan_mul, XR.neg_nan]
    exact h.sub_right _
  have h3 := sumT_nan (fun d => (A s d).back (-((ADSolve.solve (fun i d => (A d i).val) (fun a => if a = i then nan else ADNum.const 0) : Fin 3 → XR) s *
    (ADSolve.solve (fun i d => (A i d).val) (fun i => (sumG ((List.finRange 3).map fun d =>
      ((ADNum.const (if i = d then 1 else 0) : RevNum q XR) +ₐ toSkewSimmetricMatrixG p i d) *ₐ v d)).val) : Fin 3 → XR) d)) j) d (by
      rw [hw]
      exact h2 _)
  exact (congrArg (JVP.addT _) h3).trans (addT_nan_right _)

theorem vortex_val_nan (v : Fin 3 → RevNum q XR) (h0 : (v 0).val = fin 0) (h2 : (v 2).val = fin 0) (i : Fin 3) :
    (m_vortexG (RevNum q XR) v i).val = nan := by
  have hr : XR.sqrt (XR.zpow (v 2).val 2 + XR.zpow (v 0).val 2) = fin 0 := by
    rw [h0, h2]
    show XR.sqrt (fin 0 ^ 2 + fin 0 ^ 2) = _
    simp [XR.sqrt]
  have hn : (fin 0 : XR) / fin 0 = nan := by
    rw [fin_div_zero]
    simp [infSign]
  set z : Fin 3 → RevNum q XR := ![ADNum.neg (v 2) /ₐ ADNum.sqrt (ADNum.ipow (v 2) 2 +ₐ ADNum.ipow (v 0) 2) *ₐ ADNum.sqrt (ADNum.const 1 -ₐ
      ADNum.exp (ADNum.const (fin (-4)) *ₐ (ADNum.ipow (ADNum.sqrt (ADNum.ipow (v 2) 2 +ₐ ADNum.ipow (v 0) 2)) 2 /ₐ ADNum.const (fin (0.14 ^ 2))))),
    ADNum.exp (ADNum.const (fin (-2)) *ₐ (ADNum.ipow (ADNum.sqrt (ADNum.ipow (v 2) 2 +ₐ ADNum.ipow (v 0) 2)) 2 /ₐ ADNum.const (fin (0.14 ^ 2)))),
    v 0 /ₐ ADNum.sqrt (ADNum.ipow (v 2) 2 +ₐ ADNum.ipow (v 0) 2) *ₐ ADNum.sqrt (ADNum.const 1 -ₐ
      ADNum.exp (ADNum.const (fin (-4)) *ₐ (ADNum.ipow (ADNum.sqrt (ADNum.ipow (v 2) 2 +ₐ ADNum.ipow (v 0) 2)) 2 /ₐ ADNum.const (fin (0.14 ^ 2)))))] with hz
  have h3 : (z 2).val = nan := by
    show (v 0).val / XR.sqrt (XR.zpow (v 2).val 2 + XR.zpow (v 0).val 2) * _ = nan
    rw [hr, h0, hn]
    exact XR.nan_mul _
  have h4 : (vnormG z).val = nan := by
    have : (sumG ((List.finRange 3).map fun i => z i *ₐ z i)).val = nan := by
      refine sumG_val_nan (fun i => z i *ₐ z i) 2 ?_
      show (z 2).val * (z 2).val = nan
      rw [h3]
      exact XR.nan_mul _
    show XR.sqrt (sumG ((List.finRange 3).map fun i => z i *ₐ z i)).val = nan
    rw [this]
    rfl
  show (z i).val / (vnormG z).val = nan
  rw [h4]
  exact XR.div_nan _

/-! ## The loss -/

/-- The loss and all entries of its gradient are `nan` if the magnetisation of a sample is, and `nan` goes back from it to the parameters. -/
theorem loss_poison {n b : ℕ} (lam : Fin b → ℝ) (h : Fin b → Fin n → Pt 3) (M : Fin b → NetG q 3 3) (x : Fin n → Pt 3) (p : Vec q) (l : Fin b) (i : Fin n)
    (hv : ∀ k, (M l (RevNum q XR) (RevNum.seed p) (constG (x i)) k).val = nan) :
    (LossG.valueAndGrad (fun _ _ _ => mumag3BatchLossG lam h M x) p).1 = nan ∧
    ∀ j, (∀ k, Kills (M l (RevNum q XR) (RevNum.seed p) (constG (x i)) k) j) →
      (LossG.valueAndGrad (fun _ _ _ => mumag3BatchLossG lam h M x) p).2 j = nan := by
  have hd : (dotCG (M l (RevNum q XR) (RevNum.seed p) (constG (x i))) (efin (EuclideanSpace.single 2 1 : Pt 3))).val = nan :=
    sumG_val_nan _ 0 ((congrArg (· * _) (hv 0)).trans (XR.nan_mul _))
  have hsq : XR.zpow nan 2 = nan := by
    show XR.npow nan 1 * nan = nan
    exact XR.mul_nan _
  have ha : (ani_energyG 0.1 (EuclideanSpace.single 2 1) (M l) (RevNum.seed p) x).val = nan := by
    refine (congrArg (_ * ·) (meanG_val_nan _ i ?_)).trans (XR.mul_nan _)
    exact (congrArg (_ - XR.zpow · 2) hd).trans ((congrArg (_ - ·) hsq).trans (XR.sub_nan _))
  constructor
  · refine meanG_val_nan (fun l => mumag3LossG (lam l) (h l) (M l) x (RevNum.seed p)) l ?_
    show (_ + (ani_energyG 0.1 (EuclideanSpace.single 2 1) (M l) (RevNum.seed p) x).val + _ : XR) = nan
    rw [ha, XR.add_nan, XR.nan_add]
  · intro j hk
    have h1 : Poison (ani_energyG 0.1 (EuclideanSpace.single 2 1) (M l) (RevNum.seed p) x) j :=
      (meanG_poison _ i ((Poison.sq (sumG_kills _ 0 ((hk 0).mul_left _)) hd).sub_right _)).mul_right _
    have h2 : Poison (mumag3BatchLossG lam h M x (RevNum.seed p)) j :=
      meanG_poison (fun l => mumag3LossG (lam l) (h l) (M l) x (RevNum.seed p)) l ((h1.add_right _).add_left _)
    show ((mumag3BatchLossG lam h M x (RevNum.seed p)).back 1 j).getD 0 = nan
    rw [h2]
    rfl

/-- **C179.** One sample on the axis of the vortex, the line through the centre of the box, makes the loss of `mumag3.ipynb` `nan` and with it the
derivative by every parameter of the network, whatever the other samples are, although the derivatives of the loss with the other samples are right
(C171). -/
theorem C179_axis {n b nodes depth : ℕ} {xs ys zs : List ℝ} {D : Cuboid} (hD : Cuboid.init xs ys zs = .ok D)
    (hlt : ∀ i, gridLo ![xs, ys, zs] i < gridHi ![xs, ys, zs] i) (ix : PinnIndex q (3 + 1) nodes depth) (lam : Fin b → ℝ) (hb : b ≠ 0)
    (h : Fin b → Fin n → Pt 3) (x : Fin n → Pt 3) (p : Vec q) (i : Fin n)
    (h0 : x i 0 = (gridLo ![xs, ys, zs] 0 + gridHi ![xs, ys, zs] 0) / 2) (h2 : x i 2 = (gridLo ![xs, ys, zs] 2 + gridHi ![xs, ys, zs] 2) / 2) :
    (LossG.valueAndGrad (fun _ _ _ => mumag3BatchLossG lam h (fun l => magG D (pinnG ix fun _ => lam l) m_vortexG) x) p).1 = nan ∧
    ∀ j, ix.Used j →
      (LossG.valueAndGrad (fun _ _ _ => mumag3BatchLossG lam h (fun l => magG D (pinnG ix fun _ => lam l) m_vortexG) x) p).2 j = nan := by
  let l : Fin b := ⟨0, Nat.pos_of_ne_zero hb⟩
  have hn : ∀ k, x i k = (gridLo ![xs, ys, zs] k + gridHi ![xs, ys, zs] k) / 2 → (D.normalizeG (constG (x i)) k : RevNum q XR).val = fin 0 := fun k hk => by
    show D.normalize (vfin (x i).ofLp) k = fin 0
    obtain ⟨-, -, -, e⟩ := init_inv hD
    rw [normalize_fin D _ _ (congrArg (fun D => D.dom.lb) e) (congrArg (fun D => D.dom.ub) e) hlt]
    show fin (2 * (x i k - gridLo ![xs, ys, zs] k) / (gridHi ![xs, ys, zs] k - gridLo ![xs, ys, zs] k) - 1) = _
    have := sub_pos.mpr (hlt k)
    rw [hk]
    congr 1
    field_simp
    ring
  have hv := vortex_val_nan (D.normalizeG (constG (x i)) : Fin 3 → RevNum q XR) (hn 0 h0) (hn 2 h2)
  obtain ⟨h3, h4⟩ := loss_poison lam h (fun l => magG D (pinnG ix fun _ => lam l) m_vortexG) x p l i fun k => cayley_val_nan _ _ 0 (hv 0) k
  refine ⟨h3, fun j hj => h4 j fun k => ?_⟩
  obtain ⟨o, ho⟩ := pinn_kills ix (fun _ => lam l) p (D.normalizeG (constG (x i))) hj
  exact cayley_kills _ _ o ho k

/-- The network without hidden layers and with one node, whose 11 parameters are in the order of `flatten`. -/
def tinyIndex : PinnIndex 11 (3 + 1) 1 0 where
  kernel1 i _ := ![1, 2, 3, 4] i
  bias1 _ := 0
  kernels l := l.elim0
  biases l := l.elim0
  kernelOut _ o := ![8, 9, 10] o
  biasOut o := ![5, 6, 7] o

theorem tinyIndex_used (j : Fin 11) : tinyIndex.Used j := by
  fin_cases j
  · exact .inr (.inl ⟨0, rfl⟩)
  · exact .inl ⟨0, 0, rfl⟩
  · exact .inl ⟨1, 0, rfl⟩
  · exact .inl ⟨2, 0, rfl⟩
  · exact .inl ⟨3, 0, rfl⟩
  · exact .inr (.inr (.inr (.inr (.inr ⟨0, rfl⟩))))
  · exact .inr (.inr (.inr (.inr (.inr ⟨1, rfl⟩))))
  · exact .inr (.inr (.inr (.inr (.inr ⟨2, rfl⟩))))
  · exact .inr (.inr (.inr (.inr (.inl ⟨0, 0, rfl⟩))))
  · exact .inr (.inr (.inr (.inr (.inl ⟨0, 1, rfl⟩))))
  · exact .inr (.inr (.inr (.inr (.inl ⟨0, 2, rfl⟩))))

/-- That network in the cube `[-1, 1]³` with two samples, of which the second is the centre. -/
example (p : Vec 11) (h : Fin 1 → Fin 2 → Pt 3) : ∃ D, Cuboid.init [-1, 1] [-1, 1] [-1, 1] = .ok D ∧
    LossG.valueAndGrad (fun _ _ _ => mumag3BatchLossG (fun _ : Fin 1 => 8) h (fun _ => magG D (pinnG tinyIndex fun _ => 8) m_vortexG)
      ![!₂[1 / 2, 0, 0], 0]) p = (nan, fun _ => nan) := by
  have g : IsGrid [-1, 1] := ⟨by simp, by simp⟩
  obtain ⟨D, hD⟩ : ∃ D, Cuboid.init [-1, 1] [-1, 1] [-1, 1] = .ok D := ⟨_, init_ok g g g⟩
  have := C179_axis hD (fun i => by fin_cases i <;> simp [gridLo, gridHi]) tinyIndex (fun _ : Fin 1 => 8) one_ne_zero h ![!₂[1 / 2, 0, 0], 0] p 1
    (by simp [gridLo, gridHi]) (by simp [gridLo, gridHi])
  exact ⟨D, hD, Prod.ext this.1 (funext fun j => this.2 j (tinyIndex_used j))⟩

end Verif
