import Verif.Props.MumagPotential
import Verif.Props.Uniform

/-! # Membership in the domains, and the domain methods of the cuboid of `mumag3.py` -/

namespace Verif

open XR MeasureTheory

/-! ## C104 -/

/-- `Hypercube.includes` has one truth value for every coordinate; all are true exactly for the points of the closed
box. A coordinate which is not a number is never included. -/
theorem C104_hypercube {n : ℕ} (lb ub : Fin n → ℝ) :
    (∀ (p : Fin n → ℝ) (i : Fin n), Hypercube.includes ⟨vfin lb, vfin ub⟩ (vfin p) i ↔ p i ∈ Set.Icc (lb i) (ub i)) ∧
    (∀ p : Fin n → ℝ, (∀ i, Hypercube.includes ⟨vfin lb, vfin ub⟩ (vfin p) i) ↔ p ∈ Set.Icc lb ub) ∧
    (∀ (x : Vec n) (i : Fin n), Hypercube.includes ⟨vfin lb, vfin ub⟩ x i → ∃ a, x i = fin a) := by
  have h1 : ∀ (p : Fin n → ℝ) (i : Fin n), Hypercube.includes ⟨vfin lb, vfin ub⟩ (vfin p) i ↔
      p i ∈ Set.Icc (lb i) (ub i) := by
    intro p i
    simp [Hypercube.includes]
  refine ⟨h1, fun p => ?_, fun x i hx => ?_⟩
  · simp only [h1, Set.mem_Icc, Pi.le_def, forall_and]
  · simp only [Hypercube.includes, vfin_apply] at hx
    cases h : x i with
    | fin a => exact ⟨a, rfl⟩
    | nan => rw [h] at hx; exact absurd hx.1 (not_le_nan _)
    | pinf => rw [h] at hx; exact absurd hx.2 id
    | ninf => rw [h] at hx; exact absurd hx.1 id

/-- A box is made exactly from two tuples with the same number of entries, and has these entries as bounds; otherwise the
assertion fails. -/
theorem C104_init (lb ub : List XR) :
    (lb.length ≠ ub.length → Hypercube.init lb ub = .error .assertion) ∧
    (lb.length = ub.length → ∃ D, Hypercube.init lb ub = .ok D ∧ List.ofFn D.2.lb = lb ∧ List.ofFn D.2.ub = ub) := by
  constructor
  · intro h
    rw [Hypercube.init, dif_neg h]
  · intro h
    rw [Hypercube.init, dif_pos h]
    refine ⟨_, rfl, List.ofFn_getElem .., ?_⟩
    refine List.ext_getElem (by simp [h]) fun i h1 h2 => by simp

example : Hypercube.init [0, 0] [1] = .error .assertion := (C104_init _ _).1 (by simp)

/-- `Sphere.includes` and `Disk.includes` are true exactly for the points of the open ball, so, unlike for boxes, not on
the boundary. A point with a coordinate which is not a number is not included. -/
theorem C104_spherical {n : ℕ} (r : ℝ) (o : Fin n → ℝ) :
    (∀ p : Fin n → ℝ, spherical.includes (fin r) (vfin o) (vfin p) ↔ edist2 p o < r) ∧
    (∀ (x : Vec n) (i : Fin n), x i = nan → ¬ spherical.includes (fin r) (vfin o) x) := by
  refine ⟨fun p => includes_fin r o p, fun x i hx h => ?_⟩
  rw [spherical.includes] at h
  have : vnorm (fun i => x i - vfin o i) = nan := by
    rw [vnorm, ← Finset.add_sum_erase _ _ (Finset.mem_univ i), hx]
    simp
  rw [this] at h
  exact not_nan_lt _ h

/-- The point `(2, 0)` is on the circle of radius 2 and not included, but it belongs to the box `[0, 2]²`. -/
example : ¬ spherical.includes (fin 2) (vfin ![0, 0]) (vfin ![2, 0]) ∧
    ∀ i, Hypercube.includes ⟨vfin ![0, 0], vfin ![2, 2]⟩ (vfin ![2, 0]) i := by
  rw [(C104_spherical 2 ![0, 0]).1, (C104_hypercube ![0, 0] ![2, 2]).2.1]
  constructor
  · have : edist2 ![2, 0] ![0, 0] = 2 := by
      rw [edist2, Real.sqrt_eq_iff_mul_self_eq] <;> norm_num [Fin.sum_univ_two]
    rw [this]; simp
  · constructor <;> intro i <;> fin_cases i <;> simp

/-- The methods of the cuboid of `mumag3.py` refer to the box spanned by the ends of its grids: `includes` accepts its
points, `support` is its volume, `transform` is uniform on it, `transform_bnd` lands on its boundary; all samples are mapped as by the
`Hypercube` with these corners. -/
theorem C104_cuboid (xs ys zs : List ℝ) (D : Cuboid) (hD : Cuboid.init xs ys zs = .ok D)
    (h : ∀ i, gridLo ![xs, ys, zs] i < gridHi ![xs, ys, zs] i) :
    (∀ p : Fin 3 → ℝ, (∀ i, D.includes (vfin p) i) ↔ p ∈ Set.Icc (gridLo ![xs, ys, zs]) (gridHi ![xs, ys, zs])) ∧
    (∃ V : ℝ, D.support = fin V ∧
      volume (Set.Icc (gridLo ![xs, ys, zs]) (gridHi ![xs, ys, zs])) = ENNReal.ofReal V ∧
      IsUniform D.transform (Set.Icc (gridLo ![xs, ys, zs]) (gridHi ![xs, ys, zs])) V) ∧
    (∀ s t : ℝ, ∃ p ∈ frontier (Set.Icc (gridLo ![xs, ys, zs]) (gridHi ![xs, ys, zs])),
      D.transformBnd [fin s, fin t] = .ok (vfin p)) ∧
    (∀ x, D.transform x = transformHypercube x (vfin (gridLo ![xs, ys, zs])) (vfin (gridHi ![xs, ys, zs]))) ∧
    (∀ l, D.transformBnd l = transformHypercubeBnd l (vfin (gridLo ![xs, ys, zs])) (vfin (gridHi ![xs, ys, zs]))) := by
  obtain ⟨hx, hy, hz, rfl⟩ := init_inv hD
  set lo := gridLo ![xs, ys, zs]
  set hi := gridHi ![xs, ys, zs]
  have hbox : boxRegion lo hi = Set.Icc lo hi := by
    ext p; simp only [boxRegion, Set.mem_ofPred_eq, Set.mem_Icc, Pi.le_def, forall_and]
  refine ⟨fun p => (C104_hypercube lo hi).2.1 p, ?_, fun s t => ?_, fun _ => rfl, fun _ => rfl⟩
  · obtain ⟨V, hV, hu⟩ := C44_transforms_uniform.1 lo hi h
    rw [hbox] at hu
    exact ⟨V, hV, hu.2.1, hu⟩
  · obtain ⟨p, hp, hin, i, hi'⟩ := (C32_transform_bnd_on_boundary (by norm_num : 0 < 3) lo hi h [s, t]).1 rfl
    refine ⟨p, ?_, hp⟩
    rw [frontier, IsClosed.closure_eq isClosed_Icc]
    refine ⟨⟨fun i => (hin i).1, fun i => (hin i).2⟩, fun hint => ?_⟩
    rw [← Set.pi_univ_Icc, interior_pi_set Set.finite_univ] at hint
    have : p i ∈ interior (Set.Icc (lo i) (hi i)) := hint i (Set.mem_univ i)
    rw [interior_Icc] at this
    rcases hi' with h1 | h1
    · exact absurd this.1 (by rw [h1]; exact lt_irrefl _)
    · exact absurd this.2 (by rw [h1]; exact lt_irrefl _)

/-- The cuboid with the grids `[0, 1]`, `[0, 2, 3]`, `[-1, 1]` contains `(1, 1, 0)`. -/
example : ∃ D, Cuboid.init [0, 1] [0, 2, 3] [-1, 1] = .ok D ∧
    ∀ i, D.includes (vfin ![1, 1, 0]) i := by
  have h : ∀ i, gridLo ![[0, 1], [0, 2, 3], [-1, 1]] i < gridHi ![[0, 1], [0, 2, 3], [-1, 1]] i := by
    intro i
    fin_cases i <;> simp [gridLo, gridHi]
  have hD := init_ok (xs := [0, 1]) (ys := [0, 2, 3]) (zs := [-1, 1]) ⟨by simp, by simp⟩ ⟨by simp, by simp; norm_num⟩
    ⟨by simp, by simp⟩
  refine ⟨_, hD, ((C104_cuboid _ _ _ _ hD h).1 _).mpr ⟨?_, ?_⟩⟩ <;> intro i <;> fin_cases i <;> simp [gridLo, gridHi]

end Verif
