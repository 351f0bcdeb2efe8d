import Verif.Proofs.Distribute
import Verif.Proofs.Morton
import Verif.Spec.Partition
/-!
Properties C15 to C18 and C57: space filling curves and the distribution of cells over ranks.
-/
namespace Dashmm
open Hilbert

/-! ### C15 -/

/-- C15: keys are below `8 ^ k`. -/
theorem C15_key_lt (k x y z : Nat) : key x y z (2 ^ k) < 8 ^ k := loop_lt k _ _ _ _

/-- C15: distinct cells of the grid have distinct keys. -/
theorem C15_key_injective (k : Nat) {x y z x' y' z' : Nat} (hx : x < 2 ^ k) (hy : y < 2 ^ k)
    (hz : z < 2 ^ k) (hx' : x' < 2 ^ k) (hy' : y' < 2 ^ k) (hz' : z' < 2 ^ k)
    (h : key x y z (2 ^ k) = key x' y' z' (2 ^ k)) : x = x' ∧ y = y' ∧ z = z' := by
  have := ckey_inj (lvl := k) (c := (x, y, z)) (c' := (x', y', z')) (mem_cells.2 ⟨hx, hy, hz⟩)
    (mem_cells.2 ⟨hx', hy', hz'⟩) h
  simpa using this

/-- C15: every number below `8 ^ k` is the key of a cell of the grid. -/
theorem C15_key_surjective (k v : Nat) (hv : v < 8 ^ k) :
    ∃ x y z, x < 2 ^ k ∧ y < 2 ^ k ∧ z < 2 ^ k ∧ key x y z (2 ^ k) = v :=
  loop_surj k states_id v hv

/-! ### C16 -/

/-- C16: cells with consecutive keys share a face. -/
theorem C16_consecutive_adjacent (k : Nat) {x y z x' y' z' : Nat} (hx : x < 2 ^ k) (hy : y < 2 ^ k)
    (hz : z < 2 ^ k) (hx' : x' < 2 ^ k) (hy' : y' < 2 ^ k) (hz' : z' < 2 ^ k)
    (h : key x' y' z' (2 ^ k) = key x y z (2 ^ k) + 1) : FaceNeighbours x y z x' y' z' := by
  obtain ⟨a, ha, hb⟩ := loop_adj k states_id h
  have e : ∀ i : Fin 3, axis x y z i % 2 ^ k = axis x y z i := by
    intro i; match i with
    | 0 => exact Nat.mod_eq_of_lt hx
    | 1 => exact Nat.mod_eq_of_lt hy
    | 2 => exact Nat.mod_eq_of_lt hz
  have e' : ∀ i : Fin 3, axis x' y' z' i % 2 ^ k = axis x' y' z' i := by
    intro i; match i with
    | 0 => exact Nat.mod_eq_of_lt hx'
    | 1 => exact Nat.mod_eq_of_lt hy'
    | 2 => exact Nat.mod_eq_of_lt hz'
  simp only [e, e'] at ha hb
  match a, ha, hb with
  | 0, ha, hb => exact .inl ⟨ha, hb 1 (by decide), hb 2 (by decide)⟩
  | 1, ha, hb => exact .inr (.inl ⟨hb 0 (by decide), ha, hb 2 (by decide)⟩)
  | 2, ha, hb => exact .inr (.inr ⟨hb 0 (by decide), hb 1 (by decide), ha⟩)

/-- Two consecutive cells of the 4 x 4 x 4 grid, in different octants. -/
example : ∃ x y z x' y' z', x < 2 ^ 2 ∧ y < 2 ^ 2 ∧ z < 2 ^ 2 ∧ x' < 2 ^ 2 ∧ y' < 2 ^ 2 ∧ z' < 2 ^ 2 ∧
    key x' y' z' (2 ^ 2) = key x y z (2 ^ 2) + 1 ∧ key x y z (2 ^ 2) = 7 := by
  obtain ⟨x, y, z, hx, hy, hz, h⟩ := C15_key_surjective 2 7 (by decide)
  obtain ⟨x', y', z', hx', hy', hz', h'⟩ := C15_key_surjective 2 8 (by decide)
  exact ⟨x, y, z, x', y', z', hx, hy, hz, hx', hy', hz', by omega, h⟩

/-! ### C17 -/

/-- C17: the Morton key interleaves the bits of the coordinates. -/
theorem C17_morton_bits {x y z : BitVec 32} (hx : x.toNat < 2 ^ 21) (hy : y.toNat < 2 ^ 21)
    (hz : z.toNat < 2 ^ 21) (i : Nat) (hi : i < 21) :
    (morton x y z).getLsbD (3 * i) = x.getLsbD i ∧
    (morton x y z).getLsbD (3 * i + 1) = y.getLsbD i ∧
    (morton x y z).getLsbD (3 * i + 2) = z.getLsbD i := morton_bit hx hy hz i hi

/-- C17: distinct cells have distinct Morton keys. -/
theorem C17_morton_injective {x y z x' y' z' : BitVec 32} (hx : x.toNat < 2 ^ 21)
    (hy : y.toNat < 2 ^ 21) (hz : z.toNat < 2 ^ 21) (hx' : x'.toNat < 2 ^ 21)
    (hy' : y'.toNat < 2 ^ 21) (hz' : z'.toNat < 2 ^ 21) (h : morton x y z = morton x' y' z') :
    x = x' ∧ y = y' ∧ z = z' := by
  have key : ∀ {u v : BitVec 32}, u.toNat < 2 ^ 21 → v.toNat < 2 ^ 21 →
      (∀ i, i < 21 → u.getLsbD i = v.getLsbD i) → u = v := by
    intro u v hu hv hb
    apply BitVec.eq_of_getLsbD_eq
    intro i _
    by_cases hi : i < 21
    · exact hb i hi
    · have hp : 2 ^ 21 ≤ 2 ^ i := Nat.pow_le_pow_right (by omega) (by omega)
      rw [BitVec.getLsbD, BitVec.getLsbD, Nat.testBit_lt_two_pow (by omega),
        Nat.testBit_lt_two_pow (by omega)]
  have hb := fun i hi => morton_bit hx hy hz i hi
  have hb' := fun i hi => morton_bit hx' hy' hz' i hi
  rw [h] at hb
  refine ⟨key hx hx' fun i hi => ?_, key hy hy' fun i hi => ?_, key hz hz' fun i hi => ?_⟩
  · rw [← (hb i hi).1, (hb' i hi).1]
  · rw [← (hb i hi).2.1, (hb' i hi).2.1]
  · rw [← (hb i hi).2.2, (hb' i hi).2.2]

/-! ### C18 -/

/-- The number of points in the cells accepted by `p`, summed along the curve. -/
theorem pointsIn_prefix {s t : List Nat} {lvl : Nat} (hs : s.length = 8 ^ lvl) (m : Nat) :
    pointsIn (2 ^ lvl) (fun c => s.getD (cellPos (2 ^ lvl) c) 0 + t.getD (cellPos (2 ^ lvl) c) 0)
      (fun c => key c.1 c.2.1 c.2.2 (2 ^ lvl) < m) = cumulative (curve s t lvl) m := by
  have hmem : ∀ c, c ∈ gridCells (2 ^ lvl) ↔ c ∈ cells (2 ^ lvl) := by
    rintro ⟨x, y, z⟩
    rw [mem_cells]
    simp only [gridCells, List.mem_flatMap, List.mem_map, List.mem_range]
    constructor
    · rintro ⟨a, ha, b, hb, c, hc, h⟩
      obtain ⟨rfl, rfl, rfl⟩ : a = x ∧ b = y ∧ c = z := by simpa using h
      exact ⟨ha, hb, hc⟩
    · rintro ⟨ha, hb, hc⟩
      exact ⟨x, ha, y, hb, z, hc, rfl⟩
  have hlen : ∀ n, (gridCells n).length = n ^ 3 := by
    intro n
    simp [gridCells, List.length_flatMap]
    ring
  have hnd : ((gridCells (2 ^ lvl)).map (ckey lvl)).Perm (List.range (8 ^ lvl)) := by
    have hsub : List.range (8 ^ lvl) ⊆ (gridCells (2 ^ lvl)).map (ckey lvl) := by
      intro v hv
      obtain ⟨c, hc, rfl⟩ := ckey_surj (List.mem_range.1 hv)
      exact List.mem_map.2 ⟨c, (hmem c).2 hc, rfl⟩
    have h1 := List.nodup_range.subperm hsub
    refine (h1.perm_of_length_le ?_).symm
    rw [List.length_map, hlen, cube_eq, List.length_range]
  have h2 : pointsIn (2 ^ lvl)
      (fun c => s.getD (cellPos (2 ^ lvl) c) 0 + t.getD (cellPos (2 ^ lvl) c) 0)
      (fun c => key c.1 c.2.1 c.2.2 (2 ^ lvl) < m)
      = (((gridCells (2 ^ lvl)).map (ckey lvl)).map
          fun k => if k < m then (curve s t lvl).getD k 0 else 0).sum := by
    unfold pointsIn
    rw [List.map_map]
    congr 1
    apply List.map_congr_left
    intro c hc
    simp only [Function.comp]
    rw [curve_get hs ((hmem c).1 hc)]
    rfl
  rw [h2, (hnd.map _).sum_eq]
  have hlc : (curve s t lvl).length = 8 ^ lvl := by rw [curve_length, hs]
  have h3 : ∀ n, ((List.range n).map fun k => if k < m then (curve s t lvl).getD k 0 else 0).sum
      = cumulative (curve s t lvl) (min n m) := by
    intro n
    induction n with
    | zero => simp [cumulative]
    | succ n ih =>
      rw [List.range_succ, List.map_append, List.sum_append, ih]
      by_cases hn : n < m
      · rw [Nat.min_eq_left (by omega), Nat.min_eq_left (by omega), cumulative_succ]
        simp [hn]
      · rw [Nat.min_eq_right (by omega), Nat.min_eq_right (by omega)]
        simp [hn]
  rw [h3]
  rcases Nat.le_total m (8 ^ lvl) with h | h
  · rw [Nat.min_eq_right h]
  · rw [Nat.min_eq_left h]
    unfold cumulative
    rw [List.take_of_length_le (by omega), List.take_of_length_le (by omega)]

/-- C18 (part): for any counts of sources and targets in the cells of the grid of the given level, if
there is one rank, or every rank's share is at least one point and the first cell holds less than two
shares, then every cell gets a rank below the number of ranks, and ranks do not decrease along the
curve.
Missing for the full property: the other counts, for which `C18_distribute_fails` shows that the code
reads outside its array or fails an assertion. -/
theorem C18_distribute_partial {s t : List Nat} {lvl ranks : Nat} (hs : s.length = 8 ^ lvl)
    (ht : t.length = 8 ^ lvl) (hr : 0 < ranks)
    (h : ranks = 1 ∨ (0 < (s.sum + t.sum) / ranks ∧
        s.getD 0 0 + t.getD 0 0 < 2 * ((s.sum + t.sum) / ranks))) :
    ∃ rk, distribute ranks s t lvl = some rk ∧ rk.length = 8 ^ lvl ∧ (∀ r ∈ rk, r < ranks) ∧
      ∀ x y z x' y' z', x < 2 ^ lvl → y < 2 ^ lvl → z < 2 ^ lvl →
        x' < 2 ^ lvl → y' < 2 ^ lvl → z' < 2 ^ lvl →
        key x y z (2 ^ lvl) ≤ key x' y' z' (2 ^ lvl) →
        rk.getD (x + y * 2 ^ lvl + z * (2 ^ lvl * 2 ^ lvl)) 0
          ≤ rk.getD (x' + y' * 2 ^ lvl + z' * (2 ^ lvl * 2 ^ lvl)) 0 := by
  have hp : ∀ x y z : Nat, x + y * 2 ^ lvl + z * (2 ^ lvl * 2 ^ lvl) = cellPos (2 ^ lvl) (x, y, z) := by
    intro x y z; simp only [cellPos]; ring
  obtain ⟨rk, h1, h2, h3, h4, _⟩ := distribute_some hs ht hr (by
    rcases h with h | h
    · exact .inl (by omega)
    · exact .inr h)
  refine ⟨rk, h1, h2, ?_, ?_⟩
  · intro r hr
    obtain ⟨i, hi, rfl⟩ := List.mem_iff_getElem.1 hr
    obtain ⟨c, hc, rfl⟩ := cellPos_surj (klen := 2 ^ lvl) (i := i) (by rw [cube_eq]; omega)
    have := h3 c hc
    rw [List.getD_eq_getElem?_getD, List.getElem?_eq_getElem hi] at this
    exact this
  · intro x y z x' y' z' hx hy hz hx' hy' hz' hle
    rw [hp, hp]
    exact h4 _ (mem_cells.2 ⟨hx, hy, hz⟩) _ (mem_cells.2 ⟨hx', hy', hz'⟩) hle

/-- C18: outside the condition of `C18_distribute_partial` the code reads outside its array or fails
an assertion. -/
theorem C18_distribute_fails {s t : List Nat} {lvl ranks : Nat} (hs : s.length = 8 ^ lvl)
    (ht : t.length = 8 ^ lvl) (hr : 2 ≤ ranks)
    (h : s.sum + t.sum < ranks ∨ 2 * ((s.sum + t.sum) / ranks) ≤ s.getD 0 0 + t.getD 0 0) :
    distribute ranks s t lvl = none := by
  apply distribute_none hs ht (by omega)
  rintro (h' | ⟨h1, h2⟩)
  · omega
  · rcases h with h | h
    · rw [Nat.div_eq_of_lt h] at h1; omega
    · omega

/-- Eight cells, two ranks, the points evenly spread. -/
example : ∃ rk, distribute 2 [1, 1, 1, 1, 1, 1, 1, 1] [1, 2, 1, 0, 1, 1, 1, 1] 1 = some rk ∧
    rk.length = 8 ∧ ∀ r ∈ rk, r < 2 := by
  obtain ⟨rk, h1, h2, h3, _⟩ := C18_distribute_partial (s := [1, 1, 1, 1, 1, 1, 1, 1])
    (t := [1, 2, 1, 0, 1, 1, 1, 1]) (lvl := 1) (ranks := 2) rfl rfl (by decide) (.inr (by decide))
  exact ⟨rk, h1, h2, h3⟩

/-- A cluster in the first cell: two ranks, ten points, all in one cell. -/
example : distribute 2 [10, 0, 0, 0, 0, 0, 0, 0] [0, 0, 0, 0, 0, 0, 0, 0] 1 = none :=
  C18_distribute_fails rfl rfl (by omega) (.inr (by decide))

/-! ### C57 -/

/-- C57 (part): under the condition of `C18_distribute_partial`, for every `q` the number of points
on ranks below `q` is as close to `q` equal shares as that of any initial piece of the curve. -/
theorem C57_balanced_partial {s t : List Nat} {lvl ranks : Nat} (hs : s.length = 8 ^ lvl)
    (ht : t.length = 8 ^ lvl) (hr : 0 < ranks)
    (h : ranks = 1 ∨ (0 < (s.sum + t.sum) / ranks ∧
        s.getD 0 0 + t.getD 0 0 < 2 * ((s.sum + t.sum) / ranks))) :
    ∃ rk, distribute ranks s t lvl = some rk ∧
      let n := 2 ^ lvl
      let pos : Nat × Nat × Nat → Nat := fun c => c.1 + c.2.1 * n + c.2.2 * (n * n)
      let load : Nat × Nat × Nat → Nat := fun c => s.getD (pos c) 0 + t.getD (pos c) 0
      ∀ q, 0 < q → q < ranks → ∀ m,
        gap (pointsIn n load fun c => rk.getD (pos c) 0 < q) ((s.sum + t.sum) / ranks * q)
          ≤ gap (pointsIn n load fun c => key c.1 c.2.1 c.2.2 n < m) ((s.sum + t.sum) / ranks * q) := by
  have hp : ∀ c : Nat × Nat × Nat, c.1 + c.2.1 * 2 ^ lvl + c.2.2 * (2 ^ lvl * 2 ^ lvl)
      = cellPos (2 ^ lvl) c := by
    intro c; simp only [cellPos]; ring
  obtain ⟨rk, h1, h2, h3, h4, h5⟩ := distribute_some hs ht hr (by
    rcases h with h | h
    · exact .inl (by omega)
    · exact .inr h)
  refine ⟨rk, h1, ?_⟩
  simp only [hp]
  intro q hq0 hq m
  have hshare : 0 < (s.sum + t.sum) / ranks := by
    rcases h with h | h
    · omega
    · exact h.1
  have hlc : (curve s t lvl).length = 8 ^ lvl := by rw [curve_length, hs]
  have htot := curve_total hs ht
  have hle : (s.sum + t.sum) / ranks * q ≤ cumulative (curve s t lvl) (curve s t lvl).length := by
    rw [htot]
    exact (Nat.mul_le_mul_left _ (by omega)).trans (Nat.div_mul_le_self _ ranks)
  have e1 : pointsIn (2 ^ lvl)
      (fun c => s.getD (cellPos (2 ^ lvl) c) 0 + t.getD (cellPos (2 ^ lvl) c) 0)
      (fun c => rk.getD (cellPos (2 ^ lvl) c) 0 < q)
      = cumulative (curve s t lvl) (nearest (curve s t lvl) ((s.sum + t.sum) / ranks * q)) := by
    rw [← pointsIn_prefix hs]
    unfold pointsIn
    congr 1
    apply List.map_congr_left
    rintro ⟨x, y, z⟩ hc
    have hc' : (x, y, z) ∈ cells (2 ^ lvl) := by
      simp only [gridCells, List.mem_flatMap, List.mem_map, List.mem_range] at hc
      obtain ⟨a, ha, b, hb, c, hc, h⟩ := hc
      obtain ⟨rfl, rfl, rfl⟩ : a = x ∧ b = y ∧ c = z := by simpa using h
      exact mem_cells.2 ⟨ha, hb, hc⟩
    have := h5 _ hc' q hq0 hq
    unfold ckey at this
    by_cases hlt : rk.getD (cellPos (2 ^ lvl) (x, y, z)) 0 < q
    · rw [if_pos hlt, if_pos (this.1 hlt)]
    · rw [if_neg hlt, if_neg (fun h => hlt (this.2 h))]
  rw [e1, pointsIn_prefix hs]
  exact nearest_best (Nat.mul_pos hshare hq0) hle m

end Dashmm
