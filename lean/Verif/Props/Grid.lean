import Verif.Proofs.Grid
import Mathlib.Algebra.Order.Ring.Rat
import Mathlib.Algebra.Field.Rat
import Mathlib.Data.Rat.Floor
import Mathlib.Tactic.NormNum
/-!
Properties C19 to C21: the domain, the uniform grid and the grouping of points.
-/
namespace Dashmm
open Grid

/-! ### C19 -/

/-- C19: keys of cells are below the number of cells. -/
theorem C19_key_lt {x y z n : Nat} (hx : x < n) (hy : y < n) (hz : z < n) : simpleKey x y z n < n ^ 3 :=
  simpleKey_lt hx hy hz

/-- C19: distinct cells have distinct keys. -/
theorem C19_key_injective {x y z x' y' z' n : Nat} (hx : x < n) (hy : y < n) (hz : z < n)
    (hx' : x' < n) (hy' : y' < n) (hz' : z' < n) (h : simpleKey x y z n = simpleKey x' y' z' n) :
    x = x' ∧ y = y' ∧ z = z' := simpleKey_inj hx hy hz hx' hy' hz' h

/-- C19: every number below the number of cells is a key. -/
theorem C19_key_surjective {n v : Nat} (h : v < n ^ 3) :
    ∃ x y z, x < n ∧ y < n ∧ z < n ∧ simpleKey x y z n = v := simpleKey_surj h

/-- C19: any index below an index `i` of the uniform level (reached from it through any children) is
attributed to the cell of `i`. -/
theorem C19_descendants (i : Index) (p : List Nat) (hp : ∀ c ∈ p, c < 8) :
    unifGridIndex (p.foldl Index.child i) i.level = some (simpleKey i.x i.y i.z (2 ^ i.level)) := by
  obtain ⟨h1, h2⟩ := parent_of_path i p hp
  rw [unifGridIndex_ge (by omega)]
  have : (p.foldl Index.child i).level - i.level = p.length := by omega
  rw [this, h1]

/-- C19: an index above the uniform level is attributed to no cell. -/
theorem C19_coarse (i : Index) (u : Nat) (h : i.level < u) : unifGridIndex i u = none := by
  unfold unifGridIndex
  simp only
  rw [if_pos (by omega)]

example : unifGridIndex ([3, 7, 0].foldl Index.child ⟨1, 0, 1, 1⟩) 1 = some 5 :=
  C19_descendants ⟨1, 0, 1, 1⟩ [3, 7, 0] (by decide)

/-! ### C20 -/

section
variable {K : Type} [Field K] [LinearOrder K] [IsStrictOrderedRing K]

/-- C20: whatever order the ranks' contributions are combined in, the domain contains every source
and, unless sources and targets are the same, every target of every rank. -/
theorem C20_domain_contains (same : Bool) (ranks : List (List (Point K) × List (Point K))) (v : Box6 K)
    (hv : Reduce.Combined boxInit boxOp (ranks.map fun r => localBox same r.1 r.2) v)
    (r : List (Point K) × List (Point K)) (hr : r ∈ ranks) (p : Point K)
    (hp : p ∈ r.1 ∨ (same = false ∧ p ∈ r.2)) : InDomain (domainOf v) p := by
  apply domainOf_has
  apply combined_has hv
  refine ⟨_, List.mem_map.2 ⟨r, hr, rfl⟩, ?_⟩
  rcases hp with hp | ⟨h, hp⟩
  · exact localBox_src hp
  · subst h; exact localBox_tgt hp

/-- C20: the domain has a positive size as soon as two of the points differ. -/
theorem C20_domain_positive (same : Bool) (ranks : List (List (Point K) × List (Point K))) (v : Box6 K)
    (hv : Reduce.Combined boxInit boxOp (ranks.map fun r => localBox same r.1 r.2) v)
    (r r' : List (Point K) × List (Point K)) (hr : r ∈ ranks) (hr' : r' ∈ ranks) (p q : Point K)
    (hp : p ∈ r.1 ∨ (same = false ∧ p ∈ r.2)) (hq : q ∈ r'.1 ∨ (same = false ∧ q ∈ r'.2)) (hne : p ≠ q) :
    0 < (domainOf v).size := by
  obtain ⟨⟨a1, a2⟩, ⟨a3, a4⟩, ⟨a5, a6⟩⟩ := C20_domain_contains same ranks v hv r hr p hp
  obtain ⟨⟨b1, b2⟩, ⟨b3, b4⟩, ⟨b5, b6⟩⟩ := C20_domain_contains same ranks v hv r' hr' q hq
  by_contra hle
  push Not at hle
  apply hne
  obtain ⟨px, py, pz⟩ := p
  obtain ⟨qx, qy, qz⟩ := q
  simp only at *
  have e1 : px = qx := by linarith
  have e2 : py = qy := by linarith
  have e3 : pz = qz := by linarith
  rw [e1, e2, e3]

variable [FloorRing K]

/-- C20: every point of the domain is assigned to the cell whose box contains it. -/
theorem C20_cell_contains (d : Domain K) (hs : 0 < d.size) (level : Nat) (p : Point K) (hp : InDomain d p) :
    ∃ i : Index, i.level = level ∧ InBoxOf d i p ∧ gidOf d level p = simpleKey i.x i.y i.z (2 ^ level) :=
  gidOf_spec hs level hp

/-- C20: the computed integer coordinates of the cell of a point of the domain are in range (none is
negative or too large). -/
theorem C20_coords_in_range (d : Domain K) (hs : 0 < d.size) (level : Nat) (p : Point K)
    (hp : InDomain d p) :
    (0 ≤ cellCoord (2 ^ level) d.low.x (1 / d.size) p.x ∧
      cellCoord (2 ^ level) d.low.x (1 / d.size) p.x < 2 ^ level) ∧
    (0 ≤ cellCoord (2 ^ level) d.low.y (1 / d.size) p.y ∧
      cellCoord (2 ^ level) d.low.y (1 / d.size) p.y < 2 ^ level) ∧
    (0 ≤ cellCoord (2 ^ level) d.low.z (1 / d.size) p.z ∧
      cellCoord (2 ^ level) d.low.z (1 / d.size) p.z < 2 ^ level) := by
  obtain ⟨⟨a, b⟩, ⟨c, e⟩, ⟨f, g⟩⟩ := hp
  have h2 : 0 < 2 ^ level := by positivity
  have key : ∀ {lo q : K}, lo ≤ q → q ≤ lo + d.size →
      0 ≤ cellCoord (2 ^ level) lo (1 / d.size) q ∧ cellCoord (2 ^ level) lo (1 / d.size) q < 2 ^ level := by
    intro lo q h h'
    obtain ⟨h3, h4, _⟩ := cellCoord_spec h2 hs h h'
    refine ⟨h3, ?_⟩
    have : ((cellCoord (2 ^ level) lo (1 / d.size) q).toNat : Int) < ((2 ^ level : Nat) : Int) := by
      exact_mod_cast h4
    rw [Int.toNat_of_nonneg h3] at this
    push_cast at this
    exact this
  exact ⟨key a b, key c e, key f g⟩

omit [FloorRing K] in
/-- C20: a point lies in the box of at most one cell of a level. -/
theorem C20_cell_unique (d : Domain K) (hs : 0 < d.size) (i j : Index) (hl : i.level = j.level)
    (p : Point K) (hi : InBoxOf d i p) (hj : InBoxOf d j p) : i = j := by
  obtain ⟨a, b, c⟩ := hi
  obtain ⟨a', b', c'⟩ := hj
  rw [← hl] at a' b' c'
  have hh : 0 < d.size / 2 ^ i.level := by positivity
  obtain ⟨ix, iy, iz, il⟩ := i
  obtain ⟨jx, jy, jz, jl⟩ := j
  simp only at *
  rw [slot_unique hh a a', slot_unique hh b b', slot_unique hh c c', hl]

/-- C20: for points of the domain, every assigned cell exists, the count of every cell is the number
of points assigned to it, and the counts sum to the number of points. -/
theorem C20_counts (d : Domain K) (hs : 0 < d.size) (level : Nat) (P : List (Point K))
    (hP : ∀ p ∈ P, InDomain d p) :
    ∃ gid count, assignPoints d level P = (gid, count) ∧
    gid = P.map (gidOf d level) ∧ (∀ g ∈ gid, g < 8 ^ level) ∧ count.length = 8 ^ level ∧
    (∀ g, g < 8 ^ level → count.getD g 0 = gid.countP (· = g)) ∧ count.sum = P.length := by
  have hlt : ∀ p ∈ P, gidOf d level p < 8 ^ level := by
    intro p hp
    obtain ⟨i, hi, ⟨a, b, c⟩, he⟩ := gidOf_spec hs level (hP p hp)
    rw [he, ← Hilbert.cube_eq]
    rw [hi] at a b c
    exact simpleKey_lt a.1 b.1 c.1
  obtain ⟨h1, h2, h3⟩ := assignPoints_spec d level P hlt
  have hg : ∀ g ∈ P.map (gidOf d level), g < 8 ^ level := by
    intro g hg
    obtain ⟨p, hp, rfl⟩ := List.mem_map.1 hg
    exact hlt p hp
  refine ⟨(assignPoints d level P).1, (assignPoints d level P).2, Prod.eta _ |>.symm, h1,
    by rw [h1]; exact hg, h2, by rw [h1]; exact h3, ?_⟩
  have := cumulative_total _ _ (8 ^ level) hg h3
  rw [List.length_map] at this
  rw [← this]
  unfold Hilbert.cumulative
  rw [List.take_of_length_le (by omega)]
end

/-- Two ranks, one of them without points; the point `(2, 1, 0)` is on two top faces. -/
example : ∃ v : Box6 ℚ, Reduce.Combined boxInit boxOp
    ([([(⟨0, 0, 0⟩ : Point ℚ), ⟨2, 1, 0⟩], []), ([], [])].map fun r => localBox true r.1 r.2) v ∧
    0 < (domainOf v).size ∧ InDomain (domainOf v) ⟨2, 1, 0⟩ := by
  refine ⟨_, .op (xs := [_]) (ys := [_]) (.one _) (.one _), ?_, ?_⟩
  · apply C20_domain_positive true [([(⟨0, 0, 0⟩ : Point ℚ), ⟨2, 1, 0⟩], []), ([], [])] _
      (.op (xs := [_]) (ys := [_]) (.one _) (.one _)) _ _ (.head _) (.head _) ⟨0, 0, 0⟩ ⟨2, 1, 0⟩
    · simp
    · simp
    · simp
  · apply C20_domain_contains true [([(⟨0, 0, 0⟩ : Point ℚ), ⟨2, 1, 0⟩], []), ([], [])] _
      (.op (xs := [_]) (ys := [_]) (.one _) (.one _)) _ (.head _)
    simp

/-! ### C21 -/

/-- C21: for any records with any assignment to the `dim3` cells, with `count` the number of records of
each cell, the grouping stops (its inner loop makes at most as many steps as there are records), only
reorders the records, and puts the records of each cell, in their original order, at the offset it
reports for that cell. -/
theorem C21_group {R : Type} [Inhabited R] (recs : List R) (gid count : List Nat) (dim3 fuel : Nat)
    (h0 : 0 < dim3) (hl : recs.length = gid.length) (hg : ∀ g ∈ gid, g < dim3)
    (hc : ∀ c, c < dim3 → count.getD c 0 = gid.countP (· = c)) (hf : recs.length ≤ fuel) :
    ∃ out offs, groupPoints fuel recs dim3 gid count = some (out, offs) ∧ out.Perm recs ∧
      offs.length = dim3 ∧
      ∀ c, c < dim3 → (out.drop (offs.getD c 0)).take (count.getD c 0)
        = ((recs.zip gid).filter fun p => p.2 = c).map Prod.fst := by
  obtain ⟨out, offs, h1, h2, h3, h4, h5⟩ := groupPoints_spec h0 hl hg hc hf
  refine ⟨out, offs, h1, h2, h4, ?_⟩
  intro c hcl
  have hw : ∀ c, c < dim3 → (ofCell recs gid c).length = count.getD c 0 := by
    intro c h; rw [ofCell_length recs gid hl, hc c h]
  obtain ⟨g1, g2⟩ := flatMap_get (ofCell recs gid) count dim3 hw
  apply List.ext_getElem?
  intro m
  rw [List.getElem?_take, List.getElem?_drop, h5 c hcl, h3]
  by_cases hm : m < count.getD c 0
  · rw [if_pos hm]
    exact g2 c m hcl hm
  · rw [if_neg hm]
    symm
    apply List.getElem?_eq_none
    have := hw c hcl
    unfold ofCell at this
    omega

/-- C21: offsets of different cells do not overlap: each is the sum of the counts before it. -/
theorem C21_offsets {R : Type} [Inhabited R] (recs : List R) (gid count : List Nat) (dim3 fuel : Nat)
    (h0 : 0 < dim3) (hl : recs.length = gid.length) (hg : ∀ g ∈ gid, g < dim3)
    (hc : ∀ c, c < dim3 → count.getD c 0 = gid.countP (· = c)) (hf : recs.length ≤ fuel) :
    ∃ out offs, groupPoints fuel recs dim3 gid count = some (out, offs) ∧
      ∀ c, c < dim3 → offs.getD c 0 = (count.take c).sum := by
  obtain ⟨out, offs, h1, _, _, _, h5⟩ := groupPoints_spec h0 hl hg hc hf
  exact ⟨out, offs, h1, h5⟩

/-- Five records in three cells, one of them empty. -/
example : groupPoints 5 [10, 11, 12, 13, 14] 3 [2, 0, 2, 0, 0] [3, 0, 2]
    = some ([11, 13, 14, 10, 12], [0, 3, 3]) := by decide

end Dashmm
