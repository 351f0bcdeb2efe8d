import Verif.Proofs.Geometry
import Mathlib.Data.Rat.Defs
import Mathlib.Algebra.Order.Ring.Rat
import Mathlib.Algebra.Field.Rat
import Mathlib.Tactic.NormNum
/-!
Properties of the domain geometry (C02, C03).

Specification: `InBox lo hi p` — the point `p` lies in the half-open box from corner `lo` to
corner `hi`.  Exact arithmetic in any linearly ordered field.
-/
namespace Dashmm
variable {K : Type*} [Field K] [LinearOrder K] [IsStrictOrderedRing K]

/-- Specification: half-open box membership. -/
def InBox (lo hi p : Point K) : Prop :=
  (lo.x ≤ p.x ∧ p.x < hi.x) ∧ (lo.y ≤ p.y ∧ p.y < hi.y) ∧ (lo.z ≤ p.z ∧ p.z < hi.z)

/-- Specification: closed box membership. -/
def InClosedBox (lo hi p : Point K) : Prop :=
  (lo.x ≤ p.x ∧ p.x ≤ hi.x) ∧ (lo.y ≤ p.y ∧ p.y ≤ hi.y) ∧ (lo.z ≤ p.z ∧ p.z ≤ hi.z)

/-- The box the library attributes to an index. -/
def boxOf (d : Domain K) (i : Index) (p : Point K) : Prop :=
  InBox (d.lowFromIndex i) (d.highFromIndex i) p

theorem boxOf_iff_cells (d : Domain K) (i : Index) (p : Point K) :
    boxOf d i p ↔ cell1 d.low.x (d.sizeFromLevel i.level) i.x p.x ∧
      cell1 d.low.y (d.sizeFromLevel i.level) i.y p.y ∧
      cell1 d.low.z (d.sizeFromLevel i.level) i.z p.z := Iff.rfl

/-- C02 (a): a box is exactly the union of its eight children's boxes. -/
theorem C02_box_is_union_of_children (d : Domain K) (hs : 0 < d.size) (i : Index) (p : Point K) :
    boxOf d i p ↔ ∃ c, c < 8 ∧ boxOf d (i.child c) p := by
  have hl := sizeFromLevel_pos d hs i.level
  simp only [boxOf_iff_cells]
  rw [cell1_split _ _ hl, cell1_split (o := d.low.y) _ hl, cell1_split (o := d.low.z) _ hl]
  constructor
  · rintro ⟨hx, hy, hz⟩
    rcases hx with hx | hx <;> rcases hy with hy | hy <;> rcases hz with hz | hz
    · exact ⟨0, by omega, by
        rw [Index.child_eq _ _ (by omega)]; simpa [sizeFromLevel_succ] using ⟨hx, hy, hz⟩⟩
    · exact ⟨4, by omega, by
        rw [Index.child_eq _ _ (by omega)]; simpa [sizeFromLevel_succ] using ⟨hx, hy, hz⟩⟩
    · exact ⟨2, by omega, by
        rw [Index.child_eq _ _ (by omega)]; simpa [sizeFromLevel_succ] using ⟨hx, hy, hz⟩⟩
    · exact ⟨6, by omega, by
        rw [Index.child_eq _ _ (by omega)]; simpa [sizeFromLevel_succ] using ⟨hx, hy, hz⟩⟩
    · exact ⟨1, by omega, by
        rw [Index.child_eq _ _ (by omega)]; simpa [sizeFromLevel_succ] using ⟨hx, hy, hz⟩⟩
    · exact ⟨5, by omega, by
        rw [Index.child_eq _ _ (by omega)]; simpa [sizeFromLevel_succ] using ⟨hx, hy, hz⟩⟩
    · exact ⟨3, by omega, by
        rw [Index.child_eq _ _ (by omega)]; simpa [sizeFromLevel_succ] using ⟨hx, hy, hz⟩⟩
    · exact ⟨7, by omega, by
        rw [Index.child_eq _ _ (by omega)]; simpa [sizeFromLevel_succ] using ⟨hx, hy, hz⟩⟩
  · rintro ⟨c, hc, h⟩
    rw [Index.child_eq _ _ hc] at h
    simp only [sizeFromLevel_succ] at h
    obtain ⟨h1, h2, h3⟩ := h
    refine ⟨?_, ?_, ?_⟩
    · rcases Nat.mod_two_eq_zero_or_one c with e | e <;> rw [e] at h1
      · exact Or.inl h1
      · exact Or.inr h1
    · rcases Nat.mod_two_eq_zero_or_one (c / 2) with e | e <;> rw [e] at h2
      · exact Or.inl h2
      · exact Or.inr h2
    · rcases Nat.mod_two_eq_zero_or_one (c / 4) with e | e <;> rw [e] at h3
      · exact Or.inl h3
      · exact Or.inr h3

/-- C02 (b): two boxes of the same level that share a point are the same box. -/
theorem C02_boxes_of_a_level_disjoint (d : Domain K) (hs : 0 < d.size) (i j : Index)
    (hl : i.level = j.level) (p : Point K) (hi : boxOf d i p) (hj : boxOf d j p) : i = j := by
  have hp := sizeFromLevel_pos d hs i.level
  rw [boxOf_iff_cells] at hi hj
  rw [← hl] at hj
  have h1 := cell1_disjoint _ _ hp _ _ _ hi.1 hj.1
  have h2 := cell1_disjoint _ _ hp _ _ _ hi.2.1 hj.2.1
  have h3 := cell1_disjoint _ _ hp _ _ _ hi.2.2 hj.2.2
  cases i; cases j; simp_all

/-- C02 (c): the level-0 box is the whole cube, the index centre is the midpoint of the box and
is the corner shared by the children: the upper corner of child 0 and the lower corner of child 7. -/
theorem C02_root_box_and_centre (d : Domain K) (i : Index) :
    d.lowFromIndex Index.root = d.low ∧ d.highFromIndex Index.root = d.high ∧
    d.centerFromIndex Index.root = d.center ∧
    (d.centerFromIndex i).x = ((d.lowFromIndex i).x + (d.highFromIndex i).x) / 2 ∧
    (d.centerFromIndex i).y = ((d.lowFromIndex i).y + (d.highFromIndex i).y) / 2 ∧
    (d.centerFromIndex i).z = ((d.lowFromIndex i).z + (d.highFromIndex i).z) / 2 ∧
    d.centerFromIndex i = d.highFromIndex (i.child 0) ∧
    d.centerFromIndex i = d.lowFromIndex (i.child 7) := by
  refine ⟨?_, ?_, ?_, ?_, ?_, ?_, ?_, ?_⟩
  · simp [Domain.lowFromIndex, Index.root]
  · simp [Domain.highFromIndex, Index.root, Domain.high, Domain.sizeFromLevel, add_comm]
  · simp [Domain.centerFromIndex, Index.root, Domain.center, Domain.sizeFromLevel]
    refine ⟨?_, ?_, ?_⟩ <;> ring
  · simp only [Domain.centerFromIndex, Domain.lowFromIndex, Domain.highFromIndex]; ring
  · simp only [Domain.centerFromIndex, Domain.lowFromIndex, Domain.highFromIndex]; ring
  · simp only [Domain.centerFromIndex, Domain.lowFromIndex, Domain.highFromIndex]; ring
  · rw [Index.child_eq _ _ (by omega)]
    simp only [Domain.centerFromIndex, Domain.highFromIndex, sizeFromLevel_succ, Point.mk.injEq]
    push_cast
    refine ⟨?_, ?_, ?_⟩ <;> ring
  · rw [Index.child_eq _ _ (by omega)]
    simp only [Domain.centerFromIndex, Domain.lowFromIndex, sizeFromLevel_succ, Point.mk.injEq]
    push_cast
    refine ⟨?_, ?_, ?_⟩ <;> ring

/-- C02 (d): at every level, every point of the cube lies in exactly one box of that level, and
that box's index is in range (each coordinate below `2^level`). -/
theorem C02_level_tiles_domain (d : Domain K) (hs : 0 < d.size) (l : Nat) (p : Point K)
    (hp : InBox d.low d.high p) :
    ∃! i : Index, i.level = l ∧ boxOf d i p ∧ i.x < 2 ^ l ∧ i.y < 2 ^ l ∧ i.z < 2 ^ l := by
  have ex : ∃ i : Index, i.level = l ∧ boxOf d i p ∧ i.InRange := by
    induction l with
    | zero =>
      refine ⟨Index.root, rfl, ?_, Index.inRange_root⟩
      have := C02_root_box_and_centre d Index.root
      unfold boxOf
      rw [this.1, this.2.1]
      exact hp
    | succ l ih =>
      obtain ⟨i, hl, hb, hr⟩ := ih
      obtain ⟨c, hc, hb'⟩ := (C02_box_is_union_of_children d hs i p).1 hb
      exact ⟨i.child c, by simp [Index.child, hl], hb', Index.inRange_child hr c hc⟩
  obtain ⟨i, hl, hb, hr⟩ := ex
  refine ⟨i, ⟨hl, hb, ?_⟩, ?_⟩
  · unfold Index.InRange at hr; rw [hl] at hr; exact hr
  · rintro j ⟨hjl, hjb, _⟩
    exact C02_boxes_of_a_level_disjoint d hs j i (by omega) p hjb hb

/-- Non-vacuity for C02: a concrete domain, point, and a box that contains it. -/
example : (0 : ℚ) < (⟨⟨-1, 0, 2⟩, 4⟩ : Domain ℚ).size ∧
    InBox (⟨⟨-1, 0, 2⟩, 4⟩ : Domain ℚ).low (⟨⟨-1, 0, 2⟩, 4⟩ : Domain ℚ).high ⟨1, 3, 9/2⟩ ∧
    boxOf (⟨⟨-1, 0, 2⟩, 4⟩ : Domain ℚ) ⟨2, 3, 2, 2⟩ ⟨1, 3, 9/2⟩ := by
  norm_num [InBox, boxOf, Domain.high, Domain.lowFromIndex, Domain.highFromIndex,
    Domain.sizeFromLevel]

/-- C03: the cubifying constructor with factor at least one yields a cube that contains the whole
rectangle, has the rectangle's centre, and whose edge is `factor` times the longest side. -/
theorem C03_cubify_contains_rectangle (lo hi : Point K) (f : K) (hf : 1 ≤ f)
    (hx : lo.x ≤ hi.x) (hy : lo.y ≤ hi.y) (hz : lo.z ≤ hi.z) :
    (∀ p, InClosedBox lo hi p →
      InClosedBox (Domain.cubify lo hi f).low (Domain.cubify lo hi f).high p) ∧
    (Domain.cubify lo hi f).center = ⟨(lo.x + hi.x) / 2, (lo.y + hi.y) / 2, (lo.z + hi.z) / 2⟩ ∧
    (Domain.cubify lo hi f).size =
      max (max (hi.x - lo.x) (hi.y - lo.y)) (hi.z - lo.z) * f := by
  have hsize : (Domain.cubify lo hi f).size =
      max (max (hi.x - lo.x) (hi.y - lo.y)) (hi.z - lo.z) * f := by
    simp only [Domain.cubify, gt_iff_lt]
    congr 1
    rw [max_def (hi.x - lo.x)]
    split <;> split <;> rename_i h1 h2 <;> (try rw [if_neg (not_le.2 h1)] at *) <;>
      (try rw [if_pos (not_lt.1 h1)] at *) <;> rw [max_def] <;> split <;> first | rfl | linarith
  have hlow : (Domain.cubify lo hi f).low =
     ⟨lo.x / 2 + hi.x / 2 - (Domain.cubify lo hi f).size / 2,
      lo.y / 2 + hi.y / 2 - (Domain.cubify lo hi f).size / 2,
      lo.z / 2 + hi.z / 2 - (Domain.cubify lo hi f).size / 2⟩ := rfl
  generalize Domain.cubify lo hi f = D at *
  have hge : ∀ s, 0 ≤ s → s ≤ max (max (hi.x - lo.x) (hi.y - lo.y)) (hi.z - lo.z) → s ≤ D.size := by
    intro s h0 hs
    rw [hsize]
    have : max (max (hi.x - lo.x) (hi.y - lo.y)) (hi.z - lo.z) * 1 ≤
      max (max (hi.x - lo.x) (hi.y - lo.y)) (hi.z - lo.z) * f :=
      mul_le_mul_of_nonneg_left hf (le_trans h0 hs)
    linarith
  have h1 := hge (hi.x - lo.x) (by linarith) (le_trans (le_max_left _ _) (le_max_left _ _))
  have h2 := hge (hi.y - lo.y) (by linarith) (le_trans (le_max_right _ _) (le_max_left _ _))
  have h3 := hge (hi.z - lo.z) (by linarith) (le_max_right _ _)
  refine ⟨?_, ?_, hsize⟩
  · rintro p ⟨⟨a1, a2⟩, ⟨b1, b2⟩, ⟨c1, c2⟩⟩
    unfold InClosedBox Domain.high
    rw [hlow]
    refine ⟨⟨?_, ?_⟩, ⟨?_, ?_⟩, ?_, ?_⟩ <;> simp only <;> linarith
  · unfold Domain.center
    rw [hlow]
    simp only [Point.mk.injEq]
    refine ⟨?_, ?_, ?_⟩ <;> ring

/-- Non-vacuity for C03. -/
example : (1 : ℚ) ≤ 3/2 ∧ InClosedBox (⟨0, 1, 2⟩ : Point ℚ) ⟨4, 2, 2⟩ ⟨3, 2, 2⟩ := by
  norm_num [InClosedBox]

end Dashmm
