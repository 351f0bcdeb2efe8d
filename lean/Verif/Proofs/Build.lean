import Verif.Model.Build
import Verif.Spec.Grid
import Verif.Proofs.Grid
namespace Dashmm
namespace Build
open Grid (InSlot InBoxOf slot_unique)

set_option linter.unusedSectionVars false
variable {K : Type} [Field K] [LinearOrder K] [IsStrictOrderedRing K] {R : Type}

/-! ### geometry -/

theorem slot_low {lo h p : K} {dim n : Nat} (hs : InSlot lo h dim n p)
    (hp : p < lo + ((n : K) + 1 / 2) * h) : InSlot lo (h / 2) (2 * dim) (2 * n) p := by
  obtain ⟨a, b, _⟩ := hs
  refine ⟨by omega, ?_, .inl ?_⟩
  · push_cast; linarith
  · push_cast; linarith

theorem slot_high {lo h p : K} {dim n : Nat} (hs : InSlot lo h dim n p)
    (hp : ¬ p < lo + ((n : K) + 1 / 2) * h) : InSlot lo (h / 2) (2 * dim) (2 * n + 1) p := by
  obtain ⟨a, b, c⟩ := hs
  push Not at hp
  refine ⟨by omega, ?_, ?_⟩
  · push_cast; linarith
  · rcases c with c | ⟨c, c'⟩
    · left; push_cast; linarith
    · right; exact ⟨by omega, by push_cast; linarith⟩

theorem slot_up {lo h p : K} {dim n b : Nat} (hh : 0 < h) (hb : b ≤ 1)
    (hs : InSlot lo (h / 2) (2 * dim) (2 * n + b) p) : InSlot lo h dim n p := by
  obtain ⟨a, b', c⟩ := hs
  have : b = 0 ∨ b = 1 := by omega
  rcases this with rfl | rfl
  · push_cast at b' c
    refine ⟨by omega, by linarith, .inl ?_⟩
    rcases c with c | ⟨c, _⟩
    · linarith
    · omega
  · push_cast at b' c
    refine ⟨by omega, by linarith, ?_⟩
    rcases c with c | ⟨c, c'⟩
    · left; linarith
    · right; exact ⟨by omega, by linarith⟩

/-- On which side of the centre the octant `c` is, per axis. -/
def Octant (d : Domain K) (i : Index) (c : Nat) (p : Point K) : Prop :=
  (c % 2 = 0 ↔ p.x < (center d i).x) ∧ (c / 2 % 2 = 0 ↔ p.y < (center d i).y) ∧
    (c / 4 % 2 = 0 ↔ p.z < (center d i).z)

theorem slot_side {lo h p : K} {dim n b : Nat} (hb : b ≤ 1) (hs : InSlot lo h dim n p)
    (ho : b = 0 ↔ p < lo + ((n : K) + 1 / 2) * h) : InSlot lo (h / 2) (2 * dim) (2 * n + b) p := by
  have : b = 0 ∨ b = 1 := by omega
  rcases this with rfl | rfl
  · exact slot_low hs (ho.1 rfl)
  · exact slot_high hs fun h => by simpa using ho.2 h

theorem child_box {d : Domain K} {i : Index} {c : Nat} (hc : c < 8) {p : Point K} (hp : InBoxOf d i p)
    (ho : Octant d i c p) : InBoxOf d (i.child c) p := by
  rw [Index.child_eq i c hc]
  obtain ⟨a, b, e⟩ := hp
  obtain ⟨o1, o2, o3⟩ := ho
  have h2 : d.size / 2 ^ (i.level + 1) = d.size / 2 ^ i.level / 2 := by rw [pow_succ, div_div]
  have h3 : 2 ^ (i.level + 1) = 2 * 2 ^ i.level := by rw [pow_succ, mul_comm]
  unfold InBoxOf
  simp only [h2, h3]
  exact ⟨slot_side (by omega) a o1, slot_side (by omega) b o2, slot_side (by omega) e o3⟩

theorem parent_box {d : Domain K} (hs : 0 < d.size) {i : Index} {c : Nat} (hc : c < 8) {p : Point K}
    (hp : InBoxOf d (i.child c) p) : InBoxOf d i p := by
  rw [Index.child_eq i c hc] at hp
  have h2 : d.size / 2 ^ (i.level + 1) = d.size / 2 ^ i.level / 2 := by rw [pow_succ, div_div]
  have h3 : 2 ^ (i.level + 1) = 2 * 2 ^ i.level := by rw [pow_succ, mul_comm]
  unfold InBoxOf at hp
  simp only [h2, h3] at hp
  obtain ⟨a, b, e⟩ := hp
  have hh : 0 < d.size / 2 ^ i.level := by positivity
  exact ⟨slot_up hh (by omega) a, slot_up hh (by omega) b, slot_up hh (by omega) e⟩

theorem box_unique {d : Domain K} (hs : 0 < d.size) {i j : Index} (hl : i.level = j.level)
    {p : Point K} (hi : InBoxOf d i p) (hj : InBoxOf d j p) : i = j := by
  obtain ⟨a, b, c⟩ := hi
  obtain ⟨a', b', c'⟩ := hj
  rw [← hl] at a' b' c'
  have hh : 0 < d.size / 2 ^ i.level := by positivity
  obtain ⟨ix, iy, iz, il⟩ := i
  obtain ⟨jx, jy, jz, jl⟩ := j
  simp only at *
  rw [slot_unique hh a a', slot_unique hh b b', slot_unique hh c c', hl]

theorem sibling_box {d : Domain K} (hs : 0 < d.size) {i : Index} {c c' : Nat} (hc : c < 8) (hc' : c' < 8)
    {p : Point K} (h : InBoxOf d (i.child c) p) (h' : InBoxOf d (i.child c') p) : c = c' :=
  (Index.child_inj i i c c' hc hc' (box_unique hs rfl h h')).2

/-! ### the pieces -/

theorem Part.perm {same : Bool} {p : R → Prop} {l a b : List R} (h : Part same p l a b) : (a ++ b).Perm l := by
  have := h.1
  cases same
  · simpa using this
  · simp only [if_true] at this; rw [this]

theorem joined_eq (c : Nat → List R) :
    joined c = ((c 0 ++ c 1) ++ (c 2 ++ c 3)) ++ ((c 4 ++ c 5) ++ (c 6 ++ c 7)) := by
  simp [joined, List.range_succ]

theorem Split8.perm {E : Env K R} {i : Index} {l : List R} {c : Nat → List R} (h : Split8 E i l c) :
    (joined c).Perm l := by
  obtain ⟨a, b, a0, a1, b0, b1, h1, h2, h3, h4, h5, h6, h7⟩ := h
  rw [joined_eq]
  exact (((h4.perm.append h5.perm).trans h2.perm).append ((h6.perm.append h7.perm).trans h3.perm)).trans h1.perm

theorem Split8.octant {E : Env K R} {i : Index} {l : List R} {c : Nat → List R} (h : Split8 E i l c)
    {j : Nat} (hj : j < 8) {r : R} (hr : r ∈ c j) : Octant E.dom i j (E.pos r) := by
  obtain ⟨a, b, a0, a1, b0, b1, h1, h2, h3, h4, h5, h6, h7⟩ := h
  have ma0 : ∀ {x}, x ∈ a0 → x ∈ a := fun hx => h2.perm.mem_iff.1 (by simp [hx])
  have ma1 : ∀ {x}, x ∈ a1 → x ∈ a := fun hx => h2.perm.mem_iff.1 (by simp [hx])
  have mb0 : ∀ {x}, x ∈ b0 → x ∈ b := fun hx => h3.perm.mem_iff.1 (by simp [hx])
  have mb1 : ∀ {x}, x ∈ b1 → x ∈ b := fun hx => h3.perm.mem_iff.1 (by simp [hx])
  have hcases : j = 0 ∨ j = 1 ∨ j = 2 ∨ j = 3 ∨ j = 4 ∨ j = 5 ∨ j = 6 ∨ j = 7 := by omega
  rcases hcases with rfl | rfl | rfl | rfl | rfl | rfl | rfl | rfl
  · have h0 : r ∈ a0 := h4.perm.mem_iff.1 (by simp [hr])
    exact ⟨iff_of_true (by decide) (h4.2.1 r hr), iff_of_true (by decide) (h2.2.1 r h0),
      iff_of_true (by decide) (h1.2.1 r (ma0 h0))⟩
  · have h0 : r ∈ a0 := h4.perm.mem_iff.1 (by simp [hr])
    exact ⟨iff_of_false (by decide) (h4.2.2 r hr), iff_of_true (by decide) (h2.2.1 r h0),
      iff_of_true (by decide) (h1.2.1 r (ma0 h0))⟩
  · have h0 : r ∈ a1 := h5.perm.mem_iff.1 (by simp [hr])
    exact ⟨iff_of_true (by decide) (h5.2.1 r hr), iff_of_false (by decide) (h2.2.2 r h0),
      iff_of_true (by decide) (h1.2.1 r (ma1 h0))⟩
  · have h0 : r ∈ a1 := h5.perm.mem_iff.1 (by simp [hr])
    exact ⟨iff_of_false (by decide) (h5.2.2 r hr), iff_of_false (by decide) (h2.2.2 r h0),
      iff_of_true (by decide) (h1.2.1 r (ma1 h0))⟩
  · have h0 : r ∈ b0 := h6.perm.mem_iff.1 (by simp [hr])
    exact ⟨iff_of_true (by decide) (h6.2.1 r hr), iff_of_true (by decide) (h3.2.1 r h0),
      iff_of_false (by decide) (h1.2.2 r (mb0 h0))⟩
  · have h0 : r ∈ b0 := h6.perm.mem_iff.1 (by simp [hr])
    exact ⟨iff_of_false (by decide) (h6.2.2 r hr), iff_of_true (by decide) (h3.2.1 r h0),
      iff_of_false (by decide) (h1.2.2 r (mb0 h0))⟩
  · have h0 : r ∈ b1 := h7.perm.mem_iff.1 (by simp [hr])
    exact ⟨iff_of_true (by decide) (h7.2.1 r hr), iff_of_false (by decide) (h3.2.2 r h0),
      iff_of_false (by decide) (h1.2.2 r (mb1 h0))⟩
  · have h0 : r ∈ b1 := h7.perm.mem_iff.1 (by simp [hr])
    exact ⟨iff_of_false (by decide) (h7.2.2 r hr), iff_of_false (by decide) (h3.2.2 r h0),
      iff_of_false (by decide) (h1.2.2 r (mb1 h0))⟩

theorem offsetOf_zero (c : Nat → List R) : offsetOf c 0 = 0 := by simp [offsetOf]
theorem offsetOf_succ (c : Nat → List R) (i : Nat) : offsetOf c (i + 1) = offsetOf c i + (c i).length := by
  simp [offsetOf, List.range_succ]
theorem offsetOf_mono (c : Nat → List R) {i j : Nat} (h : i ≤ j) : offsetOf c i ≤ offsetOf c j := by
  induction h with
  | refl => exact Nat.le_refl _
  | step _ ih => rw [offsetOf_succ]; omega

theorem range_flatMap_length (c : Nat → List R) (n : Nat) :
    ((List.range n).flatMap c).length = offsetOf c n := by
  induction n with
  | zero => simp [offsetOf]
  | succ n ih => rw [List.range_succ, List.flatMap_append, List.length_append, ih, offsetOf_succ]; simp

theorem joined_length (c : Nat → List R) : (joined c).length = offsetOf c 8 := range_flatMap_length c 8

theorem range_flatMap_get (c : Nat → List R) (n : Nat) : ∀ i m, i < n → m < (c i).length →
    ((List.range n).flatMap c)[offsetOf c i + m]? = (c i)[m]? := by
  induction n with
  | zero => intro i m h; omega
  | succ n ih =>
    intro i m hi hm
    rw [List.range_succ, List.flatMap_append]
    by_cases he : i = n
    · subst he
      rw [List.getElem?_append_right (by rw [range_flatMap_length]; omega), range_flatMap_length]
      simp
    · have := offsetOf_mono c (show i + 1 ≤ n by omega)
      rw [offsetOf_succ] at this
      rw [List.getElem?_append_left (by rw [range_flatMap_length]; omega)]
      exact ih i m (by omega) hm

theorem joined_get (c : Nat → List R) {i m : Nat} (hi : i < 8) (hm : m < (c i).length) :
    (joined c)[offsetOf c i + m]? = (c i)[m]? := range_flatMap_get c 8 i m hi hm

/-- Every place is in exactly one piece. -/
theorem offsetOf_find (c : Nat → List R) (n : Nat) : ∀ k, k < offsetOf c n →
    ∃ i, i < n ∧ offsetOf c i ≤ k ∧ k < offsetOf c i + (c i).length := by
  induction n with
  | zero => intro k hk; rw [offsetOf_zero] at hk; omega
  | succ n ih =>
    intro k hk
    rw [offsetOf_succ] at hk
    by_cases h : k < offsetOf c n
    · obtain ⟨i, h1, h2⟩ := ih k h
      exact ⟨i, by omega, h2⟩
    · exact ⟨n, by omega, by omega, by omega⟩

theorem mem_kids {v u : Cell} {c : Nat → List R} : u ∈ kids v c ↔
    ∃ i, i < 8 ∧ (c i).length ≠ 0 ∧ u = ⟨v.idx.child i, v.off + offsetOf c i, (c i).length⟩ := by
  unfold kids
  simp only [List.mem_filterMap, List.mem_range]
  constructor
  · rintro ⟨i, hi, h⟩
    by_cases hz : (c i).length = 0
    · rw [if_pos hz] at h; simp at h
    · rw [if_neg hz] at h
      exact ⟨i, hi, hz, (Option.some.inj h).symm⟩
  · rintro ⟨i, hi, hz, h⟩
    exact ⟨i, hi, by rw [if_neg hz, h]⟩

/-! ### slices -/

/-- The slice of `w` lies in that of `v`. -/
def Sub (w v : Cell) : Prop := v.off ≤ w.off ∧ w.off + w.n ≤ v.off + v.n
/-- The slices have no place in common. -/
def Disj (w v : Cell) : Prop := w.off + w.n ≤ v.off ∨ v.off + v.n ≤ w.off

theorem Disj.symm {w v : Cell} (h : Disj w v) : Disj v w := Or.symm h

theorem pieces_disj {v : Cell} {c : Nat → List R} {i j : Nat} (h : i ≠ j) :
    Disj ⟨v.idx.child i, v.off + offsetOf c i, (c i).length⟩ ⟨v.idx.child j, v.off + offsetOf c j, (c j).length⟩ := by
  unfold Disj
  simp only
  rcases Nat.lt_or_gt_of_ne h with h | h
  · have := offsetOf_mono c (show i + 1 ≤ j by omega)
    rw [offsetOf_succ] at this
    omega
  · have := offsetOf_mono c (show j + 1 ≤ i by omega)
    rw [offsetOf_succ] at this
    omega

theorem kids_disj (v : Cell) (c : Nat → List R) : (kids v c).Pairwise Disj := by
  unfold kids
  rw [List.pairwise_filterMap]
  apply List.Pairwise.imp _ List.pairwise_lt_range
  intro i j hij a ha b hb
  by_cases hi : (c i).length = 0
  · rw [if_pos hi] at ha; simp at ha
  by_cases hj : (c j).length = 0
  · rw [if_pos hj] at hb; simp at hb
  rw [if_neg hi] at ha
  rw [if_neg hj] at hb
  rw [← Option.some.inj ha, ← Option.some.inj hb]
  exact pieces_disj (by omega)

theorem kids_sub {v u : Cell} {c : Nat → List R} (hl : offsetOf c 8 = v.n) (hu : u ∈ kids v c) : Sub u v := by
  obtain ⟨i, hi, _, rfl⟩ := mem_kids.1 hu
  have := offsetOf_mono c (show i + 1 ≤ 8 by omega)
  rw [offsetOf_succ] at this
  unfold Sub
  simp only
  omega

theorem slice_length {mem : List R} {v : Cell} (h : v.off + v.n ≤ mem.length) : (slice mem v).length = v.n := by
  unfold slice; simp; omega

theorem slice_get {mem : List R} {v : Cell} {m : Nat} (hm : m < v.n) :
    (slice mem v)[m]? = mem[v.off + m]? := by
  unfold slice
  rw [List.getElem?_take, if_pos hm, List.getElem?_drop]

theorem overwrite_length {mem new : List R} {v : Cell} (h : v.off + v.n ≤ mem.length)
    (hn : new.length = v.n) : (overwrite mem v new).length = mem.length := by
  unfold overwrite; simp; omega

theorem overwrite_in {mem new : List R} {v : Cell} (h : v.off + v.n ≤ mem.length)
    (hn : new.length = v.n) {m : Nat} (hm : m < v.n) : (overwrite mem v new)[v.off + m]? = new[m]? := by
  unfold overwrite
  have h1 : (mem.take v.off).length = v.off := by simp; omega
  rw [List.append_assoc, List.getElem?_append_right (by omega), h1, Nat.add_sub_cancel_left,
    List.getElem?_append_left (by omega)]

theorem overwrite_out {mem new : List R} {v : Cell} (h : v.off + v.n ≤ mem.length)
    (hn : new.length = v.n) {k : Nat} (hk : k < v.off ∨ v.off + v.n ≤ k) :
    (overwrite mem v new)[k]? = mem[k]? := by
  unfold overwrite
  have h1 : (mem.take v.off).length = v.off := by simp; omega
  rw [List.append_assoc]
  rcases hk with hk | hk
  · rw [List.getElem?_append_left (by omega), List.getElem?_take, if_pos hk]
  · rw [List.getElem?_append_right (by omega), h1, List.getElem?_append_right (by omega), hn,
      List.getElem?_drop]
    congr 1; omega

theorem overwrite_perm {mem new : List R} {v : Cell} (hp : new.Perm (slice mem v)) :
    (overwrite mem v new).Perm mem := by
  have h : mem = mem.take v.off ++ (slice mem v ++ mem.drop (v.off + v.n)) := by
    unfold slice
    rw [← List.drop_drop, List.take_append_drop, List.take_append_drop]
  unfold overwrite
  conv_rhs => rw [h]
  rw [List.append_assoc]
  exact (List.Perm.refl _).append (hp.append (List.Perm.refl _))

end Build
end Dashmm
