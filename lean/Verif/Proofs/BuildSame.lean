import Verif.Proofs.BuildTree
namespace Dashmm
namespace Build
open Grid (InSlot InBoxOf slot_unique)

set_option linter.unusedSectionVars false
variable {K : Type} [Field K] [LinearOrder K] [IsStrictOrderedRing K] {R : Type}

theorem slot_which {lo h p : K} {dim n b : Nat} (hb : b ≤ 1) (hn : n < dim) 
    (hs : InSlot lo (h / 2) (2 * dim) (2 * n + b) p) : b = 0 ↔ p < lo + ((n : K) + 1 / 2) * h := by
  obtain ⟨_, b', c⟩ := hs
  have : b = 0 ∨ b = 1 := by omega
  rcases this with rfl | rfl
  · push_cast at b' c
    refine iff_of_true rfl ?_
    rcases c with c | ⟨c, _⟩
    · linarith
    · omega
  · push_cast at b' c
    refine iff_of_false (by omega) ?_
    rw [not_lt]; linarith

theorem box_octant {d : Domain K} {i : Index} {c : Nat} (hc : c < 8) {p : Point K} (hi : InBoxOf d i p)
    (hp : InBoxOf d (i.child c) p) : Octant d i c p := by
  rw [Index.child_eq i c hc] at hp
  have h2 : d.size / 2 ^ (i.level + 1) = d.size / 2 ^ i.level / 2 := by rw [pow_succ, div_div]
  have h3 : 2 ^ (i.level + 1) = 2 * 2 ^ i.level := by rw [pow_succ, mul_comm]
  unfold InBoxOf at hp
  simp only [h2, h3] at hp
  obtain ⟨a, b, e⟩ := hp
  obtain ⟨a', b', e'⟩ := hi
  exact ⟨slot_which (by omega) a'.1 a, slot_which (by omega) b'.1 b, slot_which (by omega) e'.1 e⟩

/-- Pieces of a range that are already in order: nothing has to be moved. -/
theorem split_of_octants {E : Env K R} {i : Index} {l : List R} {c : Nat → List R} (hs : E.same = true)
    (hl : joined c = l) (ho : ∀ j, j < 8 → ∀ r ∈ c j, Octant E.dom i j (E.pos r)) : Split8 E i l c := by
  rw [joined_eq] at hl
  refine ⟨(c 0 ++ c 1) ++ (c 2 ++ c 3), (c 4 ++ c 5) ++ (c 6 ++ c 7), c 0 ++ c 1, c 2 ++ c 3, c 4 ++ c 5, c 6 ++ c 7,
    ⟨by rw [hs]; exact hl, ?_, ?_⟩, ⟨by rw [hs]; rfl, ?_, ?_⟩, ⟨by rw [hs]; rfl, ?_, ?_⟩, ⟨by rw [hs]; rfl, ?_, ?_⟩,
    ⟨by rw [hs]; rfl, ?_, ?_⟩, ⟨by rw [hs]; rfl, ?_, ?_⟩, ⟨by rw [hs]; rfl, ?_, ?_⟩⟩
  · intro x hx
    simp only [List.mem_append] at hx
    rcases hx with (hx | hx) | hx | hx
    · exact (ho 0 (by omega) x hx).2.2.1 (by decide)
    · exact (ho 1 (by omega) x hx).2.2.1 (by decide)
    · exact (ho 2 (by omega) x hx).2.2.1 (by decide)
    · exact (ho 3 (by omega) x hx).2.2.1 (by decide)
  · intro x hx hlt
    simp only [List.mem_append] at hx
    rcases hx with (hx | hx) | hx | hx
    · exact absurd ((ho 4 (by omega) x hx).2.2.2 hlt) (by decide)
    · exact absurd ((ho 5 (by omega) x hx).2.2.2 hlt) (by decide)
    · exact absurd ((ho 6 (by omega) x hx).2.2.2 hlt) (by decide)
    · exact absurd ((ho 7 (by omega) x hx).2.2.2 hlt) (by decide)
  · intro x hx
    rcases List.mem_append.1 hx with hx | hx
    · exact (ho 0 (by omega) x hx).2.1.1 (by decide)
    · exact (ho 1 (by omega) x hx).2.1.1 (by decide)
  · intro x hx hlt
    rcases List.mem_append.1 hx with hx | hx
    · exact absurd ((ho 2 (by omega) x hx).2.1.2 hlt) (by decide)
    · exact absurd ((ho 3 (by omega) x hx).2.1.2 hlt) (by decide)
  · intro x hx
    rcases List.mem_append.1 hx with hx | hx
    · exact (ho 4 (by omega) x hx).2.1.1 (by decide)
    · exact (ho 5 (by omega) x hx).2.1.1 (by decide)
  · intro x hx hlt
    rcases List.mem_append.1 hx with hx | hx
    · exact absurd ((ho 6 (by omega) x hx).2.1.2 hlt) (by decide)
    · exact absurd ((ho 7 (by omega) x hx).2.1.2 hlt) (by decide)
  · intro x hx; exact (ho 0 (by omega) x hx).1.1 (by decide)
  · intro x hx hlt; exact absurd ((ho 1 (by omega) x hx).1.2 hlt) (by decide)
  · intro x hx; exact (ho 2 (by omega) x hx).1.1 (by decide)
  · intro x hx hlt; exact absurd ((ho 3 (by omega) x hx).1.2 hlt) (by decide)
  · intro x hx; exact (ho 4 (by omega) x hx).1.1 (by decide)
  · intro x hx hlt; exact absurd ((ho 5 (by omega) x hx).1.2 hlt) (by decide)
  · intro x hx; exact (ho 6 (by omega) x hx).1.1 (by decide)
  · intro x hx hlt; exact absurd ((ho 7 (by omega) x hx).1.2 hlt) (by decide)

theorem slice_le_length (mem : List R) (v : Cell) (h : v.off + v.n ≤ mem.length) : (slice mem v).length = v.n :=
  slice_length h

/-- The slice of a divided node is what its children hold, in order. -/
theorem joined_slices {mem : List R} {v : Cell} {c : Nat → List R} (hv : v.off + v.n ≤ mem.length)
    (hc : offsetOf c 8 = v.n) :
    joined (fun i => slice mem ⟨v.idx.child i, v.off + offsetOf c i, (c i).length⟩) = slice mem v ∧
      ∀ i, i < 8 → (slice mem ⟨v.idx.child i, v.off + offsetOf c i, (c i).length⟩).length = (c i).length := by
  have hlen : ∀ i, i < 8 → (slice mem ⟨v.idx.child i, v.off + offsetOf c i, (c i).length⟩).length = (c i).length := by
    intro i hi
    have := offsetOf_mono c (show i + 1 ≤ 8 by omega)
    rw [offsetOf_succ] at this
    exact slice_length (by simp only; omega)
  refine ⟨?_, hlen⟩
  have hoff : ∀ i, i ≤ 8 → offsetOf (fun i => slice mem ⟨v.idx.child i, v.off + offsetOf c i, (c i).length⟩) i
      = offsetOf c i := by
    intro i
    induction i with
    | zero => intro _; rw [offsetOf_zero, offsetOf_zero]
    | succ i ih => intro hi; rw [offsetOf_succ, offsetOf_succ, ih (by omega), hlen i (by omega)]
  apply List.ext_getElem?
  intro k
  by_cases hk : k < v.n
  · obtain ⟨i, hi, h1, h2⟩ := offsetOf_find c 8 k (by omega)
    rw [slice_get hk]
    have he : k = offsetOf (fun i => slice mem ⟨v.idx.child i, v.off + offsetOf c i, (c i).length⟩) i
        + (k - offsetOf c i) := by rw [hoff i (by omega)]; omega
    conv_lhs => rw [he]
    rw [joined_get _ hi (by rw [hlen i hi]; omega), slice_get (by simp only; omega)]
    simp only
    congr 1; omega
  · rw [List.getElem?_eq_none (by rw [joined_length, hoff 8 (by omega)]; omega),
      List.getElem?_eq_none (by rw [slice_length hv]; omega)]

/-- The target tree over records that the source tree has arranged. -/
structure Follows (s t : State R) : Prop where
  mem : t.mem = s.mem
  sub : ∀ u ∈ t.nodes, u ∈ s.nodes

theorem follows_split {E : Env K R} {root : Cell} {mem0 : List R} {s t : State R} (hd : 0 < E.dom.size)
    (hs : Inv E root mem0 s) (hp : s.pending = []) (ht : Inv { E with same := true } root s.mem t) (hf : Follows s t) 
    {v : Cell} (hv : v ∈ t.pending) (hn : ¬ v.n ≤ E.threshold) :
    ∃ c, Split8 { E with same := true } v.idx (slice t.mem v) c := by
  have hvt : v ∈ t.nodes := by simp [State.nodes, hv]
  have hvs := hf.sub v hvt
  have hvi : v ∈ s.inner := by
    have := hvs
    simp only [State.nodes, hp, List.nil_append, List.mem_append] at this
    rcases this with h | h
    · have := hs.small v h; omega
    · exact h
  obtain ⟨c, hc, hk⟩ := hs.div v hvi
  have hsz := (hs.size v hvs).2
  obtain ⟨h1, h2⟩ := joined_slices (mem := s.mem) hsz hc
  refine ⟨fun i => slice s.mem ⟨v.idx.child i, v.off + offsetOf c i, (c i).length⟩, ?_⟩
  rw [hf.mem]
  apply split_of_octants rfl h1
  intro j hj r hr
  have hpos : (c j).length ≠ 0 := by
    rw [← h2 j hj]
    have := List.length_pos_of_mem hr; omega
  have hu := hk _ (mem_kids.2 ⟨j, hj, hpos, rfl⟩)
  rw [slice_eq_inBox hs hu, mem_inBox] at hr
  exact box_octant hj (parent_box hd hj hr.2) hr.2

theorem follows_step {E : Env K R} {root : Cell} {mem0 : List R} {s t t' : State R} (hd : 0 < E.dom.size)
    (hs : Inv E root mem0 s) (hp : s.pending = []) (ht : Inv { E with same := true } root s.mem t) (hf : Follows s t)
    (hst : Step { E with same := true } root.idx t t') : Follows s t' := by
  have ht' := inv_step (E := { E with same := true }) hd ht hst
  cases hst with
  | leaf v hv hn =>
    refine ⟨hf.mem, fun u hu => hf.sub u ((leaf_nodes hv).mem_iff.1 hu)⟩
  | split v hv hn c hc =>
    have hvt : v ∈ t.nodes := by simp [State.nodes, hv]
    have hsz := (ht.size v hvt).2
    have hj : joined c = slice t.mem v := by
      obtain ⟨a, b, a0, a1, b0, b1, h1, h2, h3, h4, h5, h6, h7⟩ := hc
      have e1 := h1.1; have e2 := h2.1; have e3 := h3.1; have e4 := h4.1; have e5 := h5.1; have e6 := h6.1
      have e7 := h7.1
      simp only [if_true] at e1 e2 e3 e4 e5 e6 e7
      rw [joined_eq, e4, e5, e6, e7, e2, e3, e1]
    have hmem : overwrite t.mem v (joined c) = t.mem := by
      rw [hj]
      unfold overwrite slice
      rw [List.append_assoc, ← List.drop_drop, List.take_append_drop, List.take_append_drop]
    refine ⟨hmem.trans hf.mem, ?_⟩
    intro u hu
    have hu' := (split_nodes hv (kids v c)).mem_iff.1 hu
    rcases List.mem_append.1 hu' with hk | hk
    · obtain ⟨i, hi, hz, rfl⟩ := mem_kids.1 hk
      have hvs := hf.sub v hvt
      have hvi : v ∈ s.inner := by
        have := hvs
        simp only [State.nodes, hp, List.nil_append, List.mem_append] at this
        rcases this with h | h
        · have := hs.small v h
          exact absurd this hn
        · exact h
      obtain ⟨hn1, hn2⟩ := ht'.size _ hu
      have hms : overwrite t.mem v (joined c) = s.mem := hmem.trans hf.mem
      simp only [hms] at hn2
      have hlt : v.off + offsetOf c i < s.mem.length := by simp only at hn1; omega
      have hr : s.mem[v.off + offsetOf c i]? = some s.mem[v.off + offsetOf c i] := List.getElem?_eq_getElem hlt
      have hb := (ht'.exact _ hu (v.off + offsetOf c i) _ (by rw [← hr, ← hms])).2 (by simp only at *; omega)
      obtain ⟨w, hw, he⟩ := child_made hd hs hvi hi (List.mem_of_getElem? hr) hb
      have := cell_eq (E := E) (E' := { E with same := true }) rfl rfl hs ht' hms hw hu he.symm
      rw [this]
      exact hw
    · exact hf.sub u hk
  | forward v hv hr h8 hff => exact ⟨hf.mem, hf.sub⟩

end Build
end Dashmm
