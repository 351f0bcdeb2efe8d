import Verif.Proofs.Build
namespace Dashmm
namespace Build
open Grid (InSlot InBoxOf slot_unique)

set_option linter.unusedSectionVars false
variable {K : Type} [Field K] [LinearOrder K] [IsStrictOrderedRing K] {R : Type}

/-- The cells whose slices have not been divided. -/
def State.front (s : State R) : List Cell := s.pending ++ s.leaves

/-- What holds of the records and nodes in every reachable state. -/
structure Inv (E : Env K R) (root : Cell) (mem0 : List R) (s : State R) : Prop where
  perm : s.mem.Perm mem0
  nodup : (s.nodes.map Cell.idx).Nodup
  size : ∀ v ∈ s.nodes, 1 ≤ v.n ∧ v.off + v.n ≤ s.mem.length
  exact : ∀ v ∈ s.nodes, ∀ k r, s.mem[k]? = some r →
    (InBoxOf E.dom v.idx (E.pos r) ↔ v.off ≤ k ∧ k < v.off + v.n)
  disj : s.front.Pairwise Disj
  lam : ∀ v ∈ s.nodes, ∀ w ∈ s.front, Sub w v ∨ Disj w v
  cover : ∀ k, k < s.mem.length → ∃ w ∈ s.front, w.off ≤ k ∧ k < w.off + w.n
  up : ∀ u ∈ s.nodes, u = root ∨ ∃ v ∈ s.inner, ∃ i, i < 8 ∧ u.idx = v.idx.child i
  div : ∀ v ∈ s.inner, ∃ c : Nat → List R, offsetOf c 8 = v.n ∧ ∀ u ∈ kids v c, u ∈ s.nodes
  small : ∀ v ∈ s.leaves, v.n ≤ E.threshold
  large : ∀ v ∈ s.inner, E.threshold < v.n
  level : ∀ v ∈ s.nodes, root.idx.level ≤ v.idx.level
  hroot : root ∈ s.nodes

theorem child_level {i : Index} {c : Nat} (hc : c < 8) : (i.child c).level = i.level + 1 := by
  rw [Index.child_eq i c hc]

theorem front_nodes {s : State R} {w : Cell} (h : w ∈ s.front) : w ∈ s.nodes := by
  simp only [State.front, State.nodes, List.mem_append] at *
  tauto

theorem inv_start {E : Env K R} {i : Index} {mem : List R} (hn : 1 ≤ mem.length)
    (hin : ∀ r ∈ mem, InBoxOf E.dom i (E.pos r)) :
    Inv E ⟨i, 0, mem.length⟩ mem (start ⟨i, 0, mem.length⟩ mem) := by
  have hm : ∀ v, v ∈ (start ⟨i, 0, mem.length⟩ mem).nodes ↔ v = ⟨i, 0, mem.length⟩ := by
    intro v; simp [start, State.nodes]
  have hf : ∀ v, v ∈ (start ⟨i, 0, mem.length⟩ mem).front ↔ v = ⟨i, 0, mem.length⟩ := by
    intro v; simp [start, State.front]
  constructor
  · exact List.Perm.refl _
  · simp [start, State.nodes]
  · intro v hv; rw [hm] at hv; subst hv; exact ⟨hn, by simp [start]⟩
  · intro v hv k r hr
    rw [hm] at hv; subst hv
    have hk := List.getElem?_eq_some_iff.1 hr
    obtain ⟨hk, hr'⟩ := hk
    refine iff_of_true (hin r (List.mem_of_getElem? hr)) ⟨Nat.zero_le _, by simpa [start] using hk⟩
  · simp [start, State.front]
  · intro v hv w hw; rw [hm] at hv; rw [hf] at hw; subst hv; subst hw
    exact .inl ⟨Nat.le_refl _, Nat.le_refl _⟩
  · intro k hk; exact ⟨_, (hf _).2 rfl, Nat.zero_le _, by simpa [start] using hk⟩
  · intro u hu; rw [hm] at hu; exact .inl hu
  · intro v hv; simp [start] at hv
  · intro v hv; simp [start] at hv
  · intro v hv; simp [start] at hv
  · intro v hv; rw [hm] at hv; subst hv; exact Nat.le_refl _
  · exact (hm _).2 rfl

theorem leaf_nodes {s : State R} {v : Cell} (hv : v ∈ s.pending) :
    (s.pending.erase v ++ ((v :: s.leaves) ++ s.inner)).Perm s.nodes := by
  unfold State.nodes
  refine List.Perm.trans (List.perm_middle.trans ?_) ((List.perm_cons_erase hv).symm.append_right _)
  simp

theorem leaf_front {s : State R} {v : Cell} (hv : v ∈ s.pending) :
    (s.pending.erase v ++ (v :: s.leaves)).Perm s.front := by
  unfold State.front
  exact List.Perm.trans List.perm_middle ((List.perm_cons_erase hv).symm.append_right _)

theorem split_nodes {s : State R} {v : Cell} (hv : v ∈ s.pending) (k : List Cell) :
    ((k ++ s.pending.erase v) ++ (s.leaves ++ (v :: s.inner))).Perm (k ++ s.nodes) := by
  unfold State.nodes
  rw [List.append_assoc]
  refine (List.Perm.refl k).append ?_
  rw [← List.append_assoc]
  refine List.Perm.trans (List.perm_middle.trans ?_) ((List.perm_cons_erase hv).symm.append_right _)
  simp

theorem disj_pw_perm {l l' : List Cell} (h : l.Perm l') : l.Pairwise Disj ↔ l'.Pairwise Disj :=
  h.pairwise_iff fun h => Disj.symm h

/-- Replacing the frontier of a state by a permutation of it. -/
theorem inv_leaf {E : Env K R} {root : Cell} {mem0 : List R} {s t : State R} (h : Inv E root mem0 s)
    {v : Cell} (hv : v ∈ s.pending) (hn : v.n ≤ E.threshold) (hm : t.mem = s.mem)
    (hp : t.pending = s.pending.erase v) (hl : t.leaves = v :: s.leaves) (hi : t.inner = s.inner) :
    Inv E root mem0 t := by
  have e1 : t.nodes.Perm s.nodes := by
    have := leaf_nodes hv
    unfold State.nodes at *
    rw [hp, hl, hi]; exact this
  have e2 : t.front.Perm s.front := by
    have := leaf_front hv
    unfold State.front at *
    rw [hp, hl]; exact this
  constructor
  · rw [hm]; exact h.perm
  · exact (e1.map _).nodup_iff.2 h.nodup
  · intro w hw; rw [hm]; exact h.size w (e1.mem_iff.1 hw)
  · intro w hw; rw [hm]; exact h.exact w (e1.mem_iff.1 hw)
  · exact (disj_pw_perm e2).2 h.disj
  · intro a ha w hw; exact h.lam a (e1.mem_iff.1 ha) w (e2.mem_iff.1 hw)
  · intro k hk
    rw [hm] at hk
    obtain ⟨w, hw, h'⟩ := h.cover k hk
    exact ⟨w, e2.mem_iff.2 hw, h'⟩
  · intro u hu
    rw [hi]; exact h.up u (e1.mem_iff.1 hu)
  · intro w hw
    rw [hi] at hw
    obtain ⟨c, h1, h2⟩ := h.div w hw
    exact ⟨c, h1, fun u hu => e1.mem_iff.2 (h2 u hu)⟩
  · intro w hw
    rw [hl] at hw
    rcases List.mem_cons.1 hw with rfl | hw
    · exact hn
    · exact h.small w hw
  · intro w hw; rw [hi] at hw; exact h.large w hw
  · intro w hw; exact h.level w (e1.mem_iff.1 hw)
  · exact e1.mem_iff.2 h.hroot

theorem idx_inj {E : Env K R} {root : Cell} {mem0 : List R} {s : State R} (h : Inv E root mem0 s)
    {u v : Cell} (hu : u ∈ s.nodes) (hv : v ∈ s.nodes) (he : u.idx = v.idx) : u = v :=
  List.inj_on_of_nodup_map h.nodup hu hv he

theorem kids_fresh {E : Env K R} {root : Cell} {mem0 : List R} {s : State R} (h : Inv E root mem0 s)
    {v w : Cell} (hv : v ∈ s.pending) (hw : w ∈ s.nodes) {i : Nat} (hi : i < 8) (he : w.idx = v.idx.child i) : False := by
  have hvn : v ∈ s.nodes := by simp [State.nodes, hv]
  rcases h.up w hw with rfl | ⟨x, hx, j, hj, hxe⟩
  · have := h.level v hvn
    rw [he, child_level hi] at this
    omega
  · have hxn : x ∈ s.nodes := by simp [State.nodes, hx]
    have : x.idx = v.idx := (Index.child_inj x.idx v.idx j i hj hi (hxe ▸ he)).1
    have hxv := idx_inj h hxn hvn this
    subst hxv
    have := h.nodup
    rw [State.nodes, List.map_append, List.nodup_append] at this
    exact this.2.2 _ (List.mem_map.2 ⟨x, hv, rfl⟩) _ (List.mem_map.2 ⟨x, by simp [hx], rfl⟩) rfl

theorem kids_nodup (v : Cell) (c : Nat → List R) : ((kids v c).map Cell.idx).Nodup := by
  unfold kids
  rw [List.Nodup, List.pairwise_map, List.pairwise_filterMap]
  refine List.Pairwise.imp_of_mem ?_ List.pairwise_lt_range
  intro i j hi hj hij a ha b hb
  rw [List.mem_range] at hi hj
  by_cases h1 : (c i).length = 0
  · simp [h1] at ha
  by_cases h2 : (c j).length = 0
  · simp [h2] at hb
  rw [if_neg h1] at ha
  rw [if_neg h2] at hb
  rw [← Option.some.inj ha, ← Option.some.inj hb]
  intro he
  have := (Index.child_inj _ _ i j hi hj he).2
  omega

theorem getElem?_lt {l : List R} {k : Nat} {r : R} (h : l[k]? = some r) : k < l.length :=
  (List.getElem?_eq_some_iff.1 h).1

/-- After a division the slice of `v` holds its old records. -/
theorem split_back {s : State R} {v : Cell} {c : Nat → List R} (hs : v.off + v.n ≤ s.mem.length)
    (hp : (joined c).Perm (slice s.mem v)) {k : Nat} {r : R} (hk : v.off ≤ k ∧ k < v.off + v.n)
    (hr : (overwrite s.mem v (joined c))[k]? = some r) :
    ∃ k', (v.off ≤ k' ∧ k' < v.off + v.n) ∧ s.mem[k']? = some r := by
  have hl : (joined c).length = v.n := by rw [hp.length_eq, slice_length hs]
  obtain ⟨m, rfl⟩ : ∃ m, k = v.off + m := ⟨k - v.off, by omega⟩
  rw [overwrite_in hs hl (by omega)] at hr
  have := hp.mem_iff.1 (List.mem_of_getElem? hr)
  obtain ⟨m', hm'⟩ := List.mem_iff_getElem?.1 this
  have hlt := getElem?_lt hm'
  rw [slice_length hs] at hlt
  rw [slice_get hlt] at hm'
  exact ⟨v.off + m', by omega, hm'⟩

theorem inv_split {E : Env K R} {root : Cell} {mem0 : List R} {s t : State R} (hd : 0 < E.dom.size)
    (h : Inv E root mem0 s)
    {v : Cell} (hv : v ∈ s.pending) (hn : ¬ v.n ≤ E.threshold) {c : Nat → List R}
    (hc : Split8 E v.idx (slice s.mem v) c) (hm : t.mem = overwrite s.mem v (joined c))
    (hp : t.pending = kids v c ++ s.pending.erase v) (hl : t.leaves = s.leaves) (hi : t.inner = v :: s.inner) :
    Inv E root mem0 t := by
  have hvn : v ∈ s.nodes := by simp [State.nodes, hv]
  have hvf : v ∈ s.front := by simp [State.front, hv]
  have hsz := (h.size v hvn).2
  have hperm := hc.perm
  have hjl : (joined c).length = v.n := by rw [hperm.length_eq, slice_length hsz]
  have hol : offsetOf c 8 = v.n := by rw [← joined_length, hjl]
  have hmem : t.mem.length = s.mem.length := by rw [hm, overwrite_length hsz hjl]
  have e1 : t.nodes.Perm (kids v c ++ s.nodes) := by
    have := split_nodes hv (kids v c)
    unfold State.nodes at *
    rw [hp, hl, hi]; exact this
  have hin : ∀ w, w ∈ t.nodes ↔ w ∈ kids v c ∨ w ∈ s.nodes := by
    intro w; rw [e1.mem_iff, List.mem_append]
  have hfs : s.front.Perm (v :: (s.pending.erase v ++ s.leaves)) := by
    unfold State.front
    exact (List.perm_cons_erase hv).append_right _
  have hft : t.front = kids v c ++ (s.pending.erase v ++ s.leaves) := by
    unfold State.front; rw [hp, hl, List.append_assoc]
  have hpw := (disj_pw_perm hfs).1 h.disj
  rw [List.pairwise_cons] at hpw
  have hrest : ∀ w ∈ s.pending.erase v ++ s.leaves, w ∈ s.front := fun w hw =>
    hfs.mem_iff.2 (List.mem_cons_of_mem _ hw)
  have hout : ∀ k, (k < v.off ∨ v.off + v.n ≤ k) → t.mem[k]? = s.mem[k]? := fun k hk => by
    rw [hm]; exact overwrite_out hsz hjl hk
  have hback : ∀ k r, (v.off ≤ k ∧ k < v.off + v.n) → t.mem[k]? = some r →
      ∃ k', (v.off ≤ k' ∧ k' < v.off + v.n) ∧ s.mem[k']? = some r := fun k r hk hr =>
    split_back hsz hperm hk (by rw [← hm]; exact hr)
  -- what was exact stays exact
  have hexact : ∀ w ∈ s.nodes, ∀ k r, t.mem[k]? = some r →
      (InBoxOf E.dom w.idx (E.pos r) ↔ w.off ≤ k ∧ k < w.off + w.n) := by
    intro w hw k r hr
    by_cases hk : v.off ≤ k ∧ k < v.off + v.n
    · obtain ⟨k', hk', hr'⟩ := hback k r hk hr
      rw [h.exact w hw k' r hr']
      have := (h.size v hvn).1
      rcases h.lam w hw v hvf with hh | hh
      · unfold Sub at hh; omega
      · unfold Disj at hh; omega
    · rw [hout k (by omega)] at hr
      exact h.exact w hw k r hr
  constructor
  · rw [hm]; exact (overwrite_perm hperm).trans h.perm
  · refine (e1.map _).nodup_iff.2 ?_
    rw [List.map_append, List.nodup_append]
    refine ⟨kids_nodup v c, h.nodup, ?_⟩
    intro a ha b hb hab
    obtain ⟨u, hu, rfl⟩ := List.mem_map.1 ha
    obtain ⟨w, hw, rfl⟩ := List.mem_map.1 hb
    obtain ⟨i, hi8, _, rfl⟩ := mem_kids.1 hu
    exact kids_fresh h hv hw hi8 hab.symm
  · intro w hw
    rw [hmem]
    rcases (hin w).1 hw with hw | hw
    · have := kids_sub hol hw
      obtain ⟨i, hi8, hz, rfl⟩ := mem_kids.1 hw
      unfold Sub at this
      simp only at *
      omega
    · exact h.size w hw
  · intro w hw
    rcases (hin w).1 hw with hw | hw
    · obtain ⟨i, hi8, hz, rfl⟩ := mem_kids.1 hw
      intro k r hr
      simp only
      -- a place of `v` is in one piece
      have key : ∀ j, j < 8 → offsetOf c j ≤ k - v.off → k - v.off < offsetOf c j + (c j).length → v.off ≤ k →
          InBoxOf E.dom (v.idx.child j) (E.pos r) := by
        intro j hj h1 h2 h3
        have h4 : offsetOf c j + (c j).length ≤ v.n := by
          have := offsetOf_mono c (show j + 1 ≤ 8 by omega)
          rw [offsetOf_succ] at this; omega
        have hb := (hexact v hvn k r hr).2 ⟨h3, by omega⟩
        apply child_box hj hb
        apply hc.octant hj
        have h5 : k = v.off + (offsetOf c j + (k - v.off - offsetOf c j)) := by omega
        rw [hm, h5, overwrite_in hsz hjl (by omega), joined_get c hj (by omega)] at hr
        exact List.mem_of_getElem? hr
      constructor
      · intro hb
        have hbv := (hexact v hvn k r hr).1 (parent_box hd hi8 hb)
        obtain ⟨j, hj, h1, h2⟩ := offsetOf_find c 8 (k - v.off) (by omega)
        have := sibling_box hd hi8 hj hb (key j hj h1 h2 hbv.1)
        subst this
        omega
      · intro hk
        exact key i hi8 (by omega) (by omega) (by omega)
    · exact hexact w hw
  · rw [hft, List.pairwise_append]
    refine ⟨kids_disj v c, hpw.2, ?_⟩
    intro a ha b hb
    have h1 := kids_sub hol ha
    have h2 := hpw.1 b hb
    unfold Sub at h1; unfold Disj at *
    omega
  · intro a ha w hw
    rw [hft, List.mem_append] at hw
    rcases (hin a).1 ha with ha | ha
    · rcases hw with hw | hw
      · by_cases he : a = w
        · subst he; exact .inl ⟨Nat.le_refl _, Nat.le_refl _⟩
        · right
          obtain ⟨i, hi8, _, rfl⟩ := mem_kids.1 ha
          obtain ⟨j, hj8, _, rfl⟩ := mem_kids.1 hw
          apply pieces_disj
          rintro rfl
          exact he rfl
      · right
        have h1 := kids_sub hol ha
        have h2 := hpw.1 w hw
        unfold Sub at h1; unfold Disj at *
        omega
    · rcases hw with hw | hw
      · have h1 := kids_sub hol hw
        rcases h.lam a ha v hvf with h2 | h2
        · left; unfold Sub at *; omega
        · right; unfold Sub at h1; unfold Disj at *; omega
      · exact h.lam a ha w (hrest w hw)
  · intro k hk
    rw [hmem] at hk
    obtain ⟨w, hw, h1, h2⟩ := h.cover k hk
    rw [hft]
    rcases List.mem_cons.1 (hfs.mem_iff.1 hw) with rfl | hw
    · obtain ⟨j, hj, h3, h4⟩ := offsetOf_find c 8 (k - w.off) (by omega)
      refine ⟨⟨w.idx.child j, w.off + offsetOf c j, (c j).length⟩, ?_, ?_⟩
      · exact List.mem_append_left _ (mem_kids.2 ⟨j, hj, by omega, rfl⟩)
      · simp only; omega
    · exact ⟨w, List.mem_append_right _ hw, h1, h2⟩
  · intro u hu
    rw [hi]
    rcases (hin u).1 hu with hu | hu
    · obtain ⟨i, hi8, _, rfl⟩ := mem_kids.1 hu
      exact .inr ⟨v, by simp, i, hi8, rfl⟩
    · rcases h.up u hu with h' | ⟨x, hx, h'⟩
      · exact .inl h'
      · exact .inr ⟨x, by simp [hx], h'⟩
  · intro w hw
    rw [hi] at hw
    rcases List.mem_cons.1 hw with rfl | hw
    · exact ⟨c, hol, fun u hu => (hin u).2 (.inl hu)⟩
    · obtain ⟨c', h1, h2⟩ := h.div w hw
      exact ⟨c', h1, fun u hu => (hin u).2 (.inr (h2 u hu))⟩
  · intro w hw; rw [hl] at hw; exact h.small w hw
  · intro w hw
    rw [hi] at hw
    rcases List.mem_cons.1 hw with rfl | hw
    · omega
    · exact h.large w hw
  · intro w hw
    rcases (hin w).1 hw with hw | hw
    · obtain ⟨i, hi8, _, rfl⟩ := mem_kids.1 hw
      simp only
      rw [child_level hi8]
      have := h.level v hvn
      omega
    · exact h.level w hw
  · exact (hin _).2 (.inr h.hroot)

theorem inv_step {E : Env K R} {root : Cell} {mem0 : List R} {s t : State R} (hd : 0 < E.dom.size)
    (h : Inv E root mem0 s) (hst : Step E root.idx s t) : Inv E root mem0 t := by
  cases hst with
  | leaf v hv hn => exact inv_leaf h hv hn rfl rfl rfl rfl
  | split v hv hn c hc => exact inv_split hd h hv hn hc rfl rfl rfl rfl
  | forward v hv hr h8 hf =>
    exact ⟨h.perm, h.nodup, h.size, h.exact, h.disj, h.lam, h.cover, h.up, h.div, h.small, h.large, h.level, h.hroot⟩

theorem inv_steps {E : Env K R} {root : Cell} {mem0 : List R} {s t : State R} {k : Nat} (hd : 0 < E.dom.size)
    (h : Inv E root mem0 s) (hst : Steps E root.idx k s t) : Inv E root mem0 t := by
  induction hst with
  | zero => exact h
  | succ _ hst ih => exact inv_step hd (ih h) hst

end Build
end Dashmm
