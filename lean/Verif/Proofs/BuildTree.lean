import Verif.Proofs.BuildDone
import Verif.Spec.Build
namespace Dashmm
namespace Build
open Grid (InSlot InBoxOf slot_unique)

set_option linter.unusedSectionVars false
variable {K : Type} [Field K] [LinearOrder K] [IsStrictOrderedRing K] {R : Type}

theorem inBox_perm {E : Env K R} {i : Index} {l l' : List R} (h : l.Perm l') : (inBox E i l).Perm (inBox E i l') :=
  h.filter _

theorem mem_inBox {E : Env K R} {i : Index} {l : List R} {r : R} :
    r ∈ inBox E i l ↔ r ∈ l ∧ InBoxOf E.dom i (E.pos r) := by
  unfold inBox; simp

theorem slice_eq_inBox {E : Env K R} {root : Cell} {mem0 : List R} {s : State R} (h : Inv E root mem0 s) {v : Cell}
    (hv : v ∈ s.nodes) : slice s.mem v = inBox E v.idx s.mem := by
  classical
  have hsz := h.size v hv
  have hsplit : s.mem = s.mem.take v.off ++ (slice s.mem v ++ s.mem.drop (v.off + v.n)) := by
    unfold slice
    rw [← List.drop_drop, List.take_append_drop, List.take_append_drop]
  have h1 : inBox E v.idx (s.mem.take v.off) = [] := by
    unfold inBox
    rw [List.filter_eq_nil_iff]
    intro r hr hb
    rw [decide_eq_true_iff] at hb
    obtain ⟨k, hk⟩ := List.mem_iff_getElem?.1 hr
    have hlt := getElem?_lt hk
    rw [List.length_take] at hlt
    rw [List.getElem?_take, if_pos (by omega)] at hk
    have := (h.exact v hv k r hk).1 hb
    omega
  have h2 : inBox E v.idx (slice s.mem v) = slice s.mem v := by
    unfold inBox
    rw [List.filter_eq_self]
    intro r hr
    rw [decide_eq_true_iff]
    obtain ⟨k, hk⟩ := List.mem_iff_getElem?.1 hr
    have hlt := getElem?_lt hk
    rw [slice_length hsz.2] at hlt
    rw [slice_get hlt] at hk
    exact (h.exact v hv _ r hk).2 (by omega)
  have h3 : inBox E v.idx (s.mem.drop (v.off + v.n)) = [] := by
    unfold inBox
    rw [List.filter_eq_nil_iff]
    intro r hr hb
    rw [decide_eq_true_iff] at hb
    obtain ⟨k, hk⟩ := List.mem_iff_getElem?.1 hr
    rw [List.getElem?_drop] at hk
    have := (h.exact v hv _ r hk).1 hb
    omega
  conv_rhs => rw [hsplit]
  unfold inBox at *
  rw [List.filter_append, List.filter_append, h1, h2, h3]
  simp

theorem n_eq {E : Env K R} {root : Cell} {mem0 : List R} {s : State R} (h : Inv E root mem0 s) {v : Cell}
    (hv : v ∈ s.nodes) : v.n = (inBox E v.idx mem0).length := by
  rw [← (inBox_perm h.perm).length_eq, ← slice_eq_inBox h hv, slice_length (h.size v hv).2]

/-- A record in the box of a child of a divided node: that child was made. -/
theorem child_made {E : Env K R} {root : Cell} {mem0 : List R} {s : State R} (hd : 0 < E.dom.size)
    (h : Inv E root mem0 s) {v : Cell} (hv : v ∈ s.inner) {i : Nat} (hi : i < 8) {r : R} (hr : r ∈ s.mem)
    (hb : InBoxOf E.dom (v.idx.child i) (E.pos r)) : ∃ u ∈ s.nodes, u.idx = v.idx.child i := by
  have hvn : v ∈ s.nodes := by simp [State.nodes, hv]
  obtain ⟨c, hc, hk⟩ := h.div v hv
  obtain ⟨k, hkr⟩ := List.mem_iff_getElem?.1 hr
  have hin := (h.exact v hvn k r hkr).1 (parent_box hd hi hb)
  obtain ⟨j, hj, h1, h2⟩ := offsetOf_find c 8 (k - v.off) (by omega)
  have hu := hk _ (mem_kids.2 ⟨j, hj, by omega, rfl⟩)
  have hbj := (h.exact _ hu k r hkr).2 (by simp only; omega)
  have := sibling_box hd hi hj hb hbj
  subst this
  exact ⟨_, hu, rfl⟩

/-- Nodes with the same index over the same records are the same. -/
theorem cell_eq {E E' : Env K R} (hpos : E'.pos = E.pos) (hdom : E'.dom = E.dom) {r1 r2 : Cell} {m1 m2 : List R}
    {s t : State R} (h : Inv E r1 m1 s) (h' : Inv E' r2 m2 t) (hm : t.mem = s.mem) {u w : Cell} (hu : u ∈ s.nodes)
    (hw : w ∈ t.nodes) (he : w.idx = u.idx) : w = u := by
  have key : ∀ k, k < s.mem.length → ((u.off ≤ k ∧ k < u.off + u.n) ↔ (w.off ≤ k ∧ k < w.off + w.n)) := by
    intro k hk
    have hr : s.mem[k]? = some s.mem[k] := List.getElem?_eq_getElem hk
    have hr' : t.mem[k]? = some s.mem[k] := by rw [hm]; exact hr
    have a := h.exact u hu k _ hr
    have b := h'.exact w hw k _ hr'
    rw [hpos, hdom, he] at b
    exact a.symm.trans b
  have hsu := h.size u hu
  have hsw := h'.size w hw
  rw [hm] at hsw
  have k1 := key u.off (by omega)
  have k2 := key w.off (by omega)
  have k3 := key (u.off + u.n - 1) (by omega)
  have k4 := key (w.off + w.n - 1) (by omega)
  obtain ⟨ui, uo, un⟩ := u
  obtain ⟨wi, wo, wn⟩ := w
  simp only at *
  have e1 : wo = uo := by omega
  have e2 : wn = un := by omega
  rw [he, e1, e2]

/-- A division is always possible if the records may be moved. -/
theorem split_exists (E : Env K R) (hs : E.same = false) (i : Index) (l : List R) : ∃ c, Split8 E i l c := by
  classical
  have part : ∀ (p : R → Prop) (l : List R), ∃ a b, Part E.same p l a b := by
    intro p l
    refine ⟨l.filter fun x => decide (p x), l.filter fun x => !decide (p x), ?_, ?_, ?_⟩
    · rw [hs]; simp only [Bool.false_eq_true, if_false]
      exact List.filter_append_perm _ l
    · intro x hx; simpa using (List.mem_filter.1 hx).2
    · intro x hx; simpa using (List.mem_filter.1 hx).2
  obtain ⟨a, b, h1⟩ := part (fun r => (E.pos r).z < (center E.dom i).z) l
  obtain ⟨a0, a1, h2⟩ := part (fun r => (E.pos r).y < (center E.dom i).y) a
  obtain ⟨b0, b1, h3⟩ := part (fun r => (E.pos r).y < (center E.dom i).y) b
  obtain ⟨c0, c1, h4⟩ := part (fun r => (E.pos r).x < (center E.dom i).x) a0
  obtain ⟨c2, c3, h5⟩ := part (fun r => (E.pos r).x < (center E.dom i).x) a1
  obtain ⟨c4, c5, h6⟩ := part (fun r => (E.pos r).x < (center E.dom i).x) b0
  obtain ⟨c6, c7, h7⟩ := part (fun r => (E.pos r).x < (center E.dom i).x) b1
  refine ⟨fun k => match k with | 0 => c0 | 1 => c1 | 2 => c2 | 3 => c3 | 4 => c4 | 5 => c5 | 6 => c6 | _ => c7, ?_⟩
  exact ⟨a, b, a0, a1, b0, b1, h1, h2, h3, h4, h5, h6, h7⟩

/-- A task that has not run can run. -/
theorem pending_steps (E : Env K R) (hs : E.same = false) (root : Index) (s : State R) (v : Cell) (hv : v ∈ s.pending) :
    ∃ t, Step E root s t := by
  by_cases hn : v.n ≤ E.threshold
  · exact ⟨_, Step.leaf s v hv hn⟩
  · obtain ⟨c, hc⟩ := split_exists E hs v.idx (slice s.mem v)
    exact ⟨_, Step.split s v hv hn c hc⟩

theorem quiet_pending (E : Env K R) (hs : E.same = false) (root : Index) (s : State R) (hq : Quiet E root s) :
    s.pending = [] := by
  by_contra hne
  obtain ⟨v, hv⟩ := List.exists_mem_of_ne_nil _ hne
  obtain ⟨t, ht⟩ := pending_steps E hs root s v hv
  exact hq t ht

/-! ### which nodes there are -/

theorem prefix_concat {α : Type} {q p : List α} {a : α} (h : q <+: p ++ [a]) : q <+: p ∨ q = p ++ [a] := by
  obtain ⟨t, ht⟩ := h
  rcases List.eq_nil_or_concat t with rfl | ⟨t', b, rfl⟩
  · right; simpa using ht
  · left
    rw [List.concat_eq_append, ← List.append_assoc] at ht
    exact ⟨t', (List.append_inj' ht rfl).1⟩

theorem node_path {E : Env K R} {root : Cell} {mem0 : List R} {s : State R} (h : Inv E root mem0 s) :
    ∀ (m : Nat) (u : Cell), u ∈ s.nodes → u.idx.level ≤ m → ∃ p : List Nat, (∀ c ∈ p, c < 8) ∧
      u.idx = p.foldl Index.child root.idx ∧
      ∀ q, q <+: p → q ≠ p → E.threshold < (inBox E (q.foldl Index.child root.idx) mem0).length := by
  intro m
  induction m with
  | zero =>
    intro u hu hl
    rcases h.up u hu with rfl | ⟨v, hv, i, hi, he⟩
    · exact ⟨[], by simp, rfl, fun q hq hne => absurd (List.prefix_nil.1 hq) hne⟩
    · rw [he, child_level hi] at hl; omega
  | succ m ih =>
    intro u hu hl
    rcases h.up u hu with rfl | ⟨v, hv, i, hi, he⟩
    · exact ⟨[], by simp, rfl, fun q hq hne => absurd (List.prefix_nil.1 hq) hne⟩
    · rw [he, child_level hi] at hl
      have hvn : v ∈ s.nodes := by simp [State.nodes, hv]
      obtain ⟨p, h1, h2, h3⟩ := ih v hvn (by omega)
      refine ⟨p ++ [i], ?_, ?_, ?_⟩
      · intro c hc
        rcases List.mem_append.1 hc with hc | hc
        · exact h1 c hc
        · simp at hc; omega
      · rw [List.foldl_append, ← h2, he]; rfl
      · intro q hq hne
        by_cases hqp : q = p
        · rw [hqp, ← h2, ← n_eq h hvn]; exact h.large v hv
        · rcases prefix_concat hq with hq | hq
          · exact h3 q hq hqp
          · exact absurd hq hne

theorem path_node {E : Env K R} {root : Cell} {mem0 : List R} {s : State R} (hd : 0 < E.dom.size)
    (h : Inv E root mem0 s) (hp : s.pending = []) (p : List Nat) (hp8 : ∀ c ∈ p, c < 8)
    (h1 : 1 ≤ (inBox E (p.foldl Index.child root.idx) mem0).length)
    (h2 : ∀ q, q <+: p → q ≠ p → E.threshold < (inBox E (q.foldl Index.child root.idx) mem0).length) :
    ∃ u ∈ s.nodes, u.idx = p.foldl Index.child root.idx := by
  induction p using List.reverseRecOn with
  | nil => exact ⟨root, h.hroot, rfl⟩
  | append_singleton p i ih =>
    have hlt := h2 p (List.prefix_append _ _) (fun hh => by simpa using congrArg List.length hh)
    obtain ⟨v, hv, he⟩ := ih (fun c hc => hp8 c (List.mem_append_left _ hc)) (by omega)
      (fun q hq hne => h2 q (hq.trans (List.prefix_append _ _)) (fun hh => by
        rw [hh] at hq
        have := hq.length_le
        simp at this))
    rw [← he, ← n_eq h hv] at hlt
    have hvi : v ∈ s.inner := by
      simp only [State.nodes, hp, List.nil_append, List.mem_append] at hv
      rcases hv with hv | hv
      · have := h.small v hv; omega
      · exact hv
    rw [List.foldl_append, ← he] at h1 ⊢
    simp only [List.foldl_cons, List.foldl_nil] at h1 ⊢
    obtain ⟨r, hr⟩ := List.exists_mem_of_length_pos (l := inBox E (v.idx.child i) mem0) (by omega)
    rw [mem_inBox] at hr
    exact child_made hd h hvi (hp8 i (by simp)) (h.perm.mem_iff.2 hr.1) hr.2

end Build
end Dashmm
