import Verif.Proofs.TreeLife
namespace Dashmm
namespace RankTree
open Build Branch
set_option linter.unusedSectionVars false
variable {K : Type} [Field K] [LinearOrder K] [IsStrictOrderedRing K] {R : Type}

/-- What holds of the memory in addition to `WInv`. -/
structure XInv (C : Cfg R) (w : World R) : Prop where
  mine : ∀ q, C.IsCell q → C.mem q ≠ [] → ∀ x ∈ w.own (C.owner q) q, ∃ v ∈ (w.cell q).nodes, v.idx ≠ place q ∧ w.adr q v.idx = x
  bareOwn : ∀ q, C.IsCell q → C.mem q = [] → w.own (C.owner q) q = [] ∧ ∀ j, (w.heap (C.owner q) (C.at (C.owner q) q)).child j = none
  array : ∀ k, ∀ q ∈ w.got k, ∃ base n, w.own k q = (List.range n).map (base + ·) ∧
    freed (w.heap k) (C.at k q) = if n = 0 then none else some base

theorem freed_congr {H H' : Heap} {a : Nat} (h : H' a = H a) : freed H' a = freed H a := by unfold freed; rw [h]

section
variable {E : Env K R} {C : Cfg R} {w : World R}
variable (hd : 0 < E.dom.size) (hu : 1 ≤ C.unif) (hin : ∀ q, C.IsCell q → ∀ r ∈ C.mem q, Grid.InBoxOf E.dom (place q) (E.pos r))
include hd hu hin

theorem split_frame (h : WInv E C w) {q : List Nat} (hq : C.IsCell q) {v : Cell} (hv : v ∈ (w.cell q).pending)
      {c : Nat → List R} {new : Nat → Nat}
      (hnew : ∀ i ∈ made c, Free C w (C.owner q) (new i)) (hdist : ((made c).map new).Nodup) {k' : Nat} {q' : List Nat} (hq' : C.IsCell q')
      (hnot : ¬ (k' = C.owner q ∧ q' = q)) :
      upd w.heap (C.owner q) (addKids (w.adr q v.idx) c new (w.heap (C.owner q))) k' (C.at k' q') = w.heap k' (C.at k' q') := by
  have hm : C.mem q ≠ [] := by
    intro hm
    rw [h.idle q hq hm] at hv
    simp at hv
  have hL := h.loc q hq hm
  set k := C.owner q with hk
  have hvn : v ∈ (w.cell q).nodes := by simp [State.nodes, hv]
  have hnew0 : ∀ i ∈ made c, new i ≠ C.at k q ∧ new i ∉ w.own k q := fun i hi =>
    ⟨fun e => (hnew i hi).1 (e ▸ (C.at_top k hu hq).1), (hnew i hi).2 q hq⟩
  obtain ⟨s1, s2, s3⟩ := addKids_spec (w.adr q v.idx) c new (w.heap k) (fun i hi e => by
    rcases hL.at hvn with h' | h'
    · exact (hnew0 i hi).1 (e.trans h')
    · exact (hnew0 i hi).2 (e ▸ h')) hdist
  by_cases e : k' = k
  · subst e
    have hqq : q' ≠ q := fun e => hnot ⟨rfl, e⟩
    rw [upd_same]
    refine s3 _ ?_ ?_
    · intro e
      rcases hL.at hvn with h' | h'
      · exact hqq (C.at_inj _ hq' hq (e.trans h'))
      · exact h.ownTop _ q _ hq h' (e ▸ (C.at_top _ hu hq').1)
    · intro hmem
      obtain ⟨i, hi, e⟩ := List.mem_map.1 hmem
      exact (hnew i hi).1 (by rw [e]; exact (C.at_top _ hu hq').1)
  · rw [upd_ne _ _ e]

theorem recv_frame (h : WInv E C w) {k : Nat} {q : List Nat} {msg : List Int} {net : List (Nat × List Nat × List Int)}
    (hm : w.net.Perm ((k, q, msg) :: net)) {base : Nat}
    (hbase : ∀ x, base ≤ x → x < base + (msg.getD 1 0).toNat → Free C w k x) :
    C.IsCell q ∧ C.mem q ≠ [] ∧ k ≠ C.owner q ∧ q ∉ w.got k ∧
    (∀ k' q', C.IsCell q' → ¬ (k' = k ∧ q' = q) →
      upd w.heap k (receive (C.grid k) base msg (w.heap k)) k' (C.at k' q') = w.heap k' (C.at k' q')) ∧
    freed (receive (C.grid k) base msg (w.heap k)) (C.at k q) = if (msg.getD 1 0).toNat = 0 then none else some base := by
  have hmem : (k, q, msg) ∈ w.net := hm.symm.mem_iff.1 (by simp)
  obtain ⟨hsent, hne, hng, b, hshape, hmsg⟩ := h.net k q msg hmem
  obtain ⟨hq, hmne, -⟩ := h.sent q hsent
  obtain ⟨msg', hc1, -, -, -, hc5⟩ := C24_count (cellOf C.unif q) b
  obtain rfl : msg' = msg := by rw [hmsg] at hc1; exact (Option.some.inj hc1).symm
  have hsz : 1 ≤ Branch.Oct.size (.node b) := by rw [Branch.Oct.size]; omega
  have hlen : (msg'.getD 1 0).toNat = Branch.Oct.size (.node b) - 1 := by rw [hc5]; simp
  rw [hlen] at hbase ⊢
  have hblock : ∀ x, (base ≤ x ∧ x + 1 < base + Branch.Oct.size (.node b)) → Free C w k x := fun x hx => hbase x hx.1 (by omega)
  have hfresh : ¬ (base ≤ C.at k q ∧ C.at k q + 1 < base + Branch.Oct.size (.node b)) := fun hx => (hblock _ hx).1 (C.at_top k hu hq).1
  obtain ⟨g1, g2, g3, g4, g5⟩ := C24_copy hmsg (C.grid k) base (w.heap k) (h.bare k q hq hne hng) hfresh
  have hf := C54_freed hmsg (C.grid k) base (w.heap k) (h.bare k q hq hne hng) hfresh
  refine ⟨hq, hmne, hne, hng, ?_, ?_⟩
  · intro k' q' hq' hnot
    by_cases e : k' = k
    · subst e
      have hqq : q' ≠ q := fun e => hnot ⟨rfl, e⟩
      rw [upd_same]
      exact g2 _ (fun e => hqq (C.at_inj k' hq' hq e)) fun hb => (hblock _ hb).1 (C.at_top k' hu hq').1
    · rw [upd_ne _ _ e]
  · refine hf.trans ?_
    by_cases e : Branch.Oct.size (.node b) = 1
    · rw [if_pos e, if_pos (by omega)]
    · rw [if_neg e, if_neg (by omega)]

theorem xinv_init : XInv C (init C) := by
  refine ⟨?_, ?_, ?_⟩
  · intro q _ _ x hx; simp [init] at hx
  · intro q hq hm
    refine ⟨rfl, fun j => ?_⟩
    obtain ⟨b, h1, h2, h3, h4, -⟩ := C25_paths hu (C.root (C.owner q)) (C.before (C.owner q)) q hq.1 (by rw [hq.2])
    obtain ⟨e, h5⟩ := h4 hq.2
    have := h5 j
    rw [e] at this
    exact this
  · intro k q hq; simp [init] at hq

theorem xinv_task (h : WInv E C w) (x : XInv C w) {q : List Nat} (hq : C.IsCell q) {s : State R} (hs : Build.Step E (place q) (w.cell q) s)
    (hi : s.inner = (w.cell q).inner) : XInv C { w with cell := upd w.cell q s } := by
  refine ⟨?_, x.bareOwn, x.array⟩
  intro q' hq' hm y hy
  obtain ⟨v, hv, h1, h2⟩ := x.mine q' hq' hm y hy
  refine ⟨v, ?_, h1, h2⟩
  dsimp only
  by_cases e : q' = q
  · subst e; rw [upd_same]; exact (Step.nodes_same hs hi v).2 hv
  · rw [upd_ne _ _ e]; exact hv

theorem xinv_send (x : XInv C w) (net : List (Nat × List Nat × List Int)) (sent : List (List Nat)) : XInv C { w with net := net, sent := sent } :=
  ⟨x.mine, x.bareOwn, x.array⟩

theorem xinv_other (h : WInv E C w) (x : XInv C w) {k : Nat} {H : Heap} (hH : ∀ x, ¬ Free C w k x → H x = w.heap k x) :
    XInv C { w with heap := upd w.heap k H } := by
  have key : ∀ k' q, C.IsCell q → upd w.heap k H k' (C.at k' q) = w.heap k' (C.at k' q) := by
    intro k' q hq
    by_cases e : k' = k
    · subst e; rw [upd_same]; exact hH _ fun hf => hf.1 (C.at_top k' hu hq).1
    · rw [upd_ne _ _ e]
  refine ⟨x.mine, ?_, ?_⟩
  · intro q hq hm
    refine ⟨(x.bareOwn q hq hm).1, fun j => ?_⟩
    dsimp only
    rw [key _ q hq]
    exact (x.bareOwn q hq hm).2 j
  · intro k' q hg
    obtain ⟨base, n, h1, h2⟩ := x.array k' q hg
    refine ⟨base, n, h1, ?_⟩
    dsimp only
    rw [freed_congr (key k' q (h.sent q (h.got k' q hg).1).1)]
    exact h2

theorem xinv_recv (h : WInv E C w) (x : XInv C w) {k : Nat} {q : List Nat} {msg : List Int} {net : List (Nat × List Nat × List Int)}
    (hm : w.net.Perm ((k, q, msg) :: net)) {base : Nat}
    (hbase : ∀ x, base ≤ x → x < base + (msg.getD 1 0).toNat → Free C w k x) : XInv C { w with
        heap := upd w.heap k (receive (C.grid k) base msg (w.heap k))
        own := upd w.own k (upd (w.own k) q ((List.range (msg.getD 1 0).toNat).map (base + ·)))
        net := net
        got := upd w.got k (q :: w.got k) } := by
  obtain ⟨hq, hmne, hne, hng, hkeep, hfr⟩ := recv_frame hd hu hin h hm hbase
  generalize hR : receive (C.grid k) base msg (w.heap k) = H' at *
  have hownne : ∀ k' q', ¬ (k' = k ∧ q' = q) →
      upd w.own k (upd (w.own k) q ((List.range (msg.getD 1 0).toNat).map (base + ·))) k' q' = w.own k' q' := by
    intro k' q' hnot
    by_cases e : k' = k
    · rw [e, upd_same, upd_ne _ _ fun e' => hnot ⟨e, e'⟩]
    · rw [upd_ne _ _ e]
  refine ⟨?_, ?_, ?_⟩
  · intro q' hq' hm' y hy
    dsimp only at hy
    rw [hownne _ _ fun e => hne (by rw [← e.2]; exact e.1.symm)] at hy
    exact x.mine q' hq' hm' y hy
  · intro q' hq' hm'
    have hnot : ¬ (C.owner q' = k ∧ q' = q) := fun e => hmne (by rw [← e.2]; exact hm')
    dsimp only
    rw [hownne _ _ hnot, hkeep _ _ hq' hnot]
    exact x.bareOwn q' hq' hm'
  · intro k' q' hg
    dsimp only at hg ⊢
    by_cases e : k' = k ∧ q' = q
    · obtain ⟨rfl, rfl⟩ := e
      rw [upd_same, upd_same, upd_same]
      exact ⟨base, _, rfl, hfr⟩
    · have hg' : q' ∈ w.got k' := by
        by_cases e1 : k' = k
        · subst e1
          rw [upd_same] at hg
          rcases List.mem_cons.1 hg with rfl | hg
          · exact absurd ⟨rfl, rfl⟩ e
          · exact hg
        · rwa [upd_ne _ _ e1] at hg
      obtain ⟨b, n, h1, h2⟩ := x.array k' q' hg'
      refine ⟨b, n, ?_, ?_⟩
      · rw [hownne _ _ e]; exact h1
      · rw [freed_congr (hkeep k' q' (h.sent q' (h.got k' q' hg').1).1 e)]; exact h2

theorem mem_split_nodes {s : State R} {v : Cell} (hv : v ∈ s.pending) (c : Nat → List R) {mem : List R} {sets : Index → Nat} {fwd : List Index} (u : Cell) :
    u ∈ (State.mk mem (kids v c ++ s.pending.erase v) s.leaves (v :: s.inner) sets fwd).nodes ↔ u ∈ kids v c ∨ u ∈ s.nodes := by
  have : u ∈ s.pending ↔ u = v ∨ u ∈ s.pending.erase v := by
    constructor
    · intro hu
      by_cases e : u = v
      · exact .inl e
      · exact .inr ((List.mem_erase_of_ne e).2 hu)
    · rintro (rfl | hu)
      · exact hv
      · exact List.mem_of_mem_erase hu
  simp only [State.nodes, List.mem_append, List.mem_cons, this]
  tauto

theorem mem_kids_made (v : Cell) (c : Nat → List R) (i : Index) : (∃ u ∈ kids v c, u.idx = i) ↔ ∃ j ∈ made c, i = v.idx.child j := by
  simp only [kids, made, List.mem_filterMap, List.mem_filter, List.mem_range]
  constructor
  · rintro ⟨u, ⟨j, hj, e⟩, rfl⟩
    by_cases h0 : (c j).length = 0
    · rw [if_pos h0] at e; cases e
    · rw [if_neg h0] at e; cases e
      exact ⟨j, ⟨hj, by simpa using h0⟩, rfl⟩
  · rintro ⟨j, ⟨hj, h0⟩, rfl⟩
    refine ⟨_, ⟨j, hj, if_neg (by simpa using h0)⟩, rfl⟩

theorem xinv_split (h : WInv E C w) (x : XInv C w) {q : List Nat} (hq : C.IsCell q) {v : Cell} (hv : v ∈ (w.cell q).pending) (hn : ¬ v.n ≤ E.threshold)
      {c : Nat → List R} (hc : Split8 E v.idx (slice (w.cell q).mem v) c) {new : Nat → Nat}
      (hnew : ∀ i ∈ made c, Free C w (C.owner q) (new i)) (hdist : ((made c).map new).Nodup) : XInv C { w with
        cell := upd w.cell q { w.cell q with
          mem := overwrite (w.cell q).mem v (joined c)
          pending := kids v c ++ (w.cell q).pending.erase v
          inner := v :: (w.cell q).inner
          sets := fun j => if j = v.idx then (w.cell q).sets j + missing c else (w.cell q).sets j }
        heap := upd w.heap (C.owner q) (addKids (w.adr q v.idx) c new (w.heap (C.owner q)))
        adr := upd w.adr q fun j => match (made c).find? fun i => j = v.idx.child i with
          | some i => new i
          | none => w.adr q j
        own := upd w.own (C.owner q) (upd (w.own (C.owner q)) q ((made c).map new ++ w.own (C.owner q) q)) } := by
  have hm : C.mem q ≠ [] := by
    intro hm
    rw [h.idle q hq hm] at hv
    simp at hv
  have hI := h.inv hd hu hin hq hm
  have hkeep := fun k' q' hq' hnot => split_frame hd hu hin h hq hv (k' := k') (q' := q') hnew hdist hq' hnot
  have hvn : v ∈ (w.cell q).nodes := by simp [State.nodes, hv]
  set k := C.owner q with hk
  have hownne : ∀ k' q', ¬ (k' = k ∧ q' = q) →
      upd w.own k (upd (w.own k) q ((made c).map new ++ w.own k q)) k' q' = w.own k' q' := by
    intro k' q' hnot
    by_cases e : k' = k
    · rw [e, upd_same, upd_ne _ _ fun e' => hnot ⟨e, e'⟩]
    · rw [upd_ne _ _ e]
  refine ⟨?_, ?_, ?_⟩
  · intro q' hq' hm' y hy
    dsimp only at hy ⊢
    by_cases e : q' = q
    · subst e
      rw [← hk, upd_same, upd_same] at hy
      rw [upd_same, upd_same]
      rcases List.mem_append.1 hy with hy | hy
      · obtain ⟨j, hj, rfl⟩ := List.mem_map.1 hy
        have hj8 : j < 8 := by simp [made] at hj; exact hj.1
        obtain ⟨u, hu1, hu2⟩ := (mem_kids_made hd hu hin v c (v.idx.child j)).2 ⟨j, hj, rfl⟩
        refine ⟨u, (mem_split_nodes hd hu hin hv c u).2 (.inl hu1), ?_, ?_⟩
        · rw [hu2]
          intro e
          have := hI.level v hvn
          have e' := congrArg Index.level e
          rw [child_level hj8] at e'
          dsimp only at this
          omega
        · rw [hu2]
          have := find_made c v.idx hj
          simp only [this]
      · obtain ⟨u, hu1, hu2, hu3⟩ := x.mine q' hq' hm' y hy
        refine ⟨u, (mem_split_nodes hd hu hin hv c u).2 (.inr hu1), hu2, ?_⟩
        have : (made c).find? (fun i => decide (u.idx = v.idx.child i)) = none := by
          rw [List.find?_eq_none]
          intro i hi hdec
          have hi8 : i < 8 := by simp [made] at hi; exact hi.1
          exact kids_fresh hI hv hu1 hi8 (of_decide_eq_true hdec)
        simp only [this]
        exact hu3
    · rw [hownne _ _ fun e' => e e'.2] at hy
      rw [upd_ne _ _ e, upd_ne _ _ e]
      exact x.mine q' hq' hm' y hy
  · intro q' hq' hm'
    have hnot : ¬ (C.owner q' = k ∧ q' = q) := fun e => hm (by rw [← e.2]; exact hm')
    dsimp only
    rw [hownne _ _ hnot, hkeep _ _ hq' hnot]
    exact x.bareOwn q' hq' hm'
  · intro k' q' hg
    have hg' : q' ∈ w.got k' := hg
    obtain ⟨g1, g2, -⟩ := h.got k' q' hg'
    have hnot : ¬ (k' = k ∧ q' = q) := fun e => g2 (by rw [e.2, e.1])
    obtain ⟨b, n, h1, h2⟩ := x.array k' q' hg'
    refine ⟨b, n, ?_, ?_⟩
    · dsimp only; rw [hownne _ _ hnot]; exact h1
    · dsimp only; rw [freed_congr (hkeep k' q' (h.sent q' g1).1 hnot)]; exact h2

end
end RankTree
end Dashmm

namespace Dashmm
namespace RankTree
open Build Branch
set_option linter.unusedSectionVars false
variable {K : Type} [Field K] [LinearOrder K] [IsStrictOrderedRing K] {R : Type}

/-- What is allocated on a rank. -/
def Exp (C : Cfg R) (s : LWorld R) (k : Nat) : Obj → Prop
  | .top => True
  | .unifDone => True
  | .lock id => id < 8 ^ C.unif
  | .done id => id < 8 ^ C.unif ∧ ∀ q ∈ s.dropped k, cellOf C.unif q ≠ id
  | .node x => ∃ q, C.IsCell q ∧ C.owner q = k ∧ x ∈ s.w.own k q
  | .nodeDone q i => C.IsCell q ∧ C.owner q = k ∧ (∃ v ∈ (s.w.cell q).nodes, v.idx = i) ∧ i ≠ place q ∧ i ∉ (s.w.cell q).fwd
  | .array x n => 0 < n ∧ ∃ q ∈ s.w.got k, s.w.own k q = (List.range n).map (x + ·)
  | .empty id => ∃ q ∈ s.w.got k, cellOf C.unif q = id ∧ s.w.own k q = []

structure LInv (C : Cfg R) (s : LWorld R) : Prop where
  x : XInv C s.w
  live : ∀ k, s.live k = some {o | Exp C s k o}
  drop : ∀ k, ∀ q ∈ s.dropped k, q ∈ s.w.got k

theorem allocAll_eq : ∀ (l : List Obj) (L : Set Obj), l.Nodup → (∀ o ∈ l, o ∉ L) → allocAll l L = some (L ∪ {o | o ∈ l})
  | [], L, _, _ => by simp [allocAll]
  | o :: l, L, hl, hL => by
    rw [List.nodup_cons] at hl
    have := allocAll_eq l (insert o L) hl.2 fun o' ho' => by
      rintro (rfl | h)
      · exact hl.1 ho'
      · exact hL o' (by simp [ho']) h
    unfold allocAll at this ⊢
    rw [List.foldlM_cons, alloc_new (hL o (by simp))]
    simp only [Option.bind_eq_bind, Option.bind_some, this]
    congr 1
    ext o'
    simp only [Set.mem_union, Set.mem_insert_iff, Set.mem_ofPred_eq, List.mem_cons]
    tauto

theorem live_congr {C : Cfg R} {s s' : LWorld R} {k : Nat} (h : s.live k = some {o | Exp C s k o}) (hl : s'.live k = s.live k)
    (he : ∀ o, Exp C s' k o ↔ Exp C s k o) : s'.live k = some {o | Exp C s' k o} := by
  rw [hl, h]
  congr 1
  ext o
  exact (he o).symm

section
variable {E : Env K R} {C : Cfg R} {s : LWorld R}
variable (hd : 0 < E.dom.size) (hu : 1 ≤ C.unif) (hin : ∀ q, C.IsCell q → ∀ r ∈ C.mem q, Grid.InBoxOf E.dom (place q) (E.pos r))

theorem cellOf_inj {q q' : List Nat} (hq : C.IsCell q) (hq' : C.IsCell q') (h : cellOf C.unif q = cellOf C.unif q') : q = q' :=
  C.at_inj 0 hq hq' (by unfold Cfg.at; rw [h])

theorem linv_init (hu : 1 ≤ C.unif) (hd : 0 < E.dom.size) (hin : ∀ q, C.IsCell q → ∀ r ∈ C.mem q, Grid.InBoxOf E.dom (place q) (E.pos r)) :
    LInv C (linit C) := by
  refine ⟨xinv_init hd hu hin, fun k => ?_, fun k q hq => by simp [linit] at hq⟩
  have hnd : (setupObjs C.unif).Nodup := by
    unfold setupObjs
    have h1 : ((List.range (8 ^ C.unif)).flatMap fun id => [Obj.lock id, Obj.done id]).Nodup := by
      rw [List.nodup_flatMap]
      refine ⟨fun a _ => by simp, (List.nodup_range).imp fun {a b} hne => ?_⟩
      intro o ho ho'
      simp only [List.mem_cons, List.not_mem_nil, or_false] at ho ho'
      rcases ho with rfl | rfl <;> rcases ho' with e | e <;> cases e <;> exact hne rfl
    simp only [List.nodup_cons, List.mem_cons, List.mem_flatMap, List.mem_range, List.not_mem_nil, or_false, reduceCtorEq, false_or, not_exists,
      and_false, not_false_eq_true, implies_true, true_and]
    exact h1
  have := allocAll_eq (setupObjs C.unif) ∅ hnd (by simp)
  show allocAll (setupObjs C.unif) ∅ = _
  rw [this]
  congr 1
  ext o
  simp only [setupObjs, Set.empty_union, Set.mem_ofPred_eq, List.mem_cons, List.mem_flatMap, List.mem_range, List.not_mem_nil, or_false]
  have hcell : ∀ q, ((init C).cell q).fwd = [] ∧ ((init C).cell q).nodes.map Cell.idx ⊆ [place q] := by
    intro q
    unfold init
    dsimp only
    split
    · exact ⟨rfl, by simp [State.nodes]⟩
    · exact ⟨rfl, by simp [State.nodes, start]⟩
  cases o with
  | nodeDone q i =>
    simp only [reduceCtorEq, false_or, or_false, and_false, exists_false, false_iff]
    rintro ⟨-, -, ⟨v, hv, e⟩, h2, -⟩
    have := (hcell q).2 (List.mem_map.2 ⟨v, hv, rfl⟩)
    simp only [List.mem_singleton] at this
    exact h2 (e ▸ this)
  | _ => simp [Exp, linit, init]

/-- Every state with a ledger is a state of the construction. -/
theorem LStep.step {s s' : LWorld R} (h : LStep E C s s') : RankTree.Step E C s.w s'.w ∨ s'.w = s.w := by
  cases h with
  | leaf q hq t hs hi hf => exact .inl (.task s.w q hq t hs hi)
  | forward q hq t hs i hi hf => exact .inl (.task s.w q hq t hs hi)
  | split q hq v hv hn c hc new hnew hdist => exact .inl (.split s.w q hq v hv hn c hc new hnew hdist)
  | send q hq hm hc hs b hb msg hmsg => exact .inl (.send s.w q hq hm hc hs b hb msg hmsg)
  | recv k q msg net hm base hbase => exact .inl (.recv s.w k q msg net hm base hbase)
  | drop k q hg hd => exact .inr rfl

theorem LReach.reach {s : LWorld R} (h : LReach E C s) : ∃ n, Reach E C n s.w := by
  induction h with
  | init => exact ⟨0, .init⟩
  | step _ hs ih =>
    obtain ⟨n, ih⟩ := ih
    rcases hs.step with h | h
    · exact ⟨n + 1, .step ih h⟩
    · exact ⟨n, h ▸ ih⟩
  | other _ hH ih =>
    obtain ⟨n, ih⟩ := ih
    exact ⟨n, .other ih hH⟩

include hd hu hin

theorem comp_of (h : WInv E C s.w) {q : List Nat} (hq : C.IsCell q) (hm : C.mem q ≠ []) : Comp (s.w.cell q) := by
  obtain ⟨n, hs⟩ := h.run q hq hm
  exact (comp_steps (root := ⟨place q, 0, (C.mem q).length⟩) hd (inv_start (List.length_pos_iff.2 hm) (hin q hq)) (comp_start _ _) hs).2

theorem step_mem (h : WInv E C s.w) {q : List Nat} (hq : C.IsCell q) {t : State R} (hs : Build.Step E (place q) (s.w.cell q) t) : C.mem q ≠ [] := by
  intro hm
  rw [h.idle q hq hm] at hs
  cases hs with
  | leaf v hv => simp at hv
  | split v hv => simp at hv
  | forward v hv => simp at hv

theorem linv_leaf (h : WInv E C s.w) (x : LInv C s) {q : List Nat} (hq : C.IsCell q) {t : State R} (hs : Build.Step E (place q) (s.w.cell q) t)
    (hi : t.inner = (s.w.cell q).inner) (hf : t.fwd = (s.w.cell q).fwd) : LInv C { s with w := { s.w with cell := upd s.w.cell q t } } := by
  refine ⟨xinv_task hd hu hin h x.x hq hs hi, fun k => live_congr (x.live k) rfl fun o => ?_, x.drop⟩
  cases o with
  | nodeDone q' i =>
    dsimp only [Exp]
    by_cases e : q' = q
    · subst e
      rw [upd_same, hf]
      simp only [Step.nodes_same hs hi]
    · rw [upd_ne _ _ e]
  | _ => exact Iff.rfl

theorem linv_forward (h : WInv E C s.w) (x : LInv C s) {q : List Nat} (hq : C.IsCell q) {t : State R} (hs : Build.Step E (place q) (s.w.cell q) t)
    {i : Index} (hi : t.inner = (s.w.cell q).inner) (hf : t.fwd = i :: (s.w.cell q).fwd) : LInv C { s with
        w := { s.w with cell := upd s.w.cell q t }
        live := upd s.live (C.owner q) ((s.live (C.owner q)).bind (dealloc (.nodeDone q i))) } := by
  refine ⟨xinv_task hd hu hin h x.x hq hs hi, fun k => ?_, x.drop⟩
  have hne : ∀ k', k' ≠ C.owner q → ∀ q' : List Nat, C.owner q' = k' → q' ≠ q := fun k' h1 q' h2 e => h1 (by rw [← h2, e])
  dsimp only
  by_cases hk : k = C.owner q
  · subst hk
    rw [upd_same, x.live]
    have hold : Exp C s (C.owner q) (.nodeDone q i) := by
      cases hs with
      | leaf v hv hn => have := congrArg List.length hf; simp at this
      | split v hv hn c hc => have := congrArg List.length hi; simp at this
      | forward v hv hr h8 hf' =>
        obtain rfl : v.idx = i := (List.cons.inj hf).1
        exact ⟨hq, rfl, ⟨v, by simp only [State.nodes, List.mem_append] at hv ⊢; tauto, rfl⟩, hr, hf'⟩
    rw [Option.bind_some, dealloc_mem (show Obj.nodeDone q i ∈ {o | Exp C s (C.owner q) o} from hold)]
    congr 1
    ext o
    cases o with
    | nodeDone q' j =>
      simp only [Set.mem_sdiff, Set.mem_ofPred_eq, Set.mem_singleton_iff, Exp, Obj.nodeDone.injEq]
      by_cases e : q' = q
      · subst e
        rw [upd_same, hf]
        simp only [Step.nodes_same hs hi, List.mem_cons, true_and]
        tauto
      · rw [upd_ne _ _ e]
        simp [e]
    | _ => simp [Exp]
  · refine (upd_ne _ _ hk).trans ?_
    rw [x.live]
    congr 1
    ext o
    cases o with
    | nodeDone q' j =>
      simp only [Set.mem_ofPred_eq, Exp]
      by_cases e : q' = q
      · subst e; constructor <;> rintro ⟨-, e, -⟩ <;> exact absurd e.symm hk
      · rw [upd_ne _ _ e]
    | _ => exact Iff.rfl

theorem linv_drop (h : WInv E C s.w) (x : LInv C s) {k : Nat} {q : List Nat} (hg : q ∈ s.w.got k) (hdr : q ∉ s.dropped k) : LInv C { s with
        live := upd s.live k ((s.live k).bind (dealloc (.done (cellOf C.unif q))))
        dropped := upd s.dropped k (q :: s.dropped k) } := by
  have hcell : ∀ k, ∀ q ∈ s.w.got k, C.IsCell q := fun k q hg => (h.sent q (h.got k q hg).1).1
  refine ⟨x.x, fun k' => ?_, ?_⟩
  · dsimp only
    by_cases hk : k' = k
    · subst hk
      rw [upd_same, x.live]
      have hold : Exp C s k' (.done (cellOf C.unif q)) := by
        refine ⟨?_, fun q' hq' e => ?_⟩
        · have := (C.at_top k' hu (hcell k' q hg)).1.2
          unfold Cfg.at Cfg.grid at this
          omega
        · rw [cellOf_inj (hcell k' q' (x.drop k' q' hq')) (hcell k' q hg) e] at hq'
          exact hdr hq'
      rw [Option.bind_some, dealloc_mem (show Obj.done _ ∈ {o | Exp C s k' o} from hold)]
      congr 1
      ext o
      cases o with
      | done id =>
        simp only [Set.mem_sdiff, Set.mem_ofPred_eq, Set.mem_singleton_iff, Exp, Obj.done.injEq, upd_same, List.mem_cons, forall_eq_or_imp]
        constructor
        · rintro ⟨⟨h1, h2⟩, h3⟩; exact ⟨h1, Ne.symm h3, h2⟩
        · rintro ⟨h1, h2, h3⟩; exact ⟨⟨h1, h3⟩, Ne.symm h2⟩
      | _ => simp [Exp]
    · refine (upd_ne _ _ hk).trans ?_
      rw [x.live]
      congr 1
      ext o
      cases o with
      | done id => simp only [Set.mem_ofPred_eq, Exp, upd_ne _ _ hk]
      | _ => exact Iff.rfl
  · intro k' q' hq'
    dsimp only at hq'
    by_cases hk : k' = k
    · subst hk
      rw [upd_same] at hq'
      rcases List.mem_cons.1 hq' with rfl | hq'
      · exact hg
      · exact x.drop _ _ hq'
    · rw [upd_ne _ _ hk] at hq'; exact x.drop _ _ hq'

theorem linv_recv (h : WInv E C s.w) (x : LInv C s) {k : Nat} {q : List Nat} {msg : List Int} {net : List (Nat × List Nat × List Int)}
    (hm : s.w.net.Perm ((k, q, msg) :: net)) {base : Nat}
    (hbase : ∀ x, base ≤ x → x < base + (msg.getD 1 0).toNat → Free C s.w k x) : LInv C { s with
        w := { s.w with
          heap := upd s.w.heap k (receive (C.grid k) base msg (s.w.heap k))
          own := upd s.w.own k (upd (s.w.own k) q ((List.range (msg.getD 1 0).toNat).map (base + ·)))
          net := net
          got := upd s.w.got k (q :: s.w.got k) }
        live := upd s.live k ((s.live k).bind (alloc
          (if (msg.getD 1 0).toNat = 0 then .empty (cellOf C.unif q) else .array base (msg.getD 1 0).toNat))) } := by
  obtain ⟨hq, hmne, hne, hng, -, -⟩ := recv_frame hd hu hin h hm hbase
  have hcell : ∀ k, ∀ q ∈ s.w.got k, C.IsCell q := fun k q hg => (h.sent q (h.got k q hg).1).1
  refine ⟨xinv_recv hd hu hin h x.x hm hbase, fun k' => ?_, ?_⟩
  · generalize (msg.getD 1 0).toNat = n at *
    have hownne : ∀ k' q', ¬ (k' = k ∧ q' = q) →
        upd s.w.own k (upd (s.w.own k) q ((List.range n).map (base + ·))) k' q' = s.w.own k' q' := by
      intro k' q' hnot
      by_cases e : k' = k
      · rw [e, upd_same, upd_ne _ _ fun e' => hnot ⟨e, e'⟩]
      · rw [upd_ne _ _ e]
    have hnode : ∀ k' y, (∃ q', C.IsCell q' ∧ C.owner q' = k' ∧ y ∈ upd s.w.own k (upd (s.w.own k) q ((List.range n).map (base + ·))) k' q') ↔
        ∃ q', C.IsCell q' ∧ C.owner q' = k' ∧ y ∈ s.w.own k' q' := by
      intro k' y
      refine exists_congr fun q' => and_congr_right fun _ => and_congr_right fun e => ?_
      rw [hownne k' q' fun e' => hne (by rw [← e'.1, ← e, e'.2])]
    dsimp only
    by_cases hk : k' = k
    · subst hk
      rw [upd_same, x.live, Option.bind_some]
      have hgot : ∀ P : List Nat → Prop, (∃ q' ∈ q :: s.w.got k', P q') ↔ P q ∨ ∃ q' ∈ s.w.got k', P q' := by intro P; simp
      have hold : ∀ (P : List Nat → List Nat → Prop), (∃ q' ∈ s.w.got k', P q' (upd (s.w.own k') q ((List.range n).map (base + ·)) q')) ↔
          ∃ q' ∈ s.w.got k', P q' (s.w.own k' q') := by
        intro P
        refine exists_congr fun q' => and_congr_right fun hg => ?_
        rw [upd_ne _ _ (fun e : q' = q => hng (by rw [← e]; exact hg))]
      rw [alloc_new ?_]
      · congr 1
        ext o
        cases o with
        | node y => simp only [Set.mem_insert_iff, Set.mem_ofPred_eq, Exp]; rw [hnode]; split_ifs <;> simp
        | array y m =>
          simp only [Set.mem_insert_iff, Set.mem_ofPred_eq, Exp, upd_same, hgot]
          rw [hold fun _ o => o = (List.range m).map (y + ·)]
          by_cases h0 : n = 0
          · subst h0
            simp only [if_true, reduceCtorEq, false_or]
            refine and_congr_right fun hpos => ?_
            constructor
            · exact .inr
            · rintro (e | e)
              · have := congrArg List.length e
                simp at this
                omega
              · exact e
          · rw [if_neg h0]
            simp only [Obj.array.injEq]
            constructor
            · rintro (⟨rfl, rfl⟩ | ⟨h1, h2⟩)
              · exact ⟨by omega, .inl rfl⟩
              · exact ⟨h1, .inr h2⟩
            · rintro ⟨h1, h2 | h2⟩
              · left
                have e1 := congrArg List.length h2
                simp at e1
                subst e1
                have e2 := congrArg List.head? h2
                simp [List.head?_range, h0] at e2
                exact ⟨e2.symm, rfl⟩
              · exact .inr ⟨h1, h2⟩
        | empty id =>
          simp only [Set.mem_insert_iff, Set.mem_ofPred_eq, Exp, upd_same, hgot]
          rw [hold fun q' o => cellOf C.unif q' = id ∧ o = []]
          by_cases h0 : n = 0
          · subst h0
            simp only [if_true, Obj.empty.injEq, List.range_zero, List.map_nil, and_true, eq_comm]
          · rw [if_neg h0]
            have : ¬ ((List.range n).map (base + ·) = []) := by
              intro e; have := congrArg List.length e; simp at this; exact h0 this
            simp [this]
        | _ => simp only [Set.mem_insert_iff, Set.mem_ofPred_eq, Exp]; split_ifs <;> simp
      · by_cases h0 : n = 0
        · rw [if_pos h0]
          rintro ⟨q', hg, e, -⟩
          rw [cellOf_inj (hcell _ q' hg) hq e] at hg
          exact hng hg
        · rw [if_neg h0]
          rintro ⟨-, q', hg, e⟩
          refine (hbase base (le_refl _) (by omega)).2 q' (hcell _ q' hg) ?_
          rw [e]
          exact List.mem_map.2 ⟨0, List.mem_range.2 (by omega), by simp⟩
    · refine (upd_ne _ _ hk).trans ?_
      rw [x.live]
      congr 1
      ext o
      have hown : ∀ q', upd s.w.own k (upd (s.w.own k) q ((List.range n).map (base + ·))) k' q' = s.w.own k' q' := fun q' => hownne k' q' fun e => hk e.1
      cases o with
      | node y => simp only [Set.mem_ofPred_eq, Exp, hown]
      | array y m => simp only [Set.mem_ofPred_eq, Exp, hown, upd_ne _ _ hk]
      | empty id => simp only [Set.mem_ofPred_eq, Exp, hown, upd_ne _ _ hk]
      | _ => exact Iff.rfl
  · intro k' q' hq'
    have := x.drop k' q' hq'
    dsimp only
    by_cases hk : k' = k
    · subst hk; rw [upd_same]; exact List.mem_cons_of_mem _ this
    · rw [upd_ne _ _ hk]; exact this

theorem linv_split (h : WInv E C s.w) (x : LInv C s) {q : List Nat} (hq : C.IsCell q) {v : Cell} (hv : v ∈ (s.w.cell q).pending) (hn : ¬ v.n ≤ E.threshold)
      {c : Nat → List R} (hc : Split8 E v.idx (slice (s.w.cell q).mem v) c) {new : Nat → Nat}
      (hnew : ∀ i ∈ made c, Free C s.w (C.owner q) (new i)) (hdist : ((made c).map new).Nodup) : LInv C { s with
        w := { s.w with
          cell := upd s.w.cell q { s.w.cell q with
            mem := overwrite (s.w.cell q).mem v (joined c)
            pending := kids v c ++ (s.w.cell q).pending.erase v
            inner := v :: (s.w.cell q).inner
            sets := fun j => if j = v.idx then (s.w.cell q).sets j + missing c else (s.w.cell q).sets j }
          heap := upd s.w.heap (C.owner q) (addKids (s.w.adr q v.idx) c new (s.w.heap (C.owner q)))
          adr := upd s.w.adr q fun j => match (made c).find? fun i => j = v.idx.child i with
            | some i => new i
            | none => s.w.adr q j
          own := upd s.w.own (C.owner q) (upd (s.w.own (C.owner q)) q ((made c).map new ++ s.w.own (C.owner q) q)) }
        live := upd s.live (C.owner q) ((s.live (C.owner q)).bind
          (allocAll ((made c).flatMap fun i => [.node (new i), .nodeDone q (v.idx.child i)]))) } := by
  have hm : C.mem q ≠ [] := by
    intro hm
    rw [h.idle q hq hm] at hv
    simp at hv
  have hI := h.inv hd hu hin hq hm
  have hvn : v ∈ (s.w.cell q).nodes := by simp [State.nodes, hv]
  have hm8 : ∀ i ∈ made c, i < 8 := fun i hi => by simp [made] at hi; exact hi.1
  have hcomp := comp_of hd hu hin h hq hm
  refine ⟨xinv_split hd hu hin h x.x hq hv hn hc hnew hdist, fun k' => ?_, x.drop⟩
  set k := C.owner q with hk
  have hownne : ∀ k' q', ¬ (k' = k ∧ q' = q) →
      upd s.w.own k (upd (s.w.own k) q ((made c).map new ++ s.w.own k q)) k' q' = s.w.own k' q' := by
    intro k' q' hnot
    by_cases e : k' = k
    · rw [e, upd_same, upd_ne _ _ fun e' => hnot ⟨e, e'⟩]
    · rw [upd_ne _ _ e]
  have hgot : ∀ k', ∀ q' ∈ s.w.got k', ¬ (k' = k ∧ q' = q) := fun k' q' hg e => (h.got k' q' hg).2.1 (by rw [e.1, e.2])
  have harr : ∀ k' (P : List Nat → List Nat → Prop), (∃ q' ∈ s.w.got k', P q' (upd s.w.own k (upd (s.w.own k) q ((made c).map new ++ s.w.own k q)) k' q')) ↔
      ∃ q' ∈ s.w.got k', P q' (s.w.own k' q') := by
    intro k' P
    refine exists_congr fun q' => and_congr_right fun hg => ?_
    rw [hownne _ _ (hgot k' q' hg)]
  by_cases e : k' = k
  · rw [e]
    dsimp only
    rw [upd_same, x.live, Option.bind_some]
    have hobj : ∀ o, o ∈ ((made c).flatMap fun i => [Obj.node (new i), Obj.nodeDone q (v.idx.child i)]) ↔
        ∃ i ∈ made c, o = .node (new i) ∨ o = .nodeDone q (v.idx.child i) := by
      intro o; simp only [List.mem_flatMap, List.mem_cons, List.not_mem_nil, or_false]
    rw [allocAll_eq]
    · congr 1
      ext o
      simp only [Set.mem_union, Set.mem_ofPred_eq, hobj]
      cases o with
      | node y =>
        simp only [Exp, Obj.node.injEq, reduceCtorEq, or_false]
        constructor
        · rintro (⟨q', g1, g2, g3⟩ | ⟨i, hi, rfl⟩)
          · refine ⟨q', g1, g2, ?_⟩
            by_cases e' : q' = q
            · subst e'; rw [upd_same, upd_same]; exact List.mem_append_right _ g3
            · rw [hownne _ _ fun e => e' e.2]; exact g3
          · exact ⟨q, hq, rfl, by rw [upd_same, upd_same]; exact List.mem_append_left _ (List.mem_map.2 ⟨i, hi, rfl⟩)⟩
        · rintro ⟨q', g1, g2, g3⟩
          by_cases e' : q' = q
          · subst e'
            rw [upd_same, upd_same] at g3
            rcases List.mem_append.1 g3 with g3 | g3
            · obtain ⟨i, hi, e⟩ := List.mem_map.1 g3
              exact .inr ⟨i, hi, e.symm⟩
            · exact .inl ⟨q', g1, g2, g3⟩
          · rw [hownne _ _ fun e => e' e.2] at g3
            exact .inl ⟨q', g1, g2, g3⟩
      | nodeDone q' j =>
        simp only [Exp, Obj.nodeDone.injEq, reduceCtorEq, false_or]
        by_cases e' : q' = q
        · subst e'
          rw [upd_same]
          have hnodes : (∃ u ∈ (State.mk (overwrite (s.w.cell q').mem v (joined c)) (kids v c ++ (s.w.cell q').pending.erase v) (s.w.cell q').leaves
              (v :: (s.w.cell q').inner) (fun j => if j = v.idx then (s.w.cell q').sets j + missing c else (s.w.cell q').sets j) (s.w.cell q').fwd).nodes,
              u.idx = j) ↔ (∃ u ∈ (s.w.cell q').nodes, u.idx = j) ∨ ∃ i ∈ made c, j = v.idx.child i := by
            rw [← mem_kids_made hd hu hin v c j, ← exists_or]
            refine exists_congr fun u => ?_
            rw [mem_split_nodes hd hu hin hv c u]
            tauto
          rw [hnodes]
          dsimp only
          constructor
          · rintro (⟨g1, g2, g3, g4, g5⟩ | ⟨i, hi, -, rfl⟩)
            · exact ⟨g1, g2, .inl g3, g4, g5⟩
            · refine ⟨hq, rfl, .inr ⟨i, hi, rfl⟩, ?_, ?_⟩
              · intro e
                have := hI.level v hvn
                have e' := congrArg Index.level e
                rw [child_level (hm8 i hi)] at e'
                dsimp only at this
                omega
              · intro hf
                obtain ⟨-, u, hu1, hu2⟩ := hcomp.fwd _ hf
                exact kids_fresh hI hv (w := u) (by simp only [State.nodes, List.mem_append] at hu1 ⊢; tauto) (hm8 i hi) hu2
          · rintro ⟨g1, g2, g3 | ⟨i, hi, e⟩, g4, g5⟩
            · exact .inl ⟨g1, g2, g3, g4, g5⟩
            · exact .inr ⟨i, hi, rfl, e⟩
        · rw [upd_ne _ _ e']
          constructor
          · rintro (h | ⟨i, -, h, -⟩)
            · exact h
            · exact absurd h e'
          · exact .inl
      | array y m =>
        simp only [Exp, reduceCtorEq, or_false, and_false, exists_false]
        rw [harr k fun _ o => o = (List.range m).map (y + ·)]
      | empty id =>
        simp only [Exp, reduceCtorEq, or_false, and_false, exists_false]
        rw [harr k fun q' o => cellOf C.unif q' = id ∧ o = []]
      | _ => simp [Exp]
    · rw [List.nodup_flatMap]
      refine ⟨fun a _ => by simp, ?_⟩
      have hmd : (made c).Nodup := List.Nodup.filter _ List.nodup_range
      refine hmd.imp_of_mem fun {a b} ha hb hne => ?_
      intro o ho ho'
      simp only [List.mem_cons, List.not_mem_nil, or_false] at ho ho'
      rcases ho with rfl | rfl <;> rcases ho' with e | e
      · exact hne (List.inj_on_of_nodup_map hdist ha hb (Obj.node.inj e))
      · cases e
      · cases e
      · exact hne (Index.child_inj _ _ a b (hm8 a ha) (hm8 b hb) (Obj.nodeDone.inj e).2).2
    · intro o ho
      obtain ⟨i, hi, rfl | rfl⟩ := (hobj o).1 ho
      · rintro ⟨q', g1, -, g3⟩
        exact (hnew i hi).2 q' g1 g3
      · rintro ⟨-, -, ⟨u, hu1, hu2⟩, -, -⟩
        exact kids_fresh hI hv hu1 (hm8 i hi) hu2
  · refine (upd_ne _ _ e).trans ?_
    rw [x.live]
    congr 1
    ext o
    have hown : ∀ q', upd s.w.own k (upd (s.w.own k) q ((made c).map new ++ s.w.own k q)) k' q' = s.w.own k' q' := fun q' => hownne k' q' fun e' => e e'.1
    cases o with
    | node y => simp only [Set.mem_ofPred_eq, Exp, hown]
    | array y m => simp only [Set.mem_ofPred_eq, Exp, hown]
    | empty id => simp only [Set.mem_ofPred_eq, Exp, hown]
    | nodeDone q' j =>
      simp only [Set.mem_ofPred_eq, Exp]
      by_cases e' : q' = q
      · subst e'; constructor <;> rintro ⟨-, e', -⟩ <;> exact absurd e'.symm e
      · rw [upd_ne _ _ e']
    | _ => exact Iff.rfl

theorem linv_reach (h : LReach E C s) : LInv C s := by
  induction h with
  | init => exact linv_init hu hd hin
  | @step s s' hr hs ih =>
    obtain ⟨n, hw⟩ := hr.reach
    have hw := inv_reach hd hu hin hw
    cases hs with
    | leaf q hq t hs hi hf => exact linv_leaf hd hu hin hw ih hq hs hi hf
    | forward q hq t hs i hi hf => exact linv_forward hd hu hin hw ih hq hs hi hf
    | split q hq v hv hn c hc new hnew hdist => exact linv_split hd hu hin hw ih hq hv hn hc hnew hdist
    | send q hq hm hc hs b hb msg hmsg =>
      exact ⟨xinv_send hd hu hin ih.x _ _, fun k => live_congr (ih.live k) rfl fun o => by cases o <;> exact Iff.rfl, ih.drop⟩
    | recv k q msg net hm base hbase => exact linv_recv hd hu hin hw ih hm hbase
    | drop k q hg hdr => exact linv_drop hd hu hin hw ih hg hdr
  | @other s k H hr hH ih =>
    obtain ⟨n, hw⟩ := hr.reach
    have hw := inv_reach hd hu hin hw
    exact ⟨xinv_other hd hu hin hw ih.x hH, fun k => live_congr (ih.live k) rfl fun o => by cases o <;> exact Iff.rfl, ih.drop⟩

end
end RankTree
end Dashmm
