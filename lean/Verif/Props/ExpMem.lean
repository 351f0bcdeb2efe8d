import Verif.Proofs.ExpOps
import Verif.Proofs.MergeShift
import Verif.Props.Methods
/-
C94: the memory of the operations on expansions.
-/
namespace Dashmm

open ExpMem

namespace ExpMem

theorem run_of_makes {L : Led} (hw : L.Wf) {idx : List ℕ} {n : ℕ} {m : Prog (Option Obj)} {src : Views}
    (h : Makes (fun p => ∃ v ∈ src, v.2 = p) idx n m) (hl : ∀ v ∈ src, L.Live v.2) :
    ∃ o L' lost, m L = some (some o, L') ∧ OwnViews o.views idx ∧ L'.heap = L.heap + o.blocks + lost ∧ lost.card = n ∧ L'.parc = L.parc ∧ L'.Wf := by
  obtain ⟨r, L', B, e, ⟨o, Y, rfl, ho, hY, rfl⟩, h2, h3, _, h5⟩ := h 0 L L.heap hw (by simp) (by
    rintro p ⟨v, hv, rfl⟩
    have := hl v hv
    revert this
    cases v.2 <;> exact id)
  exact ⟨o, L', Y, e, ho, by rw [h2]; abel, hY, h3, h5⟩

theorem view_of_count {src : Views} {i n : ℕ} (h : n ≤ src.length) (hi : i < n) : ∃ v, src[i]? = some v ∧ ∃ w ∈ src, w.2 = v.2 :=
  ⟨src[i], List.getElem?_eq_getElem (by omega), src[i], List.getElem_mem _, rfl⟩

theorem run_delete {L : Led} (hw : L.Wf) {o : Obj} (ho : ∀ v ∈ o.views, ∃ b, v.2 = .own b) {X : Multiset ℕ} (h : L.heap = X + o.blocks) :
    ∃ L', delete o L = some ((), L') ∧ L'.heap = X ∧ L'.parc = L.parc ∧ L'.Wf := by
  obtain ⟨r, L', B, e, rfl, h2, h3, _, h5⟩ := tri_delete (U := fun _ => False) ho (A := 0) L X hw (by rw [h]; abel) (by rintro p ⟨⟩)
  exact ⟨L', e, by simpa using h2, h3, h5⟩

end ExpMem

/-- **C94.** An operation that gives an expansion, called on an expansion whose views are live (there are enough of them): it
finishes, using and freeing only live memory; the expansion it gives has its own memory for exactly the views that are expected;
and besides these and the blocks that were there before, exactly `leaks` blocks are live. For all kernels, operations,
numbers of points and quadrature nodes, and states of the memory; for views in blocks of their own or in a parcel.
(Partial, since `leaks` is not always 0.) -/
theorem C94_operation_partial (k : Expansion) (z : Sizes) {op : Op} {tags idx : List ℕ} (hr : resultViews k op tags = some idx) (ht : tags.length ≤ 3)
    {src : Views} (hn : viewsRead k op ≤ src.length) {L : Led} (hw : L.Wf) (hl : ∀ v ∈ src, L.Live v.2) :
    ∃ o L' lost, opProg k z op src tags L = some (some o, L') ∧ OwnViews o.views idx ∧
      L'.heap = L.heap + o.blocks + lost ∧ lost.card = leaks k z op tags ∧ L'.parc = L.parc ∧ L'.Wf :=
  run_of_makes hw (opProg_makes hr ht fun _ hi => view_of_count hn hi) hl

/-- **C94.** An operation on targets likewise. -/
theorem C94_target_operation_partial (k : Expansion) (z : Sizes) {op : Op} (ho : op = .MtoT ∨ op = .LtoT ∨ op = .StoT)
    {src : Views} (hn : viewsRead k op ≤ src.length) {L : Led} (hw : L.Wf) (hl : ∀ v ∈ src, L.Live v.2) :
    ∃ L' lost, tgtProg k z op src L = some ((), L') ∧ L'.heap = L.heap + lost ∧ lost.card = leaks k z op [] ∧ L'.parc = L.parc ∧ L'.Wf := by
  obtain ⟨r, L', B, e, ⟨Y, hY, rfl⟩, h2, h3, _, h5⟩ := tgtProg_loses (U := fun p => ∃ v ∈ src, v.2 = p) (A := 0) (z := z)
    (fun _ hi => view_of_count hn hi) ho 0 L L.heap hw (by simp) (by
    rintro p ⟨v, hv, rfl⟩
    have := hl v hv
    revert this
    cases v.2 <;> exact id)
  exact ⟨L', Y, e, by rw [h2]; abel, hY, h3, h5⟩

/-- **C94.** With the Laplace kernel and with the centre-of-mass expansions, an operation followed by the deletion of what it gave
leaves the memory as it was (for `I_to_I`: if the table has an entry for the pair, as it has for all pairs that occur, `C94_ItoI_tags`). -/
theorem C94_no_leak (k : Expansion) (hk : k ≠ .yukawa ∧ k ≠ .helmholtz) (z : Sizes) {op : Op} {tags idx : List ℕ} (hr : resultViews k op tags = some idx)
    (ht : tags.length ≤ 3) (h0 : op = .ItoI → tags ≠ []) {src : Views} (hn : viewsRead k op ≤ src.length) {L : Led} (hw : L.Wf) (hl : ∀ v ∈ src, L.Live v.2) :
    ∃ o L' L'', opProg k z op src tags L = some (some o, L') ∧ delete o L' = some ((), L'') ∧ L''.heap = L.heap ∧ L''.parc = L.parc := by
  obtain ⟨o, L', lost, e, ho, h1, h2, h3, h4⟩ := C94_operation_partial k z hr ht hn hw hl
  have h5 : lost = 0 := by
    rw [← Multiset.card_eq_zero, h2]
    cases k <;> cases op <;> simp_all [leaks]
  subst h5
  obtain ⟨L'', e', h6, h7, _⟩ := run_delete h4 ho.2 (X := L.heap) (by rw [h1, add_zero])
  exact ⟨o, L', L'', e, e', h6, h7.trans h3⟩

namespace ExpMem

set_option maxRecDepth 100000 in
theorem tags_table : ∀ dx ∈ ([-2, -1, 0, 1, 2, 3] : List Int), ∀ dy ∈ ([-2, -1, 0, 1, 2, 3] : List Int), ∀ dz ∈ ([-2, -1, 0, 1, 2, 3] : List Int),
    let l := (mergeTags dx dy dz).getD []
    (mergeTags dx dy dz).isSome = true ∧ (l = [] → (0 ≤ dx ∧ dx ≤ 1) ∧ (0 ≤ dy ∧ dy ≤ 1) ∧ 0 ≤ dz ∧ dz ≤ 1) ∧ l.length ≤ 3 ∧ l.Nodup ∧ ∀ g ∈ l, g < 28 := by
  decide +kernel

/-- The parent of the source of an `I_to_I` edge is not the target's box. -/
theorem ItoI_parent {unif : Nat} {same : Bool} {s t : Fin 8 → Oct} {acts : List Act}
    (hr : Runs (createProg FMM97 unif same s t) acts) {e : Edge} (he : e ∈ edgesOf acts) (ho : e.op = .ItoI) :
    ∃ (j : Index) (a : Nat), a < 8 ∧ e.src.ix = j.child a ∧ j.level = e.dst.ix.level ∧ j ≠ e.dst.ix := by
  rcases createDag_mem (mem_edges_createDag hr he) with ⟨n, hu, ha⟩ | ⟨n, p, c, hv, ha⟩
  · have := FMM97_src_act n _ ha
    generalize hx : Act.link e = x at this
    cases this <;> cases hx <;> simp at ho
  · have := FMM97_visit_act (FMM97_cons hv (F97Ok_root s t)).cons _ ha
    generalize hx : Act.link e = x at this
    cases this with
    | fmm h =>
      cases h with
      | loop h =>
        have := ((h.separated e hx.symm).2 (by simp [ho])).2
        simp [ho] at this
      | parts => cases hx
      | normal => cases hx
      | LtoL => cases hx; simp at ho
      | LtoT => cases hx; simp at ho
    | ItoL => cases hx; simp at ho
    | interm => cases hx
    | @ItoI k hM =>
      cases hx
      obtain ⟨j, hj, hjl, _, hne⟩ := hM.near
      obtain ⟨a, _, ha⟩ := mem_kids.1 hj
      exact ⟨j.ix, a, a.isLt, ha, hjl, hne⟩

end ExpMem

/-- **C94.** For every `I_to_I` edge of an evaluation with FMM97 the table has one to three entries, all of them views of the target. -/
theorem C94_ItoI_tags {unif : Nat} {same : Bool} {s t : Fin 8 → Oct} {acts : List Act}
    (hr : Runs (createProg FMM97 unif same s t) acts) {e : Edge} (he : e ∈ edgesOf acts) (ho : e.op = .ItoI) :
    ∃ tags, mergeTags ((e.src.ix.x : Int) - 2 * e.dst.ix.x) ((e.src.ix.y : Int) - 2 * e.dst.ix.y) ((e.src.ix.z : Int) - 2 * e.dst.ix.z) = some tags ∧
      tags ≠ [] ∧ tags.length ≤ 3 ∧ tags.Nodup ∧ ∀ g ∈ tags, g < 28 := by
  obtain ⟨_, ⟨x1, x2⟩, ⟨y1, y2⟩, ⟨z1, z2⟩⟩ := (FMM97_separation hr he).2.2 ho
  obtain ⟨h1, h2, h3, h4, h5⟩ := tags_table _ (mem_range6 x1 x2) _ (mem_range6 y1 y2) _ (mem_range6 z1 z2)
  obtain ⟨tags, ht⟩ := Option.isSome_iff_exists.1 h1
  rw [ht] at h2 h3 h4 h5
  refine ⟨tags, ht, fun h => ?_, h3, h4, h5⟩
  obtain ⟨⟨a1, a2⟩, ⟨b1, b2⟩, c1, c2⟩ := h2 h
  obtain ⟨j, a, ha, e1, e2, e3⟩ := ItoI_parent hr he ho
  rw [e1, Index.child_eq j a ha] at a1 a2 b1 b2 c1 c2
  refine e3 ?_
  generalize e.dst.ix = d at *
  obtain ⟨jx, jy, jz, jl⟩ := j
  obtain ⟨dx, dy, dz, dl⟩ := d
  dsimp only at *
  simp only [Index.mk.injEq]
  omega

/-- **C94.** What an operation gives can be added to an expansion of the role that the target of the edge has: each view of the
result has its counterpart. -/
theorem C94_result_fits (k : Expansion) {op : Op} {tags idx : List ℕ} (hr : resultViews k op tags = some idx) (ht : ∀ g ∈ tags, g < 28) :
    ∀ i ∈ idx, i < viewCount k (match op with
      | .StoM | .MtoM => .sourcePrimary | .MtoI => .sourceIntermediate | .ItoI => .targetIntermediate | _ => .targetPrimary) := by
  cases k <;> cases op <;> simp only [resultViews, Option.some.injEq, reduceCtorEq] at hr <;> subst hr <;> simp [viewCount] <;> grind

/-- **C94.** `add_expansion` uses live memory only, and leaves the ledger as it is. -/
theorem C94_add {lhs vs : Views} {L : Led} (hl : ∀ v ∈ lhs, L.Live v.2) (hv : ∀ v ∈ vs, L.Live v.2) (hf : ∀ v ∈ vs, v.1 < lhs.length) :
    addExpansion lhs vs L = some ((), L) := by
  have huse : ∀ p, L.Live p → use p L = some ((), L) := by
    intro p hp
    cases p <;> exact if_pos hp
  induction vs with
  | nil => rfl
  | cons v vs ih =>
    have h1 : useView lhs v.1 L = some ((), L) := by
      unfold useView
      rw [List.getElem?_eq_getElem (hf v (by simp))]
      exact huse _ (hl _ (List.getElem_mem _))
    have h2 := huse v.2 (hv v (by simp))
    have h3 := ih (fun w hw => hv w (by simp [hw])) fun w hw => hf w (by simp [hw])
    change (useView lhs v.1 L).bind _ = _
    rw [h1]
    change (use v.2 L).bind _ = _
    rw [h2]
    exact h3

/-- **C94**, what is not so: with the Yukawa kernel `I_to_L` leaves `6 s` blocks behind that nothing refers to (yukawa.cc:928). -/
theorem C94_yukawa_leak (z : Sizes) (hz : 0 < z.s) {src : Views} (hn : 28 ≤ src.length) {L : Led} (hw : L.Wf) (hl : ∀ v ∈ src, L.Live v.2) :
    ∃ o L' L'', opProg .yukawa z .ItoL src [] L = some (some o, L') ∧ delete o L' = some ((), L'') ∧
      L''.heap.card = L.heap.card + 6 * z.s ∧ L''.heap ≠ L.heap := by
  obtain ⟨o, L', lost, e, ho, h1, h2, h3, h4⟩ := C94_operation_partial .yukawa z (op := .ItoL) (tags := []) rfl (by simp) hn hw hl
  obtain ⟨L'', e', h6, h7, _⟩ := run_delete h4 ho.2 (X := L.heap + lost) (by rw [h1]; abel)
  have hc : L''.heap.card = L.heap.card + 6 * z.s := by rw [h6, Multiset.card_add, h2]; rfl
  exact ⟨o, L', L'', e, e', hc, fun h => by rw [h] at hc; omega⟩

/-- **C94**, what is not so: with the Helmholtz kernel `S_to_L` leaves two blocks behind for each source, and `M_to_T` two for each
target (special_function.cc:1370-1371). -/
theorem C94_helmholtz_leak (z : Sizes) (hz : 0 < z.points) {src : Views} (hn : 1 ≤ src.length) {L : Led} (hw : L.Wf) (hl : ∀ v ∈ src, L.Live v.2) :
    (∃ o L' L'', opProg .helmholtz z .StoL src [] L = some (some o, L') ∧ delete o L' = some ((), L'') ∧
      L''.heap.card = L.heap.card + 2 * z.points ∧ L''.heap ≠ L.heap) ∧
    (∃ L', tgtProg .helmholtz z .MtoT src L = some ((), L') ∧ L'.heap.card = L.heap.card + 2 * z.points ∧ L'.heap ≠ L.heap) := by
  constructor
  · obtain ⟨o, L', lost, e, ho, h1, h2, h3, h4⟩ := C94_operation_partial .helmholtz z (op := .StoL) (tags := []) rfl (by simp) (Nat.zero_le _) hw hl
    obtain ⟨L'', e', h6, h7, _⟩ := run_delete h4 ho.2 (X := L.heap + lost) (by rw [h1]; abel)
    have hc : L''.heap.card = L.heap.card + 2 * z.points := by rw [h6, Multiset.card_add, h2]; rfl
    exact ⟨o, L', L'', e, e', hc, fun h => by rw [h] at hc; omega⟩
  · obtain ⟨L', lost, e, h1, h2, h3, h4⟩ := C94_target_operation_partial .helmholtz z (op := .MtoT) (Or.inl rfl) hn hw hl
    have hc : L'.heap.card = L.heap.card + 2 * z.points := by rw [h1, Multiset.card_add, h2]; rfl
    exact ⟨L', e, hc, fun h => by rw [h] at hc; omega⟩

/-- **C94**, what is not so: the operations that an expansion does not have give a null pointer (which `contribute` then follows). -/
theorem C94_null (k : Expansion) (z : Sizes) {op : Op} {tags : List ℕ} (hr : resultViews k op tags = none) (ho : op ≠ .MtoT ∧ op ≠ .LtoT ∧ op ≠ .StoT)
    (src : Views) (L : Led) : opProg k z op src tags L = some (none, L) := by
  rw [opProg_null hr ho]
  rfl

/-! ### Examples -/

/-- A ledger with a multipole expansion in a parcel (3), another one in blocks of its own (5), and a third block. -/
def exLed : Led := ⟨9, {5, 6}, {3}⟩

theorem exLed_wf : exLed.Wf := ⟨by decide, by decide, by simp only [exLed, Multiset.insert_eq_cons, Multiset.mem_cons, Multiset.mem_singleton]; omega⟩

example : ∃ o L' L'', opProg .laplace ⟨4, 3, 0, 0⟩ .MtoI [(0, .inside 3)] [] exLed = some (some o, L') ∧
    delete o L' = some ((), L'') ∧ L''.heap = {5, 6} ∧ L''.parc = {3} :=
  C94_no_leak .laplace (by decide) _ (idx := List.range 6) rfl (by simp) (by simp) (by decide) exLed_wf (by simp [Led.Live, exLed])

example : ∃ o L' lost, opProg .helmholtz ⟨4, 3, 2, 2⟩ .MtoM [(0, .own 5)] [] exLed = some (some o, L') ∧ OwnViews o.views [0] ∧
    L'.heap = {5, 6} + o.blocks + lost ∧ lost.card = 0 ∧ L'.parc = {3} ∧ L'.Wf :=
  C94_operation_partial .helmholtz _ rfl (by simp) (by decide) exLed_wf (by simp [Led.Live, exLed])

/-- The same operation on a view whose memory is gone does not finish. -/
example : opProg .laplace ⟨4, 3, 0, 0⟩ .MtoM [(0, .own 7)] [] exLed = none := by decide

end Dashmm
