import Verif.Proofs.Life
import Verif.Props.Distro
import Verif.Props.Methods
/-
C83, C84: what `create_DAG` allocates and `destroy_DAG` gives back, and why a tree cannot carry a second DAG.
-/
namespace Dashmm
open Life Distro

theorem Builtin.safe {m : Method} (hm : Builtin m) {unif : Nat} {same : Bool} {s t : Fin 8 → Oct}
    {acts : List Act} (hr : Runs (createProg m unif same s t) acts) : NoAssertionFails acts := by
  cases hm with
  | direct => exact Direct_safe hr
  | bh mac => exact BH_safe mac hr
  | fmm => exact FMM_safe hr
  | fmm97 => exact FMM97_safe hr

namespace Life

section
variable {m : Method} {unif : Nat} {same : Bool} {s t : Fin 8 → Oct} {acts : List Act} (sh : Shape m unif same s t acts)
  (hs : NoAssertionFails acts)
include sh hs

/-- The addresses in the four vectors. -/
theorem vectors_perm {h : Mem} (hp : ∀ r, (h.ptr r).isSome ↔ r ∈ nodesOf acts) :
    ∃ a b c d : List Ref, (vectors h s t).sourceLeaves = a.filterMap h.ptr ∧ (vectors h s t).sourceNodes = b.filterMap h.ptr ∧
      (vectors h s t).targetNodes = c.filterMap h.ptr ∧ (vectors h s t).targetLeaves = d.filterMap h.ptr ∧
      (∀ r ∈ a, r.side = .src ∧ r.kind = .parts) ∧ (∀ r ∈ d ++ c ++ b, NeedsLco r) ∧
      (a ++ b ++ c ++ d).Perm (nodesOf acts) := by
  obtain ⟨na, ma⟩ := collected sh hp .src true
  obtain ⟨nb, mb⟩ := collected sh hp .src false
  obtain ⟨nc, mc⟩ := collected sh hp .tgt false
  obtain ⟨nd, md⟩ := collected sh hp .tgt true
  simp only [if_true, Bool.false_eq_true, if_false, iff_true, iff_false, sideTree] at na ma nb mb nc mc nd md
  refine ⟨_, _, _, _, rfl, rfl, rfl, rfl, ?_, ?_, ?_⟩
  · intro r hr; exact ((ma r).1 hr).2
  · intro r hr
    simp only [List.mem_append, ma, mb, mc, md] at hr
    rintro ⟨h1, h2⟩
    rcases hr with (⟨_, h, _⟩ | ⟨_, h, _⟩) | ⟨_, _, h⟩
    · rw [h1] at h; cases h
    · rw [h1] at h; cases h
    · exact h h2
  · refine (List.perm_ext_iff_of_nodup ?_ hs.1).2 ?_
    · simp only [List.nodup_append, List.mem_append]
      refine ⟨⟨⟨na, nb, ?_⟩, nc, ?_⟩, nd, ?_⟩
      · rintro r hr r' hr' rfl
        exact ((mb r).1 hr').2.2 ((ma r).1 hr).2.2
      · rintro r hr r' hr' rfl
        have h1 := ((mc r).1 hr').2.1
        rcases hr with hr | hr
        · have := ((ma r).1 hr).2.1; rw [h1] at this; cases this
        · have := ((mb r).1 hr).2.1; rw [h1] at this; cases this
      · rintro r hr r' hr' rfl
        have h1 := (md r).1 hr'
        rcases hr with (hr | hr) | hr
        · have := ((ma r).1 hr).2.1; rw [h1.2.1] at this; cases this
        · have := ((mb r).1 hr).2.1; rw [h1.2.1] at this; cases this
        · exact ((mc r).1 hr).2.2 h1.2.2
    · intro r
      simp only [List.mem_append, ma, mb, mc, md]
      constructor
      · rintro (((⟨h, _⟩ | ⟨h, _⟩) | ⟨h, _⟩) | ⟨h, _⟩) <;> exact h
      · intro h
        rcases hsd : r.side with _ | _ <;> by_cases hk : r.kind = .parts <;> simp [h, hk]

/-- The state after `create_DAG`. -/
theorem created_inv {h₀ : Mem} (hb : Blank h₀) {rank : Int} {loc : Ref → Int} {d : Vectors} {h' : Mem} (hc : Created s t rank loc acts h₀ d h') :
    LInv h' (nodesOf acts) (fun r => NeedsLco r ∧ loc r = rank) ∧ d = vectors h' s t := by
  obtain ⟨h₁, order, e1, rfl, e2, e3⟩ := hc
  obtain ⟨h, e4, e5⟩ := actAll_ok hb hs
  rw [e1] at e4
  obtain rfl := Option.some.inj e4
  have hn : order.Nodup := e2.nodup_iff.2 (lcos_nodup _ s t)
  obtain ⟨h2, e6, e7, e8⟩ := e5.linv.mkAll rank loc hn
  rw [e3] at e6
  obtain rfl := Option.some.inj e6
  refine ⟨e7.congr fun r hr => ?_, ?_⟩
  · refine and_congr_left fun hl => ?_
    rw [e2.mem_iff]
    constructor
    · intro hm
      rintro ⟨h3, h4⟩
      rcases List.mem_append.1 hm with hm | hm
      · exact ((lcosS_mem (rootNode s) r).1 hm).2.1 h4
      · have := (lcosT_desc h₁.ptr (rootNode t) r hm).1
        rw [h3] at this; cases this
    · intro hl
      exact lcos_reach sh e5.ptr hr hl
  · unfold vectors; rw [e8]

end

/-- The first thing a method does is to add the parts node of a leaf of the source tree. -/
theorem first_act {m : Method} (hm : Builtin m) (n : TNode) : ∀ {acts : List Act}, Runs (sourceProg m n.ix (.node n.c)) acts →
    ∃ x rest, x ∈ n.leaves ∧ acts = Act.addParts .src x :: rest := by
  have hg : ∀ n, ∃ rest, m.generate n = Act.addParts .src n.ix :: rest := by
    intro n; cases hm <;> exact ⟨_, rfl⟩
  induction n using tnode_induction with
  | h n ih =>
    intro acts hr
    rw [sourceProg] at hr
    cases hl : n.isLeaf with
    | true =>
      rw [if_pos hl] at hr
      cases hr
      obtain ⟨rest, e⟩ := hg ⟨n.ix, n.c⟩
      exact ⟨n.ix, rest, by rw [TNode.leaves_of_leaf hl]; simp, e⟩
    | false =>
      rw [if_neg (by rw [show (TNode.mk n.ix n.c) = n from rfl, hl]; simp)] at hr
      cases hr with
      | @seq _ _ a b h1 h2 =>
        cases h1 with
        | @par _ rs _ h1 hi =>
          rw [TNode.leaves_of_not_leaf hl]
          have key : ∀ i : Fin 8, n.c i ≠ .nil → ∃ x rest, x ∈ n.kids.flatMap TNode.leaves ∧ rs i = Act.addParts .src x :: rest := by
            intro i hi'
            cases hc : n.c i with
            | nil => exact absurd hc hi'
            | node c =>
              have hk : (⟨n.ix.child i, c⟩ : TNode) ∈ n.kids := mem_kids.2 ⟨i, hc, rfl⟩
              have := h1 i
              dsimp only at this
              rw [hc] at this
              obtain ⟨x, rest, hx, e⟩ := ih _ hk this
              exact ⟨x, rest, List.mem_flatMap.2 ⟨_, hk, hx⟩, e⟩
          have hnil : ∀ i : Fin 8, n.c i = .nil → rs i = [] := by
            intro i hi'
            have := h1 i
            dsimp only at this
            rw [hi', sourceProg] at this
            generalize rs i = l at this
            cases this; rfl
          generalize hls : (List.finRange 8).map rs = ls at hi
          cases hi with
          | done h =>
            exfalso
            have : n.isLeaf = true := by
              rw [isLeaf_iff]
              intro i
              by_contra hc
              obtain ⟨x, rest, _, e⟩ := key i hc
              have := h (rs i) (by rw [← hls]; exact List.mem_map.2 ⟨i, List.mem_finRange i, rfl⟩)
              rw [this] at e; cases e
            rw [hl] at this; cases this
          | @step pre post a l r h =>
            have hmem : (a :: l) ∈ (List.finRange 8).map rs := by rw [hls]; simp
            obtain ⟨i, _, hi⟩ := List.mem_map.1 hmem
            have hc : n.c i ≠ .nil := by
              intro hc
              rw [hnil i hc] at hi; cases hi
            obtain ⟨x, rest, hx, e⟩ := key i hc
            rw [hi] at e
            obtain ⟨rfl, _⟩ := List.cons.inj e
            exact ⟨x, r ++ b, hx, rfl⟩

/-- Every leaf of the source tree gets a parts node. -/
theorem leaf_parts {m : Method} (hm : Builtin m) {unif : Nat} {same : Bool} {s t : Fin 8 → Oct} {x : Index}
    (hx : x ∈ leaves Index.root (.node s)) : Act.addParts .src x ∈ createDag m unif same s t := by
  have hg : ∀ n, Act.addParts .src n.ix ∈ m.generate n := by
    intro n; cases hm <;> simp [Direct, BH, FMM, FMM97]
  have key : ∀ n : TNode, ∀ x ∈ n.leaves, Act.addParts .src x ∈ srcActs m n := by
    intro n
    induction n using tnode_induction with
    | h n ih =>
      intro x hx
      rw [srcActs_eq]
      cases hl : n.isLeaf with
      | true =>
        rw [TNode.leaves_of_leaf hl] at hx
        simp only [List.mem_singleton] at hx
        subst hx
        refine List.mem_append_right _ ?_
        unfold ownSrc
        rw [if_pos hl]; exact hg n
      | false =>
        rw [TNode.leaves_of_not_leaf hl] at hx
        obtain ⟨k, hk, hx⟩ := List.mem_flatMap.1 hx
        simp only [Bool.false_eq_true, if_false]
        exact List.mem_append_left _ (List.mem_flatMap.2 ⟨k, hk, ih k hk x hx⟩)
  exact List.mem_append_left _ (key (rootNode s) x hx)

end Life

section
variable {m : Method} (hm : Builtin m) {unif : Nat} {same : Bool} {s t : Fin 8 → Oct} {acts : List Act}
  (hr : Runs (createProg m unif same s t) acts) {rank : Int} {loc : Ref → Int}
  -- the memory when `create_DAG` is called: no DAG
  {h₀ : Mem} (hb : Blank h₀)
include hm hr hb

/-- C83. On a tree that has no DAG yet, `create_DAG` with a builtin method succeeds whatever the schedule of the tasks that add nodes and of those that make LCOs. -/
theorem C83_create_succeeds (rank : Int) (loc : Ref → Int) : ∃ h₁, actAll acts h₀ = some h₁ ∧
    ∀ order : List Ref, order.Perm (lcosS Index.root (.node s) ++ lcosT h₁.ptr Index.root (.node t)) →
      ∃ h', mkLcos rank loc order h₁ = some h' ∧ Created s t rank loc acts h₀ (vectors h₁ s t) h' := by
  obtain ⟨h₁, e1, e2⟩ := actAll_ok hb (hm.safe hr)
  refine ⟨h₁, e1, fun order ho => ?_⟩
  obtain ⟨h', e3, _⟩ := e2.linv.mkAll rank loc (ho.nodup_iff.2 (lcos_nodup _ s t))
  exact ⟨h', e3, h₁, order, e1, rfl, ho, e3⟩

/-- C83. The DAG object that the user gets lists every node of the DAG exactly once, in the four vectors together, and each entry is the object that the tree points to. -/
theorem C83_all_nodes {d : Vectors} {h' : Mem} (hc : Created s t rank loc acts h₀ d h') :
    (d.sourceLeaves ++ d.sourceNodes ++ d.targetNodes ++ d.targetLeaves).Perm ((nodesOf acts).filterMap h'.ptr) ∧
    (d.sourceLeaves ++ d.sourceNodes ++ d.targetNodes ++ d.targetLeaves).Nodup ∧
    (∀ r ∈ nodesOf acts, ∃ a g, h'.ptr r = some a ∧ h'.node a = some (r, g)) ∧
    ∀ r, r ∉ nodesOf acts → h'.ptr r = none := by
  obtain ⟨hi, rfl⟩ := created_inv (hm.shape hr) (hm.safe hr) hb hc
  obtain ⟨a, b, c, e, h1, h2, h3, h4, _, _, h5⟩ := vectors_perm (hm.shape hr) (hm.safe hr) hi.ptr
  have hperm : ((vectors h' s t).sourceLeaves ++ (vectors h' s t).sourceNodes ++ (vectors h' s t).targetNodes ++
      (vectors h' s t).targetLeaves).Perm ((nodesOf acts).filterMap h'.ptr) := by
    rw [h1, h2, h3, h4, ← List.filterMap_append, ← List.filterMap_append, ← List.filterMap_append]
    exact h5.filterMap _
  refine ⟨hperm, hperm.nodup_iff.2 ?_, ?_, ?_⟩
  · rw [List.Nodup, List.pairwise_filterMap]
    refine (hm.safe hr).1.imp ?_
    intro r r' hne x hx y hy hxy
    subst hxy
    obtain ⟨g, h6, _⟩ := hi.at_ _ _ hx
    obtain ⟨g', h7, _⟩ := hi.at_ _ _ hy
    rw [h6] at h7
    simp only [Option.some.injEq, Prod.mk.injEq] at h7
    exact hne h7.1
  · intro r hr'
    obtain ⟨x, hx⟩ := Option.isSome_iff_exists.1 ((hi.ptr r).2 hr')
    obtain ⟨g, hg, _⟩ := hi.at_ _ _ hx
    exact ⟨x, g, hx, hg⟩
  · intro r hr'
    cases hx : h'.ptr r with
    | none => rfl
    | some x => exact absurd ((hi.ptr r).1 (by rw [hx]; rfl)) hr'

/-- C83. After `create_DAG` on a rank, each node of the DAG that is placed on the rank, other than the sources, is served by an LCO (so that waiting for it, resetting it and deleting it work),
no two nodes by the same; the others are not served, and there are no other LCOs. -/
theorem C83_lcos {d : Vectors} {h' : Mem} (hc : Created s t rank loc acts h₀ d h') :
    (∀ r ∈ nodesOf acts, (∃ i, Serves h' r i) ↔ NeedsLco r ∧ loc r = rank) ∧
    (∀ r r' i, Serves h' r i → Serves h' r' i → r = r') ∧
    ∀ i, h'.lco i = true → ∃ r ∈ nodesOf acts, Serves h' r i := by
  obtain ⟨hi, -⟩ := created_inv (hm.shape hr) (hm.safe hr) hb hc
  refine ⟨?_, ?_, ?_⟩
  · intro r hr'
    obtain ⟨x, hx⟩ := Option.isSome_iff_exists.1 ((hi.ptr r).2 hr')
    obtain ⟨g, hg, hs⟩ := hi.at_ _ _ hx
    rw [← hs]
    constructor
    · rintro ⟨i, a, h1, h2, _⟩
      rw [hx] at h1
      obtain rfl := Option.some.inj h1
      rw [hg] at h2
      simp only [Option.some.injEq, Prod.mk.injEq] at h2
      rw [h2.2]; rfl
    · intro h1
      obtain ⟨i, rfl⟩ := Option.isSome_iff_exists.1 h1
      exact ⟨i, x, hx, hg, (hi.live i).2 ⟨x, r, hg⟩⟩
  · rintro r r' i ⟨a, h1, h2, _⟩ ⟨b, h3, h4, _⟩
    have := hi.inj _ _ _ _ _ h2 h4
    subst this
    rw [h2] at h4
    simp only [Option.some.injEq, Prod.mk.injEq] at h4
    exact h4.1
  · intro i hl
    obtain ⟨a, r, h1⟩ := (hi.live i).1 hl
    have h2 := hi.own _ _ h1
    exact ⟨r, (hi.ptr r).1 (by rw [h2]; rfl), a, h2, h1, hl⟩

/-- C83. `destroy_DAG` succeeds in every order of its tasks: no assertion fails, nothing is deleted twice or used after it was deleted; afterwards nothing that `create_DAG` allocated is left. The
pointers in the tree nodes are as they were. -/
theorem C83_destroyed {d : Vectors} {h' : Mem} (hc : Created s t rank loc acts h₀ d h') {order order' : List Nat}
    (ho : d.Orders order order') : ∃ h'', destroy rank loc order order' h' = some h'' ∧ Gone h'' ∧ h''.ptr = h'.ptr := by
  have hall := (C83_all_nodes hm hr hb hc).2.1
  have hallp := (C83_all_nodes hm hr hb hc).1
  obtain ⟨hi, rfl⟩ := created_inv (hm.shape hr) (hm.safe hr) hb hc
  obtain ⟨a, b, c, e, h1, h2, h3, h4, ha, hn, h5⟩ := vectors_perm (hm.shape hr) (hm.safe hr) hi.ptr
  have hsub : ∀ x, x ∈ order ↔ ∃ r ∈ e ++ c ++ b, h'.ptr r = some x := by
    intro x
    rw [ho.1.mem_iff, h2, h3, h4, ← List.filterMap_append, ← List.filterMap_append, List.mem_filterMap]
  have hnd : order.Nodup := by
    refine ho.1.nodup_iff.2 ?_
    refine List.Nodup.sublist (l₂ := (vectors h' s t).targetLeaves ++ (vectors h' s t).targetNodes ++ (vectors h' s t).sourceNodes ++
      (vectors h' s t).sourceLeaves) (List.sublist_append_left _ _) ?_
    refine (List.Perm.nodup_iff ?_).1 hall
    simp only [List.perm_iff_count, List.count_append]; intro; omega
  obtain ⟨h1', e1, e2⟩ := rmLcos_ok hi rank loc hnd (by
    intro x hx
    obtain ⟨r, hr', hx⟩ := (hsub x).1 hx
    obtain ⟨g, hg, hs⟩ := hi.at_ _ _ hx
    exact ⟨r, g, hg, fun hl => hs.2 ⟨hn r hr', hl⟩⟩)
  have hsub' : ∀ x, x ∈ order' ↔ ∃ r ∈ nodesOf acts, h'.ptr r = some x := by
    intro x
    rw [ho.2.mem_iff, hallp.mem_iff, List.mem_filterMap]
  obtain ⟨h'', e3, e4, e5, e6⟩ := delNodes_ok (h₀ := h1') (ho.2.nodup_iff.2 hall) (by
    intro x hx
    obtain ⟨r, _, hx⟩ := (hsub' x).1 hx
    obtain ⟨g, hg, _⟩ := hi.at_ _ _ hx
    rw [e2.node, hg]; rfl)
  have hnone : ∀ x, h''.node x = none := by
    intro x
    rw [e6]
    split
    · rfl
    · rename_i hx
      rw [e2.node]
      cases hx' : h'.node x with
      | none => rfl
      | some y =>
        have h7 := hi.own _ _ hx'
        exact absurd ((hsub' x).2 ⟨y.1, (hi.ptr _).1 (by rw [h7]; rfl), h7⟩) hx
  refine ⟨h'', ?_, ⟨hnone, ?_⟩, ?_⟩
  · simp only [destroy, e1, Option.bind_some, e3]
  · intro i
    rw [e5]
    by_contra hl
    rw [Bool.not_eq_false] at hl
    obtain ⟨h7, h8⟩ := (e2.live i).1 hl
    obtain ⟨x, r, hx⟩ := (hi.live i).1 h7
    have h9 := hi.own _ _ hx
    obtain ⟨g, hg, hs⟩ := hi.at_ _ _ h9
    rw [hx] at hg
    simp only [Option.some.injEq, Prod.mk.injEq, true_and] at hg
    have h10 := hs.1 (by rw [← hg]; rfl)
    refine h8 ⟨x, (hsub x).2 ⟨r, ?_, h9⟩, r, hx, h10.2⟩
    have hm' : r ∈ a ++ b ++ c ++ e := h5.mem_iff.2 ((hi.ptr r).1 (by rw [h9]; rfl))
    simp only [List.mem_append] at hm' ⊢
    rcases hm' with ((hm' | hm') | hm') | hm'
    · exact absurd (ha r hm') h10.1
    · exact .inr hm'
    · exact .inl (.inr hm')
    · exact .inl (.inl hm')
  · rw [e4, e2.ptr]

/-- C84. A second `create_DAG` on the same tree after `destroy_DAG`, with this or another builtin method, trips an assertion in every schedule: the parts pointers of the source leaves are still set.
The interface offers this sequence of calls (doc/docsource/advanced.tex, "Expanded API"), so as to build the tree once and use it with several methods; nothing there excludes it. -/
theorem C84_second_dag_fails {d : Vectors} {h' : Mem} (hc : Created s t rank loc acts h₀ d h') {order order' : List Nat}
    {h'' : Mem} (hd : d.Orders order order') (hdes : destroy rank loc order order' h' = some h'')
    {m' : Method} (hm' : Builtin m') {unif' : Nat} {same' : Bool} {acts' : List Act} (hr' : Runs (createProg m' unif' same' s t) acts') :
    actAll acts' h'' = none := by
  obtain ⟨h₂, e1, -, e2⟩ := C83_destroyed hm hr hb hc hd
  rw [hdes] at e1
  obtain rfl := Option.some.inj e1
  obtain ⟨hi, -⟩ := created_inv (hm.shape hr) (hm.safe hr) hb hc
  cases hr' with
  | @seq _ _ a b h1 h2 =>
    obtain ⟨x, rest, hx, rfl⟩ := first_act hm' (rootNode s) h1
    have hmem : (⟨.src, x, .parts⟩ : Ref) ∈ nodesOf acts := by
      have h3 := (runs_perm hr).mem_iff.2 (leaf_parts hm (unif := unif) (same := same) (t := t) hx)
      exact List.mem_filterMap.2 ⟨_, h3, rfl⟩
    obtain ⟨y, hy⟩ := Option.isSome_iff_exists.1 ((hi.ptr _).2 hmem)
    have : act (Act.addParts .src x) h'' = none := by
      simp only [Act.addParts, act, add, e2, hy]
    simp only [actAll, List.cons_append, List.foldlM_cons, this]
    rfl

/-- C84, the part that holds: if `destroy_DAG` also set the pointers in the tree nodes to null, as the commented-out call in `~DAGNode` (dag.h:60) would do, then the tree would be as before
`create_DAG`, and everything proved above would hold of the next DAG. Missing: the code does not do it (`C84_second_dag_fails`). -/
theorem C84_reuse_partial {d : Vectors} {h' : Mem} (hc : Created s t rank loc acts h₀ d h') {order order' : List Nat}
    {h'' : Mem} (hd : d.Orders order order') (hdes : destroy rank loc order order' h' = some h'')
    {m' : Method} (hm' : Builtin m') {unif' : Nat} {same' : Bool} {acts' : List Act} (hr' : Runs (createProg m' unif' same' s t) acts') :
    ∃ d' h₃, Created s t rank loc acts' { h'' with ptr := fun _ => none } d' h₃ ∧
      ∀ order order', d'.Orders order order' → ∃ h₄, destroy rank loc order order' h₃ = some h₄ ∧ Gone h₄ := by
  obtain ⟨h₂, e1, hg, e2⟩ := C83_destroyed hm hr hb hc hd
  rw [hdes] at e1
  obtain rfl := Option.some.inj e1
  have hb' : Blank { h'' with ptr := fun _ => none } := ⟨hg, fun _ => rfl⟩
  obtain ⟨h₃, _, e4⟩ := C83_create_succeeds hm' hr' hb' rank loc
  obtain ⟨h₄, _, e5⟩ := e4 _ (List.Perm.refl _)
  refine ⟨_, h₄, e5, fun o o' ho => ?_⟩
  obtain ⟨h₅, e6, e7, _⟩ := C83_destroyed hm' hr' hb' e5 ho
  exact ⟨h₅, e6, e7⟩

end

/-- The whole life for every method and tree, with all nodes on the rank. -/
example (m : Method) (hm : Builtin m) (s t : Fin 8 → Oct) : ∃ acts d h', Runs (createProg m 1 false s t) acts ∧
    Created s t 0 (fun _ => 0) acts .clean d h' ∧ d.Orders (d.targetLeaves ++ d.targetNodes ++ d.sourceNodes)
      (d.sourceLeaves ++ d.sourceNodes ++ d.targetNodes ++ d.targetLeaves) := by
  have hr := createDag_runs m 1 false s t
  obtain ⟨h₁, e1, e2⟩ := C83_create_succeeds hm hr (h₀ := .clean) ⟨⟨fun _ => rfl, fun _ => rfl⟩, fun _ => rfl⟩ 0 (fun _ => 0)
  obtain ⟨h', _, e4⟩ := e2 _ (List.Perm.refl _)
  exact ⟨_, _, h', hr, e4, .refl _, .refl _⟩

/-- The DAG of FMM97 on a tree with two leaves has nodes of both kinds. -/
example : (nodesOf (createDag FMM97 2 false exA exA)).length ≥ 10 ∧
    (∃ r ∈ nodesOf (createDag FMM97 2 false exA exA), NeedsLco r) ∧
    ∃ r ∈ nodesOf (createDag FMM97 2 false exA exA), ¬ NeedsLco r := by
  unfold NeedsLco
  decide +kernel

end Dashmm
