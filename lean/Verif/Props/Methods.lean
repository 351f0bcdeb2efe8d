import Verif.Proofs.MergeShift
/-!
C33-C39, C41: the DAGs built by the four built-in methods.

In all theorems `s`, `t` are the children of the roots of an arbitrary source and target tree, `unif`
is the level of the uniform grid, `same` tells whether sources and targets are the same array, and
`acts` is the sequence in which the concurrent tasks happen to create the DAG nodes and edges.
-/
namespace Dashmm

/-! ### Trees used in the examples -/

/-- A path of nodes that takes the given octants. -/
def chain : List (Fin 8) → Oct
  | [] => .tip
  | i :: l => .node fun j => if j = i then chain l else .nil

/-- Children of a root with two paths that start in different octants. -/
def fork (i : Fin 8) (a : List (Fin 8)) (j : Fin 8) (b : List (Fin 8)) : Fin 8 → Oct := fun k =>
  if k = i then chain a else if k = j then chain b else .nil

/-- A tree with a leaf at level 2 and a leaf at level 4. -/
def exA : Fin 8 → Oct := fork 0 [7] 7 [0, 7, 7]
/-- Another one. -/
def exB : Fin 8 → Oct := fork 0 [7] 7 [7, 0, 7]

/-! ### Every task can run, and every DAG can be evaluated, so the theorems are not vacuous -/

theorem interleaves_flatten {α : Type} : ∀ ls : List (List α), Interleaves ls ls.flatten := by
  suffices h : ∀ (ls pre : List (List α)), (∀ l ∈ pre, l = []) → Interleaves (pre ++ ls) ls.flatten by
    intro ls; exact h ls [] (by simp)
  intro ls
  induction ls with
  | nil => intro pre h; exact .done (by simpa using h)
  | cons l ls ih =>
    intro pre h
    induction l with
    | nil =>
      have := ih (pre ++ [[]]) (by
        intro l hl; rcases List.mem_append.1 hl with hl | hl
        · exact h l hl
        · simpa using hl)
      simpa using this
    | cons a l ihl => exact .step ihl

/-- Every task has a schedule. -/
theorem runs_exists (p : Prog) : Runs p p.canon := by
  induction p with
  | acts l => exact .acts l
  | seq p q ih1 ih2 => exact .seq ih1 ih2
  | par ps ih =>
    refine .par ih ?_
    rw [Prog.canon, List.flatMap_def]
    exact interleaves_flatten _

theorem createDag_runs (m : Method) (unif : Nat) (same : Bool) (s t : Fin 8 → Oct) :
    Runs (createProg m unif same s t) (createDag m unif same s t) := by
  rw [← createProg_canon]; exact runs_exists _

/-! ### C33 -/

/-- C33: for all trees and all schedules of the construction, evaluating the DAG leaves in every
target particle node the contribution of every source leaf exactly once and of nothing else. -/
theorem C33_direct_delivers_every_source_once : DeliversAllOnce Direct := Direct_delivers

/-- C33, the evaluation the previous theorem speaks of: for every run it exists and is unique. -/
theorem C33_direct_evaluation_exists {unif : Nat} {same : Bool}
    {s t : Fin 8 → Oct} {acts : List Act} (hr : Runs (createProg Direct unif same s t) acts) :
    ∃ val, IsEvaluation acts val ∧ ∀ val', IsEvaluation acts val' → val' = val :=
  exists_unique_evaluation (Direct_acyclic hr)

/-! ### C34 -/

/-- C34: for all trees and all schedules of the construction, evaluating the DAG leaves in every
target particle node the contribution of every source leaf exactly once and of nothing else. -/
theorem C34_bh_delivers_every_source_once (mac : Index → Index → Bool) : DeliversAllOnce (BH mac) := BH_delivers mac

/-- C34, the evaluation the previous theorem speaks of: for every run it exists and is unique. -/
theorem C34_bh_evaluation_exists (mac : Index → Index → Bool) {unif : Nat} {same : Bool}
    {s t : Fin 8 → Oct} {acts : List Act} (hr : Runs (createProg (BH mac) unif same s t) acts) :
    ∃ val, IsEvaluation acts val ∧ ∀ val', IsEvaluation acts val' → val' = val :=
  exists_unique_evaluation (BH_acyclic hr)

/-! ### C35 -/

/-- C35: for all trees and all schedules of the construction, evaluating the DAG leaves in every
target particle node the contribution of every source leaf exactly once and of nothing else. -/
theorem C35_fmm_delivers_every_source_once : DeliversAllOnce FMM := FMM_delivers

/-- C35, the evaluation the previous theorem speaks of: for every run it exists and is unique. -/
theorem C35_fmm_evaluation_exists {unif : Nat} {same : Bool}
    {s t : Fin 8 → Oct} {acts : List Act} (hr : Runs (createProg FMM unif same s t) acts) :
    ∃ val, IsEvaluation acts val ∧ ∀ val', IsEvaluation acts val' → val' = val :=
  exists_unique_evaluation (FMM_acyclic hr)

/-! ### C36 -/

/-- C36: for all trees and all schedules of the construction, evaluating the DAG leaves in every
target particle node the contribution of every source leaf exactly once and of nothing else. -/
theorem C36_fmm97_delivers_every_source_once : DeliversAllOnce FMM97 := FMM97_delivers

/-- C36, the evaluation the previous theorem speaks of: for every run it exists and is unique. -/
theorem C36_fmm97_evaluation_exists {unif : Nat} {same : Bool}
    {s t : Fin 8 → Oct} {acts : List Act} (hr : Runs (createProg FMM97 unif same s t) acts) :
    ∃ val, IsEvaluation acts val ∧ ∀ val', IsEvaluation acts val' → val' = val :=
  exists_unique_evaluation (FMM97_acyclic hr)

/-! ### C37 -/

/-- C37 for FMM: expansions are only used between boxes that are at least one (smaller) box apart,
and direct summation only between boxes that are not. -/
theorem C37_fmm_separation {unif : Nat} {same : Bool} {s t : Fin 8 → Oct} {acts : List Act}
    (hr : Runs (createProg FMM unif same s t) acts) {e : Edge} (he : e ∈ edgesOf acts) :
    (e.op = .MtoL ∨ e.op = .StoL ∨ e.op = .MtoT → Separated e.src.ix e.dst.ix) ∧
    (e.op = .StoT → ¬ Separated e.src.ix e.dst.ix) := FMM_separation hr he

/-- C37 for FMM97, the operations it shares with FMM. -/
theorem C37_fmm97_separation {unif : Nat} {same : Bool} {s t : Fin 8 → Oct} {acts : List Act}
    (hr : Runs (createProg FMM97 unif same s t) acts) {e : Edge} (he : e ∈ edgesOf acts) :
    (e.op = .MtoL ∨ e.op = .StoL ∨ e.op = .MtoT → Separated e.src.ix e.dst.ix) ∧
    (e.op = .StoT → ¬ Separated e.src.ix e.dst.ix) :=
  ⟨(FMM97_separation hr he).1, (FMM97_separation hr he).2.1⟩

/-- C37 for the plane-wave expansions of FMM97: what an `I->I` edge brings to a target node reaches
a child of it through `I->L` only if that child is separated from the source. -/
theorem C37_fmm97_plane_waves {unif : Nat} {same : Bool} {s t : Fin 8 → Oct} {acts : List Act}
    (hr : Runs (createProg FMM97 unif same s t) acts) {e : Edge} (he : e ∈ edgesOf acts)
    (ho : e.op = .ItoI) {c : Nat} (hc : c < 8)
    (hp : paths ((e.src.ix.x : Int) - 2 * e.dst.ix.x) ((e.src.ix.y : Int) - 2 * e.dst.ix.y)
      ((e.src.ix.z : Int) - 2 * e.dst.ix.z) c ≠ []) :
    Separated e.src.ix (e.dst.ix.child c) := by
  obtain ⟨hl, ⟨x1, x2⟩, ⟨y1, y2⟩, ⟨z1, z2⟩⟩ := (FMM97_separation hr he).2.2 ho
  have htab := paths_table _ (mem_range6 x1 x2) _ (mem_range6 y1 y2) _ (mem_range6 z1 z2) c
    (List.mem_range.2 hc)
  rw [← farOct_separated hl hc]
  by_contra hf
  have := htab.2.1
  rw [if_neg hf, List.length_eq_zero_iff] at this
  exact hp this

/-! ### C38 -/

/-- C38 for Direct: no DAG node is created twice, and edges only join nodes created before. -/
theorem C38_direct_no_assertion_fails {unif : Nat} {same : Bool}
    {s t : Fin 8 → Oct} {acts : List Act} (hr : Runs (createProg Direct unif same s t) acts) :
    NoAssertionFails acts := Direct_safe hr

/-- C38 for BH: no DAG node is created twice, and edges only join nodes created before. -/
theorem C38_bh_no_assertion_fails (mac : Index → Index → Bool) {unif : Nat} {same : Bool}
    {s t : Fin 8 → Oct} {acts : List Act} (hr : Runs (createProg (BH mac) unif same s t) acts) :
    NoAssertionFails acts := BH_safe mac hr

/-- C38 for FMM: no DAG node is created twice, and edges only join nodes created before. -/
theorem C38_fmm_no_assertion_fails {unif : Nat} {same : Bool}
    {s t : Fin 8 → Oct} {acts : List Act} (hr : Runs (createProg FMM unif same s t) acts) :
    NoAssertionFails acts := FMM_safe hr

/-- C38 for FMM97: no DAG node is created twice, and edges only join nodes created before. -/
theorem C38_fmm97_no_assertion_fails {unif : Nat} {same : Bool}
    {s t : Fin 8 → Oct} {acts : List Act} (hr : Runs (createProg FMM97 unif same s t) acts) :
    NoAssertionFails acts := FMM97_safe hr

/-! ### C39 -/

/-- C39 for Direct: every leaf of the target tree (at or below the level of the uniform grid, where
all leaves with points are) lies below exactly one target node that owns a particle DAG node. -/
theorem C39_direct_targets_partitioned {unif : Nat} {same : Bool}
    {s t : Fin 8 → Oct} {acts : List Act} (hr : Runs (createProg Direct unif same s t) acts)
    {x : Index} (hx : x ∈ leaves Index.root (.node t)) (hu : unif ≤ x.level) :
    ∃ r, (r ∈ nodesOf acts ∧ r.side = .tgt ∧ r.kind = .parts ∧ InSubtree r.ix x) ∧
      ∀ r', r' ∈ nodesOf acts → r'.side = .tgt → r'.kind = .parts → InSubtree r'.ix x → r' = r :=
  visit_add_ix (fun n p c r h => by
      have := (Direct_visit_add unif same n p c r).1 h; simp [this.1])
    (fun n p c => by
      rw [Act.addParts, Direct_visit_add unif same n p c]; simp)
    (fun n r h => (Direct_src_act n _ h).add_side r rfl) hr hx hu

/-- C39 for BH: every leaf of the target tree (at or below the level of the uniform grid, where
all leaves with points are) lies below exactly one target node that owns a particle DAG node. -/
theorem C39_bh_targets_partitioned (mac : Index → Index → Bool) {unif : Nat} {same : Bool}
    {s t : Fin 8 → Oct} {acts : List Act} (hr : Runs (createProg (BH mac) unif same s t) acts)
    {x : Index} (hx : x ∈ leaves Index.root (.node t)) (hu : unif ≤ x.level) :
    ∃ r, (r ∈ nodesOf acts ∧ r.side = .tgt ∧ r.kind = .parts ∧ InSubtree r.ix x) ∧
      ∀ r', r' ∈ nodesOf acts → r'.side = .tgt → r'.kind = .parts → InSubtree r'.ix x → r' = r :=
  visit_add_ix (fun n p c r h => by
      have := (BH_visit_add mac unif same n p c r).1 h; simp [this.1])
    (fun n p c => by
      rw [Act.addParts, BH_visit_add mac unif same n p c]; simp)
    (fun n r h => (BH_src_act mac n _ h).add_side r rfl) hr hx hu

/-- C39 for FMM: every leaf of the target tree (at or below the level of the uniform grid, where
all leaves with points are) lies below exactly one target node that owns a particle DAG node. -/
theorem C39_fmm_targets_partitioned {unif : Nat} {same : Bool}
    {s t : Fin 8 → Oct} {acts : List Act} (hr : Runs (createProg FMM unif same s t) acts)
    {x : Index} (hx : x ∈ leaves Index.root (.node t)) (hu : unif ≤ x.level) :
    ∃ r, (r ∈ nodesOf acts ∧ r.side = .tgt ∧ r.kind = .parts ∧ InSubtree r.ix x) ∧
      ∀ r', r' ∈ nodesOf acts → r'.side = .tgt → r'.kind = .parts → InSubtree r'.ix x → r' = r :=
  visit_add_ix (FMM_visit_add unif same) (FMM_visit_parts unif same)
    (fun n r h => (FMM_src_act n _ h).add_side r rfl) hr hx hu

/-- C39 for FMM97: every leaf of the target tree (at or below the level of the uniform grid, where
all leaves with points are) lies below exactly one target node that owns a particle DAG node. -/
theorem C39_fmm97_targets_partitioned {unif : Nat} {same : Bool}
    {s t : Fin 8 → Oct} {acts : List Act} (hr : Runs (createProg FMM97 unif same s t) acts)
    {x : Index} (hx : x ∈ leaves Index.root (.node t)) (hu : unif ≤ x.level) :
    ∃ r, (r ∈ nodesOf acts ∧ r.side = .tgt ∧ r.kind = .parts ∧ InSubtree r.ix x) ∧
      ∀ r', r' ∈ nodesOf acts → r'.side = .tgt → r'.kind = .parts → InSubtree r'.ix x → r' = r :=
  visit_add_ix (FMM97_visit_add unif same) (FMM97_visit_parts unif same)
    (fun n r h => (FMM97_src_act n _ h).add_side r rfl) hr hx hu

/-- C33-C36 in terms of the leaves of the target tree: under the unique particle node that covers a
target leaf, every source leaf has arrived exactly once. -/
theorem C36_fmm97_every_target_leaf {unif : Nat} {same : Bool}
    {s t : Fin 8 → Oct} {acts : List Act} (hr : Runs (createProg FMM97 unif same s t) acts)
    {x : Index} (hx : x ∈ leaves Index.root (.node t)) (hu : unif ≤ x.level)
    {val : Ref → Prov} (hv : IsEvaluation acts val) :
    ∃ r ∈ nodesOf acts, r.side = .tgt ∧ r.kind = .parts ∧ InSubtree r.ix x ∧
      ∀ y, val r 0 y = if y ∈ leaves Index.root (.node s) then 1 else 0 := by
  obtain ⟨r, ⟨h1, h2, h3, h4⟩, _⟩ := C39_fmm97_targets_partitioned hr hx hu
  exact ⟨r, h1, h2, h3, h4, FMM97_delivers unif same s t acts val hr hv r h1 h2 h3⟩

/-! ### C41 -/

/-- C41, the tables are only read in range: every `I->I` edge FMM97 ever makes has offsets in
`-2 … 3` in each dimension, and the merge-and-shift table has an entry for it. -/
theorem C41_offsets_in_range {unif : Nat} {same : Bool} {s t : Fin 8 → Oct} {acts : List Act}
    (hr : Runs (createProg FMM97 unif same s t) acts) {e : Edge} (he : e ∈ edgesOf acts)
    (ho : e.op = .ItoI) :
    (mergeTags ((e.src.ix.x : Int) - 2 * e.dst.ix.x) ((e.src.ix.y : Int) - 2 * e.dst.ix.y)
      ((e.src.ix.z : Int) - 2 * e.dst.ix.z)).isSome = true := by
  obtain ⟨_, ⟨x1, x2⟩, ⟨y1, y2⟩, ⟨z1, z2⟩⟩ := (FMM97_separation hr he).2.2 ho
  exact (paths_table _ (mem_range6 x1 x2) _ (mem_range6 y1 y2) _ (mem_range6 z1 z2) 0 (by simp)).1

/-- C41: for every `I->I` edge FMM97 makes and every child of its target node, if source and child
are well separated there is exactly one path through the merged expansions, it keeps the direction,
all table subscripts are in range and its two shifts add up to the displacement of the two boxes;
if they are not separated there is no path. -/
theorem C41_translation_exact {unif : Nat} {same : Bool} {s t : Fin 8 → Oct} {acts : List Act}
    (hr : Runs (createProg FMM97 unif same s t) acts) {e : Edge} (he : e ∈ edgesOf acts)
    (ho : e.op = .ItoI) {c : Nat} (hc : c < 8) :
    let dx := (e.src.ix.x : Int) - 2 * e.dst.ix.x
    let dy := (e.src.ix.y : Int) - 2 * e.dst.ix.y
    let dz := (e.src.ix.z : Int) - 2 * e.dst.ix.z
    (Separated e.src.ix (e.dst.ix.child c) → ∃ p, paths dx dy dz c = [p] ∧ PathOk dx dy dz c p) ∧
    (¬ Separated e.src.ix (e.dst.ix.child c) → paths dx dy dz c = []) := by
  intro dx dy dz
  obtain ⟨hl, ⟨x1, x2⟩, ⟨y1, y2⟩, ⟨z1, z2⟩⟩ := (FMM97_separation hr he).2.2 ho
  have htab := paths_table _ (mem_range6 x1 x2) _ (mem_range6 y1 y2) _ (mem_range6 z1 z2) c
    (List.mem_range.2 hc)
  rw [← farOct_separated hl hc]
  refine ⟨fun h => ?_, fun h => ?_⟩
  · obtain ⟨p, hp⟩ := List.length_eq_one_iff.1 (htab.2.1.trans (if_pos h))
    exact ⟨p, hp, htab.2.2 p (hp ▸ List.mem_singleton_self p)⟩
  · have := htab.2.1.trans (if_neg h)
    exact List.length_eq_zero_iff.1 this

/-! ### Non-vacuity -/

/-- For every method and all trees there is a run. -/
example (m : Method) (unif : Nat) (same : Bool) (s t : Fin 8 → Oct) :
    ∃ acts, Runs (createProg m unif same s t) acts := ⟨_, createDag_runs m unif same s t⟩

/-- A run of FMM97 that makes two particle nodes and edges of all the kinds FMM97 uses. -/
example : (leaves Index.root (.node exA)).length = 2 ∧
    ((nodesOf (createDag FMM97 2 false exA exA)).filter
      fun r => r.side = .tgt ∧ r.kind = .parts).length = 2 ∧
    ∀ o ∈ ([.StoM, .StoL, .MtoM, .LtoL, .MtoT, .LtoT, .StoT, .MtoI, .ItoI, .ItoL] : List Op),
      ∃ e ∈ edgesOf (createDag FMM97 2 false exA exA), e.op = o := by
  decide +kernel

/-- A run of FMM that makes edges of all the kinds FMM uses except `M->T` (the tree above has it). -/
example : ∀ o ∈ ([.StoM, .StoL, .MtoM, .MtoL, .LtoL, .LtoT, .StoT] : List Op),
      ∃ e ∈ edgesOf (createDag FMM 2 false exB exA), e.op = o := by
  decide +kernel

/-- Runs of Direct and Barnes-Hut on the same trees; the acceptance test of the latter accepts boxes
that are well separated. -/
example : (∃ e ∈ edgesOf (createDag Direct 2 false exB exA), e.op = .StoT) ∧
    (∃ e ∈ edgesOf (createDag (BH wellSepAsym) 2 false exB exA), e.op = .MtoT) ∧
    (∃ e ∈ edgesOf (createDag (BH wellSepAsym) 2 false exB exA), e.op = .StoT) := by
  decide +kernel

/-- For C41: an edge with a separated child (so the exact-path clause applies) and with a child that
is not separated. -/
example : ∃ e ∈ edgesOf (createDag FMM97 2 false exA exA), e.op = .ItoI ∧
    (∃ c < 8, wellSep e.src.ix (e.dst.ix.child c) = true) ∧
    (∃ c < 8, wellSep e.src.ix (e.dst.ix.child c) = false) := by
  decide +kernel

end Dashmm
