import Verif.Proofs.MethodExec
import Verif.Props.Methods
/-!
Properties C42 to C49 without C47: the execution of a DAG.
-/
namespace Dashmm
open Ev ExecState

variable {ν ε V : Type} [DecidableEq ν] [AddCommMonoid V]

/-! ### C42 -/

/-- C42: at any time of any execution, the edges applied so far are some of the DAG's edges, none
more often than it is in the DAG; the same for the edges whose contribution has been accumulated. -/
theorem C42_at_most_once {D : ExecDag ν ε V} (hD : D.Ok) {s : ExecState ν ε V} (hs : Reach D s) :
    (∃ rest, (applied s.log ++ rest).Perm D.edges) ∧
    (∃ rest, (arrived s.log ++ rest).Perm D.edges) := by
  have h := reach_inv hD hs
  have hall := h.all
  rw [List.append_assoc, List.append_assoc] at hall
  exact ⟨h.applied_le, ⟨_, hall⟩⟩

/-- C42: the operation of an edge is computed only after every input of its source node has been
accumulated there. -/
theorem C42_only_after_inputs {D : ExecDag ν ε V} (hD : D.Ok) {s : ExecState ν ε V}
    (hs : Reach D s) {pre post : List (Ev ν ε)} {e : ε} (hl : s.log = pre ++ .apply e :: post) :
    ((arrived pre).filter fun d => decide (D.dst d = D.src e)).Perm (D.inE (D.src e)) :=
  apply_after_inputs hD hs.choose_spec pre e post hl

/-- C42: once an edge has been applied, the content of its source node does not change any more. -/
theorem C42_source_final {D : ExecDag ν ε V} (hD : D.Ok) {s t : ExecState ν ε V} (hs : Reach D s)
    {e : ε} (he : Ev.apply e ∈ s.log) {n : Nat} (hst : Steps D n s t) :
    t.acc (D.src e) = s.acc (D.src e) := by
  have h := reach_inv hD hs
  have he' : e ∈ applied s.log := List.mem_filterMap.2 ⟨_, he, rfl⟩
  exact (h.steps_final hD hst (h.applied_cnt he')).2

/-- C42: what is sent along an edge is the operation applied to the (final) content of its source. -/
theorem C42_value_sent {D : ExecDag ν ε V} (hD : D.Ok) {s : ExecState ν ε V} (hs : Reach D s)
    {e : ε} {y : V} (hp : (e, y) ∈ s.net) : y = D.op e (s.acc (D.src e)) :=
  ((reach_inv hD hs).flt _ hp).1

/-- C42: a contribution only ever reaches an LCO that still waits for one, so the assertion
`yet_to_arrive >= 0` in the LCOs' `operation_handler` never fails. -/
theorem C42_never_too_many {D : ExecDag ν ε V} (hD : D.Ok) {s : ExecState ν ε V} (hs : Reach D s)
    {e : ε} {y : V} (hp : (e, y) ∈ s.net) : 1 ≤ s.cnt (D.dst e) :=
  ((reach_inv hD hs).awaited hp).1

/-- C42: when all nodes have triggered, every edge has been applied exactly once and its result
accumulated exactly once. -/
theorem C42_exactly_once {D : ExecDag ν ε V} (hD : D.Ok) {s : ExecState ν ε V} (hs : Reach D s)
    (hall : ∀ r ∈ D.watched, Ev.trigger r ∈ s.log) :
    (applied s.log).Perm D.edges ∧ (arrived s.log).Perm D.edges := by
  have h := reach_inv hD hs
  obtain ⟨h1, h2, _⟩ := h.complete hD hall
  refine ⟨?_, h1⟩
  have := h.app
  rw [h2, List.map_nil, List.append_nil] at this
  exact this.trans h1

/-- C42: no node triggers twice. -/
theorem C42_trigger_once {D : ExecDag ν ε V} (hD : D.Ok) {s : ExecState ν ε V} (hs : Reach D s) :
    (triggered s.log).Nodup := by
  have h := reach_inv hD hs
  have := h.per.nodup_iff.2 h.nod
  exact (List.nodup_append.1 this).1

/-! ### C43 -/

/-- C43: two executions of the same DAG in which all nodes have triggered end with the same content
in every node, whatever the order of their steps (and whatever ranks the nodes are on: the steps do
not depend on that). -/
theorem C43_schedule_independent {D : ExecDag ν ε V} (hD : D.Ok) {s s' : ExecState ν ε V}
    (hs : Reach D s) (hs' : Reach D s')
    (hall : ∀ r ∈ D.watched, Ev.trigger r ∈ s.log)
    (hall' : ∀ r ∈ D.watched, Ev.trigger r ∈ s'.log) : s.acc = s'.acc := by
  funext r
  have h := (reach_inv hD hs).complete_val hD hall
  have h' := (reach_inv hD hs').complete_val hD hall'
  rw [h r, h' r, incoming_unique hD rfl rfl rfl rfl (fun _ _ => rfl) h h' r]

/-- C43: and that content is the sum of what the node held and of the operations along all edges
into it, applied to the final content of their sources. -/
theorem C43_result {D : ExecDag ν ε V} (hD : D.Ok) {s : ExecState ν ε V}
    (hs : Reach D s) (hall : ∀ r ∈ D.watched, Ev.trigger r ∈ s.log) (r : ν) :
    s.acc r = D.base r + D.incoming s.acc r := (reach_inv hD hs).complete_val hD hall r

/-- C43 for the system with termination detection: two evaluations with different placements of the
nodes on different numbers of ranks, both finished on all their ranks, end with the same content in
every node. -/
theorem C43_placement_independent {D : ExecDag ν ε V} (hD : D.Ok) {loc loc' : ν → Nat}
    {n n' m m' : Nat} {S S' : Sys ν ε V} (hS : Sys.Steps D loc n m S)
    (hS' : Sys.Steps D loc' n' m' S') (hl : ∀ r ∈ D.watched, loc r < n)
    (hl' : ∀ r ∈ D.watched, loc' r < n') (hd : ∀ k < n, S.Done k) (hd' : ∀ k < n', S'.Done k) :
    S.ex.acc = S'.ex.acc :=
  C43_schedule_independent hD hS.reach hS'.reach (all_triggered hS hl hd) (all_triggered hS' hl' hd')

/-- C33 to C36 put together with C42 to C45: when an evaluation with a built-in method has finished
on all ranks, every target leaf has accumulated the contribution of every source leaf exactly once.
Here for any method that delivers. -/
theorem evaluation_delivers {m : Method} (hm : DeliversAllOnce m) {unif : Nat} {same : Bool}
    {s t : Fin 8 → Oct} {acts : List Act} (hr : Runs (createProg m unif same s t) acts)
    (h1 : NoAssertionFails acts) (h2 : Ranked (edgesOf acts))
    {loc : Ref → Nat} {n k : Nat} {S : Sys Ref Edge Prov}
    (hS : Sys.Steps (methodDag acts) loc n k S) (hl : ∀ r ∈ (methodDag acts).watched, loc r < n)
    (hd : ∀ k < n, S.Done k) {r : Ref} (hn : r ∈ nodesOf acts) (hs : r.side = .tgt)
    (hk : r.kind = .parts) (x : Index) :
    S.ex.acc r 0 x = if x ∈ leaves Index.root (.node s) then 1 else 0 := by
  have hD := methodDag_ok h1 h2
  have hv := (reach_inv hD hS.reach).complete_val hD (all_triggered hS hl hd)
  exact hm unif same s t acts S.ex.acc hr (methodDag_evaluation hv) r hn hs hk x

/-- C33/C43, end to end: Direct. -/
theorem C33_direct_evaluation_delivers {unif : Nat} {same : Bool} {s t : Fin 8 → Oct}
    {acts : List Act} (hr : Runs (createProg Direct unif same s t) acts) {loc : Ref → Nat}
    {n k : Nat} {S : Sys Ref Edge Prov} (hS : Sys.Steps (methodDag acts) loc n k S)
    (hl : ∀ r ∈ (methodDag acts).watched, loc r < n) (hd : ∀ k < n, S.Done k) {r : Ref}
    (hn : r ∈ nodesOf acts) (hs : r.side = .tgt) (hk : r.kind = .parts) (x : Index) :
    S.ex.acc r 0 x = if x ∈ leaves Index.root (.node s) then 1 else 0 :=
  evaluation_delivers Direct_delivers hr (Direct_safe hr) (Direct_ranked hr) hS hl hd hn hs hk x

/-- C34/C43, end to end: Barnes-Hut, with any acceptance criterion. -/
theorem C34_bh_evaluation_delivers (mac : Index → Index → Bool) {unif : Nat} {same : Bool}
    {s t : Fin 8 → Oct} {acts : List Act} (hr : Runs (createProg (BH mac) unif same s t) acts)
    {loc : Ref → Nat} {n k : Nat} {S : Sys Ref Edge Prov}
    (hS : Sys.Steps (methodDag acts) loc n k S)
    (hl : ∀ r ∈ (methodDag acts).watched, loc r < n) (hd : ∀ k < n, S.Done k) {r : Ref}
    (hn : r ∈ nodesOf acts) (hs : r.side = .tgt) (hk : r.kind = .parts) (x : Index) :
    S.ex.acc r 0 x = if x ∈ leaves Index.root (.node s) then 1 else 0 :=
  evaluation_delivers (BH_delivers mac) hr (BH_safe mac hr) (BH_ranked hr) hS hl hd hn hs hk x

/-- C35/C43, end to end: FMM. -/
theorem C35_fmm_evaluation_delivers {unif : Nat} {same : Bool} {s t : Fin 8 → Oct}
    {acts : List Act} (hr : Runs (createProg FMM unif same s t) acts) {loc : Ref → Nat}
    {n k : Nat} {S : Sys Ref Edge Prov} (hS : Sys.Steps (methodDag acts) loc n k S)
    (hl : ∀ r ∈ (methodDag acts).watched, loc r < n) (hd : ∀ k < n, S.Done k) {r : Ref}
    (hn : r ∈ nodesOf acts) (hs : r.side = .tgt) (hk : r.kind = .parts) (x : Index) :
    S.ex.acc r 0 x = if x ∈ leaves Index.root (.node s) then 1 else 0 :=
  evaluation_delivers FMM_delivers hr (FMM_safe hr) (FMM_ranked hr) hS hl hd hn hs hk x

/-- C36/C43, end to end: FMM97. -/
theorem C36_fmm97_evaluation_delivers {unif : Nat} {same : Bool} {s t : Fin 8 → Oct}
    {acts : List Act} (hr : Runs (createProg FMM97 unif same s t) acts) {loc : Ref → Nat}
    {n k : Nat} {S : Sys Ref Edge Prov} (hS : Sys.Steps (methodDag acts) loc n k S)
    (hl : ∀ r ∈ (methodDag acts).watched, loc r < n) (hd : ∀ k < n, S.Done k) {r : Ref}
    (hn : r ∈ nodesOf acts) (hs : r.side = .tgt) (hk : r.kind = .parts) (x : Index) :
    S.ex.acc r 0 x = if x ∈ leaves Index.root (.node s) then 1 else 0 :=
  evaluation_delivers FMM97_delivers hr (FMM97_safe hr) (FMM97_ranked hr) hS hl hd hn hs hk x

/-! ### C44

The property as stated is false for FMM and FMM97.  What holds is: every schedule ends, and it ends
with all ranks done exactly if every node other than the source leaves has an incoming edge. -/

/-- `Completes`: no schedule of the evaluation, on `n` ranks with nodes placed by `loc`, gets stuck
before the evaluation is done on every rank. -/
def Completes (D : ExecDag ν ε V) (loc : ν → Nat) (n : Nat) : Prop :=
  ∀ m S, Sys.Steps D loc n m S → (∀ T, ¬ Sys.Step D loc n S T) → ∀ k < n, S.Done k

/-- C44: no schedule runs forever; there is a bound on the number of steps. -/
theorem C44_terminates {D : ExecDag ν ε V} (hD : D.Ok) {loc : ν → Nat} {n m : Nat} {S : Sys ν ε V}
    (hS : Sys.Steps D loc n m S) :
    m ≤ 2 * (D.nodes.length + D.edges.length) + n * (2 * D.watched.length + 1) := by
  have h1 := hS.bound
  have h2 := (reach_inv hD hS.reach).log_bound hD
  rw [sysLeft_init] at h1
  omega

/-- C44 for any DAG: an evaluation completes in every schedule if and only if every node that is not
a start has an input. -/
theorem C44_completes_iff {D : ExecDag ν ε V} (hD : D.Ok) {loc : ν → Nat} {n : Nat}
    (hl : ∀ r ∈ D.watched, loc r < n) :
    Completes D loc n ↔ ∀ r ∈ D.nodes, r ∉ D.starts → ∃ e ∈ D.edges, D.dst e = r := by
  unfold Completes
  rw [completes_iff hD hl]
  apply forall_congr'
  intro r
  apply imp_congr_right
  intro _
  apply imp_congr_right
  intro _
  constructor
  · intro h
    obtain ⟨e, he⟩ := List.exists_mem_of_ne_nil _ h
    obtain ⟨h1, h2⟩ := List.mem_filter.1 he
    exact ⟨e, h1, by simpa using h2⟩
  · rintro ⟨e, he, hd⟩ h
    have : e ∈ D.inE r := List.mem_filter.2 ⟨he, by simpa using hd⟩
    rw [h] at this; simp at this

/-- C44 for Direct: always completes. -/
theorem C44_direct_completes {unif : Nat} {same : Bool} {s t : Fin 8 → Oct} {acts : List Act}
    (hr : Runs (createProg Direct unif same s t) acts) {loc : Ref → Nat} {n : Nat}
    (hl : ∀ r ∈ (methodDag acts).watched, loc r < n) : Completes (methodDag acts) loc n :=
  (completes_iff (methodDag_ok (Direct_safe hr) (Direct_ranked hr)) hl).2
    (methodDag_fed.2 (Direct_not_starved hr))

/-- C44 for Barnes-Hut: always completes. -/
theorem C44_bh_completes {mac : Index → Index → Bool} {unif : Nat} {same : Bool}
    {s t : Fin 8 → Oct} {acts : List Act}
    (hr : Runs (createProg (BH mac) unif same s t) acts) {loc : Ref → Nat} {n : Nat}
    (hl : ∀ r ∈ (methodDag acts).watched, loc r < n) : Completes (methodDag acts) loc n :=
  (completes_iff (methodDag_ok (BH_safe mac hr) (BH_ranked hr)) hl).2
    (methodDag_fed.2 (BH_not_starved hr))

/-- C44 for FMM: completes exactly if for every level 2 box of the target tree that owns a local
expansion, some level 2 box with sources (or a source leaf above that level) is separated from it.
Missing for the full property: it does not hold otherwise. -/
theorem C44_fmm_completes_iff_partial {unif : Nat} {same : Bool} {s t : Fin 8 → Oct}
    {acts : List Act} (hr : Runs (createProg FMM unif same s t) acts) {loc : Ref → Nat} {n : Nat}
    (hl : ∀ r ∈ (methodDag acts).watched, loc r < n) :
    Completes (methodDag acts) loc n ↔
      ∀ r ∈ nodesOf acts, r.side = .tgt → r.kind = .normal → r.ix.level = 2 → FmmFed s r.ix := by
  unfold Completes
  rw [completes_iff (methodDag_ok (FMM_safe hr) (FMM_ranked hr)) hl, methodDag_fed]
  constructor
  · intro h r h1 h2 h3 h4
    by_contra h5
    exact h r ((FMM_starved hr).2 ⟨h1, h2, h3, h4, h5⟩)
  · intro h r hs
    obtain ⟨h1, h2, h3, h4, h5⟩ := (FMM_starved hr).1 hs
    exact h5 (h r h1 h2 h3 h4)

/-- C44 for FMM97: completes exactly if for every level 2 box of the target tree that owns a local
expansion, there are sources below level 1 in another octant of the domain, or a level 1 source leaf
is separated from it.  Missing for the full property: it does not hold otherwise. -/
theorem C44_fmm97_completes_iff_partial {unif : Nat} {same : Bool} {s t : Fin 8 → Oct}
    {acts : List Act} (hr : Runs (createProg FMM97 unif same s t) acts) {loc : Ref → Nat} {n : Nat}
    (hl : ∀ r ∈ (methodDag acts).watched, loc r < n) :
    Completes (methodDag acts) loc n ↔
      ∀ r ∈ nodesOf acts, r.side = .tgt → r.kind = .normal → r.ix.level = 2 → Fmm97Fed s r.ix := by
  unfold Completes
  rw [completes_iff (methodDag_ok (FMM97_safe hr) (FMM97_ranked hr)) hl, methodDag_fed]
  constructor
  · intro h r h1 h2 h3 h4
    by_contra h5
    exact h r ((FMM97_starved hr).2 ⟨h1, h2, h3, h4, h5⟩)
  · intro h r hs
    obtain ⟨h1, h2, h3, h4, h5⟩ := (FMM97_starved hr).1 hs
    exact h5 (h r h1 h2 h3 h4)

/-- A tree with points near the middle of the domain in one octant, down to level 2, and a few points
in the opposite octant, a leaf of level 1. -/
def exHang : Fin 8 → Oct := fork 0 [7] 7 []

/-- C44 is false for FMM97: with these points as sources and targets, on one rank, the evaluation
never completes. -/
theorem C44_fmm97_can_hang :
    ¬ Completes (methodDag (createDag FMM97 1 true exHang exHang)) (fun _ => 0) 1 := by
  rw [C44_fmm97_completes_iff_partial (createDag_runs FMM97 1 true exHang exHang) (by simp)]
  intro h
  obtain ⟨x, hx, hc⟩ := h ⟨.tgt, ⟨1, 1, 1, 2⟩, .normal⟩ (by decide +kernel) rfl rfl rfl
  have hl : leaves Index.root (.node exHang) = [⟨1, 1, 1, 2⟩, ⟨1, 1, 1, 1⟩] := by decide +kernel
  rw [hl] at hx
  simp only [List.mem_cons, List.not_mem_nil, or_false] at hx
  rcases hx with rfl | rfl
  · rcases hc with ⟨_, h⟩ | ⟨h, _⟩
    · exact h rfl
    · simp at h
  · rcases hc with ⟨h, _⟩ | ⟨_, h⟩
    · simp at h
    · simp [Separated, boxLo, boxHi] at h

/-- C44 is false for FMM: with the same points the evaluation never completes. -/
theorem C44_fmm_can_hang :
    ¬ Completes (methodDag (createDag FMM 1 true exHang exHang)) (fun _ => 0) 1 := by
  rw [C44_fmm_completes_iff_partial (createDag_runs FMM 1 true exHang exHang) (by simp)]
  intro h
  obtain ⟨x, hx, hc⟩ := h ⟨.tgt, ⟨1, 1, 1, 2⟩, .normal⟩ (by decide +kernel) rfl rfl rfl
  have hl : leaves Index.root (.node exHang) = [⟨1, 1, 1, 2⟩, ⟨1, 1, 1, 1⟩] := by decide +kernel
  rw [hl] at hx
  simp only [List.mem_cons, List.not_mem_nil, or_false] at hx
  rcases hx with rfl | rfl <;> simp [Separated, boxLo, boxHi, Index.parent] at hc

/-- A case in which FMM97 completes, with expansions on both sides and on two ranks. -/
example : Completes (methodDag (createDag FMM97 2 false exA exA)) (fun r => r.ix.level % 2) 2 := by
  rw [C44_fmm97_completes_iff_partial (createDag_runs FMM97 2 false exA exA)
    (fun r _ => Nat.mod_lt _ (by omega))]
  have hn : ∀ r ∈ nodesOf (createDag FMM97 2 false exA exA), r.side = .tgt → r.kind = .normal →
      r.ix.level = 2 → r.ix = ⟨1, 1, 1, 2⟩ ∨ r.ix = ⟨2, 2, 2, 2⟩ := by decide +kernel
  have hl : leaves Index.root (.node exA) = [⟨1, 1, 1, 2⟩, ⟨11, 11, 11, 4⟩] := by decide +kernel
  intro r h1 h2 h3 h4
  rcases hn r h1 h2 h3 h4 with h | h
  · refine ⟨⟨11, 11, 11, 4⟩, by rw [hl]; simp, .inl ⟨by simp, ?_⟩⟩
    rw [h]; decide +kernel
  · refine ⟨⟨1, 1, 1, 2⟩, by rw [hl]; simp, .inl ⟨by simp, ?_⟩⟩
    rw [h]; decide +kernel

/-! ### C45 -/

/-- C45: when the evaluation is done on a rank, every node that rank owns has triggered (source
leaves, which have no LCO, aside). -/
theorem C45_done_means_triggered {D : ExecDag ν ε V} {loc : ν → Nat} {n m k : Nat} {S : Sys ν ε V}
    (hS : Sys.Steps D loc n m S) (hd : S.Done k) {r : ν} (hr : r ∈ D.nodes) (hs : r ∉ D.starts)
    (hl : loc r = k) : Ev.trigger r ∈ S.ex.log :=
  (hS.term k).done hd r (mem_watched.2 ⟨hr, hs⟩) hl

/-- C45: hence all contributions to the nodes the rank owns have been accumulated. -/
theorem C45_done_means_accumulated {D : ExecDag ν ε V} (hD : D.Ok) {loc : ν → Nat} {n m k : Nat}
    {S : Sys ν ε V} (hS : Sys.Steps D loc n m S) (hd : S.Done k) {r : ν} (hr : r ∈ D.nodes)
    (hs : r ∉ D.starts) (hl : loc r = k) :
    ((arrived S.ex.log).filter fun e => decide (D.dst e = r)).Perm (D.inE r) := by
  have h := reach_inv hD hS.reach
  have ht := C45_done_means_triggered hS hd hr hs hl
  have hz := (h.zer r).1 (mem_triggered.2 ht)
  have hc := h.cnt r
  have hsub : ((arrived S.ex.log).filter fun d => decide (D.dst d = r)).Subperm (D.inE r) := by
    unfold ExecDag.inE
    apply List.Subperm.filter
    obtain ⟨_, rest, hp⟩ := C42_at_most_once hD hS.reach
    exact ((List.sublist_append_left _ _).subperm).trans hp.subperm
  apply hsub.perm_of_length_le
  unfold ExecDag.inCount at hc
  omega

/-- C45: the LCO is never set more often than it expects. -/
theorem C45_never_too_many {D : ExecDag ν ε V} {loc : ν → Nat} {n m : Nat} {S : Sys ν ε V}
    (hS : Sys.Steps D loc n m S) (k : Nat) : 0 ≤ (S.term k).remaining := (hS.term k).nonneg

/-- C45, the converse: if all nodes a rank owns have triggered and the rank has nothing left to do,
it is done. -/
theorem C45_done_when_triggered {D : ExecDag ν ε V} {loc : ν → Nat} {n m k : Nat} {S : Sys ν ε V}
    (hS : Sys.Steps D loc n m S) (hk : k < n) (hstuck : ∀ T, ¬ Sys.Step D loc n S T)
    (ht : ∀ r ∈ D.nodes, r ∉ D.starts → Ev.trigger r ∈ S.ex.log) : S.Done k := by
  obtain ⟨h1, h2, h3⟩ := (sys_stuck hS hstuck).2 k hk
  have hT := hS.term k
  have hw : (S.term k).waiting = [] := by
    by_contra hne
    obtain ⟨r, hr⟩ := List.exists_mem_of_ne_nil _ hne
    have := mem_watched.1 (hT.wait r hr)
    exact h3 r hr (ht r this.1 this.2)
  unfold Sys.Done
  rw [hT.rem, h1, h2, hw]
  simp

/-! ### C46 -/

/-- C46: for a node's out edges in the order of their localities, every edge is in exactly one of the
pieces, the pieces done here have exactly the edges to this rank, and every message has exactly the
edges to its rank. -/
theorem C46_edges_routed {loc : ε → Nat} (me : Nat) {edges sorted : List ε}
    (h : SortedByLocality loc edges sorted) :
    ((localRuns loc me sorted ++ remoteRuns loc me sorted).flatMap Prod.snd).Perm edges ∧
    (∀ b ∈ localRuns loc me sorted, b.1 = me ∧ b.2.Perm (edges.filter fun e => decide (loc e = me))) ∧
    (∀ b ∈ remoteRuns loc me sorted, b.1 ≠ me ∧ b.2 ≠ [] ∧
      b.2.Perm (edges.filter fun e => decide (loc e = b.1))) := by
  obtain ⟨h1, h2⟩ := h
  refine ⟨?_, ?_, ?_⟩
  · have hp : (localRuns loc me sorted ++ remoteRuns loc me sorted).Perm (edgeRuns loc sorted) := by
      unfold localRuns remoteRuns
      exact List.filter_append_perm _ _
    refine (hp.flatMap_right _).trans ?_
    rw [edgeRuns_flatten]; exact h1
  · intro b hb
    obtain ⟨hb1, hb2⟩ := List.mem_filter.1 hb
    have hb2 : b.1 = me := by simpa using hb2
    refine ⟨hb2, ?_⟩
    rw [edgeRuns_filter loc sorted h2 b hb1, hb2]
    exact h1.filter _
  · intro b hb
    obtain ⟨hb1, hb2⟩ := List.mem_filter.1 hb
    have hb2 : b.1 ≠ me := by simpa using hb2
    refine ⟨hb2, (edgeRuns_mem loc sorted b hb1).1, ?_⟩
    rw [edgeRuns_filter loc sorted h2 b hb1]
    exact h1.filter _

/-- C46: at most one message goes to a rank, at most one piece is done here, and a rank gets a
message if and only if there is an edge to it. -/
theorem C46_one_message_per_rank {loc : ε → Nat} (me : Nat) {edges sorted : List ε}
    (h : SortedByLocality loc edges sorted) :
    (localRuns loc me sorted).length ≤ 1 ∧
    ((remoteRuns loc me sorted).map Prod.fst).Nodup ∧
    ∀ k, k ≠ me → (k ∈ (remoteRuns loc me sorted).map Prod.fst ↔ ∃ e ∈ edges, loc e = k) := by
  obtain ⟨h1, h2⟩ := h
  have hlt := edgeRuns_lt loc sorted h2
  refine ⟨?_, ?_, ?_⟩
  · have : (localRuns loc me sorted).Pairwise fun a b => a.1 < b.1 := hlt.filter _
    rcases hr : localRuns loc me sorted with _ | ⟨a, _ | ⟨b, l⟩⟩
    · simp
    · simp
    · exfalso
      rw [hr] at this
      have h3 := (List.pairwise_cons.1 this).1 b (by simp)
      have ha : a ∈ localRuns loc me sorted := by rw [hr]; simp
      have hb : b ∈ localRuns loc me sorted := by rw [hr]; simp
      have ha := (List.mem_filter.1 ha).2
      have hb := (List.mem_filter.1 hb).2
      simp only [beq_iff_eq] at ha hb
      omega
  · rw [List.nodup_iff_pairwise_ne, List.pairwise_map]
    exact (hlt.filter _).imp (fun h => Nat.ne_of_lt h)
  · intro k hk
    constructor
    · intro hm
      obtain ⟨b, hb, rfl⟩ := List.mem_map.1 hm
      obtain ⟨h3, h4⟩ := edgeRuns_mem loc sorted b (List.mem_filter.1 hb).1
      obtain ⟨e, he⟩ := List.exists_mem_of_ne_nil _ h3
      refine ⟨e, ?_, h4 e he⟩
      apply h1.subset
      rw [← edgeRuns_flatten loc sorted]
      exact List.mem_flatMap.2 ⟨b, (List.mem_filter.1 hb).1, he⟩
    · rintro ⟨e, he, rfl⟩
      have he := h1.symm.subset he
      rw [← edgeRuns_flatten loc sorted] at he
      obtain ⟨b, hb, heb⟩ := List.mem_flatMap.1 he
      have := (edgeRuns_mem loc sorted b hb).2 e heb
      exact List.mem_map.2 ⟨b, List.mem_filter.2 ⟨hb, by simpa [← this] using hk⟩, this.symm⟩

/-- Edges to the ranks 2, 0, 1, 0, 2 seen from rank 0. -/
example : SortedByLocality (fun e : Nat × Nat => e.2) [(10, 2), (11, 0), (12, 1), (13, 0), (14, 2)]
    [(11, 0), (13, 0), (12, 1), (10, 2), (14, 2)] ∧
    remoteRuns (fun e : Nat × Nat => e.2) 0 [(11, 0), (13, 0), (12, 1), (10, 2), (14, 2)] =
      [(1, [(12, 1)]), (2, [(10, 2), (14, 2)])] ∧
    localRuns (fun e : Nat × Nat => e.2) 0 [(11, 0), (13, 0), (12, 1), (10, 2), (14, 2)] =
      [(0, [(11, 0), (13, 0)])] := by
  refine ⟨⟨by decide, by decide⟩, by simp [remoteRuns, edgeRuns, List.takeWhile, List.dropWhile],
    by simp [localRuns, edgeRuns, List.takeWhile, List.dropWhile]⟩

/-! ### C48 -/

/-- C48: the chunks of source leaves handed to the workers tile the range of the local leaves. -/
theorem C48_start_chunks (count workers : Nat) : Tiles 0 count (startChunks count workers) :=
  startChunks_tiles count workers

/-- C48: so every local source leaf is started exactly once.  `nodes'` is the list after
`partitionLocal`: local nodes first. -/
theorem C48_every_local_leaf_started {α : Type} {isLocal : α → Bool} {A B : List α} (workers : Nat)
    (hA : ∀ a ∈ A, isLocal a = true) (hB : ∀ b ∈ B, isLocal b = false) :
    (startChunks (localCount isLocal (A ++ B)) workers).flatMap (sliceOf (A ++ B)) = A := by
  rw [(startChunks_tiles _ _).flatten, List.drop_zero, Nat.sub_zero, localCount_eq hA hB]

/-- C48: the chunks of nodes whose LCOs are reset tile the range of the local nodes, … -/
theorem C48_reset_chunks (count workers : Nat) (hw : 0 < workers) :
    Tiles 0 count (resetChunks count workers) := resetChunks_tiles count workers hw

/-- C48: … every local node is reset exactly once, … -/
theorem C48_every_local_node_reset {α : Type} {isLocal : α → Bool} {A B : List α} {workers : Nat}
    (hw : 0 < workers) (hA : ∀ a ∈ A, isLocal a = true) (hB : ∀ b ∈ B, isLocal b = false) :
    (resetChunks (localCount isLocal (A ++ B)) workers).flatMap (sliceOf (A ++ B)) = A := by
  rw [(resetChunks_tiles _ _ hw).flatten, List.drop_zero, Nat.sub_zero, localCount_eq hA hB]

/-- C48: … and the LCO that waits for the workers is set exactly as often as it expects. -/
theorem C48_reset_completions (count workers : Nat) (hw : 0 < workers) :
    resetSets count workers = workers := resetSets_eq count workers hw

/-- Ten nodes for four workers, and two nodes for four workers. -/
example : resetChunks 10 4 = [(0, 3), (3, 6), (6, 8), (8, 10)] ∧
    resetChunks 2 4 = [(0, 1), (1, 2)] := by decide

example : startChunks 10 4 = [(0, 2), (2, 4), (4, 6), (6, 8), (8, 10)] ∧
    startChunks 3 4 = [(0, 3)] := by
  constructor <;> simp [startChunks, startLoop]

/-! ### C49 -/

/-- C49: after a reset, an evaluation adds to every node exactly what the first one added, for any
schedules of the two and whatever the targets hold, provided that the `spawn_out_edges` task of every
node has come to its end before the reset (so that only data of nodes without out edges is kept).
Missing for the full property: the code does not wait for the end of these tasks. -/
theorem C49_reset_then_same_partial {D : ExecDag ν ε V} (hD : D.Ok) {kept : ν → Bool} {left : ν → V}
    (hk : ∀ r, kept r = true → D.outE r = []) {s s' : ExecState ν ε V}
    (hs : Reach D s) (hs' : Reach (D.afterReset kept left) s')
    (hall : ∀ r ∈ D.watched, Ev.trigger r ∈ s.log)
    (hall' : ∀ r ∈ D.watched, Ev.trigger r ∈ s'.log) :
    ∃ G : ν → V, ∀ r, s.acc r = D.base r + G r ∧
      s'.acc r = (if kept r then left r else D.base r) + G r := by
  have hD' : (D.afterReset kept left).Ok :=
    ⟨hD.nodup, hD.srcs, hD.dsts, hD.starts_sub, hD.starts_nodup, hD.starts_in, hD.acyclic⟩
  have h := (reach_inv hD hs).complete_val hD hall
  have h' := (reach_inv hD' hs').complete_val hD' hall'
  refine ⟨fun r => D.incoming s.acc r, fun r => ⟨h r, ?_⟩⟩
  rw [h' r, incoming_unique hD (D' := D.afterReset kept left) rfl rfl rfl rfl ?_ h h' r]
  · rfl
  · intro r ho
    simp only [ExecDag.afterReset]
    rw [if_neg]
    exact fun hr => ho (hk r hr)

/-- C49: in particular, if the targets hold the same at the start of both evaluations, they hold the
same at the end. -/
theorem C49_same_results_partial {D : ExecDag ν ε V} (hD : D.Ok) {kept : ν → Bool} {left : ν → V}
    (hk : ∀ r, kept r = true → D.outE r = []) {s s' : ExecState ν ε V}
    (hs : Reach D s) (hs' : Reach (D.afterReset kept left) s')
    (hall : ∀ r ∈ D.watched, Ev.trigger r ∈ s.log)
    (hall' : ∀ r ∈ D.watched, Ev.trigger r ∈ s'.log) {r : ν} (hr : left r = D.base r) :
    s'.acc r = s.acc r := by
  obtain ⟨G, hG⟩ := C49_reset_then_same_partial hD hk hs hs' hall hall'
  rw [(hG r).1, (hG r).2, hr, ite_self]

/-! ### Non-vacuity of C42 to C49 -/

/-- Whenever no schedule gets stuck, there is one that finishes. -/
theorem exists_done {D : ExecDag ν ε V} (hD : D.Ok) {loc : ν → Nat} {n : Nat}
    (h : Completes D loc n) : ∃ m S, Sys.Steps D loc n m S ∧ ∀ k < n, S.Done k := by
  obtain ⟨m, T, hT, hs⟩ := exists_stuck hD (Sys.Steps.init (D := D) (loc := loc) (ranks := n))
  exact ⟨m, T, hT, h m T hT hs⟩

/-- Direct on two different trees has an execution on three ranks that finishes. -/
example : ∃ m S, Sys.Steps (methodDag (createDag Direct 2 false exB exA))
    (fun r => r.ix.x % 3) 3 m S ∧ ∀ k < 3, S.Done k :=
  exists_done
    (methodDag_ok (Direct_safe (createDag_runs _ _ _ _ _)) (Direct_ranked (createDag_runs _ _ _ _ _)))
    (C44_direct_completes (createDag_runs _ _ _ _ _) (fun r _ => Nat.mod_lt _ (by omega)))

/-- A source, an expansion and a target in a row. -/
def exRow : ExecDag Nat (Nat × Nat) Nat where
  nodes := [0, 1, 2]
  starts := [0]
  edges := [(0, 1), (1, 2)]
  src := Prod.fst
  dst := Prod.snd
  op _ x := x
  base r := if r = 0 then 5 else 0

theorem exRow_ok : exRow.Ok where
  nodup := by decide
  srcs := by decide
  dsts := by decide
  starts_sub := by decide
  starts_nodup := by decide
  starts_in := by decide
  acyclic := ⟨id, by decide⟩

/-- An execution of it that triggers all nodes. -/
example : ∃ s, Reach exRow s ∧ (∀ r ∈ exRow.watched, Ev.trigger r ∈ s.log) ∧ s.acc 2 = 5 := by
  obtain ⟨m, S, hS, hd⟩ := exists_done exRow_ok (loc := fun _ => 0) (n := 1)
    ((C44_completes_iff exRow_ok (by simp)).2 (by decide))
  have hall := all_triggered hS (by simp) hd
  refine ⟨S.ex, hS.reach, hall, ?_⟩
  have h := C43_result exRow_ok hS.reach hall
  have h0 : S.ex.acc 0 = 5 := by rw [h 0]; simp [exRow, ExecDag.incoming, ExecDag.inE]
  have h1 : S.ex.acc 1 = 5 := by rw [h 1]; simp [exRow, ExecDag.incoming, ExecDag.inE, h0]
  rw [h 2]; simp [exRow, ExecDag.incoming, ExecDag.inE, h1]

/-- C49 is false if the expansion of a node is still there at the reset: the old content is added a
second time. -/
theorem C49_race_doubles : ∃ s, Reach (exRow.afterReset (fun r => r == 1) fun _ => 5) s ∧
    (∀ r ∈ exRow.watched, Ev.trigger r ∈ s.log) ∧ s.acc 2 = 10 := by
  have hok : (exRow.afterReset (fun r => r == 1) fun _ => 5).Ok :=
    ⟨exRow_ok.nodup, exRow_ok.srcs, exRow_ok.dsts, exRow_ok.starts_sub, exRow_ok.starts_nodup,
      exRow_ok.starts_in, exRow_ok.acyclic⟩
  obtain ⟨m, S, hS, hd⟩ := exists_done hok (loc := fun _ => 0) (n := 1)
    ((C44_completes_iff hok (by simp)).2 (by decide))
  have hall := all_triggered hS (by simp) hd
  refine ⟨S.ex, hS.reach, hall, ?_⟩
  have h := C43_result hok hS.reach hall
  have h0 : S.ex.acc 0 = 5 := by
    rw [h 0]; simp [exRow, ExecDag.incoming, ExecDag.inE, ExecDag.afterReset]
  have h1 : S.ex.acc 1 = 10 := by
    rw [h 1]; simp [exRow, ExecDag.incoming, ExecDag.inE, ExecDag.afterReset, h0]
  rw [h 2]; simp [exRow, ExecDag.incoming, ExecDag.inE, ExecDag.afterReset, h1]

end Dashmm
