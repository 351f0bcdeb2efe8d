import Verif.Model.Exec
/-
Models of how the work of an evaluation is split and sent: the chunks given to workers, the grouping
of out edges into messages, and the termination detection
(/repo/include/dashmm/dualtree.h, expansionlco.h, evaluator.h).
-/
namespace Dashmm

/-! ### Chunks -/

/-- The records `data[a], …, data[b-1]` a worker gets as `first = &data[a]`, `last = &data[b]`. -/
def sliceOf {α : Type} (data : List α) (c : Nat × Nat) : List α := (data.drop c.1).take (c.2 - c.1)

/-- The loop `for (start = 0; start < count; start += delta)` in `start_DAG_evaluation`,
dualtree.h:371-385.  The code would not terminate with `delta == 0`; the model stops. -/
def startLoop (count delta : Nat) (start : Nat) : List (Nat × Nat) :=
  if h : start < count ∧ 0 < delta then
    (start, if start + delta > count then count else start + delta)
      :: startLoop count delta (start + delta)
  else []
termination_by count - start
decreasing_by omega

/-- `start_DAG_evaluation`, dualtree.h:347-386: the chunks of `source_leaves` that are spawned. -/
def startChunks (count workers : Nat) : List (Nat × Nat) :=
  startLoop count (if count / workers = 0 then count else count / workers) 0

/-- `reset_something_LCOs`, evaluator.h:488-508: the chunks that are spawned. -/
def resetChunks (count workers : Nat) : List (Nat × Nat) :=
  let delta := count / workers
  let remainder := count % workers
  ((List.range remainder).map fun i =>
      let start := i * (delta + 1)
      (start, start + delta + 1)) ++
  (if delta ≠ 0 then
    let offset := (delta + 1) * remainder
    (List.range (workers - remainder)).map fun j =>
      let start := offset + j * delta
      (start, start + delta)
   else [])

/-- `reset_something_LCOs`, evaluator.h:487-509: how often the LCO with `n_workers` inputs is set:
once by each chunk, and by `hpx_lco_and_set_num` if there are too few nodes. -/
def resetSets (count workers : Nat) : Nat :=
  (resetChunks count workers).length +
    (if count / workers ≠ 0 then 0 else workers - count % workers)

/-- `DAG::partitionLocal` (dag.h:158-166, `std::partition`, which may reorder) followed by
`std::partition_point` (dualtree.h:352-357, evaluator.h:479-482): `nodes'` is some order with the
local nodes first, and the returned count is that of the leading local nodes. -/
def localCount {α : Type} (isLocal : α → Bool) (nodes' : List α) : Nat :=
  (nodes'.takeWhile isLocal).length

/-! ### Grouping of the out edges -/

/-- The `while` loop over edges sorted by locality in `spawn_out_edges_handler`,
expansionlco.h:438-469, and in `instigate_dag_eval_handler`, dualtree.h:1553-1593: each maximal run
of edges to one rank becomes one piece of work, handled here if the rank is this one and sent as
one parcel otherwise. -/
def edgeRuns {ε : Type} (loc : ε → Nat) : List ε → List (Nat × List ε)
  | [] => []
  | e :: es =>
    (loc e, e :: es.takeWhile fun d => loc d == loc e)
      :: edgeRuns loc (es.dropWhile fun d => loc d == loc e)
termination_by l => l.length
decreasing_by
  have := (List.dropWhile_sublist (p := fun d => loc d == loc e) (l := es)).length_le
  simp only [List.length_cons]
  omega

/-- Which runs are handled on the spot (`curr_rank == my_rank`) … -/
def localRuns {ε : Type} (loc : ε → Nat) (me : Nat) (sorted : List ε) : List (Nat × List ε) :=
  (edgeRuns loc sorted).filter fun b => b.1 == me
/-- … and which are sent. -/
def remoteRuns {ε : Type} (loc : ε → Nat) (me : Nat) (sorted : List ε) : List (Nat × List ε) :=
  (edgeRuns loc sorted).filter fun b => !(b.1 == me)

/-- The result of `std::sort(out_edges, compare_edge_locality)` (dag.h:147-149): some ordering of
the same edges in which the localities do not decrease. -/
def SortedByLocality {ε : Type} (loc : ε → Nat) (edges sorted : List ε) : Prop :=
  sorted.Perm edges ∧ sorted.Pairwise fun a b => loc a ≤ loc b

/-! ### Termination detection -/

/-- The state of the termination detection of one rank: `termination_detection_handler`,
dualtree.h:1868-1916. -/
structure TermState (ν : Type) where
  /-- nodes the loops have still to visit -/
  todo : List ν
  /-- nodes with a pending `hpx_call_when(node, done, hpx_lco_set_action)` -/
  waiting : List ν
  /-- `nskip` -/
  nskip : Nat
  /-- `hpx_lco_and_set_num(done, nskip)` has been called -/
  closed : Bool
  /-- remaining inputs of the LCO `done` -/
  remaining : Int

/-- `setup_termination_detection`, dualtree.h:317-333: the LCO waits for as many sets as there are
target leaves and internal nodes of the whole DAG. -/
def TermState.init {ν : Type} (nodes : List ν) : TermState ν where
  todo := nodes
  waiting := []
  nskip := 0
  closed := false
  remaining := nodes.length

/-- The whole system: the execution, and the termination detection of every rank. -/
structure Sys (ν ε V : Type) where
  ex : ExecState ν ε V
  term : Nat → TermState ν

variable {ν ε V : Type} [DecidableEq ν] [Add V]

/-- The nodes the termination detection looks at: `target_leaves`, `target_nodes` and
`source_nodes`, i.e. all but the source leaves. -/
def ExecDag.watched (D : ExecDag ν ε V) : List ν := D.nodes.filter fun r => decide (r ∉ D.starts)

/-- Only rank `k` changes. -/
def Sys.setTerm (S : Sys ν ε V) (k : Nat) (t : TermState ν) : Sys ν ε V :=
  { S with term := fun j => if j = k then t else S.term j }

/-- One step of the system. There are `ranks` ranks; `loc r` is the one that owns node `r`. -/
inductive Sys.Step (D : ExecDag ν ε V) (loc : ν → Nat) (ranks : Nat) :
    Sys ν ε V → Sys ν ε V → Prop
  /-- a step of the execution -/
  | exec {S : Sys ν ε V} {ex' : ExecState ν ε V} (h : ExecState.Step D S.ex ex') :
      Step D loc ranks S { S with ex := ex' }
  /-- rank `k` looks at the next node and owns it, dualtree.h:1880-1911 -/
  | register {S : Sys ν ε V} {k : Nat} {r : ν} {l : List ν} (hk : k < ranks)
      (h : (S.term k).todo = r :: l) (ho : loc r = k) :
      Step D loc ranks S (S.setTerm k
        { S.term k with todo := l, waiting := (S.term k).waiting ++ [r] })
  /-- rank `k` looks at the next node, which belongs to another rank: `++nskip` -/
  | skip {S : Sys ν ε V} {k : Nat} {r : ν} {l : List ν} (hk : k < ranks)
      (h : (S.term k).todo = r :: l) (ho : loc r ≠ k) :
      Step D loc ranks S (S.setTerm k { S.term k with todo := l, nskip := (S.term k).nskip + 1 })
  /-- rank `k` accounts for the nodes of other ranks, dualtree.h:1913 -/
  | close {S : Sys ν ε V} {k : Nat} (hk : k < ranks) (h : (S.term k).todo = [])
      (hc : (S.term k).closed = false) :
      Step D loc ranks S (S.setTerm k
        { S.term k with closed := true, remaining := (S.term k).remaining - (S.term k).nskip })
  /-- the `call_when` of a node that has triggered runs -/
  | fire {S : Sys ν ε V} {k : Nat} {r : ν} {p q : List ν} (hk : k < ranks)
      (h : (S.term k).waiting = p ++ r :: q) (ht : Ev.trigger r ∈ S.ex.log) :
      Step D loc ranks S (S.setTerm k
        { S.term k with waiting := p ++ q, remaining := (S.term k).remaining - 1 })

/-- The start of an evaluation. -/
def Sys.init (D : ExecDag ν ε V) : Sys ν ε V where
  ex := .init D
  term _ := .init D.watched

/-- States reached in a number of steps. -/
inductive Sys.Steps (D : ExecDag ν ε V) (loc : ν → Nat) (ranks : Nat) : Nat → Sys ν ε V → Prop
  | init : Steps D loc ranks 0 (.init D)
  | step {n : Nat} {S T : Sys ν ε V} (h : Steps D loc ranks n S) (h' : Sys.Step D loc ranks S T) :
      Steps D loc ranks (n + 1) T

/-- The LCO the evaluation waits for on rank `k` has triggered: all its inputs have arrived. -/
def Sys.Done (S : Sys ν ε V) (k : Nat) : Prop := (S.term k).remaining = 0

/-- `Evaluator::reset_DAG` (evaluator.h:442-447) with `ExpansionLCO::reset` (expansionlco.h:143-161)
and `TargetLCO::reset` (targetlco.h:95-100), followed by a new evaluation.  The counters are
initialised again.  What the nodes hold at the start of the next evaluation: `kept r` says that the
data in `r` is still there (then it is `left r`).  That is so for the targets, whose data is whatever
the user has put there, and for expansions without out edges.  An expansion with out edges is deleted
at the end of `spawn_out_edges_handler` (expansionlco.h:408-412, 471-475) and made anew by the first
contribution (340-343); it is kept only if that task has not come to its end by the time of the
reset.  Sources are not kept: they are the same for all evaluations. -/
def ExecDag.afterReset (D : ExecDag ν ε V) (kept : ν → Bool) (left : ν → V) : ExecDag ν ε V :=
  { D with base := fun r => if kept r then left r else D.base r }

end Dashmm
