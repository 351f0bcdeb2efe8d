import Mathlib.Algebra.BigOperators.Group.List.Basic
/-
Model of the execution of a DAG: the expansion LCOs, the target LCOs, the start at the source leaves,
and the termination detection (/repo/include/dashmm/expansionlco.h, targetlco.h, dualtree.h).

The runtime (HPX-5) is modelled by an arbitrary interleaving of small steps.  Parcels and calls are
delivered exactly once, in any order.  A user LCO tests its predicate when it is set, and only then
(it is not tested at creation); a `call_when` runs once, any time after its LCO has triggered.

Where a node or an edge is handled (its rank) makes no difference to the steps below: every edge
of a triggered node may be served at any time after the trigger, whether directly or after a message
to another rank, so the steps cover every placement of the nodes and every grouping of the edges.
`V` with `+` stands for the contents of an LCO and `add_expansion`, or of targets and the
accumulation into them; no law of `+` is part of the model.
-/
namespace Dashmm

variable {ν ε V : Type} [DecidableEq ν] [Add V]

/-- A DAG to be executed: the data the LCOs are made from (dualtree.h:1367-1490). -/
structure ExecDag (ν ε V : Type) where
  /-- all DAG nodes -/
  nodes : List ν
  /-- `dag->source_leaves`, the nodes at which the evaluation is started -/
  starts : List ν
  edges : List ε
  src : ε → ν
  dst : ε → ν
  /-- the operation along an edge (`M_to_M` … `I_to_L`, `S_to_M` …) -/
  op : ε → V → V
  /-- what a node holds at first: the sources, the targets as given by the user, or zero -/
  base : ν → V

namespace ExecDag

/-- `out_edges` of a node. -/
def outE (D : ExecDag ν ε V) (r : ν) : List ε := D.edges.filter fun e => D.src e = r

/-- The edges into a node. -/
def inE (D : ExecDag ν ε V) (r : ν) : List ε := D.edges.filter fun e => D.dst e = r

/-- `in_count()` of a node: the number of edges into it (`C32`). -/
def inCount (D : ExecDag ν ε V) (r : ν) : Nat := (D.inE r).length

end ExecDag

/-- What can be observed of an execution. -/
inductive Ev (ν ε : Type) where
  /-- the LCO of the node triggered -/
  | trigger (r : ν)
  /-- the out edges of the node were taken up -/
  | start (r : ν)
  /-- the operation of the edge was computed -/
  | apply (e : ε)
  /-- the result of the edge's operation was accumulated in its target -/
  | arrive (e : ε)

/-- The state of an execution. -/
structure ExecState (ν ε V : Type) where
  /-- source leaves not yet handled by `instigate_dag_eval` (dualtree.h:1504-1600) -/
  idle : List ν
  /-- `yet_to_arrive` -/
  cnt : ν → Nat
  /-- the contents of the LCOs -/
  acc : ν → V
  /-- LCOs that have triggered and whose `spawn_out_edges` is still to run -/
  trig : List ν
  /-- edges taken up and still to be served, with the data they use -/
  ready : List (ε × V)
  /-- contributions that are computed but have not reached their LCO (`hpx_lco_set`) -/
  net : List (ε × V)
  /-- what has happened, in order -/
  log : List (Ev ν ε)

namespace ExecState

/-- The LCOs just after creation: `yet_to_arrive = in_count()` (expansionlco.h:108-140,
targetlco.h:86-91). -/
def init (D : ExecDag ν ε V) : ExecState ν ε V where
  idle := D.starts
  cnt := D.inCount
  acc := D.base
  trig := []
  ready := []
  net := []
  log := []

/-- One step of the runtime. -/
inductive Step (D : ExecDag ν ε V) : ExecState ν ε V → ExecState ν ε V → Prop
  /-- `instigate_dag_eval_handler` for one source leaf, dualtree.h:1518-1597: its edges are served
  with the source data. -/
  | instigate {s : ExecState ν ε V} {p q : List ν} {r : ν} (h : s.idle = p ++ r :: q) :
      Step D s { s with
        idle := p ++ q
        ready := s.ready ++ (D.outE r).map fun e => (e, D.base r)
        log := s.log ++ [.start r] }
  /-- `spawn_out_edges_handler`, expansionlco.h:386-478: the edges are served with the LCO's data. -/
  | spawn {s : ExecState ν ε V} {p q : List ν} {r : ν} (h : s.trig = p ++ r :: q) :
      Step D s { s with
        trig := p ++ q
        ready := s.ready ++ (D.outE r).map fun e => (e, s.acc r)
        log := s.log ++ [.start r] }
  /-- `spawn_out_edges_work` / `instigate_dag_eval_work` for one edge, expansionlco.h:540-578,
  dualtree.h:1658-1706: compute and send the contribution. -/
  | apply {s : ExecState ν ε V} {p q : List (ε × V)} {e : ε} {x : V}
      (h : s.ready = p ++ (e, x) :: q) :
      Step D s { s with
        ready := p ++ q
        net := s.net ++ [(e, D.op e x)]
        log := s.log ++ [.apply e] }
  /-- A set that is not the last one: `operation_handler`, expansionlco.h:344-367,
  targetlco.h:176-218. -/
  | arrive {s : ExecState ν ε V} {p q : List (ε × V)} {e : ε} {y : V}
      (h : s.net = p ++ (e, y) :: q) (hc : s.cnt (D.dst e) - 1 ≠ 0) :
      Step D s { s with
        net := p ++ q
        cnt := fun r => if r = D.dst e then s.cnt r - 1 else s.cnt r
        acc := fun r => if r = D.dst e then s.acc r + y else s.acc r
        log := s.log ++ [.arrive e] }
  /-- A set after which the predicate holds (`yet_to_arrive == 0`, expansionlco.h:373-375,
  targetlco.h:221-223): the LCO triggers. -/
  | arriveLast {s : ExecState ν ε V} {p q : List (ε × V)} {e : ε} {y : V}
      (h : s.net = p ++ (e, y) :: q) (hc : s.cnt (D.dst e) - 1 = 0) :
      Step D s { s with
        net := p ++ q
        cnt := fun r => if r = D.dst e then s.cnt r - 1 else s.cnt r
        acc := fun r => if r = D.dst e then s.acc r + y else s.acc r
        trig := s.trig ++ [D.dst e]
        log := s.log ++ [.arrive e, .trigger (D.dst e)] }

/-- `Steps D n s t`: `t` is reached from `s` in `n` steps. -/
inductive Steps (D : ExecDag ν ε V) : Nat → ExecState ν ε V → ExecState ν ε V → Prop
  | refl (s : ExecState ν ε V) : Steps D 0 s s
  | tail {n : Nat} {s t u : ExecState ν ε V} (h : Steps D n s t) (h' : Step D t u) :
      Steps D (n + 1) s u

/-- Reachable states. -/
def Reach (D : ExecDag ν ε V) (s : ExecState ν ε V) : Prop := ∃ n, Steps D n (init D) s

/-- Nothing is left to do: no task, no parcel. -/
def Quiet (s : ExecState ν ε V) : Prop := s.idle = [] ∧ s.trig = [] ∧ s.ready = [] ∧ s.net = []

end ExecState

/-- The requirements on a DAG: its edges join its nodes, the evaluation starts at nodes without
inputs, each once, and there are no cycles.  For the DAGs of the built-in methods these are theorems
(`C38` and the acyclicity theorems). -/
structure ExecDag.Ok (D : ExecDag ν ε V) : Prop where
  nodup : D.nodes.Nodup
  srcs : ∀ e ∈ D.edges, D.src e ∈ D.nodes
  dsts : ∀ e ∈ D.edges, D.dst e ∈ D.nodes
  starts_sub : ∀ r ∈ D.starts, r ∈ D.nodes
  starts_nodup : D.starts.Nodup
  starts_in : ∀ r ∈ D.starts, D.inE r = []
  acyclic : ∃ rank : ν → Nat, ∀ e ∈ D.edges, rank (D.src e) < rank (D.dst e)

end Dashmm
