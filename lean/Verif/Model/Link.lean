import Verif.Model.Dag
/-
Model of `DAGInfo::link_nodes` (/repo/include/dashmm/dag.h:526-538) run concurrently by many tasks, with `DAGNode::add_in_edge` and
`DAGNode::add_out_edge` (dag.h:63-71) as a separate read and write of the shared member, and the semaphores
`DAGInfo::lock_` (dag.h:541-549).

Simplification: the weight of an edge is not kept.
-/
namespace Dashmm
namespace Link

/-- The `DAGInfo` object a DAG node belongs to. -/
abbrev Info := Side × Index

def info (r : Ref) : Info := (r.side, r.ix)

/-- Where a task is. -/
inductive PC
  | idle
  | lockedD                    -- after dest_info->lock()
  | readD (n : Nat)            -- in_count_ has been read by ++in_count_
  | wroteD                     -- after dest->add_in_edge()
  | between                    -- after dest_info->unlock()
  | lockedS                    -- after src_info->lock()
  | readS (l : List Edge)      -- out_edges has been read by push_back
  | wroteS                     -- after source->add_out_edge()
  | done                       -- after src_info->unlock()
  deriving DecidableEq

/-- `in_count_` and `out_edges` of the DAG nodes, which task holds which lock, and the tasks. -/
structure State where
  inCount : Ref → Nat
  out : Ref → List Edge
  lock : Info → Option Nat
  pc : Nat → PC

def start : State := ⟨fun _ => 0, fun _ => [], fun _ => none, fun _ => .idle⟩

def State.goto (s : State) (i : Nat) (p : PC) : State := { s with pc := fun j => if j = i then p else s.pc j }

def setLock (s : State) (o : Info) (v : Option Nat) : State := { s with lock := fun o' => if o' = o then v else s.lock o' }

/-- One step of the task that links edge `ops[i]`. -/
inductive Step (ops : List Edge) : State → State → Prop
  | lockD {s i e} (hi : ops[i]? = some e) (hp : s.pc i = .idle) (hl : s.lock (info e.dst) = none) :
      Step ops s ((setLock s (info e.dst) (some i)).goto i .lockedD)
  | readD {s i e} (hi : ops[i]? = some e) (hp : s.pc i = .lockedD) : Step ops s (s.goto i (.readD (s.inCount e.dst)))
  | writeD {s i e n} (hi : ops[i]? = some e) (hp : s.pc i = .readD n) :
      Step ops s ({ s with inCount := fun r => if r = e.dst then n + 1 else s.inCount r }.goto i .wroteD)
  | unlockD {s i e} (hi : ops[i]? = some e) (hp : s.pc i = .wroteD) :
      Step ops s ((setLock s (info e.dst) none).goto i .between)
  | lockS {s i e} (hi : ops[i]? = some e) (hp : s.pc i = .between) (hl : s.lock (info e.src) = none) :
      Step ops s ((setLock s (info e.src) (some i)).goto i .lockedS)
  | readS {s i e} (hi : ops[i]? = some e) (hp : s.pc i = .lockedS) : Step ops s (s.goto i (.readS (s.out e.src)))
  | writeS {s i e l} (hi : ops[i]? = some e) (hp : s.pc i = .readS l) :
      Step ops s ({ s with out := fun r => if r = e.src then l ++ [e] else s.out r }.goto i .wroteS)
  | unlockS {s i e} (hi : ops[i]? = some e) (hp : s.pc i = .wroteS) :
      Step ops s ((setLock s (info e.src) none).goto i .done)

/-- Reachable in `k` steps. -/
inductive Reach (ops : List Edge) : Nat → State → Prop
  | init : Reach ops 0 start
  | step {k s s'} (h : Reach ops k s) (hs : Step ops s s') : Reach ops (k + 1) s'

end Link
end Dashmm
