import Verif.Model.Exec
import Verif.Model.ExpMem
import Verif.Model.MergeShift
/-
An evaluation task by task and parcel by parcel, with the memory that goes with it: the expansions that the
LCOs hold, the scratch space of the tasks, the parcels, and the expansions that operations give
(/repo/include/dashmm/expansionlco.h, targetlco.h, dualtree.h:1500-1706).

Model/Exec is the same evaluation without tasks, parcels and memory.  The runtime is an arbitrary interleaving of
the actions below; a parcel is delivered exactly once and freed after the action it starts has returned (for a set: after
the LCO's operation).  Sets of one LCO run one after the other.  The source leaves of a rank are started one by one (in the code a task
takes several of them in turn, dualtree.h:1504-1597).
-/
namespace Dashmm.ExpMem

variable {ν ε V : Type} [DecidableEq ν] [AddCommMonoid V]

/-- What an evaluation needs besides the DAG. -/
structure Plan (ν ε : Type) where
  /-- `out_edges` in the order in which `std::sort` leaves them -/
  out : ν → List ε
  /-- `locality` -/
  rank : ν → ℕ
  /-- `hpx_get_num_ranks()` -/
  ranks : ℕ
  /-- the operation of the edge acts on targets (`MtoT`, `LtoT`, `StoT`) -/
  toTgt : ε → Bool
  /-- `new expansion_t{lhs->role, lhs->scale, lhs->center}` for the LCO of a node -/
  make : ν → Prog Obj
  /-- the operation of an edge, given the views of the expansion it is called on -/
  op : ε → Views → Prog (Option Obj)
  /-- the operation of an edge to targets -/
  tgt : ε → Views → Prog Unit

/-- What a task that serves edges works with. -/
inductive Host (ν V : Type) where
  /-- the sources of a leaf, in the tree (`instigate_dag_eval_handler`, dualtree.h:1504-1597) -/
  | leaf (r : ν)
  /-- an array of sources (block `b`) made from parcel `q` (`instigate_dag_eval_remote_handler`, dualtree.h:1606-1647) -/
  | sources (q b : ℕ) (x : V)
  /-- the expansion of an LCO (`spawn_out_edges_handler`, expansionlco.h:386-478) -/
  | lco (r : ν)
  /-- an expansion whose views are in parcel `q` (`spawn_out_edges_from_remote_handler`, expansionlco.h:495-532) -/
  | parcel (q : ℕ) (vs : Views) (x : V)

/-- A running task. -/
structure Task (ν ε V : Type) where
  host : Host ν V
  /-- `out_edges`, `temp`, `scratch`, in the order in which they are freed -/
  scratch : List ℕ
  /-- the edges still to be served -/
  todo : List ε
  /-- it waits for the return of `hpx_lco_set_rsync` for the first of them (targetlco.h:116-134) -/
  waiting : Bool

/-- A parcel under way. -/
inductive Msg (ε V : Type) where
  /-- a contribution to the LCO of the target of `e` (`contribute`, expansionlco.h:256-276) -/
  | set (e : ε) (q : ℕ) (vs : Views) (y : V)
  /-- sources with edges (dualtree.h:1584-1590) -/
  | sources (q : ℕ) (es : List ε) (x : V)
  /-- an expansion with edges (expansionlco.h:447-461) -/
  | work (q : ℕ) (vs : Views) (es : List ε) (x : V)

/-- The state of an evaluation. -/
structure St (ν ε V : Type) where
  led : Led
  /-- source leaves not started yet -/
  idle : List ν
  /-- LCOs that have triggered, and whose `spawn_out_edges` has not started -/
  trig : List ν
  /-- `yet_to_arrive` -/
  cnt : ν → ℕ
  /-- `ldata->data` -/
  data : ν → Option Obj
  /-- the contents of the expansion, or of the targets -/
  acc : ν → V
  tasks : List (Task ν ε V)
  msgs : List (Msg ε V)

/-- The outcome of an action: it is not possible now, it goes wrong, or it is done. -/
inductive Res (σ : Type) where
  | off
  | err
  | ok (s : σ)

/-- Run a program, and go on. -/
def run {α σ : Type} (m : Prog α) (L : Led) (k : α → Led → Res σ) : Res σ :=
  match m L with
  | none => .err
  | some (a, L') => k a L'

/-- `hpx_parcel_acquire` -/
def acquire : Prog ℕ := fun L => some (L.next, { L with next := L.next + 1, parc := L.next ::ₘ L.parc })

/-- The runtime frees a parcel. -/
def retire (q : ℕ) : Prog Unit := fun L => if q ∈ L.parc then some ((), { L with parc := L.parc.erase q }) else none

/-- Use of several pointers. -/
def useAll : List Ptr → Prog Unit
  | [] => pure ()
  | p :: ps => do use p; useAll ps

def delAll : List ℕ → Prog Unit
  | [] => pure ()
  | b :: bs => do del b; delAll bs

/-- The views of the expansion a task works with; `none` if there is a null pointer. The operations from sources are called on an
expansion without views (expansionlco.h:199-232). -/
def hostViews (s : St ν ε V) : Host ν V → Option Views
  | .leaf _ => some []
  | .sources _ _ _ => some []
  | .lco r => (s.data r).map Obj.views
  | .parcel _ vs _ => some vs

/-- The contents of what a task works with. -/
def hostVal (D : ExecDag ν ε V) (acc : ν → V) : Host ν V → V
  | .leaf r => D.base r
  | .sources _ _ x => x
  | .lco r => acc r
  | .parcel _ _ x => x

/-- The memory that a task reads besides the expansion: its scratch space with the edges, its parcel, its array of sources. -/
def taskReads (t : Task ν ε V) : List Ptr :=
  t.scratch.map .own ++ match t.host with
    | .leaf _ => []
    | .sources q b _ => [.inside q, .own b]
    | .lco _ => []
    | .parcel q _ _ => [.inside q]

/-- Whether an edge is served by the task itself: on a rank of its own an LCO serves all of its edges (expansionlco.h:407-415); otherwise
those to its rank (436-438); a leaf those to its rank (dualtree.h:1579-1583); what came in a parcel is served here. -/
def servesHere (D : ExecDag ν ε V) (P : Plan ν ε) (t : Task ν ε V) (e : ε) : Bool :=
  match t.host with
  | .leaf r => P.rank (D.dst e) = P.rank r
  | .lco r => P.ranks = 1 || P.rank (D.dst e) = P.rank r
  | .sources _ _ _ => true
  | .parcel _ _ _ => true

/-- `contribute`, expansionlco.h:256-276, and the end of the `unique_ptr` that owns the expansion. -/
def contribute (o : Obj) : Prog (ℕ × Views) := do
  let q ← acquire
  useAll (o.views.map Prod.snd)
  delete o
  pure (q, o.views.map fun v => (v.1, .inside q))

/-- One edge to an expansion LCO: `m_to_m_out_edge` … `i_to_l_out_edge`, expansionlco.h:584-690; `S_to_M`, `S_to_L`, expansionlco.h:199-232.
`none` if the operation gives a null pointer (`expand->get_all_views()`, 257). -/
def edgeProg (P : Plan ν ε) (t : Task ν ε V) (vs : Views) (e : ε) : Prog (ℕ × Views) := do
  useAll (taskReads t)
  let r ← P.op e vs
  match r with
  | some o => contribute o
  | none => fun _ => none

/-- `spawn_out_edges_handler` up to the loop, expansionlco.h:394-429. -/
def spawnProg (P : Plan ν ε) (vs : Option Views) : Prog (List ℕ) := do
  let outEdges ← new
  match P.ranks == 1, vs with
  | true, _ => pure [outEdges]
  | false, none => fun _ => none
  | false, some vs => do
    let temp ← new
    useAll (vs.map Prod.snd)
    pure [temp, outEdges]

/-- A parcel for another rank, with a copy of the scratch space. -/
def sendProg (t : Task ν ε V) : Prog ℕ := do
  useAll (t.scratch.map .own)
  acquire

/-- What a task does before it returns: expansionlco.h:410-414 and 469-473, dualtree.h:1593 and 1644, and the end of its parcel. -/
def finishProg (s : St ν ε V) (t : Task ν ε V) : Prog Unit :=
  match t.host with
  | .leaf _ => delAll t.scratch
  | .sources q b _ => do del b; retire q
  | .lco r => do
    match s.data r with
    | some o => delete o
    | none => pure ()
    delAll t.scratch
  | .parcel q _ _ => retire q

/-- `operation_handler` of an expansion LCO, expansionlco.h:344-367, and the end of the parcel. -/
def setProg (P : Plan ν ε) (r : ν) (d : Option Obj) (q : ℕ) (vs : Views) : Prog Obj := do
  let o ← match d with
    | some o => pure o
    | none => P.make r
  addExpansion o.views vs
  retire q
  pure o

/-- What can happen. -/
inductive Do where
  | startLeaf (i : ℕ) | startSpawn (i : ℕ) | serve (i : ℕ) | tset (i : ℕ) | send (i : ℕ) | finish (i : ℕ) | recv (j : ℕ) | set (j : ℕ)

/-- After a set: the predicate is tested, and an LCO with out edges has a `call_when` (expansionlco.h:137-139, 373-375). -/
def trigger (P : Plan ν ε) (r : ν) (c : ℕ) (trig : List ν) : List ν := if c = 0 ∧ P.out r ≠ [] then r :: trig else trig

/-- One action. -/
def act (D : ExecDag ν ε V) (P : Plan ν ε) : Do → St ν ε V → Res (St ν ε V)
  | .startLeaf i, s =>
    match s.idle[i]? with
    | none => .off
    | some r => run new s.led fun b L => .ok { s with
        led := L, idle := s.idle.eraseIdx i, tasks := ⟨.leaf r, [b], P.out r, false⟩ :: s.tasks }
  | .startSpawn i, s =>
    match s.trig[i]? with
    | none => .off
    | some r => run (spawnProg P (hostViews s (.lco r))) s.led fun bs L => .ok { s with
        led := L, trig := s.trig.eraseIdx i, tasks := ⟨.lco r, bs, P.out r, false⟩ :: s.tasks }
  | .serve i, s =>
    match s.tasks[i]? with
    | none => .off
    | some t =>
      match t.waiting, t.todo with
      | false, e :: es =>
        if servesHere D P t e then
          if P.toTgt e then .ok { s with tasks := s.tasks.set i { t with waiting := true } }
          else match hostViews s t.host with
            | none => .err
            | some vs => run (edgeProg P t vs e) s.led fun m L => .ok { s with
                led := L, tasks := s.tasks.set i { t with todo := es }, msgs := .set e m.1 m.2 (D.op e (hostVal D s.acc t.host)) :: s.msgs }
        else .off
      | _, _ => .off
  | .tset i, s =>
    match s.tasks[i]? with
    | none => .off
    | some t =>
      match t.waiting, t.todo with
      | true, e :: es =>
        let r := D.dst e
        if s.cnt r = 0 then .err
        else match hostViews s t.host with
          | none => .err
          | some vs => run (do useAll (taskReads t); P.tgt e vs) s.led fun _ L => .ok { s with
              led := L
              cnt := fun x => if x = r then s.cnt r - 1 else s.cnt x
              acc := fun x => if x = r then s.acc r + D.op e (hostVal D s.acc t.host) else s.acc x
              trig := trigger P r (s.cnt r - 1) s.trig
              tasks := s.tasks.set i { t with todo := es, waiting := false } }
      | _, _ => .off
  | .send i, s =>
    match s.tasks[i]? with
    | none => .off
    | some t =>
      match t.waiting, t.todo with
      | false, e :: es =>
        if servesHere D P t e then .off
        else
          let here := (e :: es).takeWhile fun x => P.rank (D.dst x) = P.rank (D.dst e)
          let rest := (e :: es).dropWhile fun x => P.rank (D.dst x) = P.rank (D.dst e)
          match hostViews s t.host with
          | none => .err
          | some vs => run (sendProg t) s.led fun q L => .ok { s with
              led := L
              tasks := s.tasks.set i { t with todo := rest }
              msgs := (match t.host with
                | .leaf _ => .sources q here (hostVal D s.acc t.host)
                | .sources _ _ _ => .sources q here (hostVal D s.acc t.host)
                | .lco _ => .work q (vs.map fun v => (v.1, .inside q)) here (hostVal D s.acc t.host)
                | .parcel _ _ _ => .work q (vs.map fun v => (v.1, .inside q)) here (hostVal D s.acc t.host)) :: s.msgs }
      | _, _ => .off
  | .finish i, s =>
    match s.tasks[i]? with
    | none => .off
    | some t =>
      match t.waiting, t.todo with
      | false, [] => run (finishProg s t) s.led fun _ L => .ok { s with
          led := L
          data := (match t.host with
            | .lco r => fun x => if x = r then none else s.data x
            | _ => s.data)
          tasks := s.tasks.eraseIdx i }
      | _, _ => .off
  | .recv j, s =>
    match s.msgs[j]? with
    | some (.sources q es x) => run new s.led fun b L => .ok { s with
        led := L, tasks := ⟨.sources q b x, [], es, false⟩ :: s.tasks, msgs := s.msgs.eraseIdx j }
    | some (.work q vs es x) => .ok { s with tasks := ⟨.parcel q vs x, [], es, false⟩ :: s.tasks, msgs := s.msgs.eraseIdx j }
    | _ => .off
  | .set j, s =>
    match s.msgs[j]? with
    | some (.set e q vs y) =>
      let r := D.dst e
      if s.cnt r = 0 then .err
      else run (setProg P r (s.data r) q vs) s.led fun o L => .ok { s with
          led := L
          cnt := fun x => if x = r then s.cnt r - 1 else s.cnt x
          data := fun x => if x = r then some o else s.data x
          acc := fun x => if x = r then (if (s.data r).isSome then s.acc r else D.base r) + y else s.acc x
          trig := trigger P r (s.cnt r - 1) s.trig
          msgs := s.msgs.eraseIdx j }
    | _ => .off

/-- The start of an evaluation: the LCOs have been created (expansionlco.h:108-140), none holds an expansion. -/
def St.init (D : ExecDag ν ε V) (L : Led) : St ν ε V :=
  { led := L, idle := D.starts, trig := [], cnt := D.inCount, data := fun _ => none, acc := D.base, tasks := [], msgs := [] }

/-- The states that can be reached with `n` actions. -/
inductive St.Steps (D : ExecDag ν ε V) (P : Plan ν ε) (L : Led) : ℕ → St ν ε V → Prop
  | init : Steps D P L 0 (St.init D L)
  | step {n : ℕ} {s s' : St ν ε V} (h : Steps D P L n s) (d : Do) (e : act D P d s = .ok s') : Steps D P L (n + 1) s'

/-- `destroy_DAG`: `ExpansionLCO::destroy` for each node, expansionlco.h:164-181. -/
def destroyAll (data : ν → Option Obj) : List ν → Prog Unit
  | [] => pure ()
  | r :: rs => do
    match data r with
    | some o => delete o
    | none => pure ()
    destroyAll data rs

/-! ### The evaluation of a built-in method with a built-in expansion -/

/-- The DAG that `acts` made, with what is computed along its edges and what the nodes hold at first. -/
def evalDag (acts : List Act) (op : Edge → V → V) (base : Ref → V) : ExecDag Ref Edge V where
  nodes := nodesOf acts
  starts := (nodesOf acts).filter fun r => r.side = .src ∧ r.kind = .parts
  edges := edgesOf acts
  src := Edge.src
  dst := Edge.dst
  op := op
  base := base

/-- The role of the expansion of a node, dualtree.h:1374, 1385, 1442, 1453. -/
def roleOf (r : Ref) : Role :=
  match r.side, r.kind with
  | .src, .interm => .sourceIntermediate
  | .src, _ => .sourcePrimary
  | .tgt, .interm => .targetIntermediate
  | .tgt, _ => .targetPrimary

/-- The operations on targets. -/
def isTgtOp : Op → Bool
  | .MtoT | .LtoT | .StoT => true
  | _ => false

/-- The entries of `merge_and_shift_table` that `I_to_I` uses for an edge (Model/MergeShift). -/
def edgeTags (e : Edge) : List ℕ :=
  (mergeTags ((e.src.ix.x : Int) - 2 * e.dst.ix.x) ((e.src.ix.y : Int) - 2 * e.dst.ix.y) ((e.src.ix.z : Int) - 2 * e.dst.ix.z)).getD []

/-- The plan of an evaluation with expansion `k`; `z` says how large the leaf at the end of an edge is. -/
def evalPlan (k : Expansion) (z : Edge → Sizes) (out : Ref → List Edge) (rank : Ref → ℕ) (ranks : ℕ) : Plan Ref Edge where
  out := out
  rank := rank
  ranks := ranks
  toTgt e := isTgtOp e.op
  make r := construct k (roleOf r)
  op e vs := opProg k (z e) e.op vs (edgeTags e)
  tgt e vs := tgtProg k (z e) e.op vs

end Dashmm.ExpMem
