import Verif.Model.Schedule
import Verif.Model.Points
import Verif.Model.Life
import Verif.Model.Branch
/-
The messages that carry the work of the out edges to other ranks, and what is done with them there: from a source leaf (`instigate_dag_eval_…`, /repo/include/dashmm/dualtree.h:1504-1706) and
from an expansion (`spawn_out_edges_…`, /repo/include/dashmm/expansionlco.h:386-578).

Objects are stored as on x86-64: scalars little-endian, `int` and enums 4 bytes, `size_t`, `double`, pointers and `hpx_addr_t` 8 bytes, members aligned to their size. Bytes between members
(padding) keep what the memory held before. Numbers are naturals; where a member cannot hold them, the stored value is taken modulo its size. An assertion that fails, and a read beyond the
end of a message, is `none`.
-/
namespace Dashmm.Route
open Arr (Serializer)

/-- `hpx_addr_t`; `HPX_NULL` is 0. -/
abbrev Addr := Nat

/-- `enum class Operation`, include/dashmm/types.h:75-88; `Nop` is 0. -/
def opCode : Op → Nat
  | .StoM => 1 | .StoL => 2 | .MtoM => 3 | .MtoL => 4 | .LtoL => 5 | .MtoT => 6 | .LtoT => 7 | .StoT => 8
  | .MtoI => 9 | .ItoI => 10 | .ItoL => 11

/-- The operation with a code; `Nop` and what is no operation make the assertions of the switches fail, dualtree.h:1666-1668, 1700-1703, expansionlco.h:571-574. -/
def opOf : Nat → Option Op
  | 1 => some .StoM | 2 => some .StoL | 3 => some .MtoM | 4 => some .MtoL | 5 => some .LtoL | 6 => some .MtoT | 7 => some .LtoT
  | 8 => some .StoT | 9 => some .MtoI | 10 => some .ItoI | 11 => some .ItoL | _ => none

/-- The members that `DAGInstigationRecord` (dualtree.h:500-504: `op`, `target`, `idx`) and `OutEdgeRecord` (expansionlco.h:283-288: `op`, `target`, `tidx`, `locality`) have in common. -/
structure Rec where
  op : Op
  target : Addr
  idx : Index
  deriving DecidableEq, Repr

/-- An `Index`, index.h: three coordinates and the level, 16 bytes. -/
def idxBytes (i : Index) : List Byte := leBytes 4 i.x ++ leBytes 4 i.y ++ leBytes 4 i.z ++ leBytes 4 i.level

/-- Reading a member `int` of an index; an `Index` of the model has no negative numbers. -/
def intOf (b : List Byte) : Option Nat := if ofLe b < 2 ^ 31 then some (ofLe b) else none

def idxOf (b : List Byte) : Option Index := do
  let x ← intOf (b.take 4)
  let y ← intOf ((b.drop 4).take 4)
  let z ← intOf ((b.drop 8).take 4)
  let l ← intOf ((b.drop 12).take 4)
  some ⟨x, y, z, l⟩

/-- `edgerecords[i].op = …; .target = …; .idx = …;`, dualtree.h:1572-1574, and the same for `out_edges[i]`, expansionlco.h:400-402. -/
def putRec (r : Rec) (p : Nat) (m : Mem) : Mem :=
  let m := m.store p (leBytes 4 (opCode r.op))
  let m := m.store (p + 8) (leBytes 8 r.target)
  m.store (p + 16) (idxBytes r.idx)

/-- The record in the bytes from here on. -/
def recOf (b : List Byte) : Option Rec := do
  let op ← opOf (ofLe (b.take 4))
  let idx ← idxOf ((b.drop 16).take 16)
  some ⟨op, ofLe ((b.drop 8).take 8), idx⟩

/-- An array of `n` records of `size` bytes. -/
def recsOf (size : Nat) : Nat → List Byte → Option (List Rec)
  | 0, _ => some []
  | n + 1, b => if b.length < size then none else do
      let r ← recOf b
      let rs ← recsOf size n (b.drop size)
      some (r :: rs)

/-- `sizeof(DAGInstigationRecord)`: 4 + 4 (padding) + 8 + 16. -/
def instigSize : Nat := 32
/-- `sizeof(OutEdgeRecord)`: 4 + 4 (padding) + 8 + 16 + 4 + 4 (padding). -/
def outSize : Nat := 40

/-- What the handlers of a rank do at the end: run the operation of the edge with the data at hand and give the result to the LCO at `target`. -/
abbrev Call := Rec

/-! ### From a source leaf -/

/-- `header_size`, dualtree.h:1525-1530. -/
def headerSize {S : Type} (ser : Serializer S) (srcs : List S) : Nat := srcs.foldl (fun n x => n + ser.size x) 0 + 8 + 8

/-- `total_size`, dualtree.h:1531-1532. -/
def scratchSize {S : Type} (ser : Serializer S) (srcs : List S) (edges : Nat) : Nat := headerSize ser srcs + 8 + edges * instigSize

/-- The sources, one after the other, dualtree.h:1545-1547. -/
def putSources {S : Type} (ser : Serializer S) : List S → Nat → Mem → Mem
  | [], _, m => m
  | x :: xs, p, m => putSources ser xs (p + (ser.serialize x).length) (m.store p (ser.serialize x))

/-- The part of the scratch space that is the same for all ranks, dualtree.h:1536-1548; `p` is `scratch`. -/
def putHeader {S : Type} (ser : Serializer S) (rw : Addr) (srcs : List S) (p : Nat) (m : Mem) : Mem :=
  let m := m.store p (leBytes 8 rw)
  let m := m.store (p + 8) (leBytes 8 srcs.length)
  putSources ser srcs (p + 8 + 8) m

/-- The loop over the edges of one run, dualtree.h:1570-1576. -/
def putRecs : List Rec → Nat → Mem → Mem
  | [], _, m => m
  | r :: rs, p, m => putRecs rs (p + instigSize) (putRec r p m)

/-- The work of the edges of a source leaf, dualtree.h:1658-1706: the calls that are made, or `none` if an assertion fails. -/
def instigWork : List Rec → Option (List Call)
  | [] => some []
  | r :: rs =>
    match r.op with
    | .StoM | .StoL | .StoT => (instigWork rs).map (r :: ·)
    | _ => none

/-- What one pass of the `while` loop leads to. -/
inductive Out where
  /-- the work is done on the spot -/
  | work (calls : Option (List Call))
  /-- a parcel for the rank -/
  | parcel (rank : Nat) (bytes : List Byte)

/-- The `while` loop of `instigate_dag_eval_handler`, dualtree.h:1550-1594, over the runs of edges that go to one rank (`edgeRuns`, Model/Schedule). `p` is `scratch`, `h` is `header_size`. The
scratch space is used again for the next run. `hpx_parcel_acquire` copies the first `parcel_size` bytes. -/
def instigLoop (me h p : Nat) : List (Nat × List Rec) → Mem → List Out × Mem
  | [], m => ([], m)
  | (k, es) :: rest, m =>
    let m := m.store (p + h) (leBytes 8 es.length)
    let m := putRecs es (p + h + 8) m
    let count := ofLe (m.load (p + h) 8)
    let o := if k = me then .work ((recsOf instigSize count (m.load (p + h + 8) (instigSize * count))).bind instigWork)
      else .parcel k (m.load p (h + 8 + instigSize * count))
    let r := instigLoop me h p rest m
    (o :: r.1, r.2)

/-- `instigate_dag_eval_handler`, dualtree.h:1504-1598, for one source leaf. `runs` are the records of the edges out of it, by the rank they go to. -/
def instigate {S : Type} (ser : Serializer S) (rw : Addr) (srcs : List S) (me p : Nat) (runs : List (Nat × List Rec)) (m : Mem) : List Out × Mem :=
  instigLoop me (headerSize ser srcs) p runs (putHeader ser rw srcs p m)

/-- Reading the message, dualtree.h:1609-1630: the address of the dual tree, the sources and the records. -/
def instigRead {S : Type} (ser : Serializer S) (msg : List Byte) : Option (Addr × List S × List Rec) :=
  if msg.length < 16 then none else do
  let (srcs, rest) ← Points.deserializeN ser (ofLe ((msg.drop 8).take 8)) (msg.drop 16)
  if rest.length < 8 then none else do
  let recs ← recsOf instigSize (ofLe (rest.take 8)) (rest.drop 8)
  some (ofLe (msg.take 8), srcs, recs)

/-! ### From an expansion -/

/-- The members of `Header`, expansionlco.h:296-306, that the out edges use. The pointers `node` and `data` are addresses of this rank; `yet_to_arrive` is 0 when the edges are served. -/
structure Head where
  node : Nat
  rwaddr : Addr
  index : Index
  center : BitVec 64 × BitVec 64 × BitVec 64
  scale : BitVec 64
  data : Nat
  role : BitVec 32
  deriving DecidableEq

/-- `sizeof(Header)`: 8 + 8 + 8 + 16 + 24 + 8 + 8 + 4 + 4. -/
def headSize : Nat := 88

/-- The object representation of a header whose `expansion_size` is `size`. -/
def headBytes (d : Head) (size : Nat) : List Byte :=
  leBytes 8 d.node ++ leBytes 8 size ++ leBytes 8 d.rwaddr ++ idxBytes d.index ++
  (leBytes 8 d.center.1.toNat ++ leBytes 8 d.center.2.1.toNat ++ leBytes 8 d.center.2.2.toNat) ++
  leBytes 8 d.scale.toNat ++ leBytes 8 d.data ++ leBytes 4 d.role.toNat ++ leBytes 4 0

/-- An edge record with its rank, `out_edges[i]`. -/
structure OutRec where
  r : Rec
  locality : Nat

/-- `out_edges[i].op = …; .target = …; .tidx = …; .locality = …;`, expansionlco.h:399-404. -/
def putOut (e : OutRec) (p : Nat) (m : Mem) : Mem := (putRec e.r p m).store (p + 32) (leBytes 4 e.locality)

/-- The array `out_edges`, expansionlco.h:399-404. -/
def putOuts : List OutRec → Nat → Mem → Mem
  | [], _, m => m
  | e :: es, p, m => putOuts es (p + outSize) (putOut e p m)

/-- `spawn_out_edges_work`, expansionlco.h:540-578. -/
def outWork : List Rec → Option (List Call)
  | [] => some []
  | r :: rs =>
    match r.op with
    | .MtoM | .MtoL | .LtoL | .MtoT | .LtoT | .MtoI | .ItoI | .ItoL => (outWork rs).map (r :: ·)
    | _ => none

/-- The `while` loop of `spawn_out_edges_handler`, expansionlco.h:438-469. `a` is `out_edges`, `p` is `temp`, `edgeless` the size of header and expansion. The runs are given by their ranks and
lengths; `begin` is the place of the first edge. -/
def outLoop (me edgeless a p : Nat) : List (Nat × Nat) → Nat → Mem → List Out × Mem
  | [], _, m => ([], m)
  | (k, n) :: rest, begin, m =>
    let chunk := m.load (a + outSize * begin) (outSize * n)
    let om : Out × Mem :=
      if k = me then (.work ((recsOf outSize n chunk).bind outWork), m)
      else
        let m := m.store (p + edgeless) chunk
        (.parcel k (m.load p (edgeless + outSize * n)), m)
    let r := outLoop me edgeless a p rest (begin + n) om.2
    (om.1 :: r.1, r.2)

/-- `spawn_out_edges_handler`, expansionlco.h:386-478. `size` is `head->expansion_size`, `views` what `head->data->get_all_views()` returns, `a` and `p` the places of `out_edges` and `temp`.
`none`: an assertion of `serialize` fails. -/
def spawnOut (ranks me a p : Nat) (d : Head) (size : Nat) (views : ViewSet) (runs : List (Nat × List OutRec)) (m : Mem) : Option (List Out × Mem) :=
  let edges := runs.flatMap Prod.snd
  let m := putOuts edges a m
  if ranks = 1 then
    some ([.work ((recsOf outSize edges.length (m.load a (outSize * edges.length))).bind outWork)], m)
  else do
    let m := m.store p (headBytes d size)
    let (m, _) ← views.serialize (m, Buffer.new (p + headSize) size)
    some (outLoop me (headSize + size) a p (runs.map fun r => (r.1, r.2.length)) 0 m)

/-- The object in the memory of the message. -/
def headOf (b : List Byte) : Option Head := do
  let idx ← idxOf ((b.drop 24).take 16)
  some ⟨ofLe (b.take 8), ofLe ((b.drop 16).take 8), idx,
    (BitVec.ofNat 64 (ofLe ((b.drop 40).take 8)), BitVec.ofNat 64 (ofLe ((b.drop 48).take 8)), BitVec.ofNat 64 (ofLe ((b.drop 56).take 8))),
    BitVec.ofNat 64 (ofLe ((b.drop 64).take 8)), ofLe ((b.drop 72).take 8), BitVec.ofNat 32 (ofLe ((b.drop 80).take 4))⟩

/-- `int out_edge_count = msg_size - sizeof(Header) - head->expansion_size; out_edge_count /= sizeof(OutEdgeRecord);`, expansionlco.h:513-514: the difference is cut to 32 bits, the division
is one of `size_t`, and the quotient is cut to 32 bits; a negative count does nothing. -/
def outCount (bytes : Nat) : Nat :=
  let d := bytes % 2 ^ 32
  let u := if d < 2 ^ 31 then d else d + (2 ^ 64 - 2 ^ 32)
  let c := u / outSize % 2 ^ 32
  if c < 2 ^ 31 then c else 0

/-- Reading the message, expansionlco.h:496-514; the parcel is at `q` in the memory `m`, its size is `size`. -/
def outRead (m : Mem) (q size : Nat) : Option (Head × ViewSet × List Rec) :=
  if size < headSize then none else do
  let msg := m.load q size
  let d ← headOf msg
  let esize := ofLe ((msg.drop 8).take 8)
  if size < headSize + esize then none else do
  let (views, _) ← ViewSet.interpret m (Buffer.new (q + headSize) esize)
  let recs ← recsOf outSize (outCount (size - headSize - esize)) (msg.drop (headSize + esize))
  some (d, views, recs)

/-! ### Finding the target -/

/-- The trees and the DAG of one rank: the nodes of the two trees with their roots, and the DAG's objects (Model/Life). -/
structure Rank where
  srcHeap : Branch.Heap
  srcRoot : Nat
  tgtHeap : Branch.Heap
  tgtRoot : Nat
  dag : Life.Mem

/-- The member that the switch in `Tree::lookup_lco_addx` reads, tree.h:471-497. -/
def memberOf : Op → Kind
  | .StoM | .StoL | .MtoM | .MtoL | .LtoL => .normal
  | .MtoT | .LtoT | .StoT => .parts
  | .MtoI | .ItoI => .interm
  | .ItoL => .normal

/-- `Tree::lookup_lco_addx`, tree.h:455-501, of the tree `sd` of the rank: `none` if an assertion fails or a null pointer is followed. `g` makes the global addresses of the LCOs of the rank. -/
def Rank.lookup (R : Rank) (g : Nat → Addr) (sd : Side) (idx : Index) (op : Op) : Option Addr := do
  let b ← match sd with
    | .src => Branch.lookup R.srcHeap R.srcRoot idx
    | .tgt => Branch.lookup R.tgtHeap R.tgtRoot idx
  let i := match sd with
    | .src => (R.srcHeap b).idx
    | .tgt => (R.tgtHeap b).idx
  let x ← Life.deref R.dag ⟨sd, i, memberOf op⟩
  some (match x.2 with
    | some l => g l
    | none => 0)

/-- Which tree `DualTree::lookup_lco_addx` searches, dualtree.h:141-182. -/
def sideOf : Op → Side
  | .StoM | .MtoM | .MtoI => .src
  | .StoL | .MtoL | .LtoL | .MtoT | .LtoT | .StoT | .ItoI | .ItoL => .tgt

/-- The loop that fills in unknown addresses, dualtree.h:1634-1639 with `side := fun _ => .tgt`, expansionlco.h:519-525 with `side := sideOf`. -/
def Rank.resolve (R : Rank) (g : Nat → Addr) (side : Op → Side) : List Rec → Option (List Rec)
  | [] => some []
  | r :: rs => do
    let t ← if r.target = 0 then R.lookup g (side r.op) r.idx r.op else some r.target
    let rs ← R.resolve g side rs
    some ({ r with target := t } :: rs)

/-- `instigate_dag_eval_remote_handler`, dualtree.h:1609-1650. -/
def Rank.instigRemote {S : Type} (R : Rank) (g : Nat → Addr) (ser : Serializer S) (msg : List Byte) : Option (List S × List Call) := do
  let (_, srcs, recs) ← instigRead ser msg
  let recs ← R.resolve g (fun _ => .tgt) recs
  let calls ← instigWork recs
  some (srcs, calls)

/-- `spawn_out_edges_from_remote_handler`, expansionlco.h:496-533: the header (except for its pointers), the expansion that the work is done with, and the calls. -/
def Rank.outRemote (R : Rank) (g : Nat → Addr) (m : Mem) (q size : Nat) : Option (Head × ViewSet × List Call) := do
  let (d, views, recs) ← outRead m q size
  let recs ← R.resolve g sideOf recs
  let calls ← outWork recs
  some (d, views, calls)

/-- The record of an edge on the rank with DAG memory `h`: `op`, `target->global_addx`, `target->index()`; `none` if the target is not there. -/
def recordOf (h : Life.Mem) (g : Nat → Addr) (e : Edge) : Option Rec :=
  (Life.deref h e.dst).map fun x => ⟨e.op, match x.2 with | some l => g l | none => 0, e.dst.ix⟩

/-- The records of the sorted out edges, by run. -/
def recordsOf (h : Life.Mem) (g : Nat → Addr) (loc : Ref → Int) (sorted : List Edge) : Option (List (Nat × List Rec)) :=
  (edgeRuns (fun e => (loc e.dst).toNat) sorted).mapM fun r => (r.2.mapM (recordOf h g)).map fun rs => (r.1, rs)

/-- `instigate_dag_eval_handler` for one source leaf of the rank `me`, whose out edges have been sorted (dualtree.h:1520-1521). -/
def Rank.fromLeaf {S : Type} (R : Rank) (g : Nat → Addr) (loc : Ref → Int) (ser : Serializer S) (rw : Addr) (srcs : List S) (me p : Nat)
    (sorted : List Edge) (m : Mem) : Option (List Out × Mem) :=
  (recordsOf R.dag g loc sorted).map fun runs => instigate ser rw srcs me p runs m

/-- `spawn_out_edges_handler` for one expansion of the rank `me`, whose out edges have been sorted (expansionlco.h:397-398). -/
def Rank.fromExpansion (R : Rank) (g : Nat → Addr) (loc : Ref → Int) (ranks me a p : Nat) (d : Head) (size : Nat) (views : ViewSet)
    (sorted : List Edge) (m : Mem) : Option (List Out × Mem) := do
  let runs ← recordsOf R.dag g loc sorted
  spawnOut ranks me a p d size views (runs.map fun r => (r.1, r.2.map fun x => ⟨x, r.1⟩)) m

end Dashmm.Route
