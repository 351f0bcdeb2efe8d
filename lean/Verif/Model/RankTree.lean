import Verif.Model.Build
import Verif.Model.TopTree
import Verif.Spec.Branch
/-
Model of the construction of a tree on all ranks together, from the arrival of the records in the cells of the uniform grid
to the point where the tops are pruned: the nodes that the tasks of `Node::partition_node_handler` allocate and link
(/repo/include/dashmm/node.h:443-536), the messages of `Tree::send_node_handler` and `Tree::recv_node_handler`
(/repo/include/dashmm/tree.h:788-864), and the order in which they can happen
(`DualTree::create_dual_tree`, /repo/include/dashmm/dualtree.h).

Simplifications: each rank has its own addresses; a task runs atomically; messages are delivered in any order, each once; a message
that is sent to a rank has been copied (see C31 for what happens if the buffer is freed too early); everything else that a rank does in the
meantime only writes outside of the memory of this tree.
-/
namespace Dashmm
namespace RankTree
open Build Branch

/-- What does not change: the uniform level, the number of ranks, which rank each cell of the uniform grid is assigned to, where each rank has the
block of its top nodes, the memory before, and the records of each cell when all of them have arrived. Cells are given by the path
from the root. -/
structure Cfg (R : Type) where
  unif : Nat
  ranks : Nat
  owner : List Nat → Nat
  root : Nat → Nat
  before : Nat → Heap
  mem : List Nat → List R

/-- A cell of the uniform grid. -/
def Cfg.IsCell {R : Type} (C : Cfg R) (q : List Nat) : Prop := Oct8 q ∧ q.length = C.unif

/-- Address of `unif_grid_[id]` on a rank, include/dashmm/tree.h:564. -/
def Cfg.grid {R : Type} (C : Cfg R) (k : Nat) (id : Nat) : Nat := C.root k + nTop C.unif + id

/-- An address in the block of all the top nodes, include/dashmm/tree.h:565. -/
def Cfg.InTop {R : Type} (C : Cfg R) (k x : Nat) : Prop := C.root k ≤ x ∧ x < C.root k + nTop C.unif + 8 ^ C.unif

/-- State of all ranks: the memory of each; the tasks of each cell, on the rank it is assigned to; at which address the node with a given index
in the branch of a cell is, on that rank (the tasks have it as argument); which addresses each rank has allocated below which cell; the messages that are under way, with
destination and cell; the cells whose branch has been sent; and those whose branch each rank has received. -/
structure World (R : Type) where
  heap : Nat → Heap
  cell : List Nat → State R
  adr : List Nat → Index → Nat
  own : Nat → List Nat → List Nat
  net : List (Nat × List Nat × List Int)
  sent : List (List Nat)
  got : Nat → List (List Nat)

/-- A change of one place of a function. -/
def upd {A B : Type} [DecidableEq A] (f : A → B) (a : A) (b : B) : A → B := fun x => if x = a then b else f x

/-- `setup_basics_handler` has run on each rank and the records have arrived: one task is scheduled for each cell with records,
include/dashmm/tree.h:556-612, 734-736. -/
def init {R : Type} (C : Cfg R) : World R where
  heap k := setupBasics (C.root k) C.unif (C.before k)
  cell q := if (C.mem q).length = 0 then ⟨[], [], [], [], fun _ => 0, []⟩ else start ⟨place q, 0, (C.mem q).length⟩ (C.mem q)
  adr q _ := C.grid (C.owner q) (cellOf C.unif q)
  own _ _ := []
  net := []
  sent := []
  got _ := []

/-- One iteration of the loop which makes the children of the node at `a`, include/dashmm/node.h:523-528; the new node is allocated at `x`
(its constructor: node.h:91-104). -/
def addKid (a i x : Nat) (H : Heap) : Heap :=
  let H1 := H.set x ⟨(H a).idx.child i, (H a).idx.child i, some a, fun _ => none⟩
  H1.set a { H1 a with child := fun j => if j = i then some x else (H1 a).child j }

/-- The loop, include/dashmm/node.h:523-532. -/
def addKids {R : Type} (a : Nat) (c : Nat → List R) (new : Nat → Nat) (H : Heap) : Heap :=
  (List.range 8).foldl (fun H i => if (c i).length = 0 then H else addKid a i (new i) H) H

/-- Which children are made. -/
def made {R : Type} (c : Nat → List R) : List Nat := (List.range 8).filter fun i => (c i).length ≠ 0

/-- `new` only returns addresses that are not in use. -/
def Free {R : Type} (C : Cfg R) (w : World R) (k x : Nat) : Prop := ¬ C.InTop k x ∧ ∀ q, C.IsCell q → x ∉ w.own k q

variable {K : Type} [Field K] [LinearOrder K] {R : Type}

/-- One step of the construction. -/
inductive Step (E : Env K R) (C : Cfg R) : World R → World R → Prop
  /-- A task that finds its node small enough, or the passing on of a completion: no node is made. -/
  | task (w : World R) (q : List Nat) (hq : C.IsCell q) (s : State R) (hs : Build.Step E (place q) (w.cell q) s)
      (hi : s.inner = (w.cell q).inner) : Step E C w { w with cell := upd w.cell q s }
  /-- A task that divides its node `v`, include/dashmm/node.h:464-533. -/
  | split (w : World R) (q : List Nat) (hq : C.IsCell q) (v : Cell) (hv : v ∈ (w.cell q).pending) (hn : ¬ v.n ≤ E.threshold)
      (c : Nat → List R) (hc : Split8 E v.idx (slice (w.cell q).mem v) c) (new : Nat → Nat)
      (hnew : ∀ i ∈ made c, Free C w (C.owner q) (new i)) (hdist : ((made c).map new).Nodup) : Step E C w { w with
        cell := upd w.cell q { w.cell q with
          mem := overwrite (w.cell q).mem v (joined c)
          pending := kids v c ++ (w.cell q).pending.erase v
          inner := v :: (w.cell q).inner
          sets := fun j => if j = v.idx then (w.cell q).sets j + missing c else (w.cell q).sets j }
        heap := upd w.heap (C.owner q) (addKids (w.adr q v.idx) c new (w.heap (C.owner q)))
        adr := upd w.adr q fun j => match (made c).find? fun i => j = v.idx.child i with
          | some i => new i
          | none => w.adr q j
        own := upd w.own (C.owner q) (upd (w.own (C.owner q)) q ((made c).map new ++ w.own (C.owner q) q)) }
  /-- `send_node_handler`, include/dashmm/tree.h:788-829, when the completion LCO of a cell with records has its eight inputs: the branch `b` that is in the memory is sent to
  all other ranks. -/
  | send (w : World R) (q : List Nat) (hq : C.IsCell q) (hm : C.mem q ≠ []) (hc : (w.cell q).sets (place q) = 8) (hs : q ∉ w.sent) (b : Fin 8 → Oct)
      (hb : Copy (w.heap (C.owner q)) (C.grid (C.owner q) (cellOf C.unif q)) ⟨place q, b⟩) (msg : List Int)
      (hmsg : message (cellOf C.unif q) b = some msg) : Step E C w { w with
        net := ((List.range C.ranks).filter (· ≠ C.owner q)).map (fun k => (k, q, msg)) ++ w.net
        sent := q :: w.sent }
  /-- `recv_node_handler`, include/dashmm/tree.h:846-864: the message is removed; the block for the nodes begins at `base`. -/
  | recv (w : World R) (k : Nat) (q : List Nat) (msg : List Int) (net : List (Nat × List Nat × List Int))
      (hm : w.net.Perm ((k, q, msg) :: net)) (base : Nat)
      (hbase : ∀ x, base ≤ x → x < base + (msg.getD 1 0).toNat → Free C w k x) : Step E C w { w with
        heap := upd w.heap k (receive (C.grid k) base msg (w.heap k))
        own := upd w.own k (upd (w.own k) q ((List.range (msg.getD 1 0).toNat).map (base + ·)))
        net := net
        got := upd w.got k (q :: w.got k) }

/-- The states that can be reached with `n` steps, and any other work of the ranks in between. -/
inductive Reach (E : Env K R) (C : Cfg R) : Nat → World R → Prop
  | init : Reach E C 0 (init C)
  | step {n : Nat} {w w' : World R} : Reach E C n w → Step E C w w' → Reach E C (n + 1) w'
  | other {n : Nat} {w : World R} {k : Nat} {H : Heap} (h : Reach E C n w) (hH : ∀ x, ¬ Free C w k x → H x = w.heap k x) :
      Reach E C n { w with heap := upd w.heap k H }

end RankTree
end Dashmm
