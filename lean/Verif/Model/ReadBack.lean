import Verif.Model.RankTree
import Verif.Model.MethodExec
import Verif.Model.Array
/-
Model of what the arrays hold after an evaluation: the array of a rank is replaced by the array that the tree sorted its records into
(`DualTree::create_dual_tree_handler`, /repo/include/dashmm/dualtree.h:1285-1297, `Array::replace`, /repo/include/dashmm/array.h:305-319); this array is divided among the cells
of the rank (`Tree::initPointExchange`, /repo/include/dashmm/tree.h:224-243); and each `TargetLCO` works in place on the records of its node
(`TargetLCO::operation_handler`, /repo/include/dashmm/targetlco.h:182-231, with `Data::targets` the `parts` of the node).

Simplifications: a record after the evaluation is a pair of the record before and the value of the member with the result; the values come from the LCOs, as if written at the end (no record is in two nodes
with LCOs, C82_once, so it makes no difference when they are written).
-/
namespace Dashmm
namespace ReadBack
open Build RankTree

variable {R V : Type}

/-- The records of node `v` get the values of its LCO. -/
def writeNode (val : Nat → V) (v : Cell) (m : List (R × V)) : List (R × V) :=
  m.mapIdx fun j y => if v.off ≤ j ∧ j < v.off + v.n then (y.1, val (j - v.off)) else y

/-- All LCOs at nodes of a cell, with their values. -/
def cellResults (rs : List Ref) (acc : Ref → Nat → V) (s : State R) : List (Cell × (Nat → V)) :=
  rs.flatMap fun r => (s.nodes.filter fun v => v.idx = r.ix).map fun v => (v, acc r)

/-- The memory of a cell after the evaluation; `old` is the member with the result before it. -/
def cellAfter (old : R → V) (rs : List Ref) (acc : Ref → Nat → V) (s : State R) : List (R × V) :=
  (cellResults rs acc s).foldl (fun m w => writeNode w.2 w.1 m) (s.mem.map fun x => (x, old x))

/-- The array of a rank after the evaluation: its cells, by number; `path c` is the path to the cell with number `c`. -/
def rankArray (C : Cfg R) (path : Nat → List Nat) (old : R → V) (rs : List Ref) (acc : Ref → Nat → V) (w : World R) (k : Nat) : List (R × V) :=
  ((List.range (8 ^ C.unif)).filter fun c => C.owner (path c) = k).flatMap fun c => cellAfter old rs acc (w.cell (path c))

/-- `Array::replace`, include/dashmm/array.h:305-319, with the `sorted()` of the tree, include/dashmm/dualtree.h:1287-1292: no memory is allocated for no records, include/dashmm/tree.h:234. -/
def replace {T : Type} (l : Arr.Local T) (seg : List T) : Arr.Local T :=
  { l with data := if seg.length = 0 then none else some seg, localCount := seg.length }

end ReadBack
end Dashmm
