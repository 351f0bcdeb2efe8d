import Verif.Model.Dag

/-!
Specification of the report on the edges of the DAG.
-/

namespace Dashmm.Distro

/-- The operations in the order of `enum class Operation`, the operation that does nothing first. -/
def opNumber : Nat → Option Op
  | 1 => some .StoM
  | 2 => some .StoL
  | 3 => some .MtoM
  | 4 => some .MtoL
  | 5 => some .LtoL
  | 6 => some .MtoT
  | 7 => some .LtoT
  | 8 => some .StoT
  | 9 => some .MtoI
  | 10 => some .ItoI
  | 11 => some .ItoL
  | _ => none

/-- The number of edges of the operation with the number `i` from nodes on rank `j` to nodes on rank `k`. -/
def edgeCount (es : List Edge) (loc : Ref → Int) (i j k : Nat) : Nat :=
  es.countP fun e => some e.op = opNumber i ∧ loc e.src = j ∧ loc e.dst = k

/-- The report: one table for each operation, with a line for each pair of ranks. -/
def report (n : Nat) (count : Nat → Nat → Nat → Nat) : List String :=
  (List.range 12).flatMap fun i =>
    [s!"Table for operation {i}:", "------------------------------"] ++
    ((List.range n).flatMap fun j => (List.range n).map fun k => s!"{j} -> {k} : {count i j k}") ++ [""]

end Dashmm.Distro
