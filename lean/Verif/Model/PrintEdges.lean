import Verif.Model.Distro

/-!
# Model of `DAG::printedges`, src/dag.cc:28-128

Simplifications: the counters (`int`) are natural numbers, and the file can be opened and written. A line of the file is a string
without its line feed. `DAGNode::out_edges` is a function `out` of the node. `Operation::Nop` is never the operation of an edge.
-/

namespace Dashmm.Distro

/-- `optoint`, src/dag.cc:32-71. -/
def optoint : Op → Nat
  | .StoM => 1
  | .StoL => 2
  | .MtoM => 3
  | .MtoL => 4
  | .LtoL => 5
  | .MtoT => 6
  | .LtoT => 7
  | .StoT => 8
  | .MtoI => 9
  | .ItoI => 10
  | .ItoL => 11

/-- `edge_table_t`, src/dag.cc:30. -/
abbrev EdgeTable := List (List (List Nat))

/-- `zero_table`, src/dag.cc:73-78. -/
def zeroTable (n : Nat) : EdgeTable := List.replicate 12 (List.replicate n (List.replicate n 0))

/-- `l[i]` is replaced by `f l[i]`; `none` if `i` is not a position of `l` (undefined in C++). -/
def atPos {α : Type} (l : List α) (i : Int) (f : α → Option α) : Option (List α) :=
  if i < 0 then none
  else match l[i.toNat]? with
    | none => none
    | some x => (f x).map fun y => l.set i.toNat y

/-- `edges[optoint(e.op)][nodes[i]->locality][e.target->locality] += 1`, src/dag.cc:84. -/
def bump (T : EdgeTable) (o : Nat) (j k : Int) : Option EdgeTable :=
  atPos T o fun A => atPos A j fun B => atPos B k fun x => some (x + 1)

/-- `collect_edges`, src/dag.cc:80-87. -/
def collectEdges (loc : Ref → Int) (out : Ref → List Edge) (T : EdgeTable) (nodes : List Ref) : Option EdgeTable :=
  nodes.foldlM (fun T r => (out r).foldlM (fun T e => bump T (optoint e.op) (loc r) (loc e.dst)) T) T

/-- `DAG::printedges(n)`, src/dag.cc:111-128: the lines of `dag.txt`. `none` if the table is accessed out of its range. -/
def printEdges (loc : Ref → Int) (out : Ref → List Edge) (sourceLeaves sourceNodes targetNodes : List Ref) (n : Nat) :
    Option (List String) := do
  let T ← collectEdges loc out (zeroTable n) sourceLeaves
  let T ← collectEdges loc out T sourceNodes
  let T ← collectEdges loc out T targetNodes
  some <| (List.range 12).flatMap fun i =>
    [s!"Table for operation {i}:", "------------------------------"] ++
    ((List.range n).flatMap fun j => (List.range n).map fun k =>
      s!"{j} -> {k} : {((T.getD i []).getD j []).getD k 0}") ++ [""]

end Dashmm.Distro
