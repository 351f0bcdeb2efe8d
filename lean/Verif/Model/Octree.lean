import Verif.Model.Index
/-
Model of the shape of DASHMM's source and target trees (/repo/include/dashmm/node.h): pointers to
nodes with eight child pointers.  The points in the nodes play no role for the construction of the
DAG and are modelled elsewhere.
-/
namespace Dashmm

/-- A possibly null pointer to a `Node` (include/dashmm/node.h, member `child[8]`): `nil` is
`nullptr`. -/
inductive Oct where
  | nil
  | node (c : Fin 8 → Oct)

namespace Oct

/-- `child[i] != nullptr` is `! (c i).isNil`. -/
def isNil : Oct → Bool
  | nil => true
  | node _ => false

/-- A node without children. -/
def tip : Oct := node fun _ => nil

end Oct

/-- A non-null pointer to a tree node, i.e. its `idx` and its child pointers.  In the code every
node stores its index, computed as `parent.idx.child(i)` when the node is made
(node.h:520-553 and tree.h:setup_basics); here it is carried along. -/
structure TNode where
  ix : Index
  c : Fin 8 → Oct

namespace TNode

/-- `Node::n_children()`, include/dashmm/node.h:257-265. -/
def nChildren (n : TNode) : Nat := ((List.finRange 8).filter fun i => !(n.c i).isNil).length

/-- `Node::is_leaf()`, include/dashmm/node.h:270. -/
def isLeaf (n : TNode) : Bool := n.nChildren == 0

/-- The existing children, in order: the loops
`for (i = 0; i < 8; ++i) if (child[i] != nullptr) ...`. -/
def kids (n : TNode) : List TNode :=
  (List.finRange 8).filterMap fun i =>
    match n.c i with
    | .nil => none
    | .node c => some ⟨n.ix.child i, c⟩

end TNode

/-- Height of a tree; used only as a bound on loop iterations. -/
def Oct.height : Oct → Nat
  | .nil => 0
  | .node c => 1 + ((List.finRange 8).map fun i => (c i).height).foldl max 0

end Dashmm
