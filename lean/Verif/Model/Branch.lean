import Verif.Model.Octree
/-
Model of the way a branch of the tree is copied to the other ranks: `Node::n_descendants`,
`Node::compress`, `Node::extract` (/repo/include/dashmm/node.h:229-360), `Tree::send_node_handler`,
`Tree::recv_node_handler` and the freeing of the copy in `Tree::delete_tree_handler`
(/repo/include/dashmm/tree.h).

Simplifications: pointers are numbers (addresses); a node holds only what `extract` sets; `int`s do not
overflow; the loops `while (!V.empty())` are given the height of the tree as a bound on the number of their
iterations and yield `none` if that is not enough (it is, see `compress_some`).
-/
namespace Dashmm
namespace Branch

/-- The child pointers of a node of the original tree. -/
abbrev Kids := Fin 8 → Oct

/-! ### counting -/

/-- Body of the loop of `n_descendants`, include/dashmm/node.h:240-248: the children of a level. -/
def nextLevel (V : List Kids) : List Kids :=
  V.flatMap fun c => (List.finRange 8).filterMap fun j =>
    match c j with
    | .nil => none
    | .node c' => some c'

/-- Loop of `n_descendants`, include/dashmm/node.h:238-249. -/
def countLoop : Nat → Nat → List Kids → Option Nat
  | fuel, count, V =>
    if V.isEmpty then some count
    else match fuel with
      | 0 => none
      | fuel + 1 => countLoop fuel (count + V.length) (nextLevel V)

/-- `Node::n_descendants()`, include/dashmm/node.h:234-251. -/
def nDescendants (c : Kids) : Option Nat := countLoop (Oct.node c).height 0 [c]

/-! ### compress -/

/-- The written entries `(tree[curr], branch[curr])`, so that `curr` is their number, and the next level
`C`, `C_idx`. -/
structure CState where
  entries : List (Int × Fin 8)
  next : List (Kids × Int)

/-- Body of the inner loop, include/dashmm/node.h:296-303. -/
def visitChild (c : Kids) (vi : Int) (s : CState) (j : Fin 8) : CState :=
  match c j with
  | .nil => s
  | .node c' => ⟨s.entries ++ [(vi, j)], s.next ++ [(c', (s.entries.length : Int))]⟩

/-- Body of the middle loop, include/dashmm/node.h:294-304. -/
def visitNode (s : CState) (v : Kids × Int) : CState :=
  (List.finRange 8).foldl (visitChild v.1 v.2) s

/-- Outer loop, include/dashmm/node.h:291-307. -/
def compressLoop : Nat → List (Int × Fin 8) → List (Kids × Int) → Option (List (Int × Fin 8))
  | fuel, entries, V =>
    if V.isEmpty then some entries
    else match fuel with
      | 0 => none
      | fuel + 1 =>
        let s := V.foldl visitNode ⟨entries, []⟩
        compressLoop fuel s.entries s.next

/-- `Node::compress`, include/dashmm/node.h:285-308. -/
def compress (c : Kids) : Option (List (Int × Fin 8)) := compressLoop (Oct.node c).height [] [(c, -1)]

/-- The `int`s of the message, include/dashmm/tree.h:797-811: `id`, `n_nodes`, then `n_nodes` places
from 2 on for `branch` and `n_nodes` places from `2 + n_nodes` on for `tree`. (If `compress` wrote another
number of entries than `n_nodes` the two would not fit; it does not, see `C24_count`.) -/
def message (id : Nat) (c : Kids) : Option (List Int) := do
  let n ← nDescendants c
  let es ← compress c
  let nNodes := n - 1
  pure ((List.range (2 + nNodes * 2)).map fun i =>
    if i = 0 then (id : Int)
    else if i = 1 then (nNodes : Int)
    else if i < 2 + nNodes then (es[i - 2]?.map fun e => ((e.2 : Nat) : Int)).getD 0
    else (es[i - 2 - nNodes]?.map (·.1)).getD 0)

/-! ### extract -/

/-- What `extract` sets of a node; pointers are addresses. -/
structure HNode where
  idx : Index
  dagIdx : Index
  parent : Option Nat
  child : Nat → Option Nat

/-- A default constructed node, include/dashmm/node.h:63-70. -/
def HNode.fresh : HNode := ⟨⟨0, 0, 0, 0⟩, ⟨0, 0, 0, 0⟩, none, fun _ => none⟩

/-- The memory of a rank. -/
abbrev Heap := Nat → HNode

/-- Assignment to a node. -/
def Heap.set (H : Heap) (a : Nat) (v : HNode) : Heap := fun b => if b = a then v else H b

/-- `new node_t[n_nodes]{}` at the address `base`, include/dashmm/node.h:322. -/
def alloc (H : Heap) (base n : Nat) : Heap := fun b => if base ≤ b ∧ b < base + n then HNode.fresh else H b

/-- Body of the loop of `extract`, include/dashmm/node.h:341-351: the assignments in their order. -/
def extractStep (this base : Nat) (branch tree : Nat → Int) (H : Heap) (i : Nat) : Heap :=
  let pos := tree i
  let which := (branch i).toNat
  let curr := base + i
  let parent := if pos < 0 then this else base + pos.toNat
  let H1 := H.set curr { H curr with parent := some parent }
  let H2 := H1.set curr { H1 curr with idx := (H1 parent).idx.child which }
  let H3 := H2.set curr { H2 curr with dagIdx := (H2 parent).idx.child which }
  H3.set parent { H3 parent with child := fun j => if j = which then some curr else (H3 parent).child j }

/-- `Node::extract` called on the node at `this`, include/dashmm/node.h:318-352. -/
def extract (this base : Nat) (branch tree : Nat → Int) (n : Nat) (H : Heap) : Heap :=
  (List.range n).foldl (extractStep this base branch tree) (alloc H base n)

/-- `recv_node_handler`, include/dashmm/tree.h:846-864, without the completion LCO: reads the message
and extracts it below the uniform grid node at `grid id`; the new block begins at `base`. -/
def receive (grid : Nat → Nat) (base : Nat) (msg : List Int) (H : Heap) : Heap :=
  let id := (msg.getD 0 0).toNat
  let n := (msg.getD 1 0).toNat
  extract (grid id) base (fun i => msg.getD (2 + i) 0) (fun i => msg.getD (2 + n + i) 0) n H

/-- What `delete_tree_handler` passes to `delete []` for a branch received from another rank,
include/dashmm/tree.h:897-907: the first child which is not null. -/
def freed (H : Heap) (a : Nat) : Option Nat := (List.range 8).findSome? fun j => (H a).child j

/-! ### lookup -/

/-- The walk of `lookup_lco_addx`, include/dashmm/tree.h:455-469. The result is `none` if an
assertion fails or a null pointer is followed; `fuel` bounds the number of steps. -/
def walk (H : Heap) (idx : Index) : Nat → Nat → Option Nat
  | fuel, curr =>
    let cl := (H curr).idx.level
    if idx.level < cl then none
    else if idx.level = cl then (if (H curr).idx = idx then some curr else none)
    else if (H curr).idx ≠ idx.parent (idx.level - cl) then none
    else match fuel with
      | 0 => none
      | fuel + 1 =>
        match (H curr).child (idx.parent (idx.level - cl - 1)).whichChild with
        | none => none
        | some c => walk H idx fuel c

/-- `lookup_lco_addx` up to the `switch`. -/
def lookup (H : Heap) (root : Nat) (idx : Index) : Option Nat := walk H idx idx.level root

end Branch
end Dashmm
