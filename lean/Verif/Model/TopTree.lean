import Verif.Model.Branch
import Verif.Model.Grid
/-
Model of the uniform top of the tree: `Tree::setup_basics_handler` (/repo/include/dashmm/tree.h:556-612),
`Tree::pruneTopnodes` (tree.h:526-535), `Node::remove_child` and `Node::removeDownwardLinks`
(/repo/include/dashmm/node.h:355-393).

Simplifications: `pow(8, i)` is exact; a recursion depth is a natural number `limit - level`; locks and completion LCOs are left out.
-/
namespace Dashmm
namespace Branch
open Grid (simpleKey)

/-- `n_top_nodes`, include/dashmm/tree.h:561-564. -/
def nTop (unif : Nat) : Nat := 1 + ((List.range (unif - 1)).map fun i => 8 ^ (i + 1)).sum

/-- Linking child `i` of a node not of the last level, include/dashmm/tree.h:580-586. -/
def linkTop (r nd : Nat) (H : Heap) (i : Nat) : Heap :=
  let snode := r + nd
  let scnode := r + (nd * 8 + 1) + i
  let H1 := H.set snode { H snode with child := fun j => if j = i then some scnode else (H snode).child j }
  let H2 := H1.set scnode { H1 scnode with idx := (H1 snode).idx.child i }
  let H3 := H2.set scnode { H2 scnode with dagIdx := (H2 snode).idx.child i }
  H3.set scnode { H3 scnode with parent := some snode }

/-- Linking child `i` of a node of the last level, include/dashmm/tree.h:589-602. -/
def linkGrid (r unif nd : Nat) (H : Heap) (i : Nat) : Heap :=
  let snode := r + nd
  let cindex := (H snode).idx.child i
  let kval := simpleKey cindex.x cindex.y cindex.z (1 <<< unif)
  let cell := r + nTop unif + kval
  let H1 := H.set snode { H snode with child := fun j => if j = i then some cell else (H snode).child j }
  let H2 := H1.set cell { H1 cell with idx := cindex }
  let H3 := H2.set cell { H2 cell with dagIdx := cindex }
  H3.set cell { H3 cell with parent := some snode }

/-- Body of the loop over the nodes of a level, include/dashmm/tree.h:575-604. -/
def setupNode (r unif level : Nat) (H : Heap) (nd : Nat) : Heap :=
  if level ≠ unif - 1 then (List.range 8).foldl (linkTop r nd) H
  else (List.range 8).foldl (linkGrid r unif nd) H

/-- State of the loop over the levels: `startingnode`, `stoppingnode` and the memory. -/
structure LevelState where
  start : Nat
  stop : Nat
  heap : Heap

/-- Body of the loop over the levels, include/dashmm/tree.h:573-609. -/
def setupLevel (r unif : Nat) (s : LevelState) (level : Nat) : LevelState :=
  ⟨s.start + 8 ^ level, s.stop + 8 ^ (level + 1),
    ((List.range (s.stop - s.start)).map (s.start + ·)).foldl (setupNode r unif level) s.heap⟩

/-- `setup_basics_handler`, include/dashmm/tree.h:556-612; the block of all nodes is allocated at `r`, so
that `root_` is `r` and `unif_grid_` is `r + n_top_nodes`. -/
def setupBasics (r unif : Nat) (H : Heap) : Heap :=
  let H0 := alloc H r (nTop unif + 8 ^ unif)
  let H1 := H0.set r { H0 r with idx := ⟨0, 0, 0, 0⟩ }
  ((List.range unif).foldl (setupLevel r unif) ⟨0, 1, H1⟩).heap

/-! ### pruning -/

/-- `Node::is_leaf()`, include/dashmm/node.h:270. -/
def leafAt (H : Heap) (a : Nat) : Bool := (List.range 8).all fun i => ((H a).child i).isNone

/-- `Node::remove_child(target)` called on the node at `a`, include/dashmm/node.h:354-364; `none` is the
failure of the assertion. -/
def removeChild (H : Heap) (a target : Nat) : Option Heap :=
  match (List.range 8).find? fun i => decide ((H a).child i = some target) with
  | none => none
  | some i => some (H.set a { H a with child := fun j => if j = i then none else (H a).child j })

/-- Loop of `pruneTopnodes` over the cells, include/dashmm/tree.h:527-532; `none` is a null pointer
followed or a failed assertion. -/
def removeEmpty (r unif : Nat) (counts : Nat → Nat) (H : Heap) (i : Nat) : Option Heap :=
  let curr := r + nTop unif + i
  if counts i = 0 then
    match (H curr).parent with
    | none => none
    | some p => removeChild H p curr
  else some H

/-- `Node::removeDownwardLinks(limit, level)` called on the node at `a`, include/dashmm/node.h:373-383,
where the first argument is `limit - level` and `np` is the number of points held by a node. -/
def removeDownwardLinks (np : Nat → Nat) : Nat → Heap → Nat → Heap × Bool
  | 0, H, a => (H, leafAt H a && np a == 0)
  | d + 1, H, a =>
    let H' := (List.range 8).foldl (fun H i =>
      match (H a).child i with
      | none => H
      | some c =>
        let res := removeDownwardLinks np d H c
        if res.2 then
          let H1 := res.1.set c { res.1 c with parent := none }
          H1.set a { H1 a with child := fun j => if j = i then none else (H1 a).child j }
        else res.1) H
    (H', leafAt H' a && np a == 0)

/-- `Tree::pruneTopnodes(counts, dim3, unif_level)`, include/dashmm/tree.h:526-535. -/
def pruneTopnodes (r unif : Nat) (np counts : Nat → Nat) (H : Heap) : Option Heap :=
  match (List.range (8 ^ unif)).foldlM (removeEmpty r unif counts) H with
  | none => none
  | some H1 => some (removeDownwardLinks np (unif - 1) H1 r).1

end Branch
end Dashmm
