import Verif.Model.Methods
import Verif.Model.MergeShift
import Mathlib.Algebra.BigOperators.Group.List.Basic
/-!
Specification: what it means that a DAG delivers contributions.

Every DAG node holds a set of *views* (numbered expansions); for each view we record, for each
source leaf, how many times that leaf's sources have been accumulated into it.  This is the
provenance of the numbers the real operations compute: each operation along an edge copies or merges
views as the built-in expansions do, and a node adds up whatever arrives.
-/
namespace Dashmm

/-- Provenance: view number → source leaf → multiplicity. -/
abbrev Prov := Nat → Index → Nat

/-- The leaves of a tree (those nodes that hold the points). -/
def leaves : Index → Oct → List Index
  | _, .nil => []
  | ix, .node c =>
    if (TNode.mk ix c).isLeaf then [ix]
    else (List.finRange 8).flatMap fun i : Fin 8 => leaves (ix.child i) (c i)

/-- What an edge adds to its destination, given the provenance `x` of its source.

* Ordinary operations have a single view, number 0.
* `M->I` fills the six directional views of a source intermediate expansion
  (src/laplace.cc:277-383).
* `I->I` adds, for each tag of the merge-and-shift table, one directional view of the source to the
  target's view of that tag (src/laplace.cc:385-447).
* `I->L` adds to the child's local expansion the views its `switch` case consumes
  (src/laplace.cc:449-637). -/
def contrib (e : Edge) (x : Prov) : Prov := fun v s =>
  match e.op with
  | .MtoI => if v < 6 then x 0 s else 0
  | .ItoI =>
    (((mergeTags ((e.src.ix.x : Int) - 2 * e.dst.ix.x) ((e.src.ix.y : Int) - 2 * e.dst.ix.y)
        ((e.src.ix.z : Int) - 2 * e.dst.ix.z)).getD []).map
      fun tag => if v = tag then x (tagView tag) s else 0).sum
  | .ItoL => if v = 0 then ((childTakes (toChild e.dst.ix)).map fun k => x k.tag s).sum else 0
  | _ => if v = 0 then x 0 s else 0

/-- What a node holds before anything arrives: a source leaf holds its own sources, once. -/
def base (r : Ref) : Prov := fun v s =>
  if r.side = .src ∧ r.kind = .parts ∧ v = 0 ∧ s = r.ix then 1 else 0

/-- Everything that arrives at `r` along the edges `es`. -/
def inflow (val : Ref → Prov) (es : List Edge) (r : Ref) (v : Nat) (s : Index) : Nat :=
  (es.map fun e => if e.dst = r then contrib e (val e.src) v s else 0).sum

/-- `val` is the outcome of evaluating the DAG: every node holds its initial content plus what
arrives along all of its incoming edges. -/
def IsEvaluation (acts : List Act) (val : Ref → Prov) : Prop :=
  ∀ r v s, val r v s = base r v s + inflow val (edgesOf acts) r v s

/-- The property of a method: whatever the trees and whatever order the tasks that build the DAG run
in, after evaluation of the DAG every target particle node holds the contribution of every source
leaf exactly once, and nothing else. -/
def DeliversAllOnce (m : Method) : Prop :=
  ∀ (unif : Nat) (same : Bool) (s t : Fin 8 → Oct) (acts : List Act) (val : Ref → Prov),
    Runs (createProg m unif same s t) acts →
    IsEvaluation acts val →
    ∀ r ∈ nodesOf acts, r.side = .tgt → r.kind = .parts →
      ∀ x, val r 0 x = if x ∈ leaves Index.root (.node s) then 1 else 0

end Dashmm
