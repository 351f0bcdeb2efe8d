import Verif.Model.Octree
/-
Model of the explicit DAG (/repo/include/dashmm/dag.h): a DAG node is named by the tree node that
owns it and by its kind (`parts_`, `normal_`, `interm_` members of `DAGInfo`).
-/
namespace Dashmm

/-- Which of the two trees. -/
inductive Side where
  | src
  | tgt
  deriving DecidableEq, Repr

/-- Which member of `DAGInfo`, include/dashmm/dag.h:560-566. -/
inductive Kind where
  | parts
  | normal
  | interm
  deriving DecidableEq, Repr

/-- A DAG node (`DAGNode *`), named by its owner. -/
structure Ref where
  side : Side
  ix : Index
  kind : Kind
  deriving DecidableEq, Repr

/-- `enum class Operation`, include/dashmm/types.h:75-88. -/
inductive Op where
  | StoM | StoL | MtoM | MtoL | LtoL | MtoT | LtoT | StoT | MtoI | ItoI | ItoL
  deriving DecidableEq, Repr

/-- `struct DAGEdge`, include/dashmm/dag.h, with its source. The weight only matters for the
distribution and is not kept. -/
structure Edge where
  op : Op
  src : Ref
  dst : Ref
  deriving DecidableEq, Repr

/-- What a method does to the DAG: create a node (`add_parts`, `add_normal`, `add_interm`,
include/dashmm/dag.h:238-279) or link two nodes (`link_nodes`, 526-538). -/
inductive Act where
  | add (r : Ref)
  | link (e : Edge)
  deriving DecidableEq, Repr

namespace Act
/-- `DAGInfo::StoM` … `DAGInfo::ItoL`, include/dashmm/dag.h:355-505: which member of which object
is the source and which is the destination of each kind of edge.  `a` is the tree node whose data
is the source, `b` the tree node that receives. -/
def StoM (a b : Index) : Act := link ⟨.StoM, ⟨.src, a, .parts⟩, ⟨.src, b, .normal⟩⟩
def StoL (a b : Index) : Act := link ⟨.StoL, ⟨.src, a, .parts⟩, ⟨.tgt, b, .normal⟩⟩
def MtoM (a b : Index) : Act := link ⟨.MtoM, ⟨.src, a, .normal⟩, ⟨.src, b, .normal⟩⟩
def MtoL (a b : Index) : Act := link ⟨.MtoL, ⟨.src, a, .normal⟩, ⟨.tgt, b, .normal⟩⟩
def LtoL (a b : Index) : Act := link ⟨.LtoL, ⟨.tgt, a, .normal⟩, ⟨.tgt, b, .normal⟩⟩
def MtoT (a b : Index) : Act := link ⟨.MtoT, ⟨.src, a, .normal⟩, ⟨.tgt, b, .parts⟩⟩
def LtoT (a b : Index) : Act := link ⟨.LtoT, ⟨.tgt, a, .normal⟩, ⟨.tgt, b, .parts⟩⟩
def StoT (a b : Index) : Act := link ⟨.StoT, ⟨.src, a, .parts⟩, ⟨.tgt, b, .parts⟩⟩
def MtoI (a b : Index) : Act := link ⟨.MtoI, ⟨.src, a, .normal⟩, ⟨.src, b, .interm⟩⟩
def ItoI (a b : Index) : Act := link ⟨.ItoI, ⟨.src, a, .interm⟩, ⟨.tgt, b, .interm⟩⟩
def ItoL (a b : Index) : Act := link ⟨.ItoL, ⟨.tgt, a, .interm⟩, ⟨.tgt, b, .normal⟩⟩
def addParts (s : Side) (a : Index) : Act := add ⟨s, a, .parts⟩
def addNormal (s : Side) (a : Index) : Act := add ⟨s, a, .normal⟩
def addInterm (s : Side) (a : Index) : Act := add ⟨s, a, .interm⟩
end Act

/-- The edges among a list of actions. -/
def edgesOf (acts : List Act) : List Edge :=
  acts.filterMap fun | .link e => some e | .add _ => none

/-- The nodes created by a list of actions. -/
def nodesOf (acts : List Act) : List Ref :=
  acts.filterMap fun | .add r => some r | .link _ => none

/-- The Method concept (include/concepts/method.h): the five entry points the library calls.
`inherit` may ask whether the parent owns an intermediate node. -/
structure Method where
  generate : TNode → List Act
  aggregate : TNode → List Act
  inherit : (curr : TNode) → (parentHasInterm currIsLeaf : Bool) → List Act
  process : (curr : TNode) → (consider : List TNode) → (currIsLeaf : Bool) → List Act × List TNode
  refineTest : (same : Bool) → (curr : TNode) → (consider : List TNode) → Bool

/-- `DualTree::source_apply_method_handler` and `source_apply_method_child_done_handler`,
include/dashmm/dualtree.h:1717-1786, without the localities (see the Distro model): a leaf is
generated; otherwise the children are handled and then the node is aggregated.  The actions are
listed depth first, which is one of the orders the runtime may use; `sourceProg` below has them
all. -/
def sourceApply (m : Method) : Index → Oct → List Act
  | _, .nil => []
  | ix, .node c =>
    if (TNode.mk ix c).isLeaf then m.generate ⟨ix, c⟩
    else ((List.finRange 8).flatMap fun i : Fin 8 => sourceApply m (ix.child i) (c i))
          ++ m.aggregate ⟨ix, c⟩

/-- The decision to refine, include/dashmm/dualtree.h:1803-1808. -/
def refine (m : Method) (unif : Nat) (same : Bool) (n : TNode) (consider : List TNode) : Bool :=
  if n.ix.level < unif then true
  else if n.nChildren ≠ 0 then m.refineTest same n consider
  else false

/-- The actions of one visit of a target node: `inherit` then `process`,
include/dashmm/dualtree.h:1810-1811. -/
def visit (m : Method) (n : TNode) (pInterm leaf : Bool) (consider : List TNode) :
    List Act × List TNode :=
  let p := m.process n consider leaf
  (m.inherit n pInterm leaf ++ p.1, p.2)

/-- `DualTree::target_apply_method_handler`, include/dashmm/dualtree.h:1798-1852, without the
localities.  Each child gets a copy of the updated `consider` list. The actions are listed in
depth-first order, one of the orders the runtime may use; `targetProg` below has them all. -/
def targetApply (m : Method) (unif : Nat) (same : Bool) :
    Index → Oct → (pInterm : Bool) → (consider : List TNode) → List Act
  | _, .nil, _, _ => []
  | ix, .node c, pInterm, consider =>
    let r := refine m unif same ⟨ix, c⟩ consider
    let v := visit m ⟨ix, c⟩ pInterm (!r) consider
    v.1 ++
      if r then
        (List.finRange 8).flatMap fun i : Fin 8 =>
          targetApply m unif same (ix.child i) (c i)
            (decide (Act.addInterm .tgt ix ∈ v.1)) v.2
      else []

/-- `DualTree::create_DAG`, include/dashmm/dualtree.h:209-245: the source tree first, then the
target tree with the source root as the only node to consider. The roots are never null. -/
def createDag (m : Method) (unif : Nat) (same : Bool) (s t : Fin 8 → Oct) : List Act :=
  sourceApply m Index.root (.node s) ++
  targetApply m unif same Index.root (.node t) false [⟨Index.root, s⟩]

/-! ### The same with the concurrency of the runtime -/

/-- A task: a sequence of actions, two tasks one after the other (an LCO wait), or tasks spawned in
parallel (the `hpx_call`s of the loops over the children). -/
inductive Prog where
  | acts (l : List Act)
  | seq (p q : Prog)
  | par (ps : Fin 8 → Prog)

/-- `Interleaves ls r`: `r` is an arbitrary interleaving of the sequences `ls`. -/
inductive Interleaves {α : Type} : List (List α) → List α → Prop
  | done {ls : List (List α)} (h : ∀ l ∈ ls, l = []) : Interleaves ls []
  | step {pre post : List (List α)} {a : α} {l r : List α}
      (h : Interleaves (pre ++ l :: post) r) : Interleaves (pre ++ (a :: l) :: post) (a :: r)

/-- `Runs p r`: the task may perform its actions in the order `r`. -/
inductive Runs : Prog → List Act → Prop
  | acts (l : List Act) : Runs (.acts l) l
  | seq {p q : Prog} {a b : List Act} (h₁ : Runs p a) (h₂ : Runs q b) : Runs (.seq p q) (a ++ b)
  | par {ps : Fin 8 → Prog} {rs : Fin 8 → List Act} {r : List Act}
      (h : ∀ i, Runs (ps i) (rs i)) (hr : Interleaves ((List.finRange 8).map rs) r) :
      Runs (.par ps) r

/-- `source_apply_method_handler`, dualtree.h:1747-1786: the children are spawned in parallel and
`aggregate` is called when all of them are done (`cdone`). -/
def sourceProg (m : Method) : Index → Oct → Prog
  | _, .nil => .acts []
  | ix, .node c =>
    if (TNode.mk ix c).isLeaf then .acts (m.generate ⟨ix, c⟩)
    else .seq (.par fun i : Fin 8 => sourceProg m (ix.child i) (c i)) (.acts (m.aggregate ⟨ix, c⟩))

/-- `target_apply_method_handler`, dualtree.h:1798-1852: after the visit the children are spawned
in parallel. -/
def targetProg (m : Method) (unif : Nat) (same : Bool) :
    Index → Oct → (pInterm : Bool) → (consider : List TNode) → Prog
  | _, .nil, _, _ => .acts []
  | ix, .node c, pInterm, consider =>
    let r := refine m unif same ⟨ix, c⟩ consider
    let v := visit m ⟨ix, c⟩ pInterm (!r) consider
    if r then
      .seq (.acts v.1) (.par fun i : Fin 8 =>
          targetProg m unif same (ix.child i) (c i) (decide (Act.addInterm .tgt ix ∈ v.1)) v.2)
    else .acts v.1

/-- `DualTree::create_DAG`, dualtree.h:209-245: `hpx_lco_wait(sdone)` separates the two phases. -/
def createProg (m : Method) (unif : Nat) (same : Bool) (s t : Fin 8 → Oct) : Prog :=
  .seq (sourceProg m Index.root (.node s))
    (targetProg m unif same Index.root (.node t) false [⟨Index.root, s⟩])

end Dashmm
