import Verif.Model.Methods
import Verif.Model.Grid
/-
Model of the placement of the DAG on the ranks: the localities and colours set while the DAG is made
(/repo/include/dashmm/dualtree.h:1717-1850) and the distribution policies (/repo/src/bhdistro.cc,
fmm97distro.cc, singlelocdistro.cc, randomdistro.cc).

Simplifications: `int` weights, colours and bins are unbounded integers.  The guards
`if (normal != nullptr)` are dropped: the label of a DAG node that does not exist is never read.
-/
namespace Dashmm
namespace Distro

/-- `DAGNode::locality` and `DAGNode::color`, include/dashmm/dag.h:96-99. -/
structure Labels where
  loc : Ref → Int
  color : Ref → Int

/-- The constructor `DAGNode(..)`, include/dashmm/dag.h:55-58: `locality{-1}`, `color{0}`. -/
def Labels.init : Labels := ⟨fun _ => -1, fun _ => 0⟩

/-- One assignment to a member of a DAG node. -/
inductive Setting where
  | loc (r : Ref) (v : Int)
  | color (r : Ref) (v : Int)

/-- The effect of an assignment. -/
def Setting.apply (L : Labels) : Setting → Labels
  | .loc r v => { L with loc := fun q => if q = r then v else L.loc q }
  | .color r v => { L with color := fun q => if q = r then v else L.color q }

/-- `assign_for_source(dag, locality)` and `assign_for_target(dag, locality)` of a policy, for the
`DAGInfo` of the tree node with the given index. -/
structure Policy where
  source : Index → Int → List Setting
  target : Index → Int → List Setting

/-- `BHDistro::assign_for_source`, `assign_for_target`, src/bhdistro.cc:34-58. -/
def bhPolicy : Policy where
  source ix _ := [.color ⟨.src, ix, .normal⟩ (-2 * ix.level), .color ⟨.src, ix, .interm⟩ (-2 * ix.level + 1)]
  target ix _ := [.color ⟨.tgt, ix, .normal⟩ (2 * (ix.level + 1)),
    .color ⟨.tgt, ix, .interm⟩ (2 * (ix.level + 1) - 1)]

/-- `FMM97Distro::assign_for_source`, `assign_for_target`, src/fmm97distro.cc:39-66. -/
def fmm97Policy : Policy where
  source ix loc := [.loc ⟨.src, ix, .normal⟩ loc, .loc ⟨.src, ix, .interm⟩ loc]
  target ix loc := [.loc ⟨.tgt, ix, .normal⟩ loc, .color ⟨.tgt, ix, .normal⟩ (2 * ix.level),
    .color ⟨.tgt, ix, .interm⟩ (2 * ix.level + 1)]

/-- `SingleLocality` and `RandomDistro`, include/builtins/singlelocdistro.h:33-34 and
randomdistro.h:33-34: both do nothing. -/
def noPolicy : Policy where
  source _ _ := []
  target _ _ := []

/-- `rank_of_unif_grid(get_unif_grid_index(idx, unif_level_))`, include/dashmm/dualtree.h:201 and
tree.h:432-447; `none` if the index is `-1`. -/
def gridRank (unif : Nat) (rankOf : Nat → Nat) (ix : Index) : Option Int :=
  (Grid.unifGridIndex ix unif).map fun i => (rankOf i : Int)

/-- `loc` of an inner node, include/dashmm/dualtree.h:1721-1726 and 1838-1843. -/
def innerRank (unif : Nat) (rankOf : Nat → Nat) (ix : Index) : Option Int :=
  if ix.level ≥ unif then gridRank unif rankOf ix else some 0

/-- The assignments on a source node, include/dashmm/dualtree.h:1752-1759 (leaf; `none` is a failed
assertion) and 1721-1728 (inner node). -/
def sourceOwn (P : Policy) (unif : Nat) (rankOf : Nat → Nat) (n : TNode) : List (Option Setting) :=
  if n.isLeaf then
    match gridRank unif rankOf n.ix with
    | none => [none]
    | some r => (Setting.loc ⟨.src, n.ix, .parts⟩ r :: .loc ⟨.src, n.ix, .normal⟩ r :: P.source n.ix r).map some
  else
    match innerRank unif rankOf n.ix with
    | none => [none]
    | some r => (P.source n.ix r).map some

/-- The assignments on a source tree: `source_apply_method_handler` and
`source_apply_method_child_done_handler`, include/dashmm/dualtree.h:1717-1786. -/
def sourceSettings (P : Policy) (unif : Nat) (rankOf : Nat → Nat) : Index → Oct → List (Option Setting)
  | _, .nil => []
  | ix, .node c =>
    (if (TNode.mk ix c).isLeaf then []
     else (List.finRange 8).flatMap fun i : Fin 8 => sourceSettings P unif rankOf (ix.child i) (c i))
    ++ sourceOwn P unif rankOf ⟨ix, c⟩

/-- The assignments on a target node, include/dashmm/dualtree.h:1813-1821 (not refined; reading
`rank_map_[-1]` would be undefined, here `none`) and 1838-1844 (refined). -/
def targetOwn (P : Policy) (unif : Nat) (rankOf : Nat → Nat) (n : TNode) (refined : Bool) :
    List (Option Setting) :=
  if !refined then
    match gridRank unif rankOf n.ix with
    | none => [none]
    | some r => [some (.loc ⟨.tgt, n.ix, .parts⟩ r), some (.loc ⟨.tgt, n.ix, .normal⟩ r)]
  else
    match innerRank unif rankOf n.ix with
    | none => [none]
    | some r => (P.target n.ix r).map some

/-- The assignments on a target tree: `target_apply_method_handler`,
include/dashmm/dualtree.h:1798-1852. -/
def targetSettings (m : Method) (unif : Nat) (same : Bool) (P : Policy) (rankOf : Nat → Nat) :
    Index → Oct → (pInterm : Bool) → (consider : List TNode) → List (Option Setting)
  | _, .nil, _, _ => []
  | ix, .node c, pInterm, consider =>
    let r := refine m unif same ⟨ix, c⟩ consider
    let v := visit m ⟨ix, c⟩ pInterm (!r) consider
    targetOwn P unif rankOf ⟨ix, c⟩ r ++
      if r then
        (List.finRange 8).flatMap fun i : Fin 8 =>
          targetSettings m unif same P rankOf (ix.child i) (c i)
            (decide (Act.addInterm .tgt ix ∈ v.1)) v.2
      else []

/-- All assignments made by `create_DAG`. -/
def allSettings (m : Method) (unif : Nat) (same : Bool) (P : Policy) (rankOf : Nat → Nat)
    (s t : Fin 8 → Oct) : List (Option Setting) :=
  sourceSettings P unif rankOf Index.root (.node s) ++
  targetSettings m unif same P rankOf Index.root (.node t) false [⟨Index.root, s⟩]

/-- The labels after the assignments, in the given order; `none` if one of them fails. The tasks run
in parallel: the theorems take any order of `allSettings`. -/
def applyAll (l : List (Option Setting)) : Option Labels :=
  l.foldlM (fun L s => s.map (Setting.apply L)) Labels.init

/-! ### Collecting the nodes -/

/-- `DAGInfo::collect_DAG_nodes`, include/dashmm/dag.h:540-551: the internal nodes. -/
def ownInternals (nodes : List Ref) (sd : Side) (ix : Index) : List Ref :=
  (if ⟨sd, ix, .normal⟩ ∈ nodes then [⟨sd, ix, .normal⟩] else []) ++
  (if ⟨sd, ix, .interm⟩ ∈ nodes then [⟨sd, ix, .interm⟩] else [])

/-- `DAGInfo::collect_DAG_nodes`, include/dashmm/dag.h:540-551: the terminal nodes. -/
def ownTerminals (nodes : List Ref) (sd : Side) (ix : Index) : List Ref :=
  if ⟨sd, ix, .parts⟩ ∈ nodes then [⟨sd, ix, .parts⟩] else []

/-- `collect_DAG_nodes_from_S_node`, `collect_DAG_nodes_from_T_node`,
include/dashmm/dualtree.h:1322-1348, for one of the two lists. -/
def collect (own : Index → List Ref) : Index → Oct → List Ref
  | _, .nil => []
  | ix, .node c => ((List.finRange 8).flatMap fun i : Fin 8 => collect own (ix.child i) (c i)) ++ own ix

/-- `struct DAG`, include/dashmm/dag.h, as filled by `DualTree::collect_DAG_nodes`,
include/dashmm/dualtree.h:258-271. -/
structure Dag where
  sourceLeaves : List Ref
  sourceNodes : List Ref
  targetNodes : List Ref
  targetLeaves : List Ref
  edges : List Edge

/-- `DualTree::collect_DAG_nodes`, include/dashmm/dualtree.h:258-271, after the actions `acts`. -/
def collectDag (acts : List Act) (s t : Fin 8 → Oct) : Dag where
  sourceLeaves := collect (ownTerminals (nodesOf acts) .src) Index.root (.node s)
  sourceNodes := collect (ownInternals (nodesOf acts) .src) Index.root (.node s)
  targetNodes := collect (ownInternals (nodesOf acts) .tgt) Index.root (.node t)
  targetLeaves := collect (ownTerminals (nodesOf acts) .tgt) Index.root (.node t)
  edges := edgesOf acts

/-! ### The policies -/

/-- A possible result of `std::sort(.., color_comparison)`, src/bhdistro.cc:60-70: a rearrangement
with the colours in descending order (the sort is not stable). -/
def SortedByColor (color : Ref → Int) (l sorted : List Ref) : Prop :=
  sorted.Perm l ∧ sorted.Pairwise fun a b => color b ≤ color a

/-- The bins of `compute_locality`, src/bhdistro.cc:91-98; `none` is a failed assertion. -/
def fillBins (ranks : Nat) (w : Edge → Int) (loc : Ref → Int) (out : List Edge) : Option (List Int) :=
  out.foldlM (fun bins e =>
      if 0 ≤ loc e.dst ∧ loc e.dst < ranks then
        some (bins.set (loc e.dst).toNat (bins.getD (loc e.dst).toNat 0 + w e))
      else none)
    (List.replicate ranks 0)

/-- The search for the maximum, src/bhdistro.cc:100-108: `maxval`, `maxidx`. -/
def findMax (ranks : Nat) (bins : List Int) : Int × Nat :=
  (List.range' 1 (ranks - 1)).foldl
    (fun a i => if bins.getD i 0 > a.1 then (bins.getD i 0, i) else a) (bins.getD 0 0, 0)

/-- `compute_locality`, src/bhdistro.cc:79-112 and src/fmm97distro.cc:69-102 (identical). The
assignment of `0` to a node without outgoing edges is overwritten by the last line. -/
def computeLocality (ranks : Nat) (w : Edge → Int) (es : List Edge) (loc : Ref → Int) (r : Ref) :
    Option (Ref → Int) :=
  if loc r ≥ 0 then some loc
  else do
    let bins ← fillBins ranks w loc (es.filter fun e => e.src = r)
    return fun q => if q = r then ((findMax ranks bins).2 : Int) else loc q

/-- `BHDistro::compute_distribution`, src/bhdistro.cc:27-32 and 72-77, given the sorted lists. -/
def bhCompute (ranks : Nat) (w : Edge → Int) (es : List Edge) (sortedT sortedS : List Ref)
    (loc : Ref → Int) : Option (Ref → Int) := do
  let loc ← sortedT.foldlM (computeLocality ranks w es) loc
  sortedS.foldlM (computeLocality ranks w es) loc

/-- `FMM97Distro::compute_distribution`, src/fmm97distro.cc:29-37, given the sorted list. -/
def fmm97Compute (ranks : Nat) (w : Edge → Int) (es : List Edge) (sortedT : List Ref)
    (loc : Ref → Int) : Option (Ref → Int) :=
  sortedT.foldlM (fun loc r => if r.kind = .interm then computeLocality ranks w es loc r else some loc) loc

/-- `SingleLocality::compute_distribution`, src/singlelocdistro.cc:25-37. -/
def singleCompute (locality : Int) (d : Dag) (loc : Ref → Int) : Ref → Int :=
  (d.sourceNodes ++ d.targetNodes).foldl
    (fun loc r => if loc r < 0 then fun q => if q = r then locality else loc q else loc) loc

/-- `RandomDistro::compute_distribution`, src/randomdistro.cc:30-55. `rng i` is the `i`-th value of
`uniform(engine)`; `none` is a failed assertion. -/
def randomCompute (rng : Nat → Int) (d : Dag) (loc : Ref → Int) : Option (Ref → Int) :=
  if (d.sourceLeaves ++ d.targetLeaves).all fun r => loc r ≠ -1 then
    some ((d.sourceNodes ++ d.targetNodes).foldl
      (fun (a : (Ref → Int) × Nat) r =>
        if a.1 r ≠ -1 then a else (fun q => if q = r then rng a.2 else a.1 q, a.2 + 1)) (loc, 0)).1
  else none

end Distro
end Dashmm
