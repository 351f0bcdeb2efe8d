import Verif.Model.Exec
import Verif.Spec.Provenance
import Mathlib.Algebra.Group.Pi.Basic
/-
The DAG built by a method, as it is executed.
-/
namespace Dashmm

/-- `create_expansions_from_DAG` and `start_DAG_evaluation`, dualtree.h:281-386, for the DAG that
`create_DAG` made by the actions `acts`: the evaluation starts at the particle nodes of the source
tree (`source_leaves`, dualtree.h collect_DAG_nodes_from_S_node); what is computed is the
provenance of the contributions (`contrib`). -/
def methodDag (acts : List Act) : ExecDag Ref Edge Prov where
  nodes := nodesOf acts
  starts := (nodesOf acts).filter fun r => r.side = .src ∧ r.kind = .parts
  edges := edgesOf acts
  src := Edge.src
  dst := Edge.dst
  op := contrib
  base := base

end Dashmm
