import Verif.Model.UserRun
/-!
# The lines that belong to an edge
-/
namespace Dashmm.UserRun

/-- The lines an edge is to give: the one of its operation, and one for the addition to an expansion. Particle nodes
have particles. -/
def edgeLines (c : Counts) (e : Edge) : List Line :=
  match e.op with
  | .StoM => [.sToM (c.sources e.src), .adding]
  | .StoL => [.sToL (c.sources e.src), .adding]
  | .MtoM => [.mToM e.src.ix.whichChild, .adding]
  | .MtoL => [.mToL, .adding]
  | .LtoL => [.lToL e.dst.ix.whichChild, .adding]
  | .StoT => [.sToT (c.sources e.src) (c.targets e.dst)]
  | .MtoT => [.mToT (c.targets e.dst)]
  | .LtoT => [.lToT (c.targets e.dst)]
  | .MtoI => [.adding]
  | .ItoI => [.adding]
  | .ItoL => [.adding]

/-- The operations whose result is added to an expansion. -/
def ToExpansion (o : Op) : Prop := o ≠ .StoT ∧ o ≠ .MtoT ∧ o ≠ .LtoT

instance : DecidablePred ToExpansion := fun o => by unfold ToExpansion; infer_instance

/-- Leaves have particles: the source of a `StoT` edge has sources and the target of an edge to targets has
targets. -/
def Occupied (c : Counts) (es : List Edge) : Prop :=
  ∀ e ∈ es, (e.op = .StoT → 0 < c.sources e.src) ∧ (¬ ToExpansion e.op → 0 < c.targets e.dst)

end Dashmm.UserRun
