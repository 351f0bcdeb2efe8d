import Verif.Spec.DagBuild
import Verif.Spec.Provenance
/-!
Specification: DAG nodes that receive nothing, and when the fast multipole methods make them.
-/
namespace Dashmm

/-- The source leaves are where an evaluation starts. -/
def IsStart (r : Ref) : Prop := r.side = .src ∧ r.kind = .parts

instance (r : Ref) : Decidable (IsStart r) := by unfold IsStart; infer_instance

/-- A node that waits for input but has no incoming edge. -/
def Starved (acts : List Act) (r : Ref) : Prop :=
  r ∈ nodesOf acts ∧ ¬ IsStart r ∧ ∀ e ∈ edgesOf acts, e.dst ≠ r

/-- Some box of level 2 with sources in it (or a source leaf of a lower level) is separated from
`t`. -/
def FmmFed (s : Fin 8 → Oct) (t : Index) : Prop :=
  ∃ x ∈ leaves Index.root (.node s), Separated (x.parent (x.level - 2)) t

/-- There are sources below level 1 in an octant of the domain other than that of `t`, or a source
leaf of level 1 is separated from `t`. -/
def Fmm97Fed (s : Fin 8 → Oct) (t : Index) : Prop :=
  ∃ x ∈ leaves Index.root (.node s),
    (2 ≤ x.level ∧ x.parent (x.level - 1) ≠ t.parent) ∨ (x.level = 1 ∧ Separated x t)

end Dashmm
