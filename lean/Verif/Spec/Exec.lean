import Verif.Model.Exec
/-!
Specification: reading the log of an execution.
-/
namespace Dashmm

variable {ν ε V : Type} [DecidableEq ν] [AddCommMonoid V]

namespace Ev

/-- The nodes whose out edges were taken up, in order. -/
def started (l : List (Ev ν ε)) : List ν := l.filterMap fun | .start r => some r | _ => none
/-- The nodes that triggered, in order. -/
def triggered (l : List (Ev ν ε)) : List ν := l.filterMap fun | .trigger r => some r | _ => none
/-- The edges whose operation was computed, in order. -/
def applied (l : List (Ev ν ε)) : List ε := l.filterMap fun | .apply e => some e | _ => none
/-- The edges whose result was accumulated, in order. -/
def arrived (l : List (Ev ν ε)) : List ε := l.filterMap fun | .arrive e => some e | _ => none

end Ev

/-- The sum of the contributions of all the edges of the DAG that end in `r`, if the nodes hold
`val`. -/
def ExecDag.incoming (D : ExecDag ν ε V) (val : ν → V) (r : ν) : V :=
  ((D.inE r).map fun e => D.op e (val (D.src e))).sum

end Dashmm
