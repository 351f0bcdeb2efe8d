import Verif.Model.ExpRun
import Verif.Spec.ExpMem
/-
What is said about the memory of an evaluation.
-/
namespace Dashmm.ExpMem

variable {ν ε V : Type}

/-- Nothing is left to do: no leaf to start, no LCO to take up, no task, no parcel. -/
def St.Over (s : St ν ε V) : Prop := s.idle = [] ∧ s.trig = [] ∧ s.tasks = [] ∧ s.msgs = []

/-- The blocks that the operation of an edge leaks. -/
def edgeLeak (k : Expansion) (z : Edge → Sizes) (e : Edge) : ℕ := leaks k (z e) e.op (edgeTags e)

end Dashmm.ExpMem
