import Verif.Model.TreeLife
import Verif.Spec.RankTree
/-!
Specification vocabulary for what a tree allocates and gives back (C92).
-/
namespace Dashmm
namespace RankTree
open Build Branch

variable {K : Type} [Field K] [LinearOrder K] {R : Type}

/-- The construction has ended on a rank: its trees are complete and the completion LCOs of the branches it has received have been deleted. -/
def Settled (C : Cfg R) (s : LWorld R) (k : Nat) : Prop := Ready C s.w k ∧ ∀ q ∈ s.w.got k, q ∈ s.dropped k

/-- What is left on the rank `k`: the completion LCO of each cell that has no records and is assigned to another rank, and the array without nodes for each such cell whose
branch is the cell alone. -/
def leftOver (E : Env K R) (C : Cfg R) (k : Nat) : Set Obj := {o | ∃ q, C.IsCell q ∧ C.owner q ≠ k ∧
  ((C.mem q = [] ∧ o = .done (cellOf C.unif q)) ∨ (1 ≤ (C.mem q).length ∧ (C.mem q).length ≤ E.threshold ∧ o = .empty (cellOf C.unif q)))}

/-- Following the children `p` from `a` leads to `b`. -/
inductive Chain (H : Heap) : Nat → List Nat → Nat → Prop
  | refl (a : Nat) : Chain H a [] a
  | step {a b c j : Nat} {p : List Nat} (hj : j < 8) (hc : (H a).child j = some b) (h : Chain H b p c) : Chain H a (j :: p) c

end RankTree
end Dashmm
