import Verif.Model.Build
import Verif.Spec.Grid
/-
Specification vocabulary for the adaptive partitioning (C22, C23, C58, C59).
-/
namespace Dashmm
namespace Build
open Grid (InBoxOf)
variable {K : Type} [Field K] [LinearOrder K] {R : Type}

open Classical in
/-- The records of `l` which lie in the box of an index. -/
noncomputable def inBox (E : Env K R) (i : Index) (l : List R) : List R :=
  l.filter fun r => decide (InBoxOf E.dom i (E.pos r))

/-- Nothing can happen any more. -/
def Quiet (E : Env K R) (root : Index) (s : State R) : Prop := ∀ t, ¬ Step E root s t

/-- The index reached from `root` through the children `p`. -/
def below (root : Index) (p : List Nat) : Index := p.foldl Index.child root

open Classical in
/-- The records of `l` at the same place as `r`. -/
noncomputable def atPlace (E : Env K R) (r : R) (l : List R) : List R := l.filter fun x => decide (E.pos x = E.pos r)

/-- Distinct places among the records differ by at least `δ` in some coordinate. -/
def Apart (E : Env K R) (δ : K) (l : List R) : Prop :=
  ∀ r ∈ l, ∀ r' ∈ l, E.pos r ≠ E.pos r' →
    δ ≤ |(E.pos r).x - (E.pos r').x| ∨ δ ≤ |(E.pos r).y - (E.pos r').y| ∨ δ ≤ |(E.pos r).z - (E.pos r').z|

end Build
end Dashmm
