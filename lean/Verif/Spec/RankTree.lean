import Verif.Model.RankTree
import Verif.Spec.EndToEnd

/-!
Specification vocabulary for the construction of a tree on all ranks together (C80).
-/

namespace Dashmm
namespace RankTree
open Build Branch

variable {K : Type} [Field K] [LinearOrder K] {R : Type}

/-- A rank can go on to prune the top of its tree: of each cell with records it has finished the branch, if the cell is its own, and received it otherwise. (The rank
waits for the completion LCOs of all cells, include/dashmm/dualtree.h, tree.h:861.) -/
def Ready (C : Cfg R) (w : World R) (k : Nat) : Prop :=
  ∀ q, C.IsCell q → C.mem q ≠ [] → (C.owner q = k → (w.cell q).sets (place q) = 8) ∧ (C.owner q ≠ k → q ∈ w.got k)

/-- Nothing that belongs to the construction can happen any more. -/
def Stuck (E : Env K R) (C : Cfg R) (w : World R) : Prop := ∀ w', ¬ Step E C w w'

/-- Each cell has the records of `P` that were assigned to it. -/
def Arrived [FloorRing K] (E : Env K R) (C : Cfg R) (P : List R) : Prop :=
  ∀ q, C.IsCell q → (C.mem q).Perm (P.filter fun x => Grid.gidOf E.dom C.unif (E.pos x) = cellOf C.unif q)

/-- The number of records of each cell of the uniform grid. -/
def countsOf [FloorRing K] (E : Env K R) (unif : Nat) (P : List R) (id : Nat) : Nat :=
  (P.filter fun x => Grid.gidOf E.dom unif (E.pos x) = id).length

/-- The records in the nodes are the slices of the record arrays. -/
structure HoldsAt (C : Cfg R) (w : World R) (hold : Index → List R) : Prop where
  slices : ∀ q, C.IsCell q → C.mem q ≠ [] → ∀ v ∈ (w.cell q).nodes, hold v.idx = slice (w.cell q).mem v
  other : ∀ i, (∀ q, C.IsCell q → C.mem q ≠ [] → ∀ v ∈ (w.cell q).nodes, v.idx ≠ i) → hold i = []

/-- The configuration of the target tree if the targets are the sources: it has the same cells on the same ranks, and the tasks of a cell start, when the source tree has finished
it, on the array as the source tree left it (include/dashmm/tree.h:756-775). -/
structure TargetOf (C : Cfg R) (w : World R) (C' : Cfg R) : Prop where
  unif : C'.unif = C.unif
  owner : C'.owner = C.owner
  ranks : C'.ranks = C.ranks
  done : ∀ q, C.IsCell q → C.mem q ≠ [] → (w.cell q).sets (place q) = 8
  mem : ∀ q, C.IsCell q → C'.mem q = (w.cell q).mem

end RankTree
end Dashmm
