import Verif.Model.Grid
import Verif.Model.Points
import Verif.Model.Merge
/-
Model of the way of the records from the arrays of the ranks to the cells of the uniform grid: `DualTree::sort_local_points`
(/repo/include/dashmm/dualtree.h:789-838), the reduction of the counts (dualtree.h:717-727, 816, 1200), the offsets and the copying of the local
records in `Tree::initPointExchange` (/repo/include/dashmm/tree.h:214-270), and which merges a cell gets (dualtree.h:906-970, tree.h:361-388). It puts together the
models Grid (assigning and grouping), Points (messages) and Merge (the tasks on a cell).

Simplifications: as in those models; the two kinds of records are sorted in any order (the actions run concurrently, on different arrays).
-/
namespace Dashmm
namespace Arrive
open Grid

variable {K : Type} [Field K] [LinearOrder K] [FloorRing K] {R S T : Type}

/-- What a rank has of one kind of records after `sort_local_points`: the array, grouped by cells, `local_count` and `local_offset`. -/
structure Sorted (R : Type) where
  data : List R
  count : List Nat
  offset : List Nat

/-- `sort_local_points` for one kind of records, include/dashmm/dualtree.h:797-838; `fuel` bounds the `while` loops of the grouping. -/
def sortLocal [Inhabited R] (d : Domain K) (level fuel : Nat) (pos : R → Point K) (recs : List R) : Option (Sorted R) :=
  let a := assignPoints d level (recs.map pos)
  (groupPoints fuel recs (8 ^ level) a.1 a.2).map fun g => ⟨g.1, a.2, g.2⟩

/-- The `local_count` array that a rank contributes to the reduction: sources, then targets, include/dashmm/dualtree.h:793-795, 816. -/
def bothCounts (dim3 : Nat) (s t : List Nat) : Fin (dim3 * 2) → Int :=
  fun i => if i < dim3 then (s.getD i 0 : Int) else (t.getD (i - dim3) 0 : Int)

/-- Arguments of `send_points_`, include/dashmm/dualtree.h:1226-1229. -/
def args (s : Sorted S) (t : Sorted T) (rw smeta tmeta : Nat) : Points.Args S T where
  countS i := s.count.getD i 0
  countT i := t.count.getD i 0
  offsetS i := s.offset.getD i 0
  offsetT i := t.offset.getD i 0
  sources := s.data
  targets := t.data
  rw := rw
  smeta := smeta
  tmeta := tmeta

/-- The copying of the local records of a cell, include/dashmm/tree.h:244-252, if there are any. -/
def localTask (s : Sorted R) (c : Nat) : List (List R) :=
  if s.count.getD c 0 ≠ 0 then [Points.slice s.data (s.offset.getD · 0) (s.count.getD · 0) c] else []

/-- The merges into a cell that one message asks for. -/
def mergeTasks (req : List (Nat × List R)) (c : Nat) : List (List R) := (req.filter fun m => m.1 = c).map Prod.snd

/-- All tasks that bring records into a cell on its rank: the local records, and the messages of the other ranks. -/
def tasks (s : Sorted R) (reqs : List (List (Nat × List R))) (c : Nat) : List (List R) :=
  localTask s c ++ reqs.flatMap fun req => mergeTasks req c

/-- `global_offset` and `num_points` of a rank, include/dashmm/tree.h:224-232. -/
def globalOffsets (dim3 rank : Nat) (rankMap count : Nat → Nat) : List Nat × Nat :=
  (List.range' 1 (dim3 - 1)).foldl (fun a i =>
      (a.1.set i (a.1.getD (i - 1) 0 + if rankMap (i - 1) = rank then count (i - 1) else 0),
        a.2 + if rankMap i = rank then count i else 0))
    (List.replicate dim3 0, if rankMap 0 = rank then count 0 else 0)

end Arrive
end Dashmm
