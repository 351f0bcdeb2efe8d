import Verif.Model.Geometry
/-
Model of the adaptive partitioning of a cell of the uniform grid, `Node::partition_node_handler`
(/repo/include/dashmm/node.h:443-536), as a system of tasks that may run in any order.

Simplifications: coordinates are in a linearly ordered field (exact arithmetic); a task runs
atomically (tasks which can overlap work on disjoint slices of the records); `int` counts do not
overflow.
-/
namespace Dashmm
namespace Build

variable {K : Type} [Field K] [LinearOrder K] {R : Type}

/-- A node: its index and its slice `parts` of the record array (offset and length). -/
structure Cell where
  idx : Index
  off : Nat
  n : Nat
  deriving DecidableEq

/-- What does not change: the position of a record, the domain, the threshold and `same_sandt`. -/
structure Env (K R : Type) where
  pos : R → Point K
  dom : Domain K
  threshold : Nat
  same : Bool

/-- The records of a slice. -/
def slice (mem : List R) (v : Cell) : List R := (mem.drop v.off).take v.n

/-- The record array after the slice has been overwritten. -/
def overwrite (mem : List R) (v : Cell) (new : List R) : List R :=
  mem.take v.off ++ new ++ mem.drop (v.off + v.n)

/-- One call of `std::partition` (or, if `same`, of `std::partition_point`) on a range which holds `l`,
include/dashmm/node.h:489-509: afterwards the range holds `a ++ b` and the result points between them.
`std::partition` may leave each part in any order; `std::partition_point` changes nothing and requires
that the range is already partitioned (if it is not, the model has no step). -/
def Part (same : Bool) (p : R → Prop) (l a b : List R) : Prop :=
  (if same then a ++ b = l else (a ++ b).Perm l) ∧ (∀ x ∈ a, p x) ∧ ∀ x ∈ b, ¬ p x

/-- `center_x`, `center_y`, `center_z`, include/dashmm/node.h:466-469. -/
def center (d : Domain K) (i : Index) : Point K :=
  let h := d.size / 2 ^ i.level
  ⟨d.low.x + ((i.x : K) + 1 / 2) * h, d.low.y + ((i.y : K) + 1 / 2) * h, d.low.z + ((i.z : K) + 1 / 2) * h⟩

/-- The seven partitions, include/dashmm/node.h:479-509: `c i` is what lies between `splits[i]` and
`splits[i + 1]`. -/
def Split8 (E : Env K R) (i : Index) (l : List R) (c : Nat → List R) : Prop :=
  let m := center E.dom i
  let zc := fun r : R => (E.pos r).z < m.z
  let yc := fun r : R => (E.pos r).y < m.y
  let xc := fun r : R => (E.pos r).x < m.x
  ∃ a b a0 a1 b0 b1, Part E.same zc l a b ∧ Part E.same yc a a0 a1 ∧ Part E.same yc b b0 b1 ∧
    Part E.same xc a0 (c 0) (c 1) ∧ Part E.same xc a1 (c 2) (c 3) ∧
    Part E.same xc b0 (c 4) (c 5) ∧ Part E.same xc b1 (c 6) (c 7)

/-- All eight pieces in order. -/
def joined (c : Nat → List R) : List R := (List.range 8).flatMap c

/-- `offset[i]`, include/dashmm/node.h:515-519. -/
def offsetOf (c : Nat → List R) (i : Nat) : Nat :=
  ((List.range i).map fun j => (c j).length).sum

/-- The nodes made by the loop, include/dashmm/node.h:523-528. -/
def kids (v : Cell) (c : Nat → List R) : List Cell :=
  (List.range 8).filterMap fun i =>
    if (c i).length = 0 then none
    else some ⟨v.idx.child i, v.off + offsetOf c i, (c i).length⟩

/-- Number of children which are not made, each of which sets the completion LCO once,
include/dashmm/node.h:529-531. -/
def missing (c : Nat → List R) : Nat := ((List.range 8).filter fun i => (c i).length = 0).length

/-- State: the records, nodes whose task has not run, nodes whose task found them small enough
(`is_leaf`), nodes whose task has divided them, the number of inputs each node's completion LCO has
received, and the nodes whose completion has been passed on to the parent. -/
structure State (R : Type) where
  mem : List R
  pending : List Cell
  leaves : List Cell
  inner : List Cell
  sets : Index → Nat
  fwd : List Index

/-- All nodes. -/
def State.nodes (s : State R) : List Cell := s.pending ++ (s.leaves ++ s.inner)

/-- A cell of the uniform grid that has received all its points: one task is scheduled
(include/dashmm/tree.h, `partition` calls). -/
def start (root : Cell) (mem : List R) : State R := ⟨mem, [root], [], [], fun _ => 0, []⟩

/-- One step. -/
inductive Step (E : Env K R) (root : Index) : State R → State R → Prop
  /-- The task of a node with at most `threshold` points, include/dashmm/node.h:452, 461-463. -/
  | leaf (s : State R) (v : Cell) (hv : v ∈ s.pending) (hn : v.n ≤ E.threshold) :
      Step E root s { s with
        pending := s.pending.erase v
        leaves := v :: s.leaves
        sets := fun j => if j = v.idx then s.sets j + 8 else s.sets j }
  /-- The task of a larger node, include/dashmm/node.h:464-533. -/
  | split (s : State R) (v : Cell) (hv : v ∈ s.pending) (hn : ¬ v.n ≤ E.threshold)
      (c : Nat → List R) (hc : Split8 E v.idx (slice s.mem v) c) :
      Step E root s { s with
        mem := overwrite s.mem v (joined c)
        pending := kids v c ++ s.pending.erase v
        inner := v :: s.inner
        sets := fun j => if j = v.idx then s.sets j + missing c else s.sets j }
  /-- The continuation registered at the beginning of the task, include/dashmm/node.h:454-459: when the
  completion LCO of a node has all its eight inputs, that of its parent gets one. The parent of the
  root of the branch has no such LCO. -/
  | forward (s : State R) (v : Cell) (hv : v ∈ s.leaves ++ s.inner) (hr : v.idx ≠ root)
      (h8 : 8 ≤ s.sets v.idx) (hf : v.idx ∉ s.fwd) :
      Step E root s { s with
        sets := fun j => if j = v.idx.parent then s.sets j + 1 else s.sets j
        fwd := v.idx :: s.fwd }

/-- States after `k` steps. -/
inductive Steps (E : Env K R) (root : Index) : Nat → State R → State R → Prop
  | zero (s : State R) : Steps E root 0 s s
  | succ {k : Nat} {s t u : State R} : Steps E root k s t → Step E root t u → Steps E root (k + 1) s u

end Build
end Dashmm
