import Verif.Spec.Trace
import Verif.Model.TraceCover

/-!
Specification: the segments of a type in the records of a worker, and how much of an interval they cover.
-/

namespace Dashmm.Trace

/-- The records of type `ty` are the begin and the end of one segment after the other. -/
def Timeline (ty : Nat) (l : List Evt) (segs : List (Nat × Nat)) : Prop :=
  (l.filter fun e => decide (e.seg = ty)).map (fun e => (e.stamp, e.starts, e.ends)) =
    segs.flatMap fun s => [(s.1, true, false), (s.2, false, true)]

/-- Each segment begins after the end of those before it. -/
def Apart (segs : List (Nat × Nat)) : Prop := (∀ s ∈ segs, s.1 ≤ s.2) ∧ segs.Pairwise fun s s' => s.2 < s'.1

/-- The length of the part of the segment that is in the interval from `a` to `b`. -/
def overlap (a b : Nat) (s : Nat × Nat) : Nat := min s.2 b - max s.1 a

/-- The length of the part of the interval that is covered by segments. -/
def covered (a b : Nat) (segs : List (Nat × Nat)) : Nat := (segs.map (overlap a b)).sum

end Dashmm.Trace
