import Verif.Spec.TraceCover
import Verif.Model.TraceDb

/-!
Specification: the segments of a worker, the last of which may not have ended.
-/

namespace Dashmm.Trace

/-- The records of type `ty` are the begin and the end of one segment after the other, and possibly the begin of a further one. -/
def Segments (ty : Nat) (l : List Evt) (segs : List (Nat × Nat)) : Prop :=
  ∃ last : List Nat, last.length ≤ 1 ∧ (l.filter fun e => decide (e.seg = ty)).map (fun e => (e.stamp, e.starts, e.ends)) =
    (segs.flatMap fun s => [(s.1, true, false), (s.2, false, true)]) ++ last.map fun t => (t, true, false)

/-- Records of a segment type either begin or end a segment. -/
def Regular (l : List Evt) : Prop := ∀ e ∈ l, e.seg ≠ 0 → e.starts = !e.ends

/-- The row is that of the event `e` of worker `w`. -/
def RowIs (names : List String) (r : Row) (w : Wrk) (e : Evt) : Prop :=
  r.loc = w.loc ∧ r.gid = w.gid ∧ r.stamp = e.stamp ∧ ∃ i, r.type = some i ∧ names[i]? = some e.tag

end Dashmm.Trace
