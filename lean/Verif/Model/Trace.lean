import Mathlib.Data.List.Forall2

/-!
# Model of the trace reader: workers, localities and windows, trace/readtrace/{worker,locality,trace}.{h,cc}

Simplifications: the two nested maps (locality to its workers, worker to its events) are one list of workers in the order in which the nested
iterations visit them; the `locked_` members of `Trace`, `Locality` and `Worker` are set together and are one flag; `std::sort` gives some order that
is sorted (`Finalizes` is a relation, since `std::sort` is not stable); reading the files themselves is in Model/TraceFile.
-/

namespace Dashmm.Trace

/-- An event, trace/readtrace/traceevent.h:30-74: time stamp, name of its type, segment type, and whether it begins or ends a segment. -/
structure Evt where
  stamp : Nat
  tag : String
  seg : Nat
  starts : Bool
  ends : Bool
  deriving DecidableEq

/-- What the file names of the traces tell, and the events read, trace/readtrace/tracefile.h. -/
structure TFile where
  loc : Int
  wid : Int
  events : List Evt

/-- `Worker`, trace/readtrace/worker.h:24-72. -/
structure Wrk where
  loc : Int
  wid : Int
  gid : Nat
  events : List Evt

/-- `Trace` together with the static `Worker::counter_`, trace/readtrace/trace.h:17-69, worker.cc:12. -/
structure St where
  locked : Bool
  counter : Nat
  ws : List Wrk

/-- How a call ends: reading outside of a vector, an exception, or a result. -/
inductive Out (α : Type) where
  | undef
  | throws
  | ok (a : α)
  deriving DecidableEq

/-- Before any file was added, trace/readtrace/trace.h:19. -/
def St.start : St := ⟨false, 0, []⟩

/-- The order of the keys in the nested iteration. -/
def before (l w l' w' : Int) : Bool := decide (l < l') || (decide (l = l') && decide (w < w'))

/-- A file for a worker that is known is appended to its events, worker.cc:49-52; for a new one a `Worker` is made, at its place in the maps,
trace.cc:73-79, locality.cc:43-49, worker.cc:15-26. -/
def insert (gid : Nat) (f : TFile) : List Wrk → List Wrk
  | [] => [⟨f.loc, f.wid, gid, f.events⟩]
  | w :: ws =>
    if w.loc = f.loc ∧ w.wid = f.wid then ⟨w.loc, w.wid, w.gid, w.events ++ f.events⟩ :: ws
    else if before f.loc f.wid w.loc w.wid then ⟨f.loc, f.wid, gid, f.events⟩ :: w :: ws
    else w :: insert gid f ws

/-- Is the worker of the file known, locality.cc:43-44? -/
def known (f : TFile) (ws : List Wrk) : Bool := ws.any fun w => decide (w.loc = f.loc ∧ w.wid = f.wid)

/-- `Trace::add_file`, trace.cc:68-80. A new worker takes two values of `counter_`: one for the object itself, worker.cc:18, and one for the default
constructed object that the subscript of the map makes before it is assigned to, locality.cc:48, 14, worker.h:27. -/
def addFile (S : St) (f : TFile) : Out St :=
  if S.locked then .throws
  else .ok ⟨S.locked, if known f S.ws then S.counter else S.counter + 2, insert S.counter f S.ws⟩

/-- The loop over the arguments, main.cc:62-66. -/
def addFiles (S : St) : List TFile → Out St
  | [] => .ok S
  | f :: fs =>
    match addFile S f with
    | .ok S' => addFiles S' fs
    | .undef => .undef
    | .throws => .throws

/-- In order of the stamps, traceevent.cc:38-41. -/
def Sorted (l : List Evt) : Prop := l.Pairwise fun a b => a.stamp ≤ b.stamp

/-- `Worker::min_ns`: the first event; reading it is undefined if there is none, worker.cc:76-78. -/
def Wrk.minNs (w : Wrk) : Option Nat := w.events.head?.map Evt.stamp

/-- `Worker::max_ns`, worker.cc:72-74. -/
def Wrk.maxNs (w : Wrk) : Option Nat := w.events.getLast?.map Evt.stamp

/-- `Trace::min_ns` and `Locality::min_ns`, trace.cc:111-117, locality.cc:96-102. -/
def minNs (ws : List Wrk) : Option Nat :=
  ws.foldl (fun r w => match r, w.minNs with
    | some r, some m => some (min r m)
    | _, _ => none) (some (2 ^ 64 - 1))

/-- `Trace::max_ns` and `Locality::max_ns`, trace.cc:102-108, locality.cc:87-93. -/
def maxNs (ws : List Wrk) : Option Nat :=
  ws.foldl (fun r w => match r, w.maxNs with
    | some r, some m => some (max r m)
    | _, _ => none) (some 0)

/-- One worker is sorted, worker.cc:63-67. -/
def sortedFrom (w w' : Wrk) : Prop :=
  w'.loc = w.loc ∧ w'.wid = w.wid ∧ w'.gid = w.gid ∧ w'.events.Perm w.events ∧ Sorted w'.events

/-- `Trace::finalize`, trace.cc:90-99: nothing if it is locked; otherwise all workers are sorted. The minimum and the maximum are asked for first, and
not used: `Worker::finalize` ignores its arguments. -/
def Finalizes (S S' : St) : Prop :=
  if S.locked then S' = S
  else (minNs S.ws).isSome ∧ (maxNs S.ws).isSome ∧ S'.locked = true ∧ S'.counter = S.counter ∧ List.Forall₂ sortedFrom S.ws S'.ws

/-- `std::partition_point` for a range that is partitioned: how many of the first events are before `t`, worker.cc:107-115. -/
def part (t : Nat) (l : List Evt) : Nat := (l.takeWhile fun e => decide (e.stamp < t)).length

/-- `Worker::range`, worker.cc:81-118, with the events between the two iterators for these. -/
def range (l : List Evt) (start fin : Nat) : Out (List Evt) :=
  if start > fin then .throws
  else
    match l.head?, l.getLast? with
    | some lo, some hi =>
      if fin < lo.stamp then .ok []
      else if start ≥ hi.stamp then .ok []
      else .ok ((l.take (part (min fin hi.stamp) l)).drop (part (max start lo.stamp) l))
    | _, _ => .undef

/-- The ranges of all workers, locality.cc:110-114, trace.cc:125-129. -/
def ranges (start fin : Nat) : List Wrk → Out (List ((Int × Int) × List Evt))
  | [] => .ok []
  | w :: ws =>
    match range w.events start fin with
    | .ok r =>
      match ranges start fin ws with
      | .ok rs => .ok (((w.loc, w.wid), r) :: rs)
      | .undef => .undef
      | .throws => .throws
    | .undef => .undef
    | .throws => .throws

/-- `Trace::window`, trace.cc:120-130, with `Locality::span`, locality.cc:105-115. -/
def window (S : St) (start fin : Nat) : Out (List ((Int × Int) × List Evt)) :=
  if S.locked then ranges start fin S.ws else .throws

/-- `Trace::num_events`, trace.cc:59-65, locality.cc:26-32. -/
def numEvents (S : St) : Nat := (S.ws.map fun w => w.events.length).sum

end Dashmm.Trace
