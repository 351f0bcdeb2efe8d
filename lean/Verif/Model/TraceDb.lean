import Verif.Model.Trace

/-!
# Model of the database written by the trace reader: events and segments, trace/readtrace/{segment.h,sqlite3out.cc}

Modelled: which rows are inserted into the tables Eventtype, Event and Segment. Not modelled: SQLite, the transactions, the tables Locality, Worker,
Segmenttype and Eventclass.
-/

namespace Dashmm.Trace

/-- A segment with its beginning, segment.h:15-26, 67-78. -/
structure Part where
  begin_ : Nat
  start : Nat
  loc : Int
  gid : Nat

/-- A full segment: type, numbers of the two events, their times, locality and worker, segment.h:15-78. -/
structure Seg where
  kind : Nat
  begin_ : Nat
  end_ : Nat
  start : Nat
  finish : Nat
  loc : Int
  gid : Nat
  deriving DecidableEq

/-- `SegmentCollator`, segment.h:81-131: the segment of each type that has begun, and those that are full. -/
structure Coll where
  part : Nat → Option Part
  full : List Seg

def Coll.empty : Coll := ⟨fun _ => none, []⟩

/-- A new entry of the map. -/
def setPart (f : Nat → Option Part) (k : Nat) (v : Option Part) : Nat → Option Part := fun j => if j = k then v else f j

/-- `SegmentCollator::collate` with `Segment::claim`, segment.h:27-60, 85-110; `none` is the result `false`. -/
def collate (loc : Int) (gid : Nat) (c : Coll) (e : Evt) (id : Nat) : Option Coll :=
  if e.seg = 0 then some c
  else
    match c.part e.seg with
    | none => if e.starts then some ⟨setPart c.part e.seg (some ⟨id, e.stamp, loc, gid⟩), c.full⟩ else none
    | some p =>
      if loc ≠ p.loc ∨ gid ≠ p.gid then none
      else if e.ends then some ⟨setPart c.part e.seg none, c.full ++ [⟨e.seg, p.begin_, id, p.start, e.stamp, p.loc, p.gid⟩]⟩
      else none

/-- The events of one worker with their numbers, sqlite3out.cc:349-370; `none` is the exception. -/
def collateAll (loc : Int) (gid : Nat) : Coll → List (Evt × Nat) → Option Coll
  | c, [] => some c
  | c, (e, i) :: l =>
    match collate loc gid c e i with
    | some c' => collateAll loc gid c' l
    | none => none

/-- An entry of a `std::map` with strings for keys. -/
def insName (s : String) : List String → List String
  | [] => [s]
  | t :: l => if s = t then t :: l else if s < t then s :: t :: l else t :: insName s l

/-- The names of the types of events, in the order of the map; the number of a type is its place in it, sqlite3out.cc:257-299. -/
def typeNames (ws : List Wrk) : List String := (ws.flatMap Wrk.events).foldl (fun l e => insName e.tag l) []

/-- The number of a type, `evttyp.find(...)->second`, sqlite3out.cc:363; `none`: there is no such entry. -/
def typeId (names : List String) (s : String) : Option Nat := names.findIdx? fun t => decide (t = s)

/-- A row of the table Event, sqlite3out.cc:362-368. -/
structure Row where
  id : Nat
  type : Option Nat
  loc : Int
  gid : Nat
  stamp : Nat
  deriving DecidableEq

/-- The row of an event. -/
def rowOf (names : List String) (w : Wrk) (x : Evt × Nat) : Row := ⟨x.2, typeId names x.1.tag, w.loc, w.gid, x.1.stamp⟩

/-- The rows of the tables Event and Segment, sqlite3out.cc:302-387, 389-455, the next number of an event being `n`; the number of a segment is its
place in the list. Segments of a worker that have not ended are dropped, segment.h:113-117. -/
def tables (names : List String) : Nat → List Wrk → Option (List Row × List Seg)
  | _, [] => some ([], [])
  | n, w :: ws =>
    match collateAll w.loc w.gid Coll.empty (w.events.zipIdx n), tables names (n + w.events.length) ws with
    | some c, some (rows, segs) => some ((w.events.zipIdx n).map (rowOf names w) ++ rows, c.full ++ segs)
    | _, _ => none

/-- `SQLiteWriter::write` for these tables, sqlite3out.cc:113-121. -/
def database (S : St) : Option (List Row × List Seg) := tables (typeNames S.ws) 0 S.ws

end Dashmm.Trace
