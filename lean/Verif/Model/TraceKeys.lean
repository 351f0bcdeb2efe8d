import Verif.Model.TraceDb
import Verif.Model.TraceFile

/-!
# Model of the other tables of the database, and of the transactions, trace/readtrace/sqlite3out.cc

The rows that are inserted, in some order. Simplifications: SQLite accepts every statement, except `BEGIN` in a transaction and `END` outside of one;
rows of a transaction that has not ended are not in the database.
-/

namespace Dashmm.Trace

/-- `segment::name`, segmentids.cc:7-54. -/
def segName : Nat → String
  | 0 => "NoSeg"
  | 1 => "NetProg"
  | 2 => "StoT"
  | 3 => "MtoT"
  | 4 => "LtoT"
  | 5 => "StoM"
  | 6 => "StoL"
  | 7 => "ELCO"
  | 8 => "MtoM"
  | 9 => "MtoL"
  | 10 => "LtoL"
  | 11 => "MtoI"
  | 12 => "ItoI"
  | 13 => "ItoL"
  | _ => "Unknown"

/-- `event_class()`, dashmmevents.cc:12, 187-189, networkevents.cc:12, 52-54, 82-84. The C++ class of an event is known from the name of its type. -/
def className (e : Evt) : String := if networkKinds.any fun k => decide (k.2.1 = e.tag) then "network" else "trace"

/-- The table Locality, sqlite3out.cc:123-152, trace.h:22-23; `none`: the last entry of a map without entries is read. -/
def localityRows (ws : List Wrk) : Option (List Nat) :=
  match ws.getLast? with
  | none => none
  | some w => some ((List.range (w.loc + 1).toNat).filter fun i => ws.any fun w => decide (w.loc = (i : Int)))

/-- The table Worker, sqlite3out.cc:154-185: number, number in the locality, locality. -/
def workerRows (ws : List Wrk) : List (Nat × Int × Int) := ws.map fun w => (w.gid, w.wid, w.loc)

/-- `if (m.find(k) == m.end()) { m[k] = v; }`. -/
def enter (l : List (String × Nat)) (k : String) (v : Nat) : List (String × Nat) :=
  if l.any fun x => decide (x.1 = k) then l else l ++ [(k, v)]

/-- The table Segmenttype, sqlite3out.cc:187-212: name and number. -/
def segmentTypeRows (ws : List Wrk) : List (String × Nat) :=
  (ws.flatMap Wrk.events).foldl (fun l e => enter l (segName e.seg) e.seg) []

/-- The table Eventclass, sqlite3out.cc:214-248: the counter has advanced once for each entry. -/
def eventClassRows (ws : List Wrk) : List (String × Nat) :=
  (ws.flatMap Wrk.events).foldl (fun l e => enter l (className e) l.length) []

/-- A row of the table Eventtype, sqlite3out.cc:284-294. -/
structure TypeRow where
  id : Nat
  cls : Option Nat
  name : String
  seg : Option Nat

/-- The event that represents a type, sqlite3out.cc:254-259. -/
def firstOf (ws : List Wrk) (t : String) : Option Evt := (ws.flatMap Wrk.events).find? fun e => decide (e.tag = t)

/-- The table Eventtype, sqlite3out.cc:250-300. -/
def eventTypeRows (ws : List Wrk) : List TypeRow :=
  (typeNames ws).zipIdx.map fun x =>
    ⟨x.2, (firstOf ws x.1).bind fun e => ((eventClassRows ws).find? fun c => decide (c.1 = className e)).map Prod.snd, x.1, (firstOf ws x.1).map Evt.seg⟩

/-- A statement that is executed for the tables Event and Segment. -/
inductive Stmt where
  | begin_
  | insert
  | end_
  deriving DecidableEq

/-- The statements for `n` more rows, `tcounter` being `t`, sqlite3out.cc:335-382, 417-455. -/
def txLoop : Nat → Nat → List Stmt
  | t, 0 => if t > 0 ∧ t < 10000 then [.end_] else []
  | t, n + 1 => (if t = 0 then [Stmt.begin_] else []) ++ .insert :: (if t + 1 = 10000 then .end_ :: txLoop 0 n else txLoop (t + 1) n)

/-- The connection: the rows that are in the database, and those of the transaction that has begun. -/
structure Conn where
  stored : Nat
  pending : Option Nat
  deriving DecidableEq

/-- SQLite; `none` is an error. -/
def Conn.exec (c : Conn) : Stmt → Option Conn
  | .begin_ => match c.pending with
    | none => some ⟨c.stored, some 0⟩
    | some _ => none
  | .insert => match c.pending with
    | none => some ⟨c.stored + 1, none⟩
    | some p => some ⟨c.stored, some (p + 1)⟩
  | .end_ => match c.pending with
    | none => none
    | some p => some ⟨c.stored + p, none⟩

end Dashmm.Trace
