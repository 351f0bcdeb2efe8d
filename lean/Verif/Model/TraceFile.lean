import Verif.Model.Trace

/-!
# Model of the files of a trace, trace/readtrace/{tracefile,traceevent,dashmmevents,networkevents}.cc

Strings are lists of characters, files are lists of bytes. Simplifications: opening a file and reading from it do not fail; the host is little-endian;
delimiters are single characters, as in all calls.
-/

namespace Dashmm.Trace

/-- The types of events of DASHMM: name in the file name, name, segment type, begin, end; dashmmevents.cc:14-92, 97-182, dashmmevents.h:59-356,
segmentids.h:16-34. -/
def dashmmKinds : List (String × String × Nat × Bool × Bool) :=
  [("DASHMM_STOT_BEGIN", "dashmm stot begin", 2, true, false), ("DASHMM_STOT_END", "dashmm stot end", 2, false, true),
   ("DASHMM_MTOT_BEGIN", "dashmm mtot begin", 3, true, false), ("DASHMM_MTOT_END", "dashmm mtot end", 3, false, true),
   ("DASHMM_LTOT_BEGIN", "dashmm ltot begin", 4, true, false), ("DASHMM_LTOT_END", "dashmm ltot end", 4, false, true),
   ("DASHMM_STOM_BEGIN", "dashmm stom begin", 5, true, false), ("DASHMM_STOM_END", "dashmm stom end", 5, false, true),
   ("DASHMM_STOL_BEGIN", "dashmm stol begin", 6, true, false), ("DASHMM_STOL_END", "dashmm stol end", 6, false, true),
   ("DASHMM_ELCO_BEGIN", "dashmm elco begin", 7, true, false), ("DASHMM_ELCO_END", "dashmm elco end", 7, false, true),
   ("DASHMM_MTOM_BEGIN", "dashmm mtom begin", 8, true, false), ("DASHMM_MTOM_END", "dashmm mtom end", 8, false, true),
   ("DASHMM_MTOL_BEGIN", "dashmm mtol begin", 9, true, false), ("DASHMM_MTOL_END", "dashmm mtol end", 9, false, true),
   ("DASHMM_LTOL_BEGIN", "dashmm ltol begin", 10, true, false), ("DASHMM_LTOL_END", "dashmm ltol end", 10, false, true),
   ("DASHMM_MTOI_BEGIN", "dashmm mtoi begin", 11, true, false), ("DASHMM_MTOI_END", "dashmm mtoi end", 11, false, true),
   ("DASHMM_ITOI_BEGIN", "dashmm itoi begin", 12, true, false), ("DASHMM_ITOI_END", "dashmm itoi end", 12, false, true),
   ("DASHMM_ITOL_BEGIN", "dashmm itol begin", 13, true, false), ("DASHMM_ITOL_END", "dashmm itol end", 13, false, true),
   ("DASHMM_ZEROREF", "dashmm zero ref", 0, false, false)]

/-- The types of events of the network, networkevents.cc:12-46, networkevents.h:25-60. -/
def networkKinds : List (String × String × Nat × Bool × Bool) :=
  [("PROGRESS_BEGIN", "progress begin", 1, true, false), ("PROGRESS_END", "progress end", 1, false, true)]

/-- `event_class_from_name` and `proto_from_class_and_name`, traceevent.cc:7-34, tracefile.cc:60-85: the classes from `SCHED` to `MEMORY` fall through to
`TRACE`. -/
def kindsOf (cls : List Char) : List (String × String × Nat × Bool × Bool) :=
  if cls = "NETWORK".toList then networkKinds
  else if cls = "SCHED".toList ∨ cls = "LCO".toList ∨ cls = "PROCESS".toList ∨ cls = "MEMORY".toList ∨ cls = "TRACE".toList then dashmmKinds
  else []

/-- `prototype_from_name`: the prototype of a type of events, with the stamp zero; `none` is the null pointer, dashmmevents.cc:95-182,
networkevents.cc:32-48. -/
def proto (cls evt : List Char) : Option Evt :=
  ((kindsOf cls).find? fun k => decide (k.1.toList = evt)).map fun k => ⟨0, k.2.1, k.2.2.1, k.2.2.2.1, k.2.2.2.2⟩

/-- `split`, tracefile.cc:37-57: `p` is the text from the current position up to the next delimiter; an empty piece before a delimiter is left out. -/
def splitFrom (d : Char) (p : List Char) : List Char → List (List Char)
  | [] => [p]
  | c :: r => if c = d then (if p = [] then splitFrom d [] r else p :: splitFrom d [] r) else splitFrom d (p ++ [c]) r

/-- `split` from the start, tracefile.cc:39. -/
def split (d : Char) (s : List Char) : List (List Char) := splitFrom d [] s

/-- `split_once`, tracefile.cc:16-34. -/
def splitOnce (d : Char) (s : List Char) : List Char × List Char :=
  (s.takeWhile fun c => decide (c ≠ d), (s.dropWhile fun c => decide (c ≠ d)).drop 1)

/-- The value of a decimal digit. -/
def digit? (c : Char) : Option Nat := if '0' ≤ c ∧ c ≤ '9' then some (c.toNat - '0'.toNat) else none

/-- The digits at the start of a text. -/
def digits : Nat → List Char → Nat
  | n, [] => n
  | n, c :: r =>
    match digit? c with
    | some d => digits (10 * n + d) r
    | none => n

/-- The white space that `std::stoi` skips. -/
def isSpace (c : Char) : Bool := decide (c = ' ' ∨ c = '\t' ∨ c = '\n' ∨ c = '\r' ∨ c.toNat = 11 ∨ c.toNat = 12)

/-- `std::stoi`: white space, a sign, digits, and anything; `none` is an exception. -/
def stoi (s : List Char) : Option Int :=
  let t := s.dropWhile isSpace
  let neg := t.head? == some '-'
  let u := if t.head? = some '-' ∨ t.head? = some '+' then t.drop 1 else t
  match u.head?.bind digit? with
  | none => none
  | some _ =>
    let v : Int := if neg then -(digits 0 u : Int) else digits 0 u
    if -(2 ^ 31) ≤ v ∧ v < 2 ^ 31 then some v else none

/-- `File::interpret_filename`, tracefile.cc:129-163: locality, worker, prototype; `none` is an exception. -/
def interpret (name : List Char) : Option (Int × Int × Evt) :=
  match split '.' ((split '/' name).getLastD []) with
  | [a, b, _, _, e, _] =>
    match stoi a, stoi b with
    | some l, some w =>
      let ce := splitOnce '_' e
      if ce.1 = [] ∨ ce.2 = [] then none
      else (proto ce.1 ce.2).map fun p => (l, w, p)
    | _, _ => none
  | _ => none

/-- An unsigned integer in little-endian order. -/
def fromLE : List Nat → Nat
  | [] => 0
  | b :: l => b + 256 * fromLE l

/-- The magic number, tracefile.cc:14. -/
def magic : List Nat := "HPXnpy".toList.map Char.toNat

/-- `File::check_and_skip_header`, tracefile.cc:166-191: the rest of the file; `fseek` past the end is no error, and nothing is left to read. -/
def skipHeader (bytes : List Nat) : Option (List Nat) :=
  if bytes.length < 6 then none
  else if bytes.take 6 ≠ magic then none
  else
    let r := (bytes.drop 6).drop 2
    if r.length < 2 then none
    else some ((r.drop 2).drop (fromLE (r.take 2)))

/-- The records of a file, `read_from_file` until it gives the null pointer, dashmmevents.cc:293-309 and so on, worker.cc:22-26; `none` is the exception
for a record that is cut off. The number `fuel` bounds the number of records. -/
def readRecords (p : Evt) : Nat → List Nat → Option (List Evt)
  | 0, _ => some []
  | fuel + 1, bytes =>
    if bytes = [] then some []
    else if bytes.length < 8 then none
    else (readRecords p fuel (bytes.drop 8)).map fun l => { p with stamp := fromLE (bytes.take 8) } :: l

/-- A file of a trace, opened and read: `File::File`, tracefile.cc:91-108, and `Worker::Worker`, worker.cc:15-34. -/
def load (name : List Char) (bytes : List Nat) : Option TFile :=
  match interpret name, skipHeader bytes with
  | some (l, w, p), some r => (readRecords p r.length r).map fun es => ⟨l, w, es⟩
  | _, _ => none

end Dashmm.Trace
