import Verif.Model.TraceFile
import Verif.Spec.TraceDb
import Mathlib.Data.Nat.Digits.Defs

/-!
Specification: what the runtime writes: file names `L.W.x.y.CLASS_EVENT.ext`, and files with a header and the stamps as 64 bit integers.
-/

namespace Dashmm.Trace

/-- The decimal digits of a number, the most significant first. -/
def decimal (n : Nat) : List Char := Nat.toDigits 10 n

/-- The pieces, with the delimiter between them. -/
def joined (d : Char) : List (List Char) → List Char
  | [] => []
  | [p] => p
  | p :: ps => p ++ d :: joined d ps

/-- `k` bytes, the least significant first. -/
def toLE : Nat → Nat → List Nat
  | 0, _ => []
  | k + 1, n => n % 256 :: toLE k (n / 256)

/-- The bytes of a file with the given header and stamps. -/
def fileOf (version header : List Nat) (stamps : List Nat) : List Nat :=
  [72, 80, 88, 110, 112, 121] ++ version ++ toLE 2 header.length ++ header ++ stamps.flatMap (toLE 8)

/-- The name of an event that DASHMM records, include/dashmm/traceevents.h:76-100. -/
def recorded : List String :=
  ["STOT", "MTOT", "LTOT", "STOM", "STOL", "ELCO", "MTOM", "MTOL", "LTOL", "MTOI", "ITOI", "ITOL"]

end Dashmm.Trace
