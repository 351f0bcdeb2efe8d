import Verif.Model.Trace
import Mathlib.Data.Rat.Defs

/-!
# Model of the coverage of a window by segments of a type, trace/readtrace/trace.cc:133-186

Simplifications: stamps are below 2^63, so that the conversions between signed and unsigned do not matter; the quotient is exact.
-/

namespace Dashmm.Trace

/-- The variables `cover`, `previous_start`, `previous_end` and `type_count`, trace.cc:139-143. -/
structure Cov where
  cover : Int
  ps : Int
  pe : Int
  count : Nat

/-- trace.cc:139-143. -/
def Cov.init (a : Nat) : Cov := ⟨0, a, a - 1, 0⟩

/-- The body of the loop, trace.cc:145-159; `none` is a failed assertion. -/
def covStep (ty : Nat) (c : Cov) (e : Evt) : Option Cov :=
  if e.seg = ty then
    if e.starts then
      if c.pe < (e.stamp : Int) then some ⟨c.cover, e.stamp, c.pe, c.count + 1⟩ else none
    else if e.ends then
      if (e.stamp : Int) ≥ c.ps then some ⟨c.cover + (e.stamp - c.ps), c.ps, e.stamp, c.count + 1⟩ else none
    else none
  else some c

/-- The loop, trace.cc:144-160. -/
def covLoop (ty : Nat) : Cov → List Evt → Option Cov
  | c, [] => some c
  | c, e :: l =>
    match covStep ty c e with
    | some c' => covLoop ty c' l
    | none => none

/-- The last segment has a start and no end, trace.cc:161-164. -/
def Cov.finish (c : Cov) (b : Nat) : Int := if c.count ≠ 0 ∧ c.pe < c.ps then c.cover + (b - c.ps) else c.cover

/-- `range_coverage`, trace.cc:134-166. -/
def rangeCoverage (l : List Evt) (ty a b : Nat) : Option Rat :=
  if l = [] then some 0
  else
    match covLoop ty (Cov.init a) l with
    | some c => some (((c.finish b : Int) : Rat) / (((b : Int) - (a : Int) : Int) : Rat))
    | none => none

/-- `span_coverage` and `coverage_of_segment_type`, trace.cc:168-186. -/
def coverage (ty a b : Nat) : List ((Int × Int) × List Evt) → Option (List ((Int × Int) × Rat))
  | [] => some []
  | (k, l) :: W =>
    match rangeCoverage l ty a b, coverage ty a b W with
    | some q, some qs => some ((k, q) :: qs)
    | _, _ => none

end Dashmm.Trace
