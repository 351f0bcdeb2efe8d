import Verif.Model.Trace

/-!
# Model of the reset of the time origin, trace/readtrace/{worker,locality,trace}.cc

`Trace::find_and_reset_zero` treats one locality after the other, and each only has an effect on its own workers: the list of all workers is treated at
once, each worker with the origin of its locality. Stamps are `uint64_t`.
-/

namespace Dashmm.Trace

/-- The name of the record that marks the origin, dashmmevents.cc:39. -/
def zeroTag : String := "dashmm zero ref"

/-- `Worker::get_zeroref`, worker.cc:121-127, for the first record of a worker. -/
def zeroref (e : Evt) : Nat := if e.tag = zeroTag then e.stamp else 2 ^ 64 - 1

/-- The search for the origin, locality.cc:56-63; the workers are those of one locality, in order; `none`: a worker without events, whose first is read
nevertheless. -/
def zeroScan : List Wrk → Nat → Option Nat
  | [], z => some z
  | w :: ws, _ =>
    match w.events.head? with
    | none => none
    | some e => if zeroref e ≠ 2 ^ 64 - 1 then some (zeroref e) else zeroScan ws (zeroref e)

/-- The origin of a locality, locality.cc:53-63. -/
def zeroOf (ws : List Wrk) (loc : Int) : Option Nat := zeroScan (ws.filter fun w => decide (w.loc = loc)) 0

/-- `Worker::reset_zero`, worker.cc:130-134: the subtraction is that of unsigned 64 bit integers. -/
def shift (z : Nat) (e : Evt) : Evt := { e with stamp := (e.stamp + 2 ^ 64 - z) % 2 ^ 64 }

/-- locality.cc:67-73. -/
def resetWith (z : Nat) (l : List Evt) : List Evt := if z ≠ 2 ^ 64 - 1 ∧ z ≠ 0 then l.map (shift z) else l

/-- `Trace::find_and_reset_zero`, trace.cc:83-87, locality.cc:53-74; `none`: see `zeroScan`. -/
def resetZero (ws : List Wrk) : Option (List Wrk) :=
  if ws.all fun w => (zeroOf ws w.loc).isSome then
    some (ws.map fun w => { w with events := resetWith ((zeroOf ws w.loc).getD 0) w.events })
  else none

end Dashmm.Trace
