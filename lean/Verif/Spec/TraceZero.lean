import Verif.Spec.Trace
import Verif.Model.TraceZero

/-!
Specification: reading a trace with a time origin, main.cc:62-68.
-/

namespace Dashmm.Trace

/-- The files are added, the origin is set, and the trace is finalized. -/
def ReadsZero (fs : List TFile) (S : St) : Prop :=
  ∃ S0 ws, addFiles St.start fs = .ok S0 ∧ resetZero S0.ws = some ws ∧ Finalizes ⟨S0.locked, S0.counter, ws⟩ S

/-- The first record that is read for the worker is an origin, at time `z`. -/
def BeginsWithZero (fs : List TFile) (k : Int × Int) (z : Nat) : Prop :=
  ∃ e, (recordsOf fs k).head? = some e ∧ e.tag = "dashmm zero ref" ∧ e.stamp = z

/-- The origin of the locality: that of the first of its workers that begins with one. -/
def Origin (fs : List TFile) (loc : Int) (z : Nat) : Prop :=
  ∃ wid, BeginsWithZero fs (loc, wid) z ∧ ∀ wid' < wid, ∀ z', ¬ BeginsWithZero fs (loc, wid') z'

/-- The same record, later by `d`. -/
def later (d : Nat) (e : Evt) : Evt := { e with stamp := e.stamp + d }

end Dashmm.Trace
