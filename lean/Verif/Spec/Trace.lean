import Verif.Model.Trace

/-!
Specification: the records of the traces, independent of the reader.
-/

namespace Dashmm.Trace

/-- All records that the files hold for a worker of a locality. -/
def recordsOf (fs : List TFile) (k : Int × Int) : List Evt :=
  (fs.filter fun f => decide ((f.loc, f.wid) = k)).flatMap TFile.events

/-- The record is in the interval, which includes `a` and not `b`. -/
def inside (a b : Nat) (e : Evt) : Bool := decide (a ≤ e.stamp ∧ e.stamp < b)

/-- `t` is the time of the latest of the records. -/
def Latest (l : List Evt) (t : Nat) : Prop := (∃ e ∈ l, e.stamp = t) ∧ ∀ e ∈ l, e.stamp ≤ t

/-- `t` is the time of the earliest of the records. -/
def Earliest (l : List Evt) (t : Nat) : Prop := (∃ e ∈ l, e.stamp = t) ∧ ∀ e ∈ l, t ≤ e.stamp

/-- Every file has at least one record. -/
def NoEmptyFile (fs : List TFile) : Prop := ∀ f ∈ fs, f.events ≠ []

/-- The reader has added the files one after the other and was then finalized. -/
def Reads (fs : List TFile) (S : St) : Prop := ∃ S0, addFiles St.start fs = .ok S0 ∧ Finalizes S0 S

end Dashmm.Trace
