import Verif.Spec.TraceFile
import Verif.Spec.TraceZero
import Verif.Model.TraceKeys

/-!
Specification: files that were read from the file system, and references between the tables.
-/

namespace Dashmm.Trace

/-- All files were opened and read without an exception. -/
def Loaded (fs : List TFile) : Prop := ∀ f ∈ fs, ∃ name bytes, load name bytes = some f

/-- The statements one after the other. -/
def execAll (c : Conn) (l : List Stmt) : Option Conn := l.foldlM Conn.exec c

end Dashmm.Trace
