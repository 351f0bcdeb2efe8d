import Verif.Model.Methods

/-!
The methods as they behave when the library is compiled with `NDEBUG`: `assert` expands to nothing,
so its argument is not evaluated. The primary and intermediate DAG nodes are all created inside the
argument of an `assert`: include/builtins/bh_method.h:72,80, include/builtins/fmm_method.h:59,67,85,
include/builtins/fmm97_method.h:59,63,71,80,93,172. `add_parts()` is called outside of assertions.
-/

namespace Dashmm

/-- The action is the argument of an `assert`. -/
def Act.inAssert : Act → Bool
  | .add r => decide (r.kind ≠ .parts)
  | .link _ => false

/-- The method compiled with `NDEBUG`: what is inside assertions does not happen. -/
def Method.ndebug (m : Method) : Method where
  generate n := (m.generate n).filter fun a => !a.inAssert
  aggregate n := (m.aggregate n).filter fun a => !a.inAssert
  inherit n p leaf := (m.inherit n p leaf).filter fun a => !a.inAssert
  process n c leaf := ((m.process n c leaf).1.filter fun a => !a.inAssert, (m.process n c leaf).2)
  refineTest := m.refineTest

end Dashmm
