import Verif.Model.StepRun
/-!
# The options of the time-stepping demo
-/
namespace Dashmm.StepRun

/-- The argument of the last option with a letter. -/
def lastOf (c : Char) (opts : List (Char × String)) : Option String :=
  ((opts.filter fun o => o.1 = c).getLast?).map (·.2)

end Dashmm.StepRun
