import Verif.Model.Exec
import Verif.Model.MethodExec
/-!
# The output of the demo of a user's expansion

`demo/user/user_expansion.h`: every operation of `User` prints a line.  What is printed along an edge of the DAG
follows from the operation of the edge, the numbers of particles at its ends and their indices.
-/
namespace Dashmm.UserRun

/-- The lines printed by `User`, demo/user/user_expansion.h:210, 217, 223, 230, 237, 244, 250, 256 and 281. -/
inductive Line where
  | sToM (sources : ℕ)
  | sToL (sources : ℕ)
  | mToM (fromChild : ℕ)
  | mToL
  | lToL (toChild : ℕ)
  | mToT (targets : ℕ)
  | lToT (targets : ℕ)
  | sToT (sources targets : ℕ)
  | adding
deriving DecidableEq

/-- The numbers of sources and targets of particle nodes. -/
structure Counts where
  sources : Ref → ℕ
  targets : Ref → ℕ

/-- What the operation of an edge prints when it is served: include/dashmm/dualtree.h:1665-1698 with
include/dashmm/expansionlco.h:200-233 for the edges of a source leaf, include/dashmm/expansionlco.h:545-625 for those of
an expansion. The operations on targets only send something here. `M_to_I`, `I_to_I` and `I_to_L` of `User` print
nothing (demo/user/user_expansion.h:260-276). -/
def applyLines (c : Counts) (e : Edge) : List Line :=
  match e.op with
  | .StoM => [.sToM (c.sources e.src)]
  | .StoL => [.sToL (c.sources e.src)]
  | .MtoM => [.mToM e.src.ix.whichChild]
  | .MtoL => [.mToL]
  | .LtoL => [.lToL e.dst.ix.whichChild]
  | _ => []

/-- What is printed when the contribution of an edge is taken up: `operation_handler`,
include/dashmm/expansionlco.h:344-367 for expansions, include/dashmm/targetlco.h:176-218 for targets, where nothing is
done without targets, and `S_to_T` is not called without sources. -/
def arriveLines (c : Counts) (e : Edge) : List Line :=
  match e.op with
  | .StoT =>
    if c.targets e.dst = 0 then []
    else if c.sources e.src ≠ 0 then [.sToT (c.sources e.src) (c.targets e.dst)]
    else []
  | .MtoT => if c.targets e.dst = 0 then [] else [.mToT (c.targets e.dst)]
  | .LtoT => if c.targets e.dst = 0 then [] else [.lToT (c.targets e.dst)]
  | _ => [.adding]

/-- What is printed at an event of an execution. -/
def eventLines (c : Counts) : Ev Ref Edge → List Line
  | .apply e => applyLines c e
  | .arrive e => arriveLines c e
  | _ => []

/-- What is printed in an execution, on all ranks, in order. -/
def output (c : Counts) (log : List (Ev Ref Edge)) : List Line := log.flatMap (eventLines c)

end Dashmm.UserRun
