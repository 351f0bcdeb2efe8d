import Mathlib.Analysis.SpecialFunctions.Sqrt
import Mathlib.Algebra.BigOperators.Group.List.Basic
/-!
# The time-stepping demo: its arguments and the calls it makes

`demo/stepping/stepping.cc`.  What `getopt_long` returns is a list of pairs of the letter of an option and its
argument; `atoi` is a parameter, and so are the masses rank 0 draws.  Real arithmetic.
-/
namespace Dashmm.StepRun

/-- `InputArguments`, demo/stepping/stepping.cc:44-49. -/
structure Args where
  count : ℤ
  limit : ℤ
  steps : ℤ
  output : String
deriving DecidableEq

/-- The defaults, demo/stepping/stepping.cc:84-87. -/
def defaults : Args := { count := 10000, limit := 40, steps := 20, output := "" }

/-- One turn of the loop over the options, demo/stepping/stepping.cc:102-122; `none` is the return of -1. -/
def option (atoi : String → ℤ) (a : Args) (o : Char × String) : Option Args :=
  if o.1 = 's' then some { a with count := atoi o.2 }
  else if o.1 = 'l' then some { a with limit := atoi o.2 }
  else if o.1 = 'p' then some { a with steps := atoi o.2 }
  else if o.1 = 'o' then some { a with output := o.2 }
  else if o.1 = 'h' then none
  else if o.1 = '?' then none
  else some a

/-- `read_arguments`, demo/stepping/stepping.cc:82-143, on a rank: what is printed is left out. -/
def readArguments (atoi : String → ℤ) (opts : List (Char × String)) (rank : ℕ) : Option Args :=
  (opts.foldlM (option atoi) defaults).bind fun a =>
    if a.count < 1 then none
    else if rank = 0 then some a
    else some { a with count := 0 }

/-- The sum of `set_sources`, demo/stepping/stepping.cc:178-194. -/
def setSources (masses : List ℝ) : ℝ := masses.foldl (fun m q => m + q) 0

/-- `dt` of a rank before the broadcast, demo/stepping/stepping.cc:250-254 and 267. -/
noncomputable def ownDt (a : Args) (masses : List ℝ) : ℝ :=
  let mTot : ℝ := if a.count ≠ 0 then setSources masses else 1
  Real.sqrt (1 / mTot) / 200

/-- The calls of the library a rank makes, all of them for the array of particles; the argument of `broadcast` is
the value the rank brings. -/
inductive Call where
  | allocate (count : ℤ)
  | put (count : ℤ)
  | broadcast (dt : ℝ)
  | evaluate (limit : ℤ)
  | forEach (dt : ℝ)
  | collect
  | destroy

/-- The loop over the steps, demo/stepping/stepping.cc:278-299. -/
def steps (limit steps : ℤ) (dt : ℝ) : List Call :=
  (List.range steps.toNat).flatMap fun _ => [.evaluate limit, .forEach dt]

/-- `perform_time_stepping`, demo/stepping/stepping.cc:245-313: the calls of a rank, in order; `dt0` is the value
of rank 0 that `broadcast` (include/dashmm/spmdutils.h:44-49) stores on every rank. -/
noncomputable def perform (a : Args) (masses : List ℝ) (dt0 : ℝ) : List Call :=
  [.allocate a.count, .put a.count, .broadcast (ownDt a masses)] ++ steps a.limit a.steps dt0 ++
    (if a.output ≠ "" then [.collect] else []) ++ [.destroy]

/-- `main`, demo/stepping/stepping.cc:317-334, between `init` and `finalize`, on a rank. Rank 0 draws the masses;
the other ranks have no particles. -/
noncomputable def calls (atoi : String → ℤ) (opts : List (Char × String)) (masses : List ℝ) (rank : ℕ) : List Call :=
  match readArguments atoi opts rank, readArguments atoi opts 0 with
  | some a, some a0 => perform a (if rank = 0 then masses else []) (ownDt a0 masses)
  | _, _ => []

/-- `output_results`, demo/stepping/stepping.cc:196-213: the records written by a rank. `collect` gives the records
to rank 0 only. -/
def outputResults {R : Type} (rank : ℕ) (records : List R) : List R := if rank = 0 then records else []

end Dashmm.StepRun
