import Verif.Model.Demo
/-!
# The basic demo: its arguments and the calls it makes

`demo/basic/testmain.cc`.  What `getopt_long` returns is a list of pairs of the letter of an option and its
argument; `atoi` is a parameter.  `int` does not overflow.
-/
namespace Dashmm.DemoRun

open Demo

/-- `InputArguments`, demo/basic/testmain.cc:68-78. -/
structure Args where
  sourceCount : ℤ
  sourceType : String
  targetCount : ℤ
  targetType : String
  limit : ℤ
  method : String
  kernel : String
  verify : Bool
  accuracy : ℤ
deriving DecidableEq

/-- The defaults, demo/basic/testmain.cc:108-116. -/
def defaults : Args :=
  { sourceCount := 10000, sourceType := "cube", targetCount := 10000, targetType := "cube", limit := 40,
    method := "fmm97", kernel := "laplace", verify := true, accuracy := 3 }

/-- One turn of the loop over the options, demo/basic/testmain.cc:136-171; `none` is the return of -1. -/
def option (atoi : String → ℤ) (a : Args) (o : Char × String) : Option Args :=
  if o.1 = 'm' then some { a with method := o.2 }
  else if o.1 = 's' then some { a with sourceCount := atoi o.2 }
  else if o.1 = 'w' then some { a with sourceType := o.2 }
  else if o.1 = 't' then some { a with targetCount := atoi o.2 }
  else if o.1 = 'g' then some { a with targetType := o.2 }
  else if o.1 = 'l' then some { a with limit := atoi o.2 }
  else if o.1 = 'v' then some { a with verify := decide (o.2 = "yes") }
  else if o.1 = 'a' then some { a with accuracy := atoi o.2 }
  else if o.1 = 'k' then some { a with kernel := o.2 }
  else if o.1 = 'h' then none
  else if o.1 = '?' then none
  else some a

/-- The loop over the options, demo/basic/testmain.cc:134-172. -/
def parse (atoi : String → ℤ) (opts : List (Char × String)) : Option Args :=
  opts.foldlM (option atoi) defaults

/-- The tests of the arguments, demo/basic/testmain.cc:174-234; `false` is the return of -1. -/
def accepted (a : Args) : Bool :=
  if a.sourceCount < 1 then false
  else if a.targetCount < 1 then false
  else if a.method ≠ "bh" ∧ a.method ≠ "fmm" ∧ a.method ≠ "fmm97" then false
  else if a.sourceType ≠ "cube" ∧ a.sourceType ≠ "sphere" ∧ a.sourceType ≠ "plummer" then false
  else if a.targetType ≠ "cube" ∧ a.targetType ≠ "sphere" ∧ a.targetType ≠ "plummer" then false
  else if a.kernel = "laplace" ∧ a.method = "fmm97" ∧ a.accuracy ≠ 3 ∧ a.accuracy ≠ 6 then false
  else if a.kernel = "yukawa" ∧ a.method ≠ "fmm97" then false
  else if a.kernel = "yukawa" ∧ a.accuracy ≠ 3 ∧ a.accuracy ≠ 6 then false
  else if a.kernel = "helmholtz" ∧ a.method ≠ "fmm97" then false
  else if a.kernel = "helmholtz" ∧ a.accuracy ≠ 3 ∧ a.accuracy ≠ 6 then false
  else true

/-- `read_arguments`, demo/basic/testmain.cc:106-263, on a rank: what is printed is left out. -/
def readArguments (atoi : String → ℤ) (opts : List (Char × String)) (ranks rank : ℕ) : Option Args :=
  (parse atoi opts).bind fun a =>
    if accepted a then
      some { a with sourceCount := share a.sourceCount.toNat ranks rank,
                    targetCount := share a.targetCount.toNat ranks rank }
    else none

/-- The arrays of `perform_evaluation_test`. -/
inductive Arr where
  | sources
  | targets
  | test
deriving DecidableEq

/-- The expansions of the evaluators, demo/basic/testmain.cc:50-65. -/
inductive Expansion where
  | laplaceCOM
  | laplace
  | yukawa
  | helmholtz
deriving DecidableEq

/-- The methods of the evaluators, demo/basic/testmain.cc:50-65, with the opening parameter of Barnes-Hut. -/
inductive Method where
  | bh (theta : ℚ)
  | fmm
  | fmm97
  | direct
deriving DecidableEq

/-- The calls of the library a rank makes; `count` is the number of records of this rank. -/
inductive Call where
  | allocate (x : Arr) (count : ℤ)
  | put (x : Arr) (count : ℤ)
  | evaluate (e : Expansion) (m : Method) (s t : Arr) (limit accuracy : ℤ) (params : List ℚ)
  | collect (x : Arr)
  | destroy (x : Arr)
deriving DecidableEq

/-- The evaluation of `perform_evaluation_test`, demo/basic/testmain.cc:471-528. -/
def evaluation (a : Args) : List Call :=
  if a.kernel = "laplace" then
    if a.method = "bh" then [.evaluate .laplaceCOM (.bh (6 / 10)) .sources .targets a.limit a.accuracy []]
    else if a.method = "fmm" then [.evaluate .laplace .fmm .sources .targets a.limit a.accuracy []]
    else if a.method = "fmm97" then [.evaluate .laplace .fmm97 .sources .targets a.limit a.accuracy []]
    else []
  else if a.kernel = "yukawa" then
    if a.method = "fmm97" then [.evaluate .yukawa .fmm97 .sources .targets a.limit a.accuracy [1 / 10]] else []
  else if a.kernel = "helmholtz" then
    if a.method = "fmm97" then [.evaluate .helmholtz .fmm97 .sources .targets a.limit a.accuracy [1 / 10]] else []
  else []

/-- The direct evaluation, demo/basic/testmain.cc:573-594. -/
def directEvaluation (a : Args) : List Call :=
  if a.kernel = "laplace" then [.evaluate .laplaceCOM .direct .sources .test a.limit a.accuracy []]
  else if a.kernel = "yukawa" then [.evaluate .yukawa .direct .sources .test a.limit a.accuracy [1 / 10]]
  else if a.kernel = "helmholtz" then [.evaluate .helmholtz .direct .sources .test a.limit a.accuracy [1 / 10]]
  else []

/-- The verification, demo/basic/testmain.cc:531-605. -/
def verification (a : Args) (rank : ℕ) : List Call :=
  let count : ℤ := testCount rank a.targetCount.toNat
  [.collect .targets, .allocate .test count, .put .test count] ++ directEvaluation a ++
    [.collect .test, .destroy .test]

/-- `perform_evaluation_test`, demo/basic/testmain.cc:460-612 with 356-374 and 407-425: the calls of a rank, in
order. -/
def perform (a : Args) (rank : ℕ) : List Call :=
  [.allocate .sources a.sourceCount, .put .sources a.sourceCount,
    .allocate .targets a.targetCount, .put .targets a.targetCount] ++ evaluation a ++
    (if a.verify then verification a rank else []) ++ [.destroy .sources, .destroy .targets]

/-- `main`, demo/basic/testmain.cc:615-630, between `init` and `finalize`. -/
def calls (atoi : String → ℤ) (opts : List (Char × String)) (ranks rank : ℕ) : List Call :=
  match readArguments atoi opts ranks rank with
  | some a => perform a rank
  | none => []

end Dashmm.DemoRun
