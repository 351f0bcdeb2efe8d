import Verif.Model.DemoRun
/-!
# What the arguments of the basic demo mean
-/
namespace Dashmm.DemoRun

/-- The argument of the last option with a letter. -/
def lastOf (c : Char) (opts : List (Char × String)) : Option String :=
  ((opts.filter fun o => o.1 = c).getLast?).map (·.2)

/-- The help is asked for, or an option is not known. -/
def StopsAt (o : Char × String) : Prop := o.1 = 'h' ∨ o.1 = '?'

/-- The distributions of points. -/
def IsDistribution (s : String) : Prop := s = "cube" ∨ s = "sphere" ∨ s = "plummer"

/-- The kernels. -/
def IsKernel (s : String) : Prop := s = "laplace" ∨ s = "yukawa" ∨ s = "helmholtz"

/-- The methods that can be used with a kernel and a number of digits. -/
inductive Supported : String → String → ℤ → Prop
  | bh (accuracy : ℤ) : Supported "laplace" "bh" accuracy
  | fmm (accuracy : ℤ) : Supported "laplace" "fmm" accuracy
  | fmm97 (kernel : String) (hk : IsKernel kernel) (accuracy : ℤ) (ha : accuracy = 3 ∨ accuracy = 6) :
      Supported kernel "fmm97" accuracy

/-- An evaluator of a kernel, by the multipole method or directly, and its parameters. -/
inductive Evaluates : String → String → Expansion → Method → List ℚ → Prop
  | bh : Evaluates "laplace" "bh" .laplaceCOM (.bh (3 / 5)) []
  | fmm : Evaluates "laplace" "fmm" .laplace .fmm []
  | fmm97 : Evaluates "laplace" "fmm97" .laplace .fmm97 []
  | yukawa : Evaluates "yukawa" "fmm97" .yukawa .fmm97 [1 / 10]
  | helmholtz : Evaluates "helmholtz" "fmm97" .helmholtz .fmm97 [1 / 10]

/-- The direct evaluators of a kernel. -/
inductive Directly : String → Expansion → List ℚ → Prop
  | laplace : Directly "laplace" .laplaceCOM []
  | yukawa : Directly "yukawa" .yukawa [1 / 10]
  | helmholtz : Directly "helmholtz" .helmholtz [1 / 10]

/-- A call without the number of records of the rank. -/
def Call.shape : Call → Call
  | .allocate x _ => .allocate x 0
  | .put x _ => .put x 0
  | c => c

/-- A call is of an array. -/
def Call.uses (x : Arr) : Call → Bool
  | .allocate y _ => y = x
  | .put y _ => y = x
  | .evaluate _ _ s t _ _ _ => s = x ∨ t = x
  | .collect y => y = x
  | .destroy y => y = x

/-- A call begins or ends the life of an array. -/
def Call.bounds : Call → Bool
  | .allocate _ _ => true
  | .destroy _ => true
  | _ => false

/-- The calls of an array are its allocation with a number of records, filling it with as many, other calls,
and its destruction. -/
def LivesIn (x : Arr) (cs : List Call) : Prop :=
  ∃ (n : ℤ) (mid : List Call),
    (cs.filter (·.uses x)) = [.allocate x n, .put x n] ++ mid ++ [.destroy x] ∧ ∀ c ∈ mid, c.bounds = false

end Dashmm.DemoRun
