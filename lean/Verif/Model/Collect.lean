import Verif.Model.Combine
import Mathlib.Analysis.Complex.Norm
/-!
# The test program that compares an evaluation with exact potentials

`test/collect/collect.cc`.  Potentials are complex numbers, arithmetic is exact.  The program passes the
method and the parameters to `evaluate` as objects, where `include/dashmm/evaluator.h:301-307` takes
pointers, so it does not compile against the library as it is; the calls it means are modelled.
-/
namespace Dashmm.Collect

open Combine

/-- The method named on the command line. -/
inductive Method where
  | bh
  | fmm
  | fmm97
  | other
deriving DecidableEq

/-- `InputArguments`, test/collect/collect.cc:53-61: names that are compared with are replaced by an
enumeration. `dataGiven`: `datafile` is not empty. -/
structure Args where
  dataGiven : Bool
  method : Method
  kernel : Kernel
  accuracy : ℤ
  limit : ℤ

/-- The tests of `read_arguments`, test/collect/collect.cc:133-175; `false` is the return of -1. -/
def accepted (a : Args) : Bool :=
  if a.dataGiven = false then false
  else if a.method ≠ .bh ∧ a.method ≠ .fmm ∧ a.method ≠ .fmm97 then false
  else if a.kernel = .laplace ∧ a.method = .fmm97 ∧ a.accuracy ≠ 3 ∧ a.accuracy ≠ 6 then false
  else if a.kernel = .yukawa ∧ a.method ≠ .fmm97 then false
  else if a.kernel = .yukawa ∧ a.accuracy ≠ 3 ∧ a.accuracy ≠ 6 then false
  else if a.kernel = .helmholtz ∧ a.method ≠ .fmm97 then false
  else if a.kernel = .helmholtz ∧ a.accuracy ≠ 3 ∧ a.accuracy ≠ 6 then false
  else true

/-- A collective call of the library made by a rank: `allocate`, `put`, `evaluate`, `collect`,
`destroy`. -/
inductive Call (F : Type) where
  | allocate (sources : Bool) (count : ℤ)
  | put (sources : Bool) (count : ℤ)
  | evaluate (k : Kernel) (m : Method) (accuracy limit : ℤ) (params : List F)
  | collect
  | destroy (sources : Bool)
deriving DecidableEq

/-- `read_input_data`, test/collect/collect.cc:201-227: rank 0 reads the file (here: its header), the
others get an empty header. -/
def readInput {F : Type} (one : F) (rank : ℕ) (file : Header F) : Header F :=
  if rank = 0 then file else ⟨0, 0, 0, false, false, false, one, one⟩

/-- The evaluations of `perform_evaluation_test`, test/collect/collect.cc:355-415. -/
def evaluations {F : Type} (a : Args) (h : Header F) : List (Call F) :=
  if a.kernel = .laplace then
    if a.method = .bh then [.evaluate .laplace .bh a.accuracy a.limit []]
    else if a.method = .fmm then [.evaluate .laplace .fmm a.accuracy a.limit []]
    else if a.method = .fmm97 then [.evaluate .laplace .fmm97 a.accuracy a.limit []]
    else []
  else if a.kernel = .yukawa then
    if a.method = .fmm97 then [.evaluate .yukawa .fmm97 a.accuracy a.limit [h.yukawaParam]] else []
  else if a.kernel = .helmholtz then
    if a.method = .fmm97 then [.evaluate .helmholtz .fmm97 a.accuracy a.limit [h.helmholtzParam]] else []
  else []

/-- `perform_evaluation_test`, test/collect/collect.cc:323-431: the collective calls of a rank, in order. -/
def calls {F : Type} (one : F) (a : Args) (file : Header F) (rank : ℕ) : List (Call F) :=
  let h := readInput one rank file
  if (a.kernel = .laplace ∧ h.hasLaplace = false) ∨ (a.kernel = .yukawa ∧ h.hasYukawa = false) ∨
      (a.kernel = .helmholtz ∧ h.hasHelmholtz = false) then []
  else
    [.allocate true h.nSources.toInt, .put true h.nSources.toInt,
      .allocate false h.nTargets.toInt, .put false h.nTargets.toInt] ++
    evaluations a h ++ [.collect, .destroy true, .destroy false]

variable {P : Type}

/-- `normit`, test/collect/collect.cc:258-304. -/
noncomputable def normit (k : Kernel) (t : FileTarget P ℂ) : ℝ :=
  match k with
  | .laplace => Complex.normSq (t.phi - t.phiLaplace)
  | .yukawa => Complex.normSq (t.phi - t.phiYukawa)
  | _ => Complex.normSq (t.phi - t.phiHelmholtz)

/-- `denom`, test/collect/collect.cc:258-304. -/
noncomputable def denom (k : Kernel) (t : FileTarget P ℂ) : ℝ :=
  match k with
  | .laplace => Complex.normSq t.phiLaplace
  | .yukawa => Complex.normSq t.phiYukawa
  | _ => Complex.normSq t.phiHelmholtz

/-- `maxrelerr`, test/collect/collect.cc:258-304: of the real parts for Laplace and Yukawa. -/
noncomputable def maxrelerr (k : Kernel) (t : FileTarget P ℂ) : ℝ :=
  match k with
  | .laplace => |(t.phi.re - t.phiLaplace.re) / t.phiLaplace.re|
  | .yukawa => |(t.phi.re - t.phiYukawa.re) / t.phiYukawa.re|
  | _ => Real.sqrt (Complex.normSq (t.phi - t.phiHelmholtz) / Complex.normSq t.phiHelmholtz)

/-- The loop of `compare_results`, test/collect/collect.cc:307-317: numerator, denominator, maximum. -/
noncomputable def compareLoop (k : Kernel) (ts : List (FileTarget P ℂ)) : ℝ × ℝ × ℝ :=
  ts.foldl (fun s t =>
    let localrel := maxrelerr k t
    (s.1 + normit k t, s.2.1 + denom k t, if localrel > s.2.2 then localrel else s.2.2)) (0, 0, 0)

/-- The two numbers printed by `compare_results`, test/collect/collect.cc:318-319. -/
noncomputable def compareResults (k : Kernel) (ts : List (FileTarget P ℂ)) : ℝ × ℝ :=
  let s := compareLoop k ts
  (Real.sqrt (s.1 / s.2.1), s.2.2)

end Dashmm.Collect
