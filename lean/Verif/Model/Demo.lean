import Mathlib.Analysis.Complex.Norm
import Mathlib.Analysis.SpecialFunctions.Pow.Real
import Mathlib.Analysis.SpecialFunctions.Trigonometric.Basic
/-!
# The basic demo: points, and verification of the results

`demo/basic/testmain.cc` (and the points of `demo/stepping/stepping.cc`, the same functions of
`test/makepoints/makepoints.cc` and `demo/user/usermain.cc`).  Exact arithmetic; a number
`(double)rand() / RAND_MAX` is a real number between 0 and 1, and `int` does not overflow.
-/
namespace Dashmm.Demo

/-- The number of records of a rank, demo/basic/testmain.cc:248-260 (the same for sources and targets). -/
def share (n ranks rank : ℕ) : ℕ :=
  let share := n / ranks
  let bonus := n % ranks
  if rank < bonus then share + 1 else share

/-- The indices `set_targets` gives on a rank, demo/basic/testmain.cc:377-403: counted from `target_count *
get_my_rank()`. -/
def indices (n ranks rank : ℕ) : List ℕ :=
  let count := share n ranks rank
  let offset := count * rank
  (List.range count).map fun i => i + offset

/-- The indices on all ranks. -/
def allIndices (n ranks : ℕ) : List ℕ := (List.range ranks).flatMap (indices n ranks)

/-- The number of targets to verify, demo/basic/testmain.cc:532-539. -/
def testCount (rank targetCount : ℕ) : ℕ :=
  let c := if rank = 0 then 400 else 0
  if c > targetCount then targetCount else c

/-- The places of these targets in the sorted array of all `total` targets, demo/basic/testmain.cc:556-559. -/
def samples (total count : ℕ) : List ℕ := (List.range count).map fun i => i * (total / count)

/-- `TargetData`, demo/basic/testmain.cc:38-42. -/
structure Target (P : Type) where
  position : P
  phi : ℂ
  index : ℤ

variable {P : Type}

/-- `test_targets`, demo/basic/testmain.cc:551-561 (their `phi` is set to zero there; it is not looked at). -/
def testTargets (ts : List (Target P)) (count : ℕ) : List (Target P) :=
  (samples ts.length count).filterMap fun i => ts[i]?

/-- The map `offsets` of `compare_results`, demo/basic/testmain.cc:433-437: a later target of the same index
replaces an earlier one. -/
def offsets (ts : List (Target P)) : ℤ → Option ℕ :=
  ts.zipIdx.foldl (fun m x => fun c => if c = x.1.index then some x.2 else m c) fun _ => none

/-- The loop of `compare_results`, demo/basic/testmain.cc:439-454; `none`: the assertion that the index is known
fails. -/
noncomputable def compareLoop (ts : List (Target P)) (exacts : List (Target P)) : Option (ℝ × ℝ × ℝ) :=
  exacts.foldlM (fun (s : ℝ × ℝ × ℝ) e =>
    ((offsets ts e.index).bind fun i => ts[i]?).map fun t =>
      let relerr := Complex.normSq (t.phi - e.phi)
      let exnorm := Complex.normSq e.phi
      (s.1 + relerr, s.2.1 + exnorm,
        if Real.sqrt (relerr / exnorm) > s.2.2 then Real.sqrt (relerr / exnorm) else s.2.2)) (0, 0, 0)

/-- `compare_results`, demo/basic/testmain.cc:428-457: the two numbers printed. -/
noncomputable def compareResults (ts : List (Target P)) (exacts : List (Target P)) : Option (ℝ × ℝ) :=
  (compareLoop ts exacts).map fun s => (Real.sqrt (s.1 / s.2.1), s.2.2)

/-- `pick_cube_position`, demo/basic/testmain.cc:277-283. -/
noncomputable def pickCube (u0 u1 u2 : ℝ) : ℝ × ℝ × ℝ := (u0 - 0.5, u1 - 0.5, u2 - 0.5)

/-- The position at radius `r` that two random numbers give, demo/basic/testmain.cc:288-295, 312-319. -/
noncomputable def onSphere (r u1 u2 : ℝ) : ℝ × ℝ × ℝ :=
  let ctheta := 2 * u1 - 1
  let stheta := Real.sqrt (1 - ctheta * ctheta)
  let phi := 2 * 3.1415926535 * u2
  (r * stheta * Real.cos phi, r * stheta * Real.sin phi, r * ctheta)

/-- `pick_sphere_position`, demo/basic/testmain.cc:286-296. -/
noncomputable def pickSphere (u1 u2 : ℝ) : ℝ × ℝ × ℝ := onSphere 1 u1 u2

/-- The radicand of the radius in `pick_plummer_position`, demo/basic/testmain.cc:311. -/
noncomputable def plummerRadicand (u : ℝ) : ℝ := u ^ (-2 / 3 : ℝ) - 1

/-- `pick_plummer_position`, demo/basic/testmain.cc:308-320. -/
noncomputable def pickPlummer (u0 u1 u2 : ℝ) : ℝ × ℝ × ℝ := onSphere (1 / Real.sqrt (plummerRadicand u0)) u1 u2

/-- `pick_charge`, demo/basic/testmain.cc:299-305; `odd`: `rand() % 2`. -/
noncomputable def pickCharge (useNegative odd : Bool) (u : ℝ) : ℝ :=
  let retval := u + 1
  if useNegative && odd then retval * -1 else retval

/-- `pick_plummer_charge`, demo/basic/testmain.cc:324-327, called with the number of sources of the rank. -/
noncomputable def plummerCharge (count : ℕ) : ℝ := 100 / count

/-- The total charge of Plummer sources on all ranks, demo/basic/testmain.cc:346-350. -/
noncomputable def plummerTotal (n ranks : ℕ) : ℝ :=
  ((List.range ranks).map fun r => (share n ranks r : ℝ) * plummerCharge (share n ranks r)).sum

/-- `pick_sphere_position` of demo/stepping/stepping.cc:159-169: the radius is a random number. -/
noncomputable def pickBall (u0 u1 u2 : ℝ) : ℝ × ℝ × ℝ := onSphere u0 u1 u2

end Dashmm.Demo
