import Verif.Model.Com
import Mathlib.Analysis.Real.Sqrt

/-!
# Evaluating centre-of-mass expansions at targets

`M_to_T` and `S_to_T` of `include/builtins/laplace_com.h` and
`include/builtins/laplace_com_acc.h`, in exact real arithmetic with the real
square root.  `phi` is complex in the code but only its real part is ever
changed here, so it is a real number.
-/

namespace Dashmm.Com

/-- A target of `LaplaceCOM`: `position` and `phi` (laplace_com.h:62-64). -/
structure PhiTarget where
  x : ℝ
  y : ℝ
  z : ℝ
  phi : ℝ

/-- A target of `LaplaceCOMAcc`: `position` and `acceleration[3]`
(laplace_com_acc.h:62-64). -/
structure AccTarget where
  x : ℝ
  y : ℝ
  z : ℝ
  a0 : ℝ
  a1 : ℝ
  a2 : ℝ

/-- The body of the loop of `LaplaceCOM::M_to_T` (laplace_com.h:194-213). -/
noncomputable def comMToT1 (d : Data ℝ) (i : PhiTarget) : PhiTarget :=
  let d0 := i.x - d.c0
  let d1 := i.y - d.c1
  let d2 := i.z - d.c2
  let diff2mag := d0 * d0 + d1 * d1 + d2 * d2
  let diffmag := Real.sqrt diff2mag
  let quaddenom := -1 / (2 * diff2mag * diff2mag * diffmag)
  let sum := d.mtot / diffmag
  let qsum := d.qxx * d0 * d0
  let qsum := qsum + 2 * d.qxy * d0 * d1
  let qsum := qsum + 2 * d.qxz * d0 * d2
  let qsum := qsum + d.qyy * d1 * d1
  let qsum := qsum + 2 * d.qyz * d1 * d2
  let qsum := qsum + d.qzz * d2 * d2
  let qsum := qsum * quaddenom
  let sum := sum + qsum
  { i with phi := i.phi + sum }

/-- `LaplaceCOM::M_to_T` (laplace_com.h:191-215). -/
noncomputable def comMToT (d : Data ℝ) (ts : List PhiTarget) : List PhiTarget :=
  ts.map (comMToT1 d)

/-- The inner loop of `LaplaceCOM::S_to_T` (laplace_com.h:226-233): a source at
the target's own position is skipped. -/
noncomputable def comSToTSum (srcs : List (Src ℝ)) (t : PhiTarget) : ℝ :=
  srcs.foldl (fun sum i =>
    let d0 := t.x - i.x
    let d1 := t.y - i.y
    let d2 := t.z - i.z
    let mag := d0 * d0 + d1 * d1 + d2 * d2
    if 0 < mag then sum + i.charge / Real.sqrt mag else sum) 0

/-- `LaplaceCOM::S_to_T` (laplace_com.h:219-237). -/
noncomputable def comSToT (srcs : List (Src ℝ)) (ts : List PhiTarget) : List PhiTarget :=
  ts.map (fun t => { t with phi := t.phi + comSToTSum srcs t })

/-- The body of the loop of `LaplaceCOMAcc::M_to_T`
(laplace_com_acc.h:194-235). -/
noncomputable def accMToT1 (d : Data ℝ) (i : AccTarget) : AccTarget :=
  let d0 := i.x - d.c0
  let d1 := i.y - d.c1
  let d2 := i.z - d.c2
  let diff2mag := d0 * d0 + d1 * d1 + d2 * d2
  let diffmag := Real.sqrt diff2mag
  let n0 := d0 / diffmag
  let n1 := d1 / diffmag
  let n2 := d2 / diffmag
  let diff4mag := diff2mag * diff2mag
  -- monopole
  let mono := d.mtot / diff2mag
  let i := { i with a0 := i.a0 + mono * n0, a1 := i.a1 + mono * n1, a2 := i.a2 + mono * n2 }
  -- one quadrupole term
  let qsum := d.qxx * n0 * n0
  let qsum := qsum + 2 * d.qxy * n0 * n1
  let qsum := qsum + 2 * d.qxz * n0 * n2
  let qsum := qsum + d.qyy * n1 * n1
  let qsum := qsum + 2 * d.qyz * n1 * n2
  let qsum := qsum + d.qzz * n2 * n2
  let qsum := qsum * (5 / (2 * diff4mag))
  let i := { i with a0 := i.a0 + qsum * n0, a1 := i.a1 + qsum * n1, a2 := i.a2 + qsum * n2 }
  -- the other quadrupole term
  let qalt := d.qxx * n0 + d.qxy * n1 + d.qxz * n2
  let i := { i with a0 := i.a0 - qalt / diff4mag }
  let qalt := d.qxy * n0 + d.qyy * n1 + d.qyz * n2
  let i := { i with a1 := i.a1 - qalt / diff4mag }
  let qalt := d.qxz * n0 + d.qyz * n1 + d.qzz * n2
  { i with a2 := i.a2 - qalt / diff4mag }

/-- `LaplaceCOMAcc::M_to_T` (laplace_com_acc.h:191-237). -/
noncomputable def accMToT (d : Data ℝ) (ts : List AccTarget) : List AccTarget :=
  ts.map (accMToT1 d)

/-- The inner loop of `LaplaceCOMAcc::S_to_T` (laplace_com_acc.h:247-258). -/
noncomputable def accSToTSum (srcs : List (Src ℝ)) (t : AccTarget) : ℝ × ℝ × ℝ :=
  srcs.foldl (fun (s : ℝ × ℝ × ℝ) i =>
    let d0 := t.x - i.x
    let d1 := t.y - i.y
    let d2 := t.z - i.z
    let mag := d0 * d0 + d1 * d1 + d2 * d2
    let sqrtmag := Real.sqrt mag
    if 0 < mag then
      (s.1 + i.charge * d0 / (mag * sqrtmag),
       s.2.1 + i.charge * d1 / (mag * sqrtmag),
       s.2.2 + i.charge * d2 / (mag * sqrtmag))
    else s) (0, 0, 0)

/-- `LaplaceCOMAcc::S_to_T` (laplace_com_acc.h:241-264). -/
noncomputable def accSToT (srcs : List (Src ℝ)) (ts : List AccTarget) : List AccTarget :=
  ts.map (fun t =>
    let s := accSToTSum srcs t
    { t with a0 := t.a0 + s.1, a1 := t.a1 + s.2.1, a2 := t.a2 + s.2.2 })

end Dashmm.Com
