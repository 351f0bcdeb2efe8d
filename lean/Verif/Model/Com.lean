import Mathlib.Algebra.Field.Basic
import Mathlib.Data.Rat.Cast.Defs

/-!
# Model of the centre-of-mass expansions

`include/builtins/laplace_com.h` (`LaplaceCOM`) and
`include/builtins/laplace_com_acc.h` (`LaplaceCOMAcc`).

Simplifications: arithmetic is exact, over an arbitrary field `K`, instead of
in `double`.  A floating point division by zero gives a NaN or an infinity,
after which the three coordinates of the centre and all quadrupole entries of
the expansion, and of every expansion it is added to, are not finite numbers;
this is the outcome `none` here.
-/

namespace Dashmm.Com

/-- A source as `LaplaceCOM` sees it: `charge` and `position`
(laplace_com.h:62-64, "Source must define a double valued 'charge' member"). -/
structure Src (K : Type) where
  charge : K
  x : K
  y : K
  z : K

/-- `LaplaceCOMData` (laplace_com.h:38-42) and `LaplaceCOMAccData`
(laplace_com_acc.h:37-41): `mtot`, `xcom[0..2]`, and `Q[0..5]` in the order
xx, xy, xz, yy, yz, zz. -/
@[ext] structure Data (K : Type) where
  mtot : K
  c0 : K
  c1 : K
  c2 : K
  qxx : K
  qxy : K
  qxz : K
  qyy : K
  qyz : K
  qzz : K

variable {K : Type} [Field K] [DecidableEq K]

/-- The constructor (laplace_com.h:71-87, laplace_com_acc.h:71-88): everything
is set to zero. -/
def fresh : Data K := ⟨0, 0, 0, 0, 0, 0, 0, 0, 0, 0⟩

/-- `calc_mtot` (laplace_com.h:343-349): the loop over `[first, last)`. -/
def calcMtot (d : Data K) (srcs : List (Src K)) : Data K :=
  srcs.foldl (fun d i => { d with mtot := d.mtot + i.charge }) { d with mtot := 0 }

/-- `calc_xcom` (laplace_com.h:355-371), with the guard `mtot != 0.0`. -/
def calcXcom (d : Data K) (srcs : List (Src K)) : Data K :=
  let d := srcs.foldl (fun d i => { d with
      c0 := d.c0 + i.charge * i.x
      c1 := d.c1 + i.charge * i.y
      c2 := d.c2 + i.charge * i.z }) { d with c0 := 0, c1 := 0, c2 := 0 }
  if d.mtot ≠ 0 then
    let oomtot := 1 / d.mtot
    { d with c0 := d.c0 * oomtot, c1 := d.c1 * oomtot, c2 := d.c2 * oomtot }
  else d

/-- `calc_Q` (laplace_com.h:377-396). -/
def calcQ (d : Data K) (srcs : List (Src K)) : Data K :=
  srcs.foldl (fun d i =>
      let d0 := i.x - d.c0
      let d1 := i.y - d.c1
      let d2 := i.z - d.c2
      let mag := d0 * d0 + d1 * d1 + d2 * d2
      { d with
        qxx := d.qxx + i.charge * (3 * d0 * d0 - mag)
        qxy := d.qxy + i.charge * 3 * d0 * d1
        qxz := d.qxz + i.charge * 3 * d0 * d2
        qyy := d.qyy + i.charge * (3 * d1 * d1 - mag)
        qyz := d.qyz + i.charge * 3 * d1 * d2
        qzz := d.qzz + i.charge * (3 * d2 * d2 - mag) })
    { d with qxx := 0, qxy := 0, qxz := 0, qyy := 0, qyz := 0, qzz := 0 }

/-- `S_to_M` (laplace_com.h:160-167, laplace_com_acc.h:160-167). -/
def sToM (srcs : List (Src K)) : Data K :=
  calcQ (calcXcom (calcMtot fresh srcs) srcs) srcs

/-- `M_to_M` (laplace_com.h:174-181): a copy, about the same centre of mass. -/
def mToM (d : Data K) : Data K :=
  { mtot := d.mtot, c0 := d.c0, c1 := d.c1, c2 := d.c2,
    qxx := d.qxx, qxy := d.qxy, qxz := d.qxz, qyy := d.qyy, qyz := d.qyz, qzz := d.qzz }

/-- The part of `add_expansion` after `Dprime` is known
(laplace_com.h:270-297, laplace_com_acc.h:299-326). -/
def mergeAt (a b : Data K) (m p0 p1 p2 : K) : Data K :=
  let e0 := a.c0 - p0
  let e1 := a.c1 - p1
  let e2 := a.c2 - p2
  let emag := e0 * e0 + e1 * e1 + e2 * e2
  let f0 := b.c0 - p0
  let f1 := b.c1 - p1
  let f2 := b.c2 - p2
  let fmag := f0 * f0 + f1 * f1 + f2 * f2
  { mtot := m, c0 := p0, c1 := p1, c2 := p2
    qxx := (a.mtot * (3 * e0 * e0 - emag) + a.qxx) + (b.mtot * (3 * f0 * f0 - fmag) + b.qxx)
    qxy := (a.mtot * (3 * e0 * e1) + a.qxy) + (b.mtot * (3 * f0 * f1) + b.qxy)
    qxz := (a.mtot * (3 * e0 * e2) + a.qxz) + (b.mtot * (3 * f0 * f2) + b.qxz)
    qyy := (a.mtot * (3 * e1 * e1 - emag) + a.qyy) + (b.mtot * (3 * f1 * f1 - fmag) + b.qyy)
    qyz := (a.mtot * (3 * e1 * e2) + a.qyz) + (b.mtot * (3 * f1 * f2) + b.qyz)
    qzz := (a.mtot * (3 * e2 * e2 - emag) + a.qzz) + (b.mtot * (3 * f2 * f2 - fmag) + b.qzz) }

/-- `LaplaceCOM::add_expansion` (laplace_com.h:251-298): there is no guard, so
a zero `Mprime` leaves no finite centre. -/
def addCom (a b : Data K) : Option (Data K) :=
  let m := a.mtot + b.mtot
  if m = 0 then none
  else some (mergeAt a b m
    ((a.mtot * a.c0 + b.mtot * b.c0) / m)
    ((a.mtot * a.c1 + b.mtot * b.c1) / m)
    ((a.mtot * a.c2 + b.mtot * b.c2) / m))

/-- `LaplaceCOMAcc::add_expansion` (laplace_com_acc.h:278-327): guarded, the
centre is the origin when `Mprime` is zero. -/
def addAcc (a b : Data K) : Option (Data K) :=
  let m := a.mtot + b.mtot
  if m ≠ 0 then some (mergeAt a b m
    ((a.mtot * a.c0 + b.mtot * b.c0) / m)
    ((a.mtot * a.c1 + b.mtot * b.c1) / m)
    ((a.mtot * a.c2 + b.mtot * b.c2) / m))
  else some (mergeAt a b m 0 0 0)

/-- A source tree as far as moments are concerned.  The order of the list of
children is the order in which their contributions arrive, so quantifying over
trees quantifies over arrival orders. -/
inductive MTree (K : Type) where
  | leaf (srcs : List (Src K))
  | node (kids : List (MTree K))

mutual
/-- The moments held by the expansion LCO of a tree node once it triggers.
`ExpansionLCO::operation_handler` (expansionlco.h:337-360) starts from a fresh
expansion at the first input and adds every input to it.  A leaf has one input,
`S_to_M` of its sources (expansionlco.h:200-208); an internal node has one input
per child, `M_to_M` of the child's moments (expansionlco.h:587-594).  `add` is
the expansion's `add_expansion`. -/
def moments (add : Data K → Data K → Option (Data K)) : MTree K → Option (Data K)
  | .leaf srcs => add fresh (sToM srcs)
  | .node kids => momentsList add kids fresh
/-- The inputs of an internal node, one after the other. -/
def momentsList (add : Data K → Data K → Option (Data K)) :
    List (MTree K) → Data K → Option (Data K)
  | [], acc => some acc
  | t :: ts, acc => do
      let d ← moments add t
      let acc ← add acc (mToM d)
      momentsList add ts acc
end

end Dashmm.Com
