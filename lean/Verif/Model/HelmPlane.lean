import Verif.Model.HelmShift
import Verif.Model.YukPlane

/-!
# Model of the plane waves of the Helmholtz kernel: from multipole expansions, to local expansions

`legendre_Plm_evan_scaled`, `legendre_Plm_prop_scaled` (src/special_function.cc), `M_to_I`, `I_to_I`, `I_to_L` and `e2l` of
include/builtins/helmholtz.h. The tables of the levels and the shifts are those of `Verif.Model.Waves`. Conventions as in
`Verif.Model.Helmholtz`: `double` is the real numbers, arrays of coefficients are functions of the degree and the order; the
expansions in plane waves are lists. Beyond the last level of the table the outcome is `none`, as it is when the constructor of the
table exits. Reads of `ealphaj` and of the waves outside of the lists would give zero here; that there are none is part of C105.
The views of the propagating and of the evanescent waves are two families: evanescent waves have the numbers 0 ... 5 on
the source side (views 1, 2, 4, 5, 7, 8 of the code), propagating ones 0, 1, 2 (views 0, 3, 6); on the target side both have the numbers
of the tags (views `2 * tag + 1` and `2 * tag` of the code).
-/

namespace Dashmm.Helm

open Complex (I)
open Lap (Coef rotateZ rotateY stepSum PlaneTable)
open Waves (Level evanLevel propLevel evanEToE propEToE slotArr extra unitsAt)
open Yukawa (pz1 pz2 ealpha)

noncomputable section

/-! ### Legendre functions -/

/-- `P[midx(n, n)]` of `legendre_Plm_evan_scaled`, src/special_function.cc:76-80. -/
def evanDiag (u : ℝ) : ℕ → ℝ
  | 0 => 1
  | n + 1 => evanDiag u n * u * (2 * ((n + 1 : ℕ) : ℝ) - 1)

/-- `P[midx(m + k, m)]` of `legendre_Plm_evan_scaled`, src/special_function.cc:76-91. -/
def evanCol (u v w : ℝ) (m : ℕ) : ℕ → ℝ
  | 0 => evanDiag u m
  | 1 => evanDiag u m * (2 * (m : ℝ) + 1) * v
  | k + 2 =>
    let n : ℝ := ((m + k + 2 : ℕ) : ℝ)
    ((2 * n - 1) * v * evanCol u v w m (k + 1) + (n + m - 1) * w * evanCol u v w m k) / (n - m)

/-- `legendre_Plm_evan_scaled(nb, x, scale, P)`, src/special_function.cc:71-92: `P[midx(n, m)]`. -/
def evanP (x scale : ℝ) (n m : ℕ) : ℝ :=
  let v := scale * x
  let w := scale * scale
  evanCol √(w + v * v) v w m (n - m)

/-- `P[midx(n, n)]` of `legendre_Plm_prop_scaled`, src/special_function.cc:99-102. -/
def propDiag (u : ℝ) (v : ℂ) : ℕ → ℂ
  | 0 => 1
  | n + 1 => propDiag u v n * v * u * (2 * ((n + 1 : ℕ) : ℂ) - 1)

/-- `P[midx(m + k, m)]` of `legendre_Plm_prop_scaled`, src/special_function.cc:99-113. -/
def propCol (x u s2 : ℝ) (v : ℂ) (m : ℕ) : ℕ → ℂ
  | 0 => propDiag u v m
  | 1 => (2 * (m : ℂ) + 1) * x * (-v) * propDiag u v m
  | k + 2 =>
    let n : ℂ := ((m + k + 2 : ℕ) : ℂ)
    (-v * (2 * n - 1) * x * propCol x u s2 v m (k + 1) + s2 * (n + m - 1) * propCol x u s2 v m k) / (n * 1 - m)

/-- `legendre_Plm_prop_scaled(nb, x, scale, P)`, src/special_function.cc:94-114: `P[midx(n, m)]`. -/
def propP (x scale : ℝ) (n m : ℕ) : ℂ := propCol x √(1 - x * x) (scale * scale) (scale * I) m (n - m)

/-! ### The table -/

/-- The Gauss rule of the propagating waves, `x_p_`, `w_p_` of `gaussq`, src/helmholtz_table.cc:446-637 (a parameter here; see Model/GaussQ), with the
numbers of nodes and frequencies. -/
structure PropRule where
  s : ℕ
  f : ℕ
  x : ℕ → ℝ
  w : ℕ → ℝ

/-- The waves of the level `lev`: evanescent, propagating. src/helmholtz_table.cc:253-440: one turn of the loop. -/
def wavesAt (T : PlaneTable) (Q : PropRule) (size om : ℝ) (lev : ℕ) : Option (Level × Level) :=
  (extra om (unitsAt om size lev)).map fun C =>
    (evanLevel T (unitsAt om size lev) C.1, propLevel Q.s Q.f Q.x (unitsAt om size lev) C.2)

/-- The accessors `m_e(scale)`, `sm_e(scale)`, ... `zs_p(scale)`, include/builtins/helmholtz_table.h:56-104, read the level of
`scale`. The table has the levels up to `maxlev`, and exists if the constructor has found all of them. -/
def wavesOf (T : PlaneTable) (Q : PropRule) (size om scale : ℝ) : Option (Level × Level) := do
  let Ls ← (List.range (maxlev + 1)).mapM fun lev => wavesAt T Q size om lev
  Ls[level size om scale]?

/-- `HelmholtzTable::size(scale)` times `omega`, include/builtins/helmholtz_table.h:105, include/builtins/helmholtz.h:519-520, 1257-1258. -/
def wdOf (size om scale : ℝ) : ℝ := om * (size * scale / scale0 size om)

/-- The array `legendre_e` for `k`, include/builtins/helmholtz.h:596, 1315. -/
def legE (T : PlaneTable) (size om scale : ℝ) (k n m : ℕ) : ℝ := evanP (T.rule.lam k / wdOf size om scale) scale n m

/-- The array `legendre_p` for `k`, include/builtins/helmholtz.h:563, 1375. -/
def legP (Q : PropRule) (scale : ℝ) (k n m : ℕ) : ℂ := propP (Real.cos (Q.x k)) scale n m

/-! ### M to I -/

/-- `z0`, include/builtins/helmholtz.h:565-571. -/
def prop0 (p : ℕ) (SH : Coef) (leg : ℕ → ℕ → ℂ) : ℂ := ∑ n ∈ Finset.range (p + 1), SH n 0 * leg n 0

/-- `zp[m]` and `zm[m]`, include/builtins/helmholtz.h:573-578. -/
def propPM (p : ℕ) (SH : Coef) (leg : ℕ → ℕ → ℂ) (m : ℕ) : ℂ × ℂ :=
  (∑ n ∈ Finset.Icc m p, SH n m * leg n m, ∑ n ∈ Finset.Icc m p, starRingEnd ℂ (SH n m) * leg n m)

/-- `Prop(k, j)`, include/builtins/helmholtz.h:581-587. -/
def propAt (L : Level) (p : ℕ) (leg : ℕ → ℕ → ℕ → ℂ) (SH : Coef) (k j : ℕ) : ℂ :=
  prop0 p SH (leg k) + ∑ m ∈ Finset.Icc 1 (L.f k),
    (ealpha L k j m * (propPM p SH (leg k) m).1 + starRingEnd ℂ (ealpha L k j m) * (propPM p SH (leg k) m).2)

/-- `Prop[dir]`, include/builtins/helmholtz.h:558-591, in the order in which it is filled. -/
def propArr (L : Level) (p : ℕ) (leg : ℕ → ℕ → ℕ → ℂ) (SH : Coef) : List ℂ :=
  (List.range L.s).flatMap fun k => (List.range (L.m k)).map fun j => propAt L p leg SH k (j + 1)

/-- `up` and `dn` for `k` and `j`, include/builtins/helmholtz.h:598-636: `sgn` is plus or minus one. The loops that fill `z1` and `z2` are
those of `yuk_m_to_i`. -/
def evanAt (L : Level) (p : ℕ) (leg : ℕ → ℕ → ℕ → ℝ) (SH : Coef) (sgn : ℂ) (k j : ℕ) : ℂ :=
  pz1 p SH (leg k) 0 + sgn * pz2 p SH (leg k) 0 +
    ∑ m ∈ Finset.Icc 1 (L.f k), ((2 * (ealpha L k j m * (pz1 p SH (leg k) m + sgn * pz2 p SH (leg k) m)).re : ℝ) : ℂ) * I ^ m

/-- `EvanP[dir]` and `EvanM[dir]`, include/builtins/helmholtz.h:593-640, in the order in which they are filled. -/
def evanArr (L : Level) (p : ℕ) (leg : ℕ → ℕ → ℕ → ℝ) (SH : Coef) (sgn : ℂ) : List ℂ :=
  (List.range L.s).flatMap fun k => (List.range (L.m k / 2)).map fun j => evanAt L p leg SH sgn k (j + 1)

/-- `Helmholtz::M_to_I`, include/builtins/helmholtz.h:499-648: the evanescent waves in the directions +x, -x, +y, -y, +z, -z, and the
propagating ones in the directions x, y, z. For a multipole expansion the rotations are those of the Laplace kernel with the
entries of the matrices with `mp` from zero on, see `mToM`. -/
def mToI (T : PlaneTable) (Q : PropRule) (size om : ℝ) (p : ℕ) (scale : ℝ) (M : Coef) : Option ((ℕ → List ℂ) × (ℕ → List ℂ)) :=
  (wavesOf T Q size om scale).map fun L =>
    let legE := legE T size om scale
    let legP := legP Q scale
    let W2 := rotateY (rotateZ M (-Real.pi / 2)) (fun n mp m => hdmatMinus 0 n mp m)
    let W1 := rotateY M (fun n mp m => hdmatPlus 0 n mp m)
    (fun
      | 0 => evanArr L.1 p legE W1 1
      | 1 => evanArr L.1 p legE W1 (-1)
      | 2 => evanArr L.1 p legE W2 1
      | 3 => evanArr L.1 p legE W2 (-1)
      | 4 => evanArr L.1 p legE M 1
      | _ => evanArr L.1 p legE M (-1),
    fun
      | 0 => propArr L.2 p legP W1
      | 1 => propArr L.2 p legP W2
      | _ => propArr L.2 p legP M)

/-- `Helmholtz::I_to_I`, include/builtins/helmholtz.h:650-749: the views made, with their numbers. -/
def iToI (T : PlaneTable) (Q : PropRule) (size om scale : ℝ) (dx dy dz : ℤ) (S : (ℕ → List ℂ) × (ℕ → List ℂ)) :
    Option (List (ℕ × List ℂ) × List (ℕ × List ℂ)) := do
  let L ← wavesOf T Q size om scale
  let e ← Waves.iToI (evanEToE L.1) L.1.nexp dx dy dz S.1
  let q ← Waves.propIToI L.2 dx dy dz S.2
  some (e, q)

/-! ### I to L -/

/-- `z[f_e[k] + m]` of `e2l`, include/builtins/helmholtz.h:1283-1313. -/
def zEvan (L : Level) (E : List ℂ) (k : ℕ) (m : ℤ) : ℂ :=
  let e := fun j => E.getD (L.sm k + j - 1) 0
  let a := fun j => if 0 < m then starRingEnd ℂ (ealpha L k j m.natAbs) else ealpha L k j m.natAbs
  if m = 0 then ∑ j ∈ Finset.Icc 1 (L.m k / 2), ((2 * (e j).re : ℝ) : ℂ)
  else if m.natAbs % 2 = 1 then ∑ j ∈ Finset.Icc 1 (L.m k / 2), (e j - starRingEnd ℂ (e j)) * a j
  else ∑ j ∈ Finset.Icc 1 (L.m k / 2), (e j + starRingEnd ℂ (e j)) * a j

/-- What the evanescent waves add to `W1`, include/builtins/helmholtz.h:1315-1349. The four loops have the factors `I`, `-1`, `-I`, `1`: the
powers of `I`. -/
def backEvan (T : PlaneTable) (L : Level) (size om scale : ℝ) (E : List ℂ) : LCoef := fun n m =>
  ∑ k ∈ Finset.range L.s, if m.natAbs ≤ (if n ≤ L.f k then n else L.f k) then
    zEvan L E k m * ((⟨0, -T.rule.wt k / wdOf size om scale / L.m k⟩ : ℂ) * (legE T size om scale k n m.natAbs : ℂ) * I ^ m.natAbs) else 0

/-- `z[f_p[k] + m]` of `e2l`, include/builtins/helmholtz.h:1356-1373. -/
def zProp (L : Level) (P : List ℂ) (k : ℕ) (m : ℤ) : ℂ :=
  let e := fun j => P.getD (L.sm k + j - 1) 0
  if m = 0 then ∑ j ∈ Finset.Icc 1 (L.m k), e j
  else if 0 < m then ∑ j ∈ Finset.Icc 1 (L.m k), starRingEnd ℂ (ealpha L k j m.natAbs) * e j
  else ∑ j ∈ Finset.Icc 1 (L.m k), ealpha L k j m.natAbs * e j

/-- What the propagating waves add to `W1`, include/builtins/helmholtz.h:1375-1391. -/
def backProp (Q : PropRule) (L : Level) (scale : ℝ) (P : List ℂ) : LCoef := fun n m =>
  ∑ k ∈ Finset.range L.s, if m.natAbs ≤ (if n ≤ L.f k then n else L.f k) then
    zProp L P k m * legP Q scale k n m.natAbs * ((Q.w k / L.m k : ℝ) : ℂ) else 0

/-- `W1` of `e2l` before the rotation, include/builtins/helmholtz.h:1274-1417: the sums over `k`, the scaling, the change of sign of
odd degrees. -/
def backL (T : PlaneTable) (Q : PropRule) (L : Level × Level) (size om scale : ℝ) (P E : List ℂ) (sgn : Bool) : LCoef := fun n m =>
  let w := (backEvan T L.1 size om scale E n m + backProp Q L.2 scale P n m) * ((sqf n m.natAbs * (-1) ^ n : ℝ) : ℂ)
  if !sgn && n % 2 = 1 then -w else w

/-- `e2l(Prop, Evan, dir, sgn, L)`, include/builtins/helmholtz.h:1241-1445: what is added to `L`. -/
def eToL (T : PlaneTable) (Q : PropRule) (L : Level × Level) (size om scale : ℝ) (P E : List ℂ) (dir : Char) (sgn : Bool) : LCoef :=
  let W1 := backL T Q L size om scale P E sgn
  if dir = 'z' then W1
  else if dir = 'y' then rotateZL (rotateYL W1 (hdmatPlus 0)) (Real.pi / 2)
  else rotateYL W1 (hdmatMinus 0)

/-- `Helmholtz::I_to_L`, include/builtins/helmholtz.h:751-1042: the scale is that of the parent; `E` are the evanescent, `P` the propagating
waves by their tags. The waves of the six directions of the child are those of `Waves.slotArr`. -/
def iToL (T : PlaneTable) (Q : PropRule) (size om scale : ℝ) (toChild : ℕ) (E P : ℕ → List ℂ) : Option LCoef := do
  let scale := scale / 2
  let L ← wavesOf T Q size om scale
  let one := fun slot dir sgn => do
    let e ← slotArr (evanEToE L.1) L.1.nexp toChild E slot
    let q ← slotArr (propEToE L.2 false) L.2.nexp toChild P slot
    some (eToL T Q L size om scale q e dir sgn)
  let mz ← one 0 'z' false
  let pz ← one 1 'z' true
  let my ← one 2 'y' false
  let py ← one 3 'y' true
  let mx ← one 4 'x' false
  let px ← one 5 'x' true
  some (mz + pz + my + py + mx + px)

end
end Dashmm.Helm
