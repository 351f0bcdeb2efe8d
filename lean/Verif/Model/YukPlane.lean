import Verif.Model.YukShift
import Verif.Model.Waves

/-!
# Model of the plane waves of the Yukawa kernel: from multipole expansions, to local expansions

`legendre_Plm_gt1_scaled` (src/special_function.cc), `yuk_m_to_i`, `yuk_e_to_l` and `yuk_i_to_l` (src/yukawa.cc), and `M_to_I`, `I_to_I`,
`I_to_L` of include/builtins/yukawa.h around them. The tables of the levels and the shifts are those of
`Verif.Model.Waves`. Conventions as in `Verif.Model.Yukawa`: `double` is the real numbers, arrays of coefficients are
functions of the degree and the order; the expansions in plane waves are lists. Beyond the last level of the table the
outcome is `none`. Reads of `ealphaj` and of the waves outside of the lists would give zero here; that there are none is
part of C101.
-/

namespace Dashmm.Yukawa

open Complex (I)
open Lap (Coef rotateZ rotateY stepSum PlaneTable)
open Waves (Level yukLevel yukEToE slotArr)

noncomputable section

/-- `P[midx(n, n)]` of `legendre_Plm_gt1_scaled`, src/special_function.cc:54-57. -/
def gt1Diag (u : ℝ) : ℕ → ℝ
  | 0 => 1
  | n + 1 => gt1Diag u n * u * (2 * ((n + 1 : ℕ) : ℝ) - 1)

/-- `P[midx(m + k, m)]` of `legendre_Plm_gt1_scaled`, src/special_function.cc:54-68. -/
def gt1Col (u v w : ℝ) (m : ℕ) : ℕ → ℝ
  | 0 => gt1Diag u m
  | 1 => gt1Diag u m * (2 * (m : ℝ) + 1) * v
  | k + 2 =>
    let n : ℝ := ((m + k + 2 : ℕ) : ℝ)
    ((2 * n - 1) * v * gt1Col u v w m (k + 1) - (n + m - 1) * w * gt1Col u v w m k) / (n - m)

/-- `legendre_Plm_gt1_scaled(nb, x, scale, P)`, src/special_function.cc:49-69: `P[midx(n, m)]`. -/
def gt1 (x scale : ℝ) (n m : ℕ) : ℝ := gt1Col (√(x * x - 1) * scale) (scale * x) (scale * scale) m (n - m)

/-- `z1[m]`, src/yukawa.cc:568-603; `leg` is the array `legendre`. -/
def pz1 (p : ℕ) (SH : Coef) (leg : ℕ → ℕ → ℝ) (m : ℕ) : ℂ :=
  if m = 0 then stepSum 0 p fun n => SH n 0 * (leg n 0 : ℂ)
  else if m % 2 = 1 then stepSum (m + 1) p fun n => SH n m * (leg n m : ℂ)
  else stepSum m p fun n => SH n m * (leg n m : ℂ)

/-- `z2[m]`, src/yukawa.cc:568-603. -/
def pz2 (p : ℕ) (SH : Coef) (leg : ℕ → ℕ → ℝ) (m : ℕ) : ℂ :=
  if m = 0 then stepSum 1 p fun n => SH n 0 * (leg n 0 : ℂ)
  else if m % 2 = 1 then stepSum m p fun n => SH n m * (leg n m : ℂ)
  else stepSum (m + 1) p fun n => SH n m * (leg n m : ℂ)

/-- `ealphaj[smf[k] + (j - 1) * f[k] + m - 1]`, src/yukawa.cc:611 and 945. -/
def ealpha (L : Level) (k j m : ℕ) : ℂ := L.ealphaj.getD (L.smf k + (j - 1) * L.f k + m - 1) 0

/-- `up` and `dn` for `k` and `j`, src/yukawa.cc:606-618: `sgn` is plus or minus one. -/
def waveAt (L : Level) (p : ℕ) (leg : ℕ → ℕ → ℕ → ℝ) (SH : Coef) (sgn : ℂ) (k j : ℕ) : ℂ :=
  pz1 p SH (leg k) 0 + sgn * pz2 p SH (leg k) 0 +
    ∑ m ∈ Finset.Icc 1 (L.f k), ((2 * (ealpha L k j m * (pz1 p SH (leg k) m + sgn * pz2 p SH (leg k) m)).re : ℝ) : ℂ) * I ^ m

/-- `EP[dir]` and `EM[dir]`, src/yukawa.cc:562-620, in the order in which they are filled. -/
def waveArr (L : Level) (p : ℕ) (leg : ℕ → ℕ → ℕ → ℝ) (SH : Coef) (sgn : ℂ) : List ℂ :=
  (List.range L.s).flatMap fun k => (List.range (L.m k / 2)).map fun j => waveAt L p leg SH sgn k (j + 1)

/-- `YukawaTable::size(scale)` times `lambda`, include/builtins/yukawa_table.h:65, src/yukawa.cc:523, 915. -/
def ldOf (size lam scale : ℝ) : ℝ := lam * (size * scale / scale0 size lam)

/-- The array `legendre` for `k`, src/yukawa.cc:565, 956. -/
def legAt (T : PlaneTable) (size lam scale : ℝ) (k n m : ℕ) : ℝ := gt1 (1 + T.rule.lam k / ldOf size lam scale) scale n m

/-- `yuk_m_to_i(M, views, scale, id)`, src/yukawa.cc:508-623, and `Yukawa::M_to_I`, include/builtins/yukawa.h:254-260: the views +x, -x,
+y, -y, +z, -z. -/
def mToI (T : PlaneTable) (size lam : ℝ) (p : ℕ) (scale : ℝ) (M : Coef) : Option (ℕ → List ℂ) :=
  if level size lam scale ≤ maxlev then
    let L := yukLevel T lam size (level size lam scale)
    let leg := legAt T size lam scale
    let W2 := rotateY (rotateZ M (-Real.pi / 2)) (ydmatMinus 0)
    let W1 := rotateY M (ydmatPlus 0)
    some fun
      | 0 => waveArr L p leg W1 1
      | 1 => waveArr L p leg W1 (-1)
      | 2 => waveArr L p leg W2 1
      | 3 => waveArr L p leg W2 (-1)
      | 4 => waveArr L p leg M 1
      | _ => waveArr L p leg M (-1)
  else none

/-- `Yukawa::I_to_I`, include/builtins/yukawa.h:262-269, and `yuk_i_to_i`, src/yukawa.cc:625-690: the views made, with their numbers. -/
def iToI (T : PlaneTable) (size lam scale : ℝ) (dx dy dz : ℤ) (S : ℕ → List ℂ) : Option (List (ℕ × List ℂ)) :=
  if level size lam scale ≤ maxlev then
    let L := yukLevel T lam size (level size lam scale)
    Waves.iToI (yukEToE L) L.nexp dx dy dz S
  else none

/-- `z[m]` of `yuk_e_to_l`, src/yukawa.cc:926-954. -/
def zBack (L : Level) (E : List ℂ) (k m : ℕ) : ℂ :=
  let e := fun j => E.getD (L.sm k + j - 1) 0
  if m = 0 then ∑ j ∈ Finset.Icc 1 (L.m k / 2), (e j + starRingEnd ℂ (e j))
  else if m % 2 = 1 then ∑ j ∈ Finset.Icc 1 (L.m k / 2), (e j - starRingEnd ℂ (e j)) * starRingEnd ℂ (ealpha L k j m)
  else ∑ j ∈ Finset.Icc 1 (L.m k / 2), (e j + starRingEnd ℂ (e j)) * starRingEnd ℂ (ealpha L k j m)

/-- `W1` of `yuk_e_to_l` before the rotation, src/yukawa.cc:924-993: the sum over `k`, the scaling, the change of sign of odd
degrees. -/
def backCoef (T : PlaneTable) (L : Level) (size lam scale : ℝ) (E : List ℂ) (sgn : Bool) : Coef := fun n m =>
  let w := ∑ k ∈ Finset.range L.s, if m ≤ (if n ≤ L.f k then n else L.f k) then
    zBack L E k m * (legAt T size lam scale k n m : ℂ) * ((T.rule.wt k / L.m k : ℝ) : ℂ) else 0
  let w := w * ((sqf n m : ℂ) * I ^ m * ((Real.pi / 2 / ldOf size lam scale * (-1) ^ n : ℝ) : ℂ))
  if !sgn && n % 2 = 1 then -w else w

/-- `yuk_e_to_l(E, dir, sgn, scale, L)`, src/yukawa.cc:903-1017: what is added to `L`. -/
def eToL (T : PlaneTable) (L : Level) (size lam scale : ℝ) (E : List ℂ) (dir : Char) (sgn : Bool) : Coef :=
  let W1 := backCoef T L size lam scale E sgn
  if dir = 'z' then W1
  else if dir = 'y' then rotateZ (rotateY W1 (ydmatPlus 0)) (Real.pi / 2)
  else rotateY W1 (ydmatMinus 0)

/-- `yuk_i_to_l(views, id, t_index, scale, L)`, src/yukawa.cc:692-879: what is added to `L`. The waves of the six directions of the child
are those of `Waves.slotArr`. -/
def iToL1 (T : PlaneTable) (size lam scale : ℝ) (toChild : ℕ) (E : ℕ → List ℂ) : Option Coef :=
  if level size lam scale ≤ maxlev then do
    let L := yukLevel T lam size (level size lam scale)
    let mz ← slotArr (yukEToE L) L.nexp toChild E 0
    let pz ← slotArr (yukEToE L) L.nexp toChild E 1
    let my ← slotArr (yukEToE L) L.nexp toChild E 2
    let py ← slotArr (yukEToE L) L.nexp toChild E 3
    let mx ← slotArr (yukEToE L) L.nexp toChild E 4
    let px ← slotArr (yukEToE L) L.nexp toChild E 5
    some (eToL T L size lam scale mz 'z' false + eToL T L size lam scale pz 'z' true + eToL T L size lam scale my 'y' false +
      eToL T L size lam scale py 'y' true + eToL T L size lam scale mx 'x' false + eToL T L size lam scale px 'x' true)
  else none

/-- `Yukawa::I_to_L`, include/builtins/yukawa.h:271-279: the scale is that of the parent. -/
def iToL (T : PlaneTable) (size lam scale : ℝ) (toChild : ℕ) (E : ℕ → List ℂ) : Option Coef :=
  iToL1 T size lam (scale / 2.0) toChild E

end
end Dashmm.Yukawa
