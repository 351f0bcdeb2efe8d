import Verif.Model.Helmholtz
import Verif.Model.YukShift

/-!
# Model of the translations of the Helmholtz kernel

`M_to_M` and `L_to_L` of `include/builtins/helmholtz.h`, the rotations they use, and the tables `m2m_`, `l2l_`, `dmat_plus_`,
`dmat_minus_` of `src/helmholtz_table.cc`. Conventions as in `Verif.Model.Helmholtz`. Where the code asserts, or reads outside
of a table, the outcome is `none`.
-/

namespace Dashmm.Helm

open Lap (Coef DMat dmatPlus dmatMinus rotateZ rotateY tabAlpha childCos)
open Bessel (Table jnScaled)

noncomputable section

/-- `HelmholtzTable::maxlev`, src/helmholtz_table.cc:23. -/
def maxlev : ℕ := 21

/-- `HelmholtzTable::level`, include/builtins/helmholtz_table.h:149 (the logarithm is not negative where it is used). -/
def level (size om scale : ℝ) : ℕ := ⌊Real.logb 2 (scale0 size om / scale)⌋₊

/-- Matrices for all the signs of both orders: `d[hidx(n, mp, m)]`. -/
abbrev HMat := ℕ → ℤ → ℤ → ℝ

/-- The entries with negative `mp`, src/helmholtz_table.cc:790-803, and the factor of lines 805-823. The recurrences of lines
683-788 for the entries with `mp` from zero on are those of the table of the Laplace kernel (src/laplace_table.cc:292-403). -/
def hmat (d : DMat) : HMat := fun n mp m =>
  (if 0 ≤ mp then d n mp.toNat m
    else if m < 0 then d n (-m).toNat (-mp)
    else (-1 : ℝ) ^ (m - mp) * d n m.toNat mp) *
  √(fact (n - mp.natAbs) * fact (n + m.natAbs) / fact (n + mp.natAbs) / fact (n - m.natAbs))

/-- `dmat_plus(c)`, src/helmholtz_table.cc:660-674. -/
def hdmatPlus (c : ℝ) : HMat := hmat (dmatPlus c)

/-- `dmat_minus(c)`, same place. -/
def hdmatMinus (c : ℝ) : HMat := hmat (dmatMinus c)

/-- `coeff[sidx(n, m, np, p)]` for the level `lev` in `generate_m2m`, src/helmholtz_table.cc:826-869. -/
def m2m (J : Table) (size om : ℝ) (p lev n m np : ℕ) : ℝ :=
  let rho := √3 / 2 * size / 2 ^ lev
  let sigma := scale0 size om / 2 ^ lev
  let bessel := jnScaled J (2 * p) (om * rho) (om * rho)
  ∑ k ∈ Finset.Icc m (if n ≤ np then n else np),
    (-0.5 : ℝ) ^ (n + k) * sigma ^ ((np : ℤ) - n) * (2 * n + 1) * fact (n - m) * fact (np + m) *
      fact (2 * k) / fact (k + m) / fact k / fact (k - m) / fact (n - k) / fact (np - k) *
      bessel (np + n - k) * (om * rho) ^ (np + n - 2 * k)

/-- `coeff[sidx(n, m, np, p)]` for the level `lev` in `generate_l2l`, src/helmholtz_table.cc:871-915. -/
def l2l (J : Table) (size om : ℝ) (p lev n m np : ℕ) : ℝ :=
  let rho := √3 / 4 * size / 2 ^ lev
  let sigma := scale0 size om / 2 ^ lev
  let bessel := jnScaled J (2 * p) (om * rho) (om * rho)
  ∑ k ∈ Finset.Icc m (if n ≤ np then n else np),
    (-0.5 : ℝ) ^ (n + k) * sigma ^ ((n : ℤ) - np) * (2 * n + 1) * fact (n - m) / fact (k + m) * fact (np + m) *
      fact (2 * k) / fact k / fact (k - m) / fact (n - k) / fact (np - k) *
      bessel (np + n - k) * (om * rho) ^ (n + np - 2 * k)

/-- The loops along the z-axis in `M_to_M`, include/builtins/helmholtz.h:299-307. -/
def shiftZ (p : ℕ) (coeff : ℕ → ℕ → ℕ → ℝ) (T : Coef) : Coef := fun n m =>
  ∑ np ∈ Finset.Icc m p, T np m * (coeff n m np : ℂ)

/-- `rotate_sph_z` of a local expansion, include/builtins/helmholtz.h:1099-1123. -/
def rotateZL (L : LCoef) (alpha : ℝ) : LCoef := fun n m => L n m * powE (Real.cos alpha + Real.sin alpha * Complex.I) m

/-- `rotate_sph_y` of a local expansion, include/builtins/helmholtz.h:1130-1166. -/
def rotateYL (L : LCoef) (d : HMat) : LCoef := fun n mp =>
  let s := L n 0 * (d n mp 0 : ℂ) +
    ∑ m ∈ Finset.Icc 1 n, (L n (m : ℤ) * (-1) ^ m * (d n mp (m : ℤ) : ℂ) + L n (-(m : ℤ)) * (d n mp (-(m : ℤ)) : ℂ))
  if mp < 0 then s else s * (-1) ^ mp.toNat

/-- The loops along the z-axis in `L_to_L`, include/builtins/helmholtz.h:356-364. -/
def shiftZL (p : ℕ) (coeff : ℕ → ℕ → ℕ → ℝ) (T : LCoef) : LCoef := fun n m =>
  ∑ np ∈ Finset.Icc m.natAbs p, T np m * (coeff n m.natAbs np : ℂ)

/-- `Helmholtz::M_to_M`, include/builtins/helmholtz.h:266-314, with `m2m(scale)`, include/builtins/helmholtz_table.h:44-48. The
scale is that of the child. For a multipole expansion `rotate_sph_z` and `rotate_sph_y`
(include/builtins/helmholtz.h:1099-1123, 1167-1185) are the same as those of the Laplace kernel; they read the entries of the matrices with
`mp` from zero on. -/
def mToM (J : Table) (size om : ℝ) (p fromChild : ℕ) (scale : ℝ) (M : Coef) : Option Coef :=
  let lev := level size om scale
  if 3 ≤ lev ∧ lev ≤ maxlev then
    let d1 := hdmatPlus (if fromChild < 4 then 1 / √3 else -1 / √3)
    let d2 := hdmatMinus (if fromChild < 4 then 1 / √3 else -1 / √3)
    let alpha := ([1, 3, 7, 5, 1, 3, 7, 5].getD fromChild 0 : ℕ) * (Real.pi / 4)
    let W1 := rotateZ M alpha
    let W2 := rotateY W1 (fun n mp m => d1 n mp m)
    let W1 := shiftZ p (m2m J size om p lev) W2
    let W2 := rotateY W1 (fun n mp m => d2 n mp m)
    some (rotateZ W2 (-alpha))
  else none

/-- `Helmholtz::L_to_L`, include/builtins/helmholtz.h:320-371, with `l2l(scale)`, include/builtins/helmholtz_table.h:49-53. The scale is
that of the parent. -/
def lToL (J : Table) (size om : ℝ) (p toChild : ℕ) (scale : ℝ) (L : LCoef) : Option LCoef :=
  let lev := level size om scale
  if 2 ≤ lev ∧ lev - 2 ≤ maxlev - 3 then
    let alpha := ([5, 7, 3, 1, 5, 7, 3, 1].getD toChild 0 : ℕ) * (Real.pi / 4)
    let d1 := hdmatPlus (if toChild < 4 then -1 / √3 else 1 / √3)
    let d2 := hdmatMinus (if toChild < 4 then -1 / √3 else 1 / √3)
    let W1 := rotateZL L alpha
    let W2 := rotateYL W1 d1
    let W1 := shiftZL p (l2l J size om p lev) W2
    let W2 := rotateYL W1 d2
    some (rotateZL W2 (-alpha))
  else none

end
end Dashmm.Helm
