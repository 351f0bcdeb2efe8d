import Verif.Model.Yukawa
import Mathlib.Analysis.SpecialFunctions.Log.Base

/-!
# Model of the translations of the Yukawa kernel

`yuk_m_to_m` and `yuk_l_to_l` of `src/yukawa.cc`, the rotations they use, and the tables `m2m_`, `l2l_`, `dmat_plus_`,
`dmat_minus_` of `src/yukawa_table.cc`. Conventions as in `Verif.Model.Yukawa`: arrays are functions of the degree and the
order, `double` is the real numbers. Beyond the end of a table the outcome is `none`.
-/

namespace Dashmm.Yukawa

open Lap (Coef DMat dmatPlus dmatMinus rotateZ rotateY tabAlpha childCos)
open Bessel (Table inScaled)

noncomputable section

/-- `YukawaTable::maxlev`, src/yukawa_table.cc:25. -/
def maxlev : ℕ := 21

/-- `YukawaTable::level`, include/builtins/yukawa_table.h:66 (the logarithm is not negative where it is used). -/
def level (size lam scale : ℝ) : ℕ := ⌊Real.logb 2 (scale0 size lam / scale)⌋₊

/-- The factor of the entries in `generate_scaled_dmat_of_beta`, src/yukawa_table.cc:457-472. -/
def dscale (n mp : ℕ) (m : ℤ) : ℝ := √(fact (n - mp) * fact (n + m.natAbs) / fact (n + mp) / fact (n - m.natAbs))

/-- `dmat_plus(c)`, src/yukawa_table.cc:326-472; the recurrences of lines 342-454 are those of the table of the Laplace kernel
(src/laplace_table.cc:292-403). -/
def ydmatPlus (c : ℝ) : DMat := fun n mp m => dmatPlus c n mp m * dscale n mp m

/-- `dmat_minus(c)`, same places. -/
def ydmatMinus (c : ℝ) : DMat := fun n mp m => dmatMinus c n mp m * dscale n mp m

/-- `coeff[sidx(n, m, np, p)]` for the level `lev` in `generate_m2m`, src/yukawa_table.cc:474-519. -/
def m2m (F : Table) (size lam : ℝ) (p lev n m np : ℕ) : ℝ :=
  let rho := √3 / 2 * size / 2 ^ lev
  let sigma := scale0 size lam / 2 ^ lev
  let bessel := inScaled F (2 * p) (lam * rho) (lam * rho)
  ∑ k ∈ Finset.Icc m (if n ≤ np then n else np),
    (0.5 : ℝ) ^ (n + k) * sigma ^ ((np : ℤ) - n) * (-1) ^ (np + n) * (2 * n + 1) * fact (n - m) * fact (np + m) *
      fact (2 * k) / fact (k + m) / fact (k - m) / fact k / fact (n - k) / fact (np - k) *
      bessel (np + n - k) * (lam * rho) ^ (np + n - 2 * k)

/-- `coeff[sidx(n, m, np, p)]` for the level `lev` in `generate_l2l`, src/yukawa_table.cc:521-568. -/
def l2l (F : Table) (size lam : ℝ) (p lev n m np : ℕ) : ℝ :=
  let rho := √3 / 4 * size / 2 ^ lev
  let sigma := scale0 size lam / 2 ^ lev
  let bessel := inScaled F (2 * p) (lam * rho) (lam * rho)
  ∑ k ∈ Finset.Icc m (if n ≤ np then n else np),
    (0.5 : ℝ) ^ (n + k) * sigma ^ ((n : ℤ) - np) * (-1) ^ (np + n) * (2 * n + 1) * fact (n - m) * fact (np + m) *
      fact (2 * k) * bessel (n + np - k) * (lam * rho) ^ (np + n - 2 * k) / fact (k + m) / fact (k - m) / fact k /
      fact (n - k) / fact (np - k)

/-- The loops along the z-axis, src/yukawa.cc:171-179 and 212-220. -/
def shiftZ (p : ℕ) (coeff : ℕ → ℕ → ℕ → ℝ) (T : Coef) : Coef := fun n m =>
  ∑ np ∈ Finset.Icc m p, T np m * (coeff n m np : ℂ)

/-- `yuk_m_to_m(from_child, M, scale, W)`, src/yukawa.cc:146-183; `Yukawa::M_to_M`, include/builtins/yukawa.h:192-199. The scale is
that of the child. The rotations are `yuk_rotate_sph_z` and `yuk_rotate_sph_y`, src/yukawa.cc:24-66, the same as those of
the Laplace kernel. -/
def mToM (F : Table) (size lam : ℝ) (p fromChild : ℕ) (scale : ℝ) (M : Coef) : Option Coef :=
  let lev := level size lam scale
  if lev ≤ maxlev then
    let d1 := ydmatPlus (childCos fromChild)
    let d2 := ydmatMinus (childCos fromChild)
    let alpha := tabAlpha fromChild * (Real.pi / 4)
    let W := rotateZ M alpha
    let T := rotateY W d1
    let W := shiftZ p (m2m F size lam p lev) T
    let T := rotateY W d2
    some (rotateZ T (-alpha))
  else none

/-- `yuk_l_to_l(to_child, L, scale, W)`, src/yukawa.cc:187-224; `Yukawa::L_to_L`, include/builtins/yukawa.h:205-212. The scale is
that of the parent. -/
def lToL (F : Table) (size lam : ℝ) (p toChild : ℕ) (scale : ℝ) (L : Coef) : Option Coef :=
  let lev := level size lam scale
  if lev ≤ maxlev then
    let d1 := ydmatPlus (childCos toChild)
    let d2 := ydmatMinus (childCos toChild)
    let alpha := tabAlpha toChild * (Real.pi / 4)
    let W := rotateZ L alpha
    let T := rotateY W d1
    let W := shiftZ p (l2l F size lam p lev) T
    let T := rotateY W d2
    some (rotateZ T (-alpha))
  else none

end
end Dashmm.Yukawa
