import Verif.Model.Yukawa

/-!
Model of the expansions of the Helmholtz kernel (/repo/include/builtins/helmholtz.h, /repo/src/helmholtz_table.cc): `S_to_M`,
`S_to_L`, `M_to_T`, `L_to_T`, `S_to_T`.

Simplifications: exact arithmetic; a 0/0 (a source or target at the centre) is `none`; the coefficients are functions of degree and
order instead of arrays (the index maps are in the model Coeff); the tables of `bessel_Jn` and `bessel_Yn` are parameters `J`, `Y`
(see the model Bessel).
-/

namespace Dashmm.Helm

open Bessel
open Lap (Coef Src legendre ctheta ephi ephiNeg proj)

noncomputable section

/-- `p_table`, src/helmholtz_table.cc:27; `none` beyond the end of the array. -/
def pTable (digits : ℕ) : Option ℕ := [0, 0, 0, 9, 0, 0, 18, 0, 0, 0, 0, 0, 0, 0, 0][digits]?

/-- `scale_`, src/helmholtz_table.cc:34. -/
def scale0 (size om : ℝ) : ℝ := (if 1 < om * size then 1 / size else om) * size

/-- `HelmholtzTable::scale(lev)`, include/builtins/helmholtz_table.h:39, and `Helmholtz::compute_scale`,
include/builtins/helmholtz.h:1068-1070. -/
def scaleOf (size om : ℝ) (lev : ℕ) : ℝ := scale0 size om / 2 ^ lev

/-- `temp` of `HelmholtzTable::generate_sqf`, src/helmholtz_table.cc:644-647. -/
def fact : ℕ → ℝ
  | 0 => 1
  | i + 1 => fact i * ((i + 1 : ℕ) : ℝ)

/-- `sqf_[midx(n, m)]`, src/helmholtz_table.cc:649-655. -/
def sqf (n m : ℕ) : ℝ := (2 * n + 1) * fact (n - m) / fact (n + m)

/-- `bessel_hn_scaled`, the complex entry. -/
def hn (J Y : Table) (nb : ℕ) (x scale : ℝ) (n : ℕ) : ℂ := ⟨hnRe J nb x scale n, hnIm Y nb x scale n⟩

/-- One source of `Helmholtz::S_to_M`, include/builtins/helmholtz.h:168-200: what is added to `M`. -/
def sToM1 (J : Table) (om : ℝ) (p : ℕ) (v : Point ℝ) (q scale : ℝ) : Option Coef :=
  (ephiNeg v).map fun e n m =>
    (q * jnScaled J p (om * v.norm) scale n * sqf n m * legendre (ctheta v) n m : ℝ) * e ^ m

/-- `ephi` in `Helmholtz::S_to_L`, include/builtins/helmholtz.h:232-233: on the axis it is zero, not one. -/
def ephiL (v : Point ℝ) : Option ℂ :=
  if v.norm = 0 then none
  else if proj v / v.norm ≤ 10⁻¹ ^ 14 then some 0
  else some ((v.x / proj v : ℝ) + (-v.y / proj v : ℝ) * Complex.I)

/-- `powers_ephi[p + m]` for `-p ≤ m ≤ p`, include/builtins/helmholtz.h:236-240 and 450-454. -/
def powE (e : ℂ) (m : ℤ) : ℂ := if 0 ≤ m then e ^ m.natAbs else starRingEnd ℂ (e ^ m.natAbs)

/-- A local expansion has coefficients for the orders `-n ≤ m ≤ n`, include/builtins/helmholtz.h:64-67. -/
abbrev LCoef := ℕ → ℤ → ℂ

/-- One source of `Helmholtz::S_to_L`, include/builtins/helmholtz.h:222-256: what is added to `L`. -/
def sToL1 (J Y : Table) (om : ℝ) (p : ℕ) (v : Point ℝ) (q scale : ℝ) : Option LCoef :=
  (ephiL v).map fun e n m =>
    q * hn J Y p (om * v.norm) scale n * (sqf n m.natAbs * legendre (ctheta v) n m.natAbs : ℝ) * powE e m

/-- `Helmholtz::S_to_M`, include/builtins/helmholtz.h:154-207 (the sources are added in the opposite order). -/
def sToM (J : Table) (om : ℝ) (p : ℕ) (center : Point ℝ) (scale : ℝ) (srcs : List Src) : Option Coef :=
  Lap.sumSources (sToM1 J om p) center scale srcs

/-- `Helmholtz::S_to_L`, include/builtins/helmholtz.h:209-264 (the sources are added in the opposite order). -/
def sToL (J Y : Table) (om : ℝ) (p : ℕ) (center : Point ℝ) (scale : ℝ) : List Src → Option LCoef
  | [] => some fun _ _ => 0
  | s :: rest => do
    let r ← sToL J Y om p center scale rest
    let c ← sToL1 J Y om p (s.pos.sub center) s.charge scale
    some fun n m => c n m + r n m

/-- The loops of `Helmholtz::M_to_T`, include/builtins/helmholtz.h:407-419. -/
def evalM (p : ℕ) (M : Coef) (e : ℂ) (ct : ℝ) (B : ℕ → ℂ) : ℂ :=
  (∑ n ∈ Finset.range (p + 1), M n 0 * legendre ct n 0 * B n) +
    ∑ n ∈ Finset.Icc 1 p, ∑ m ∈ Finset.Icc 1 n, ((2 * (M n m * e ^ m).re : ℝ) : ℂ) * B n * legendre ct n m

/-- `Helmholtz::M_to_T` for one target, include/builtins/helmholtz.h:373-425: what is added to `phi`. -/
def mToT (J Y : Table) (om : ℝ) (p : ℕ) (center : Point ℝ) (scale : ℝ) (M : Coef) (x : Point ℝ) : Option ℂ :=
  (ephi (x.sub center)).map fun e =>
    evalM p M e (ctheta (x.sub center)) (hn J Y p (om * (x.sub center).norm) scale)

/-- The loops of `Helmholtz::L_to_T`, include/builtins/helmholtz.h:463-470. -/
def evalL (p : ℕ) (L : LCoef) (e : ℂ) (ct : ℝ) (B : ℕ → ℝ) : ℂ :=
  ∑ n ∈ Finset.range (p + 1), ∑ m ∈ Finset.Icc (-(n : ℤ)) n, L n m * powE e m * B n * legendre ct n m.natAbs

/-- `Helmholtz::L_to_T` for one target, include/builtins/helmholtz.h:428-477: what is added to `phi`. -/
def lToT (J : Table) (om : ℝ) (p : ℕ) (center : Point ℝ) (scale : ℝ) (L : LCoef) (x : Point ℝ) : Option ℂ :=
  (ephi (x.sub center)).map fun e =>
    evalL p L e (ctheta (x.sub center)) (jnScaled J p (om * (x.sub center).norm) scale)

/-- `Helmholtz::S_to_T` for one target, include/builtins/helmholtz.h:480-497: what is added to `phi`. -/
def sToT (om : ℝ) (srcs : List Src) (x : Point ℝ) : Option ℂ :=
  srcs.foldlM (fun pot s =>
    let dist := om * (x.sub s.pos).norm
    if 0 < dist then (Lap.quot (s.charge * Complex.exp (dist * Complex.I)) (dist * Complex.I)).map (pot + ·) else some pot) 0

end
end Dashmm.Helm
