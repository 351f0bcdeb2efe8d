import Verif.Model.Laplace
import Verif.Model.Bessel

/-!
# Model of the Yukawa kernel

`src/yukawa.cc`, `include/builtins/yukawa.h`, `src/yukawa_table.cc`: the constructor of the table, `S_to_M`, `S_to_L`,
`M_to_T`, `L_to_T`, `S_to_T`.

Simplifications as in the model of the Laplace kernel (`Verif.Model.Laplace`); `double` is the real numbers. The table that
`bessel_In` fills is the parameter `F`. A failed `assert` and `0.0 / 0.0` are the outcome `none`.
-/

namespace Dashmm.Yukawa

open Lap (Coef Src legendre ctheta ephi ephiNeg)
open Bessel (Table inScaled knScaled)

noncomputable section

/-- `p_table`, src/yukawa_table.cc:31; `none` beyond the end of the array. -/
def pTable (digits : ℕ) : Option ℕ := [0, 0, 0, 9, 0, 0, 18, 0, 0, 0, 0, 0, 0, 0, 0][digits]?

/-- `scale_`, src/yukawa_table.cc:36. -/
def scale0 (size lam : ℝ) : ℝ := (if 1 < lam * size then 1 / size else lam) * size

/-- `YukawaTable::scale(lev)`, include/builtins/yukawa_table.h:42, and `Yukawa::compute_scale`,
include/builtins/yukawa.h:303-305. -/
def scaleOf (size lam : ℝ) (lev : ℕ) : ℝ := scale0 size lam / 2 ^ lev

/-- `temp` of `YukawaTable::generate_sqf`, src/yukawa_table.cc:310-313. -/
def fact : ℕ → ℝ
  | 0 => 1
  | i + 1 => fact i * ((i + 1 : ℕ) : ℝ)

/-- `sqf_[midx(n, m)]`, src/yukawa_table.cc:315-321. -/
def sqf (n m : ℕ) : ℝ := (2 * n + 1) * fact (n - m) / fact (n + m)

/-- `yuk_s_to_m(dist, q, scale, M)`, src/yukawa.cc:68-105: what is added to `M`. -/
def sToM1 (F : Table) (lam : ℝ) (p : ℕ) (v : Point ℝ) (q scale : ℝ) : Option Coef :=
  (ephiNeg v).map fun e n m =>
    (q * inScaled F p (lam * v.norm) scale n * sqf n m * legendre (ctheta v) n m : ℝ) * e ^ m

/-- `yuk_s_to_l(dist, q, scale, L)`, src/yukawa.cc:107-144: what is added to `L`. -/
def sToL1 (lam : ℝ) (p : ℕ) (v : Point ℝ) (q scale : ℝ) : Option Coef := do
  let e ← ephiNeg v
  let B ← knScaled p (lam * v.norm) scale
  some fun n m => (q * B n * sqf n m * legendre (ctheta v) n m : ℝ) * e ^ m

/-- The loops of `yuk_m_to_t`, src/yukawa.cc:256-270, and of `yuk_l_to_t`, src/yukawa.cc:394-408. -/
def evalAt (p : ℕ) (C : Coef) (e : ℂ) (ct : ℝ) (B : ℕ → ℝ) : ℝ :=
  ((∑ n ∈ Finset.range (p + 1), C n 0 * (B n * legendre ct n 0 : ℝ)) +
    ∑ n ∈ Finset.Icc 1 p, ∑ m ∈ Finset.Icc 1 n,
      ((2 * (C n m * ((B n * legendre ct n m : ℝ) * e ^ m)).re : ℝ) : ℂ)).re

/-- `yuk_m_to_t(dist, scale, M)`, src/yukawa.cc:227-272, the potential. -/
def mToT1 (lam : ℝ) (p : ℕ) (v : Point ℝ) (scale : ℝ) (M : Coef) : Option ℝ := do
  let e ← ephi v
  let B ← knScaled (p + 1) (lam * v.norm) scale
  some (evalAt p M e (ctheta v) B)

/-- `yuk_l_to_t(dist, scale, L)`, src/yukawa.cc:365-410, the potential. -/
def lToT1 (F : Table) (lam : ℝ) (p : ℕ) (v : Point ℝ) (scale : ℝ) (L : Coef) : Option ℝ :=
  (ephi v).map fun e => evalAt p L e (ctheta v) (inScaled F (p + 1) (lam * v.norm) scale)

/-- `Yukawa::S_to_M`, include/builtins/yukawa.h:166-177 (the sources are added in the opposite order). -/
def sToM (F : Table) (lam : ℝ) (p : ℕ) (center : Point ℝ) (scale : ℝ) (srcs : List Src) : Option Coef :=
  Lap.sumSources (sToM1 F lam p) center scale srcs

/-- `Yukawa::S_to_L`, include/builtins/yukawa.h:179-190. -/
def sToL (lam : ℝ) (p : ℕ) (center : Point ℝ) (scale : ℝ) (srcs : List Src) : Option Coef :=
  Lap.sumSources (sToL1 lam p) center scale srcs

/-- `Yukawa::M_to_T` for one target, include/builtins/yukawa.h:214-223: what is added to `phi`. -/
def mToT (lam : ℝ) (p : ℕ) (center : Point ℝ) (scale : ℝ) (M : Coef) (x : Point ℝ) : Option ℝ :=
  mToT1 lam p (x.sub center) scale M

/-- `Yukawa::L_to_T` for one target, include/builtins/yukawa.h:225-234. -/
def lToT (F : Table) (lam : ℝ) (p : ℕ) (center : Point ℝ) (scale : ℝ) (L : Coef) (x : Point ℝ) : Option ℝ :=
  lToT1 F lam p (x.sub center) scale L

/-- `Yukawa::S_to_T` for one target, include/builtins/yukawa.h:236-253: what is added to `phi`. -/
def sToT (lam : ℝ) (srcs : List Src) (x : Point ℝ) : Option ℝ :=
  (srcs.foldlM (fun pot s =>
    let dist := lam * (x.sub s.pos).norm
    if 0 < dist then (Lap.quot (s.charge * Real.exp (-dist)) dist).map (pot + ·) else some pot) 0).map (· * (Real.pi / 2))

end
end Dashmm.Yukawa
