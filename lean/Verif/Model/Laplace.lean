import Verif.Model.Mac
import Mathlib.Analysis.SpecialFunctions.Trigonometric.Inverse
import Mathlib.Analysis.Complex.Trigonometric

/-!
# Model of the Laplace kernel with spherical harmonics

`src/laplace.cc` (`lap_*`), `include/builtins/laplace.h`, `src/laplace_table.cc`
(`generate_sqf`, `generate_sqbinom`, `generate_dmatrix_of_beta`) and
`src/special_function.cc` (`legendre_Plm`).

Simplifications: `double` is the real numbers, `dcomplex_t` the complex numbers, so there is no rounding.
An array indexed by `midx(n, m)`, `0 ≤ m ≤ n ≤ p`, is a function of `n` and `m` (by C52 the index maps are
one-to-one onto the allocated arrays); what the functions below yield for other arguments is never used. Likewise
`didx(n, mp, m)`. The loops `power_m = -power_m`, `powers_x[j] = powers_x[j - 1] * x` are written as powers.
`0.0 / 0.0` and what is computed from it is the outcome `none`.
-/

namespace Dashmm.Lap

open Complex (I)

/-- An array of coefficients indexed by `midx(n, m)`. -/
abbrev Coef := ℕ → ℕ → ℂ

/-- A matrix indexed by `didx(n, mp, m)`. -/
abbrev DMat := ℕ → ℕ → ℤ → ℝ

/-- `pow_m1`, include/builtins/special_function.h:52-54. -/
noncomputable def powM1 (m : ℤ) : ℝ := if m % 2 ≠ 0 then -1 else 1

/-! ### Tables -/

/-- `sqf_`, `LaplaceTable::generate_sqf`, src/laplace_table.cc:220-226. -/
noncomputable def sqf : ℕ → ℝ
  | 0 => 1
  | i + 1 => sqf i * √((i + 1 : ℕ) : ℝ)

/-- The binomial coefficients before the square roots are taken, src/laplace_table.cc:234-250: the first
three are given, a row is computed from the previous one. -/
def binom : ℕ → ℕ → ℝ
  | 0, _ => 1
  | 1, _ => 1
  | n + 2, m => if m = 0 then 1 else if m = n + 2 then 1 else binom (n + 1) m + binom (n + 1) (m - 1)

/-- `sqbinom_`, src/laplace_table.cc:252-255. -/
noncomputable def sqbinom (n m : ℕ) : ℝ := √(binom n m)

/-- `legendre_Plm`, src/special_function.cc:33-36: `P[midx(i, i)]`. -/
noncomputable def legDiag (u : ℝ) : ℕ → ℝ
  | 0 => 1
  | i + 1 => legDiag u i * u * (2 * ((i + 1 : ℕ) : ℝ) - 1)

/-- `legendre_Plm`, src/special_function.cc:33-47: `P[midx(m + k, m)]`. -/
noncomputable def legCol (x u : ℝ) (m : ℕ) : ℕ → ℝ
  | 0 => legDiag u m
  | 1 => legDiag u m * x * (2 * (m : ℝ) + 1)
  | k + 2 =>
    let ell : ℝ := ((m + k + 2 : ℕ) : ℝ)
    ((2 * ell - 1) * x * legCol x u m (k + 1) - (ell + m - 1) * legCol x u m k) / (ell - m)

/-- `legendre_Plm`, src/special_function.cc:30-48: `P[midx(n, m)]`. -/
noncomputable def legendre (x : ℝ) (n m : ℕ) : ℝ := legCol x (-√(1 - x * x)) m (n - m)

/-! ### Wigner matrices -/

/-- The part of `generate_dmatrix_of_beta` for the row `mp = 0` of degree `n ≥ 2`,
src/laplace_table.cc:320-356; `dpp` is the row of degree `n - 1`. -/
noncomputable def dRow0 (cb sb : ℝ) (n : ℕ) (dpp : ℤ → ℝ) (m : ℤ) : ℝ :=
  let nn : ℤ := n
  if m = -nn then
    -sb * (1 / 2) * √(((nn - m) * (nn - m - 1) : ℤ) : ℝ) / n * dpp (m + 1)
  else if m = -nn + 1 then
    (-sb * (1 / 2) * √(((nn - m) * (nn - m - 1) : ℤ) : ℝ) * dpp (m + 1) +
      cb * √(((nn - m) * (nn + m) : ℤ) : ℝ) * dpp m) / n
  else if m = nn - 1 then
    (cb * √(((nn - m) * (nn + m) : ℤ) : ℝ) * dpp m +
      sb * (1 / 2) * √(((nn + m) * (nn + m - 1) : ℤ) : ℝ) * dpp (m - 1)) / n
  else if m = nn then
    sb * (1 / 2) * √(((nn + m) * (nn + m - 1) : ℤ) : ℝ) / n * dpp (m - 1)
  else
    (-sb * (1 / 2) * √(((nn - m) * (nn - m - 1) : ℤ) : ℝ) * dpp (m + 1) +
      cb * √(((nn - m) * (nn + m) : ℤ) : ℝ) * dpp m +
      sb * (1 / 2) * √(((nn + m) * (nn + m - 1) : ℤ) : ℝ) * dpp (m - 1)) / n

/-- The part of `generate_dmatrix_of_beta` for the row `mp ≥ 1` of degree `n ≥ 2`,
src/laplace_table.cc:358-401; `dpp` is the row `mp - 1` of degree `n - 1`. -/
noncomputable def dRow (sb s2 c2 : ℝ) (n mp : ℕ) (dpp : ℤ → ℝ) (m : ℤ) : ℝ :=
  let nn : ℤ := n
  let factor := 1 / √((((nn + mp) * (nn + mp - 1) : ℤ) : ℝ))
  if m = -nn then
    s2 * √(((nn - m) * (nn - m - 1) : ℤ) : ℝ) * factor * dpp (m + 1)
  else if m = -nn + 1 then
    (s2 * √(((nn - m) * (nn - m - 1) : ℤ) : ℝ) * dpp (m + 1) -
      sb * √(((nn + m) * (nn - m) : ℤ) : ℝ) * dpp m) * factor
  else if m = nn - 1 then
    (-sb * √(((nn + m) * (nn - m) : ℤ) : ℝ) * dpp m +
      c2 * √(((nn + m) * (nn + m - 1) : ℤ) : ℝ) * dpp (m - 1)) * factor
  else if m = nn then
    c2 * √(((nn + m) * (nn + m - 1) : ℤ) : ℝ) * factor * dpp (m - 1)
  else
    (s2 * √(((nn - m) * (nn - m - 1) : ℤ) : ℝ) * dpp (m + 1)
      + c2 * √(((nn + m) * (nn + m - 1) : ℤ) : ℝ) * dpp (m - 1)
      - sb * √(((nn + m) * (nn - m) : ℤ) : ℝ) * dpp m) * factor

/-- `dp` after `generate_dmatrix_of_beta(beta, dp, dm)`, src/laplace_table.cc:292-403. -/
noncomputable def dplus (beta : ℝ) : DMat
  | 0, _, _ => 1
  | 1, mp, m =>
    let cbeta := Real.cos beta
    let sbeta := Real.sin beta
    if mp = 0 then
      if m = -1 then -sbeta / √2 else if m = 0 then cbeta else sbeta / √2
    else
      if m = -1 then (1 - cbeta) / 2 else if m = 0 then -sbeta / √2 else (1 + cbeta) / 2
  | n + 2, mp, m =>
    let cbeta := Real.cos beta
    let sbeta := Real.sin beta
    let s2beta2 := (1 - cbeta) / 2
    let c2beta2 := (1 + cbeta) / 2
    if mp = 0 then dRow0 cbeta sbeta (n + 2) (dplus beta (n + 1) 0) m
    else dRow sbeta s2beta2 c2beta2 (n + 2) mp (dplus beta (n + 1) (mp - 1)) m

/-- `dm` after `generate_dmatrix_of_beta(beta, dp, dm)`, src/laplace_table.cc:292-403. -/
noncomputable def dminus (beta : ℝ) : DMat
  | 0, _, _ => 1
  | 1, mp, m =>
    if mp = 0 then
      if m = -1 then -dplus beta 1 0 (-1) else if m = 0 then dplus beta 1 0 0 else -dplus beta 1 0 1
    else
      if m = -1 then dplus beta 1 1 (-1) else if m = 0 then -dplus beta 1 1 0 else dplus beta 1 1 1
  | n + 2, mp, m =>
    if mp = 0 then dplus beta (n + 2) 0 m * powM1 m
    else dplus beta (n + 2) mp m * powM1 (mp - m)

/-- `dmat_plus(c)`, include/builtins/laplace_table.h, src/laplace_table.cc:271-289: the matrix stored for `c` is that of the
angle `acos(c)`. (That an entry is found for each `c` used, is C53.) -/
noncomputable def dmatPlus (c : ℝ) : DMat := dplus (Real.arccos c)

/-- `dmat_minus(c)`, same places. -/
noncomputable def dmatMinus (c : ℝ) : DMat := dminus (Real.arccos c)

/-! ### Rotations -/

/-- `lap_rotate_sph_z`, src/laplace.cc:23-42. -/
noncomputable def rotateZ (M : Coef) (alpha : ℝ) : Coef := fun n m =>
  M n m * ((Real.cos alpha : ℂ) + (Real.sin alpha : ℂ) * I) ^ m

/-- `lap_rotate_sph_y`, src/laplace.cc:44-66. -/
noncomputable def rotateY (M : Coef) (d : DMat) : Coef := fun n mp =>
  (M n 0 * (d n mp 0 : ℂ) +
    ∑ m ∈ Finset.Icc 1 n,
      (M n m * ((-1) ^ m * (d n mp m : ℂ)) + starRingEnd ℂ (M n m) * (d n mp (-(m : ℤ)) : ℂ)))
    * (-1) ^ mp

/-! ### Operators -/

/-- `proj` of `lap_s_to_m` and others, src/laplace.cc:79. -/
noncomputable def proj (v : Point ℝ) : ℝ := √(v.x * v.x + v.y * v.y)

/-- `ctheta`, src/laplace.cc:81, 118, 788, 887. -/
noncomputable def ctheta (v : Point ℝ) : ℝ := if v.norm ≤ 10⁻¹ ^ 14 then 1 else v.z / v.norm

/-- `ephi` of the targets, src/laplace.cc:791-792, 890-891: `exp(i phi)`; for `r = 0` it is `0.0 / 0.0`. -/
noncomputable def ephi (v : Point ℝ) : Option ℂ :=
  if v.norm = 0 then none
  else if proj v / v.norm ≤ 10⁻¹ ^ 14 then some 1
  else some ((v.x / proj v : ℝ) + (v.y / proj v : ℝ) * I)

/-- `ephi` of the sources, src/laplace.cc:84-85, 121-122: `exp(-i phi)`. -/
noncomputable def ephiNeg (v : Point ℝ) : Option ℂ :=
  if v.norm = 0 then none
  else if proj v / v.norm ≤ 10⁻¹ ^ 14 then some 1
  else some ((v.x / proj v : ℝ) + (-v.y / proj v : ℝ) * I)

/-- `lap_s_to_m(dist, q, scale, M)`, src/laplace.cc:68-104: what is added to `M`. -/
noncomputable def sToM1 (v : Point ℝ) (q scale : ℝ) : Option Coef :=
  (ephiNeg v).map fun e n m =>
    (q * (v.norm * scale) ^ n : ℝ) * e ^ m * (legendre (ctheta v) n m * sqf (n - m) / sqf (n + m) : ℝ)

/-- `lap_s_to_l(dist, q, scale, L)`, src/laplace.cc:106-143: what is added to `L`. -/
noncomputable def sToL1 (v : Point ℝ) (q scale : ℝ) : Option Coef :=
  (ephiNeg v).map fun e n m =>
    (q * (1 / v.norm / (v.norm * scale) ^ n) : ℝ) * e ^ m * (legendre (ctheta v) n m * sqf (n - m) / sqf (n + m) : ℝ)

/-- A source of `Laplace`: `position` and `charge`. -/
structure Src where
  pos : Point ℝ
  charge : ℝ

/-- The loop over the sources, include/builtins/laplace.h:165-168 and 178-181. -/
noncomputable def sumSources (f : Point ℝ → ℝ → ℝ → Option Coef) (center : Point ℝ) (scale : ℝ) :
    List Src → Option Coef
  | [] => some fun _ _ => 0
  | s :: ss => do
    let rest ← sumSources f center scale ss
    let c ← f (s.pos.sub center) s.charge scale
    some fun n m => c n m + rest n m

/-- `Laplace::S_to_M`, include/builtins/laplace.h:159-170 (the sources are added in the opposite order). -/
noncomputable def sToM (center : Point ℝ) (scale : ℝ) (srcs : List Src) : Option Coef :=
  sumSources sToM1 center scale srcs

/-- `Laplace::S_to_L`, include/builtins/laplace.h:172-183. -/
noncomputable def sToL (center : Point ℝ) (scale : ℝ) (srcs : List Src) : Option Coef :=
  sumSources sToL1 center scale srcs

/-- `tab_alpha`, src/laplace.cc:169 and 235. -/
def tabAlpha (child : ℕ) : ℕ := [1, 3, 7, 5, 1, 3, 7, 5].getD child 0

/-- The argument of `dmat_plus` and `dmat_minus` in `lap_m_to_m` and `lap_l_to_l`, src/laplace.cc:150-155, 216-221. -/
noncomputable def childCos (child : ℕ) : ℝ := if child < 4 then 1 / √3 else -1 / √3

/-- The shift along the z-axis in `lap_m_to_m`, src/laplace.cc:179-192. -/
noncomputable def shiftM (rho : ℝ) (T : Coef) : Coef := fun n m =>
  T n m + ∑ k ∈ Finset.Icc 1 (n - m),
    T (n - k) m * (rho ^ k * sqbinom (n - m) k * sqbinom (n + m) k : ℝ)

/-- `lap_m_to_m`, src/laplace.cc:145-209. -/
noncomputable def mToM (fromChild : ℕ) (M : Coef) : Coef :=
  let d1 := dmatPlus (childCos fromChild)
  let d2 := dmatMinus (childCos fromChild)
  let rho := -√3 / 2
  let alpha := tabAlpha fromChild * (Real.pi / 4)
  let W := rotateZ M alpha
  let T := rotateY W d1
  let W := shiftM rho T
  let T := rotateY W d2
  let W := rotateZ T (-alpha)
  fun n m => W n m * (1 / 2) ^ n

/-- The shift along the z-axis in `lap_l_to_l`, src/laplace.cc:246-258. -/
noncomputable def shiftL (p : ℕ) (rho : ℝ) (T : Coef) : Coef := fun n m =>
  T n m + ∑ k ∈ Finset.Icc 1 (p - n),
    T (n + k) m * (rho ^ k * sqbinom (n + k - m) k * sqbinom (n + k + m) k : ℝ)

/-- `lap_l_to_l`, src/laplace.cc:211-275. -/
noncomputable def lToL (p toChild : ℕ) (L : Coef) : Coef :=
  let d1 := dmatPlus (childCos toChild)
  let d2 := dmatMinus (childCos toChild)
  let rho := -√3 / 4
  let alpha := tabAlpha toChild * (Real.pi / 4)
  let W := rotateZ L alpha
  let T := rotateY W d1
  let W := shiftL p rho T
  let T := rotateY W d2
  let W := rotateZ T (-alpha)
  fun n m => W n m * (1 / 2) ^ n

/-- `M_to_L_zp`, include/builtins/laplace.h:377-395; `rho` is the array `powers_rho`. -/
noncomputable def mToLzp (p : ℕ) (scale : ℝ) (M : Coef) (rho : ℕ → ℝ) : Coef := fun j k =>
  (∑ n ∈ Finset.Icc k p,
    M n k * (powM1 (n + k) * rho (j + n) * sqbinom (n + j) (n - k) * sqbinom (n + j) (n + k) : ℝ)) * (scale : ℂ)

/-- `M_to_L_zm`, include/builtins/laplace.h:397-415. -/
noncomputable def mToLzm (p : ℕ) (scale : ℝ) (M : Coef) (rho : ℕ → ℝ) : Coef := fun j k =>
  (∑ n ∈ Finset.Icc k p,
    M n k * (powM1 (k + j) * rho (j + n) * sqbinom (n + j) (n - k) * sqbinom (n + j) (n + k) : ℝ)) * (scale : ℂ)

/-- `Laplace::M_to_L`, include/builtins/laplace.h:195-252, for the offset `(x, y, z)` of the source from
the target in boxes; `scale` is that of the source expansion. -/
noncomputable def mToL (p : ℕ) (scale : ℝ) (x y z : ℤ) (M : Coef) : Coef :=
  let rho : ℝ := √((x * x + y * y + z * z : ℤ) : ℝ)
  let powersRho : ℕ → ℝ := fun i => 1 / rho / rho ^ i
  let pr : ℝ := √((x * x + y * y : ℤ) : ℝ)
  if pr < 10⁻¹ ^ 14 then
    if z > 0 then mToLzp p scale M powersRho else mToLzm p scale M powersRho
  else
    let beta := Real.arccos ((x : ℝ) / pr)
    let beta := if y < 0 then 2 * Real.pi - beta else beta
    let d1 := dmatPlus ((z : ℝ) / rho)
    let d2 := dmatMinus ((z : ℝ) / rho)
    let W1 := rotateZ M beta
    let W2 := rotateY W1 d1
    let W1 := mToLzp p scale W2 powersRho
    let W2 := rotateY W1 d2
    rotateZ W2 (-beta)

/-- The value `real(potential)` of `lap_m_to_t` and `lap_l_to_t`, src/laplace.cc:805-819, 904-917; `rad n` is
`powers_r[n]`. -/
noncomputable def evalAt (p : ℕ) (C : Coef) (e : ℂ) (ct : ℝ) (rad : ℕ → ℝ) : ℝ :=
  ((∑ n ∈ Finset.range (p + 1), C n 0 * (rad n * legendre ct n 0 : ℝ)) +
    ∑ n ∈ Finset.Icc 1 p, ∑ m ∈ Finset.Icc 1 n,
      ((2 * (C n m * e ^ m).re * rad n * legendre ct n m * sqf (n - m) / sqf (n + m) : ℝ) : ℂ)).re

/-- `lap_m_to_t(dist, scale, M)`, src/laplace.cc:772-821, the potential; `none` if the point is the centre. -/
noncomputable def mToT1 (p : ℕ) (v : Point ℝ) (scale : ℝ) (M : Coef) : Option ℝ :=
  (ephi v).map fun e => evalAt p M e (ctheta v) fun n => 1 / v.norm / (v.norm * scale) ^ n

/-- `lap_l_to_t(dist, scale, L)`, src/laplace.cc:869-919, the potential; `none` if the point is the centre. -/
noncomputable def lToT1 (p : ℕ) (v : Point ℝ) (scale : ℝ) (L : Coef) : Option ℝ :=
  (ephi v).map fun e => evalAt p L e (ctheta v) fun n => (v.norm * scale) ^ n

/-- `Laplace::compute_scale(index)`, include/builtins/laplace.h:350-352, and `LaplaceTable::scale`,
include/builtins/laplace_table.h:44, src/laplace_table.cc:31: `domain_size` is that given to `update_table`,
`geo.size()`. -/
noncomputable def scaleOf (domainSize : ℝ) (level : ℕ) : ℝ := 1 / domainSize * 2 ^ level

open Classical in
/-- A division as in include/builtins/laplace.h:292, yukawa.h:249, helmholtz.h:493: the quotient by zero is not a number. -/
noncomputable def quot {F : Type} [Field F] (a b : F) : Option F := if b = 0 then none else some (a / b)

/-- The inner loop of `Laplace::S_to_T`, include/builtins/laplace.h:288-294. -/
noncomputable def sToT1 (srcs : List Src) (t : Point ℝ) : Option ℝ :=
  srcs.foldlM (fun pot s =>
    let s2t := t.sub s.pos
    let dist := s2t.norm
    if 0 < dist then (quot s.charge dist).map (pot + ·) else some pot) 0

end Dashmm.Lap
