import Mathlib.Analysis.SpecialFunctions.Sqrt
import Mathlib.Analysis.SpecialFunctions.Trigonometric.Basic

/-!
# Model of the scaled spherical Bessel functions

`src/special_function.cc`: `bessel_jn_scaled`, `bessel_in_scaled`, `bessel_kn_scaled`, `bessel_hn_scaled`.

Simplifications: `double` is the real numbers, so there is no rounding; the array `B` of `nb + 1` entries is a function
of its index (what it yields for an index above `nb` is never used). `bessel_In`, `bessel_Jn` and `bessel_Yn`
(src/special_function.cc:242-1262, translations of Cody's RIBESL, RJBESL and RYBESL) are not modelled: what they store
with `alpha = 0.5` is a parameter, a function of the number of entries less one, of the argument and of the index, and
their return value is taken to be the number of entries. A failed `assert` is the outcome `none`.
-/

namespace Dashmm.Bessel

noncomputable section

/-- What a function of src/special_function.cc:242-1262 stores in `B`, called with `nb + 1` entries, `alpha = 0.5` and
the argument `x`: `F nb x n` is `B[n]`. -/
abbrev Table := ℕ → ℝ → ℕ → ℝ

/-- `enmten`, src/special_function.cc:1268, 1300, 1369. -/
def enmten : ℝ := 10⁻¹ ^ 300

/-- `xinf`, src/special_function.cc:1336. -/
def xinf : ℝ := 1.79 * 10 ^ 308

/-- `xmin`, src/special_function.cc:1335. -/
def xmin : ℝ := 4.46 * 10⁻¹ ^ 308

/-- `t1` in the first loop of `bessel_in_scaled`, src/special_function.cc:1303-1314, and of `bessel_jn_scaled`,
1271-1282: with `y` for `scale_x`. -/
def taylorT1 (y : ℝ) : ℕ → ℝ
  | 0 => 1
  | i + 1 =>
    let t1 := taylorT1 y i * y / (2 * ((i + 1 : ℕ) : ℝ) + 1)
    if t1 ≤ enmten then 0 else t1

/-- `factor` when the last loop of `bessel_in_scaled`, src/special_function.cc:1320-1330, reaches the index `i`; the same
of `bessel_jn_scaled`, 1285-1295. `f` is what was stored by `bessel_In`. -/
def factorAt (f : ℕ → ℝ) (x scale : ℝ) : ℕ → ℝ
  | 0 => √(Real.pi / 2 / x)
  | i + 1 => if |f i * factorAt f x scale i| ≤ enmten then 0 else factorAt f x scale i / scale

/-- `bessel_in_scaled(nb, x, scale, B)`, src/special_function.cc:1298-1332: `B[n]`. -/
def inScaled (F : Table) (nb : ℕ) (x scale : ℝ) (n : ℕ) : ℝ :=
  if x ≤ 10⁻¹ ^ 4 then taylorT1 (x / scale) n * (1 + 0.5 * x * x / (2 * n + 3))
  else if 100 < x then 0
  else F nb x n * factorAt (F nb x) x scale n

/-- `bessel_jn_scaled(nb, x, scale, B)`, src/special_function.cc:1266-1296: `B[n]`. -/
def jnScaled (F : Table) (nb : ℕ) (x scale : ℝ) (n : ℕ) : ℝ :=
  if x ≤ 10⁻¹ ^ 4 then taylorT1 (x / scale) n * (1 - 0.5 * x * x / (2 * n + 3))
  else F nb x n * factorAt (F nb x) x scale n

/-- The entries of `B` in `bessel_kn_scaled`, src/special_function.cc:1341-1353, as long as the loop goes on. -/
def knEntry (x scale : ℝ) : ℕ → ℝ
  | 0 => Real.exp (-x) / x * (Real.pi / 2)
  | 1 => Real.exp (-x) / x * (Real.pi / 2) * scale * (1 + 1 / x)
  | n + 2 => (2 * ((n + 2 : ℕ) : ℝ) - 1) * (scale / x) * knEntry x scale (n + 1) + scale * scale * knEntry x scale n

/-- The test that ends the loop of `bessel_kn_scaled` at `n`, src/special_function.cc:1349-1351. -/
def knStop (x scale : ℝ) (n : ℕ) : Prop := xinf / (2 * n - 1) ≤ |knEntry x scale (n - 1)| * (scale / x)

open Classical in
/-- `bessel_kn_scaled(nb, x, scale, B)`, src/special_function.cc:1334-1365, for `nb ≥ 0`. The final
`assert(ncalc == nb)` holds if and only if the argument is in the range of line 1340, `nb` is not 0 (for
`nb = 0` the array has one entry, `B[1]` is written and `ncalc` is 1) and no test of the loop ends it. -/
def knScaled (nb : ℕ) (x scale : ℝ) : Option (ℕ → ℝ) :=
  if 1 ≤ nb ∧ xmin ≤ x ∧ x < 10 ^ 8 ∧ ∀ n, 2 ≤ n → n ≤ nb → ¬ knStop x scale n then some (knEntry x scale)
  else none

/-- `t1` in `bessel_hn_scaled`, src/special_function.cc:1375-1388. -/
def hnT1 (x scale : ℝ) : ℕ → ℝ
  | 0 => 1
  | i + 1 =>
    let t1 := hnT1 x scale i * (x * scale) / (2 * ((i + 1 : ℕ) : ℝ) + 1)
    if t1 ≤ enmten then 0 else t1

/-- `t2` in `bessel_hn_scaled`, src/special_function.cc:1378, 1385. -/
def hnT2 (x scale : ℝ) : ℕ → ℝ
  | 0 => 1
  | i + 1 => hnT2 x scale i * (scale / x) * (2 * ((i + 1 : ℕ) : ℝ) - 1)

/-- `Jn[n]` of the first branch of `bessel_hn_scaled`, src/special_function.cc:1380, 1388. -/
def hnJ (x scale : ℝ) (n : ℕ) : ℝ := hnT1 x scale n * (1 - 0.5 * x * x / (2 * n + 3))

/-- `Yn[n]` of the first branch of `bessel_hn_scaled`, src/special_function.cc:1381, 1389. -/
def hnY (x scale : ℝ) : ℕ → ℝ
  | 0 => -(1 - 0.5 * x * x) / x
  | n + 1 => -hnT2 x scale (n + 1) * (1 - 0.5 * x * x / (1 - 2 * ((n + 1 : ℕ) : ℝ)))

/-- `bessel_hn_scaled(nb, x, scale, B)`, src/special_function.cc:1367-1409: the real part of `B[n]`. -/
def hnRe (J : Table) (nb : ℕ) (x scale : ℝ) (n : ℕ) : ℝ :=
  if x < 10⁻¹ ^ 4 then hnJ x scale n else J nb x n * (√(Real.pi / 2 / x) * scale ^ n)

/-- `bessel_hn_scaled(nb, x, scale, B)`, src/special_function.cc:1367-1409: the imaginary part of `B[n]`. -/
def hnIm (Y : Table) (nb : ℕ) (x scale : ℝ) (n : ℕ) : ℝ :=
  if x < 10⁻¹ ^ 4 then hnY x scale n else Y nb x n * (√(Real.pi / 2 / x) * scale ^ n)

end

end Dashmm.Bessel
