import Mathlib.Analysis.SpecialFunctions.Trigonometric.Basic
import Mathlib.Analysis.SpecialFunctions.Log.Basic
import Mathlib.Algebra.Order.Floor.Ring

/-!
# Model of the Gamma function, src/special_function.cc:116-240

`double` is the real numbers: the decimal constants are exact, `floor`, `sin`, `log`, `exp` and the quotients are those of the real
numbers. In particular a sum is not rounded, and `M_PI` is `π`.
-/

namespace Dashmm.Gam

noncomputable section

/-- `xbig`, src/special_function.cc:118. -/
def xbig : ℝ := 171.624

/-- `xminin`, src/special_function.cc:122. -/
def xminin : ℝ := 2.23e-308

/-- `eps`, src/special_function.cc:125. -/
def eps : ℝ := 2.22e-16

/-- `xinf`, src/special_function.cc:128. -/
def xinf : ℝ := 1.79e308

/-- `p`, src/special_function.cc:132-139. -/
def p : List ℝ :=
  [-1.71618513886549492533811,
   2.47656508055759199108314e+1,
   -3.79804256470945635097577e+2,
   6.29331155312818442661052e+2,
   8.66966202790413211295064e+2,
   -3.14512729688483675254357e+4,
   -3.61444134186911729807069e+4,
   6.64561438202405440627855e+4]

/-- `q`, src/special_function.cc:141-148. -/
def q : List ℝ :=
  [-3.08402300119738975254353e+1,
   3.15350626979604161529144e+2,
   -1.01515636749021914166146e+3,
   -3.10777167157231109440444e+3,
   2.25381184209801510330112e+4,
   4.75584627752788110767815e+3,
   -1.34659959864969306392456e+5,
   -1.15132259675553483497211e+5]

/-- `c[0]`, ..., `c[5]`, src/special_function.cc:151-156. -/
def c : List ℝ :=
  [-1.910444077728e-03,
   8.4171387781295e-04,
   -5.952379913043012e-04,
   7.93650793500350248e-04,
   -2.777777777777681622553e-03,
   8.333333333333333331554247e-02]

/-- `c[6]`, src/special_function.cc:157. -/
def c6 : ℝ := 5.7083835261e-03

/-- `M_SQRTPI`, src/special_function.cc:27. -/
def sqrtpi : ℝ := 0.9189385332046727417803297

/-- `xnum / xden + 1.0`, src/special_function.cc:201-208. -/
def near (z : ℝ) : ℝ :=
  (p.foldl (fun xnum pi => (xnum + pi) * z) 0) / (q.foldl (fun xden qi => xden * z + qi) 1) + 1

/-- `for (int i = 0; i < n; ++i) { res *= y; y += 1.0; }`, src/special_function.cc:213-216: `res` at the end. -/
def climb : ℕ → ℝ → ℝ → ℝ
  | 0, res, _ => res
  | n + 1, res, y => climb n (res * y) (y + 1)

/-- The argument is at least `eps` and less than 12, src/special_function.cc:188-217. `floor(y) - 1` is a natural number for `y ≥ 1`. -/
def small (y : ℝ) : ℝ :=
  if y < 1 then near y / y
  else
    let n := (⌊y⌋ - 1).toNat
    let y' := y - n
    if y > y' then climb n (near (y' - 1)) y' else near (y' - 1)

/-- The argument is at least 12 and at most `xbig`, src/special_function.cc:218-227. -/
def large (y : ℝ) : ℝ :=
  let ysq := y * y
  let sum := c.foldl (fun sum ci => sum / ysq + ci) c6
  Real.exp (sum / y - y + sqrtpi + (y - 0.5) * Real.log y)

/-- `res` for a positive argument, src/special_function.cc:181-231; `none` when the function returns `xinf` there. -/
def positive (y : ℝ) : Option ℝ :=
  if y < eps then (if xminin ≤ y then some (1 / y) else none)
  else if y < 12 then some (small y)
  else if y ≤ xbig then some (large y)
  else none

/-- `Gamma(x)`, src/special_function.cc:116-240. -/
def gamma (x : ℝ) : ℝ :=
  if x ≤ 0 then
    let y := -x
    let y1 := (⌊y⌋ : ℤ)
    let r := y - y1
    if r ≠ 0 then
      let parity := (y1 : ℝ) ≠ ⌊(y1 : ℝ) * 0.5⌋ * 2
      let fact := -Real.pi / Real.sin (Real.pi * r)
      match positive (y + 1) with
      | none => xinf
      | some res =>
        open Classical in
        let res := if parity then -res else res
        if fact ≠ 1 then fact / res else res
    else xinf
  else
    match positive x with
    | none => xinf
    | some res => res

end
end Dashmm.Gam
