import Verif.Spec.Laplace
import Mathlib.Analysis.SpecialFunctions.Trigonometric.Basic
import Mathlib.Data.Nat.Factorial.DoubleFactorial

/-!
Specification of the Yukawa kernel: the screened potential of point charges, and the bound on the error of one
expansion.
-/

namespace Dashmm.Yukawa

open Lap (Src)
open scoped Nat

noncomputable section

/-- The screened potential of the charges at `t`, in the units of the code: `π / (2 λ) · q exp (-λ R) / R`; a charge at `t`
itself does not count. -/
def potential (lam : ℝ) (srcs : List Src) (t : Point ℝ) : ℝ :=
  (srcs.map fun s => if (t.sub s.pos).norm = 0 then 0 else
    Real.pi / (2 * lam) * (s.charge * Real.exp (-(lam * (t.sub s.pos).norm)) / (t.sub s.pos).norm)).sum

/-- What underflow may cost: values of at most `10⁻³⁰⁰` that are stored as zero, in the terms up to degree `p`. -/
def underflow (p : ℕ) (lam scale ρ r : ℝ) : ℝ :=
  2 * 10⁻¹ ^ 300 * ∑ n ∈ Finset.range (p + 1), ((2 * n + 1)‼ : ℕ) * max 1 (lam * ρ / scale) ^ n * (scale / (lam * r)) ^ n

/-- The bound on the error, for a unit charge, of an expansion with terms up to degree `p`: `r` is the larger and `ρ` the
smaller one of the distances of the charge and the target from the centre, `δ` the relative error of the table of
Bessel functions. The first term is the truncated rest of the series. -/
def expansionError (p : ℕ) (lam scale δ ρ r : ℝ) : ℝ :=
  Real.pi / (2 * lam) *
    ((min ((ρ / r) ^ (p + 1)) (Real.exp (-(lam * (r - ρ)))) + δ * Real.exp (-(lam * (r - ρ)))) / (r - ρ) +
      underflow p lam scale ρ r / r)

/-- The relative error of the functions `i_n(x)`: `δ`, but for `x > 100` they are taken to be zero. -/
def besselError (δ x : ℝ) : ℝ := if x ≤ 100 then δ else 1

/-- The bound for a multipole expansion of charges about `c` at `t`. -/
def multipoleBound (p : ℕ) (lam scale δ : ℝ) (c : Point ℝ) (srcs : List Src) (t : Point ℝ) : ℝ :=
  (srcs.map fun s => |s.charge| *
    expansionError p lam scale (besselError δ (lam * (s.pos.sub c).norm)) (s.pos.sub c).norm (t.sub c).norm).sum

/-- The bound for a local expansion of charges about `c` at `t`. -/
def localBound (p : ℕ) (lam scale δ : ℝ) (c : Point ℝ) (srcs : List Src) (t : Point ℝ) : ℝ :=
  (srcs.map fun s => |s.charge| *
    expansionError p lam scale (besselError δ (lam * (t.sub c).norm)) (t.sub c).norm (s.pos.sub c).norm).sum

end
end Dashmm.Yukawa
