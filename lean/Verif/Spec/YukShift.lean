import Verif.Spec.Yukawa

/-!
Specification of the translations of the Yukawa kernel: the size of an expansion and the bounds on the errors.
-/

namespace Dashmm.Yukawa

open Lap (Src Coef)
open scoped Nat

noncomputable section

/-- The root of the sum of the squares of the coefficients of degree `n`, both signs of the order, with the weights of
the functions of degree `n`. -/
def degreeSize (M : Coef) (n : ℕ) : ℝ :=
  √(‖M n 0‖ ^ 2 + 2 * ∑ m ∈ Finset.Icc 1 n, ((n + m)! : ℝ) / ((n - m)! : ℝ) * ‖M n m‖ ^ 2)

/-- The coefficients of a multipole expansion with this `scale` are no larger than those of charges of the total size `μ`
at distances up to `R` (up to degree `p`). -/
def MultipoleSize (p : ℕ) (lam scale : ℝ) (M : Coef) (μ R : ℝ) : Prop :=
  ∀ n ≤ p, ((2 * n - 1)‼ : ℕ) * (scale / lam) ^ n * degreeSize M n ≤ μ * R ^ n

/-- The coefficients of a local expansion with this `scale` are no larger than those of a field of the size `μ` with
sources at distances from `d` on. -/
def LocalSize (p : ℕ) (lam scale : ℝ) (L : Coef) (μ d : ℝ) : Prop :=
  ∀ n ≤ p, (lam / scale) ^ n / ((2 * n + 1)‼ : ℕ) * degreeSize L n ≤ μ / d ^ n

/-- What the inaccuracy of the table of Bessel functions at `x`, with degrees up to `2 p`, contributes. -/
def tableError (p : ℕ) (δ x : ℝ) : ℝ := besselError δ x * Real.exp (x ^ 2 / 6) + 2 * 10⁻¹ ^ 300 * ((4 * p + 1)‼ : ℕ)

/-- The truncation error of a shift of a multipole expansion of unit size `R` by the distance `ρ`, at the distance `r` from the
new centre. -/
def shiftError (p : ℕ) (lam ρ R r : ℝ) : ℝ :=
  ρ * Real.exp (lam ^ 2 * ρ ^ 2 / 2) * (lam ^ 2 / 3 * ((R + ρ) / r) ^ (p + 1) + (p + 1) / (r - ρ) ^ 2 * ((R + ρ) / r) ^ p)

/-- The bound for `M_to_M`. -/
def mToMBound (p : ℕ) (lam δ ρ R r : ℝ) : ℝ :=
  Real.pi / (2 * lam) * (shiftError p lam ρ R r +
    tableError p δ (lam * ρ) * Real.exp (lam ^ 2 * ρ ^ 2 / 3) * Real.exp (lam ^ 2 * ρ * R / 3) / (r - (R + ρ)))

/-- The growth of the size in `M_to_M`. -/
def mToMGrowth (p : ℕ) (lam δ ρ R : ℝ) : ℝ :=
  (Real.exp (lam ^ 2 * ρ ^ 2 / 6) + tableError p δ (lam * ρ)) * Real.exp (lam ^ 2 * ρ ^ 2 / 3) * Real.exp (lam ^ 2 * ρ * R / 3)

/-- The size of the multipole expansion of a unit charge at a distance of at most `R`. -/
def chargeSize (p : ℕ) (lam scale δ R : ℝ) : ℝ :=
  (1 + besselError δ (lam * R)) * Real.exp ((lam * R) ^ 2 / 6) + 2 * 10⁻¹ ^ 300 * ((2 * p + 1)‼ : ℕ) * max 1 (scale / (lam * R)) ^ p

/-- What the inaccuracy of the functions `i_n` at a target at the distance `r` contributes. -/
def evalError (p : ℕ) (lam δ r : ℝ) : ℝ := besselError δ (lam * r) * Real.exp ((lam * r) ^ 2 / 6) + 2 * 10⁻¹ ^ 300 * ((2 * p + 1)‼ : ℕ)

/-- The truncation error of a shift of a local expansion of unit size `d` by the distance `ρ`; `R` is the larger one of the
distances of the target from the two centres. -/
def localShiftError (p : ℕ) (lam ρ R d : ℝ) : ℝ :=
  ρ * Real.exp (lam ^ 2 * (ρ ^ 2 / 2 + R ^ 2 / 6 + ρ * d / 3)) * ((R / d) ^ p * ((p + 1) / d + lam ^ 2 * R / 3))

/-- The bound for `L_to_L`: `r` is the distance of the target from the centre of the child and `r'` that from the centre of the
parent, `scale` that of the parent. The last three terms are due to the tables of Bessel functions. -/
def lToLBound (p : ℕ) (lam scale δ ρ r r' d : ℝ) : ℝ :=
  localShiftError p lam ρ (max r r') d +
  tableError p δ (lam * ρ) * Real.exp ((lam * r) ^ 2 / 6) * Real.exp (lam ^ 2 * (ρ ^ 2 / 3 + ρ * r / 3)) * d / (d - (r + ρ)) +
  (Real.exp (lam ^ 2 * ρ ^ 2 / 6) + tableError p δ (lam * ρ)) * evalError p lam δ r *
    Real.exp (lam ^ 2 * (ρ ^ 2 / 3 + ρ * max (scale / 2 / lam) r / 3)) * d / (d - (max (scale / 2 / lam) r + ρ)) +
  evalError p lam δ r' * d / (d - max (scale / lam) r')

/-- `√3 / 2` sides of a box at the level `lev`: the distance of its centre from that of its parent. -/
def childShift (size : ℝ) (lev : ℕ) : ℝ := √3 / 2 * (size / 2 ^ lev)

/-- The total size of the charges. -/
def totalCharge (srcs : List Src) : ℝ := (srcs.map fun s => |s.charge|).sum

end
end Dashmm.Yukawa
