import Verif.Spec.Helmholtz
import Verif.Spec.YukShift
import Verif.Model.Helmholtz

/-!
Specification of the translations of the Helmholtz kernel. The size of a multipole expansion (`Yukawa.MultipoleSize`) and the truncation errors of the
shifts (`Yukawa.shiftError`, `Yukawa.localShiftError`) are those of `Verif.Spec.YukShift`, with the frequency in place of the screening parameter.
-/

namespace Dashmm.Helm

open Bessel (Table jnScaled)
open scoped Nat

noncomputable section

/-- The code's functions `j_i(x) / x^i` up to the degree `2 p`, which the tables of the shifts use, hold up to the relative error `ε` (relative to their leading terms
`1 / (2 i + 1)!!`). -/
def GoodTab (J : Table) (p : ℕ) (ε x : ℝ) : Prop := NearJ (2 * p) x x (fun i => ε / ((2 * i + 1)‼ : ℕ)) (jnScaled J (2 * p) x x)

/-- The root of the sum of the squares of the coefficients of degree `n` of a local expansion, with the weights of the
functions of degree `n`. -/
def localDegreeSize (L : LCoef) (n : ℕ) : ℝ :=
  √(∑ m ∈ Finset.Icc (-(n : ℤ)) n, ((n + m.natAbs)! : ℝ) / ((n - m.natAbs)! : ℝ) * ‖L n m‖ ^ 2)

/-- The coefficients of a local expansion with this `scale` are no larger than those of a field of the size `μ` with
sources at distances from `d` on. -/
def LocalSize (p : ℕ) (om scale : ℝ) (L : LCoef) (μ d : ℝ) : Prop :=
  ∀ n ≤ p, (om / scale) ^ n / ((2 * n + 1)‼ : ℕ) * localDegreeSize L n ≤ μ / d ^ n

/-- The bound for `M_to_M`: a shift by `ρ`, sources up to `R` from the old centre, a target at `r` from the new one. -/
def mToMBound (p : ℕ) (om ε ρ R r : ℝ) : ℝ :=
  1 / om * (Yukawa.shiftError p om ρ R r * Real.exp (om * (r + ρ)) +
    ε * Real.exp (om ^ 2 * ρ ^ 2 / 3) * Real.exp (om ^ 2 * ρ * R / 3) * Real.exp (om * r) / (r - (R + ρ)))

/-- The growth of the size in `M_to_M`. -/
def mToMGrowth (om ε ρ R : ℝ) : ℝ :=
  (Real.exp (om ^ 2 * ρ ^ 2 / 6) + ε) * Real.exp (om ^ 2 * ρ ^ 2 / 3) * Real.exp (om ^ 2 * ρ * R / 3)

/-- The bound for `L_to_L`: a shift by `ρ`, a target at `r` from the centre of the child and at `r'` from that of the parent, sources from `d` on. -/
def lToLBound (p : ℕ) (om ε ρ r r' d : ℝ) : ℝ :=
  Yukawa.localShiftError p om ρ (max r r') d +
    ε * Real.exp ((om * r) ^ 2 / 6) * Real.exp (om ^ 2 * (ρ ^ 2 / 3 + ρ * r / 3)) * d / (d - (r + ρ))

/-- The growth of the size in `L_to_L`. -/
def lToLGrowth (om ε ρ d : ℝ) : ℝ :=
  √2 * ((Real.exp (om ^ 2 * ρ ^ 2 / 6) + ε) * Real.exp (om ^ 2 * ρ ^ 2 / 3) * Real.exp (om ^ 2 * ρ * d / 3) * (d / (d - ρ)))

/-- What errors `β n` of the functions at a target cost: an expansion with coefficients of the sizes `s n`. -/
def evalCost (p : ℕ) (β s : ℕ → ℝ) : ℝ := ∑ n ∈ Finset.range (p + 1), β n * s n

end
end Dashmm.Helm
