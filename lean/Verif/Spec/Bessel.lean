import Mathlib.Analysis.SpecialFunctions.Trigonometric.Basic
import Mathlib.Data.Nat.Factorial.DoubleFactorial
import Mathlib.Topology.Algebra.InfiniteSum.Basic

/-!
# The spherical Bessel functions (NIST Digital Library of Mathematical Functions, chapter 10)
-/

namespace Dashmm.Bessel

open scoped Nat

noncomputable section

/-- The modified spherical Bessel function of the first kind `i_n(x)` (DLMF 10.53.3). -/
def sphI (n : ℕ) (x : ℝ) : ℝ := ∑' k : ℕ, x ^ (n + 2 * k) / (2 ^ k * k ! * ((2 * n + 2 * k + 1)‼ : ℕ))

/-- The modified spherical Bessel function of the second kind `k_n(x)` (DLMF 10.49.12). -/
def sphK (n : ℕ) (x : ℝ) : ℝ :=
  Real.pi / 2 * Real.exp (-x) * ∑ k ∈ Finset.range (n + 1), ((n + k)! : ℝ) / (k ! * (n - k)!) / (2 ^ k * x ^ (k + 1))

/-- The spherical Bessel function of the first kind `j_n(x)` (DLMF 10.53.1). -/
def sphJ (n : ℕ) (x : ℝ) : ℝ := ∑' k : ℕ, (-1) ^ k * x ^ (n + 2 * k) / (2 ^ k * k ! * ((2 * n + 2 * k + 1)‼ : ℕ))

/-- The spherical Bessel function of the second kind `y_n(x)` (DLMF 10.49.4 for `n = 0, 1`, and the
recurrence 10.51.1). -/
def sphY (x : ℝ) : ℕ → ℝ
  | 0 => -Real.cos x / x
  | 1 => -Real.cos x / x ^ 2 - Real.sin x / x
  | n + 2 => (2 * n + 3) / x * sphY x (n + 1) - sphY x n

/-- What is asked of the table `F nb x n` of values `I_{n+1/2}(x)` that is filled for `10⁻⁴ < x ≤ 100`: after the factor
`√(π / (2 x))` its relative error is at most `δ`. -/
def AccurateI (F : ℕ → ℝ → ℕ → ℝ) (δ : ℝ) : Prop := ∀ nb x, 10⁻¹ ^ 4 < x → x ≤ 100 → ∀ n ≤ nb,
  |F nb x n * √(Real.pi / 2 / x) - sphI n x| ≤ δ * sphI n x

end
end Dashmm.Bessel
