import Verif.Model.GaussQ
/-!
# Eigenvalues up to an error

The quadratic form of a symmetric tridiagonal matrix, and what it means that a set of values and numbers
is, up to an error, its eigenvalues with the first components of orthonormal eigenvectors.
-/
namespace Dashmm.GaussQ

/-- The square of the length of the first `N` coordinates. -/
def lengthSq (N : ℕ) (x : ℕ → ℝ) : ℝ := ∑ k ∈ Finset.range N, x k ^ 2

/-- `xᵀ T x` for the symmetric tridiagonal matrix `T` of order `N` with diagonal `d` and subdiagonal `e`. -/
def form (N : ℕ) (d e : ℕ → ℝ) (x : ℕ → ℝ) : ℝ :=
  (∑ k ∈ Finset.range N, d k * x k ^ 2) + 2 * ∑ k ∈ Finset.range (N - 1), e k * (x k * x (k + 1))

/-- `x` are, up to an error of `ε` in the matrix, the eigenvalues of the symmetric tridiagonal matrix with
diagonal `d` and subdiagonal `e`, and `z` the first components of orthonormal eigenvectors: there is a linear map
that is onto and preserves length (coordinates with respect to the eigenvectors go to coordinates), under which the quadratic
form is that of a diagonal matrix up to `ε`, and the first coordinate is the product with `z`. -/
def IsEigen (N : ℕ) (d e : ℕ → ℝ) (x z : ℕ → ℝ) (ε : ℝ) : Prop :=
  ∃ V : (ℕ → ℝ) →ₗ[ℝ] (ℕ → ℝ), Function.Surjective V ∧ (∀ y, lengthSq N (V y) = lengthSq N y) ∧
    (∀ y, |(∑ k ∈ Finset.range N, x k * y k ^ 2) - form N d e (V y)| ≤ ε * lengthSq N y) ∧
    ∀ y, V y 0 = ∑ k ∈ Finset.range N, z k * y k

/-- The subdiagonal of the matrix whose eigenvalues are the nodes of the Gauss rule with the weight function 1 on
the interval from -1 to 1 (the matrix of the recurrence of the Legendre polynomials). -/
noncomputable def legendreE (k : ℕ) : ℝ := (k + 1) / √((2 * k + 1) * (2 * k + 3))

end Dashmm.GaussQ
