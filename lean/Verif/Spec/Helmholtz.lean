import Verif.Spec.Laplace
import Verif.Spec.Bessel
import Mathlib.Analysis.SpecialFunctions.Trigonometric.Basic

/-!
Specification of the Helmholtz kernel: the field of point sources of a frequency, and the bound on the error of one expansion.
-/

namespace Dashmm.Helm

open Lap (Src)
open Bessel

noncomputable section

/-- The field of the sources at `t`, in the units of the code: `q exp (i ω R) / (i ω R)`; a source at `t` itself does not
count. -/
def field (om : ℝ) (srcs : List Src) (t : Point ℝ) : ℂ :=
  (srcs.map fun s => if (t.sub s.pos).norm = 0 then 0 else
    s.charge * Complex.exp (Complex.I * (om * (t.sub s.pos).norm : ℝ)) / (Complex.I * (om * (t.sub s.pos).norm : ℝ))).sum

/-- The spherical Hankel function of the first kind. -/
def sphH (n : ℕ) (x : ℝ) : ℂ := sphJ n x + Complex.I * sphY x n

/-- How well `B` holds the functions `j_n(x)`, divided by `scale ^ n`, up to degree `p`: each entry up to an error `α n`. -/
def NearJ (p : ℕ) (x scale : ℝ) (α : ℕ → ℝ) (B : ℕ → ℝ) : Prop := ∀ n ≤ p, |B n - sphJ n x / scale ^ n| ≤ α n

/-- How well `B` holds the functions `h_n(x)`, multiplied by `scale ^ n`, up to degree `p`. -/
def NearH (p : ℕ) (x scale : ℝ) (β : ℕ → ℝ) (B : ℕ → ℂ) : Prop := ∀ n ≤ p, ‖B n - scale ^ n * sphH n x‖ ≤ β n

/-- The truncated rest of the series for a unit charge: a geometric series with a constant that is near 1 as long as `ω r` is
small (the low-frequency regime). `r` is the larger and `ρ` the smaller one of the distances of source and target from the
centre. -/
def truncation (p : ℕ) (om ρ r : ℝ) : ℝ :=
  Real.exp (om * (r + ρ)) * Real.exp (om ^ 2 * ρ ^ 2 / (2 * (2 * p + 3))) * (1 + om ^ 2 * (ρ * r) / ((2 * p + 1) * (2 * p + 3))) *
    ((ρ / r) ^ (p + 1) / (r - ρ)) / om

/-- What the errors `α`, `β` of the two arrays of functions cost, for a unit charge. -/
def functionError (p : ℕ) (om scale ρ r : ℝ) (α β : ℕ → ℝ) : ℝ :=
  ∑ n ∈ Finset.range (p + 1), (2 * n + 1) *
    (α n * ‖scale ^ n * sphH n (om * r)‖ + (|sphJ n (om * ρ)| / scale ^ n + α n) * β n)

end
end Dashmm.Helm
