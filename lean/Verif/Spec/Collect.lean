import Verif.Model.Collect
import Verif.Spec.Combine
/-!
# What the comparison should report
-/
namespace Dashmm.Collect

open Combine

/-- The combinations of kernel, method and accuracy the program is meant to test. -/
def Supported (k : Kernel) (m : Method) (accuracy : ℤ) : Prop :=
  (k = .laplace ∧ (m = .bh ∨ m = .fmm)) ∨
  ((k = .laplace ∨ k = .yukawa ∨ k = .helmholtz) ∧ m = .fmm97 ∧ (accuracy = 3 ∨ accuracy = 6))

variable {P : Type}

/-- The relative error in the least-squares norm of the computed potentials against the exact ones. -/
noncomputable def l2Error (ts : List (ℂ × ℂ)) : ℝ :=
  Real.sqrt ((ts.map fun t => ‖t.1 - t.2‖ ^ 2).sum / (ts.map fun t => ‖t.2‖ ^ 2).sum)

/-- Pairs of computed and exact potentials for a kernel. -/
def pairs (k : Kernel) (ts : List (FileTarget P ℂ)) : List (ℂ × ℂ) := ts.map fun t => (t.phi, t.exact k)

end Dashmm.Collect
