import Verif.Model.Demo
/-!
# Points and errors of the demos
-/
namespace Dashmm.Demo

/-- Distance from the origin. -/
noncomputable def radius (p : ℝ × ℝ × ℝ) : ℝ := Real.sqrt (p.1 ^ 2 + p.2.1 ^ 2 + p.2.2 ^ 2)

/-- The part of the mass of a Plummer sphere (of scale 1) that is within a radius. -/
noncomputable def plummerMass (r : ℝ) : ℝ := r ^ 3 / (1 + r ^ 2) ^ (3 / 2 : ℝ)

/-- The relative error in the least-squares norm of pairs of computed and exact values. -/
noncomputable def relError (ps : List (ℂ × ℂ)) : ℝ :=
  Real.sqrt ((ps.map fun p => ‖p.1 - p.2‖ ^ 2).sum / (ps.map fun p => ‖p.2‖ ^ 2).sum)

/-- The greatest relative error of pairs of computed and exact values is `m`. -/
def IsMaxError (ps : List (ℂ × ℂ)) (m : ℝ) : Prop :=
  (∀ p ∈ ps, ‖p.1 - p.2‖ / ‖p.2‖ ≤ m) ∧ (m = 0 ∨ ∃ p ∈ ps, m = ‖p.1 - p.2‖ / ‖p.2‖)

end Dashmm.Demo
