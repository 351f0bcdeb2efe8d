import Verif.Model.Stepping
import Verif.Spec.ComEval
/-!
# What a step of an n-body integration should do
-/
namespace Dashmm.Stepping

open Com

/-- The field that a sequence of operations adds to a target at `x`: what it leaves in a target whose
acceleration was zero. -/
noncomputable def field (ops : List TOp) (x : Fin 3 → ℝ) : Fin 3 → ℝ :=
  let t := ops.foldl TOp.run ⟨x 0, x 1, x 2, 0, 0, 0⟩
  ![t.a0, t.a1, t.a2]

/-- The particle `p` moved for `dt` with the constant acceleration `-a` (attraction) and from its
velocity: `x + v dt - a dt²/2`, `v - a dt`. -/
def Moved (dt : ℝ) (a : Fin 3 → ℝ) (p q : Particle) : Prop :=
  (∀ j, q.position j = p.position j + p.velocity j * dt - a j * dt ^ 2 / 2) ∧
  (∀ j, q.velocity j = p.velocity j - a j * dt) ∧ q.charge = p.charge ∧ q.index = p.index

/-- Total momentum, component `j`. -/
noncomputable def momentum {n : ℕ} (ps : Fin n → Particle) (j : Fin 3) : ℝ := ∑ i, (ps i).charge * (ps i).velocity j

end Dashmm.Stepping
