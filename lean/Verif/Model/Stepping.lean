import Verif.Model.ComEval
import Verif.Model.ForEach

/-!
# The time-stepping demo

`demo/stepping/stepping.cc`: particles that are sources and targets at once, moved by alternating
`evaluate` (Barnes-Hut with `LaplaceCOMAcc`) and `forEach(update_particles)`.  Real arithmetic.
-/

namespace Dashmm.Stepping

open Com

/-- `Particle`, demo/stepping/stepping.cc:34-40. -/
@[ext] structure Particle where
  position : Fin 3 → ℝ
  charge : ℝ
  velocity : Fin 3 → ℝ
  acceleration : Fin 3 → ℝ
  index : ℕ

/-- What `LaplaceCOMAcc` reads of a particle as a target (include/builtins/laplace_com_acc.h:62-64). -/
def Particle.target (p : Particle) : AccTarget :=
  ⟨p.position 0, p.position 1, p.position 2, p.acceleration 0, p.acceleration 1, p.acceleration 2⟩

/-- What `LaplaceCOMAcc` reads of a particle as a source. -/
def Particle.source (p : Particle) : Src ℝ := ⟨p.charge, p.position 0, p.position 1, p.position 2⟩

/-- `LaplaceCOMAcc` writes nothing but `acceleration` of a target
(include/builtins/laplace_com_acc.h:207-235, 260-262). -/
def Particle.withTarget (p : Particle) (t : AccTarget) : Particle :=
  { p with acceleration := ![t.a0, t.a1, t.a2] }

/-- One operation that an evaluation applies to a target: `S_to_T` from a list of sources or `M_to_T`
from an expansion (include/builtins/laplace_com_acc.h:191-264; Barnes-Hut has no other operation with
a target at its end). -/
inductive TOp where
  | sToT (srcs : List (Src ℝ))
  | mToT (d : Data ℝ)

/-- The operation on one target: the models of `S_to_T` and `M_to_T`. -/
noncomputable def TOp.run (t : AccTarget) : TOp → AccTarget
  | .sToT srcs =>
    let s := accSToTSum srcs t
    { t with a0 := t.a0 + s.1, a1 := t.a1 + s.2.1, a2 := t.a2 + s.2.2 }
  | .mToT d => accMToT1 d t

/-- `evaluate` as a particle sees it (demo/stepping/stepping.cc:289-291): a sequence of operations is
applied to it, none resets it.  The array is reordered by the evaluation; here a record is followed by
identity, so the order does not appear. -/
noncomputable def evaluate {n : ℕ} (ops : Fin n → List TOp) (ps : Fin n → Particle) : Fin n → Particle := fun i =>
  (ps i).withTarget ((ops i).foldl TOp.run (ps i).target)

/-- One pass of the loop over `j` in `update_particles`, demo/stepping/stepping.cc:224-236: the local
`x[j]` from the old velocity, then `velocity[j]`. -/
noncomputable def updateComp (dt : ℝ) (s : (Fin 3 → ℝ) × Particle) (j : Fin 3) : (Fin 3 → ℝ) × Particle :=
  let x := Function.update s.1 j (s.1 j + (s.2.velocity j * dt - 0.5 * s.2.acceleration j * dt * dt))
  (x, { s.2 with velocity := Function.update s.2.velocity j (s.2.velocity j - s.2.acceleration j * dt) })

/-- The body of the loop over particles in `update_particles`, demo/stepping/stepping.cc:222-239. -/
noncomputable def updateOne (dt : ℝ) (p : Particle) : Particle :=
  let s := [0, 1, 2].foldl (updateComp dt) (p.position, p)
  { s.2 with position := s.1 }

/-- `update_particles`, demo/stepping/stepping.cc:221-240. -/
noncomputable def updateParticles (dt : ℝ) (ps : List Particle) : List Particle := ps.map (updateOne dt)

/-- One pass of the time-stepping loop, demo/stepping/stepping.cc:281-301.  `ops` says which operations
the evaluation applies to which particle; they depend on all particles. -/
noncomputable def step {n : ℕ} (ops : (Fin n → Particle) → Fin n → List TOp) (dt : ℝ) (ps : Fin n → Particle) :
    Fin n → Particle := fun i =>
  updateOne dt (evaluate (ops ps) ps i)

/-- The loop, demo/stepping/stepping.cc:281. -/
noncomputable def run {n : ℕ} (ops : (Fin n → Particle) → Fin n → List TOp) (dt : ℝ) (ps : Fin n → Particle) :
    ℕ → Fin n → Particle
  | 0 => ps
  | k + 1 => step ops dt (run ops dt ps k)

/-- A particle as `set_sources` makes it, demo/stepping/stepping.cc:178-194: at rest and without
acceleration. -/
def fresh (pos : Fin 3 → ℝ) (mass : ℝ) (i : ℕ) : Particle := ⟨pos, mass, fun _ => 0, fun _ => 0, i⟩

/-- The operations when all particles are in one leaf: `S_to_T` from all of them
(at most `refinement_limit` particles, include/dashmm/bh_method.h). -/
def allPairs {n : ℕ} (ps : Fin n → Particle) (_ : Fin n) : List TOp := [.sToT (List.ofFn fun j => (ps j).source)]

end Dashmm.Stepping
