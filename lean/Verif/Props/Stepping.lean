import Verif.Proofs.Stepping
import Verif.Props.Array
/-!
Property C117: the time-stepping demo.

The comment at demo/stepping/stepping.cc:216-220 promises an update of the positions "given the computed
acceleration".  Full statement: in every step every particle is moved for `dt` from its velocity with
the attraction of the particles at their current positions.  It is false of the code from the second
step on: `LaplaceCOMAcc` adds to `acceleration` and nothing ever resets it.
-/
namespace Dashmm

open Stepping Com

/-- C117: `update_particles` moves each component by `v dt - a dt²/2` with the velocity before the
step, changes the velocity by `-a dt`, and leaves charge, index and acceleration alone. -/
theorem C117_update (dt : ℝ) (p : Particle) :
    Moved dt p.acceleration p (updateOne dt p) ∧ (updateOne dt p).acceleration = p.acceleration := by
  rw [updateOne_eq]
  exact ⟨⟨fun _ => rfl, fun _ => rfl, rfl, rfl⟩, rfl⟩

/-- C117: under every schedule of the parallel `forEach`, when it returns every particle has been moved
exactly once. -/
theorem C117_update_parallel (dt : ℝ) (factor threads : ℕ) {ps : List Particle} (h0 : ps ≠ [])
    {st : ForEach.St Particle}
    (h : ForEach.Reach (updateParticles dt) (ForEach.chunking ps.length (ForEach.overFactor factor threads)).1 ps st)
    (hr : ForEach.released (ForEach.chunking ps.length (ForEach.overFactor factor threads)).2 st) :
    st.mem.length = ps.length ∧ ∀ i (h1 : i < st.mem.length) (h2 : i < ps.length),
      Moved dt ps[i].acceleration ps[i] st.mem[i] := by
  have h' : ForEach.Reach (List.map (updateOne dt))
      (ForEach.chunking ps.length (ForEach.overFactor factor threads)).1 ps st := h
  have hc := C14_map_complete (updateOne dt) factor threads h0 h'
  have hm := (hc.2 (hc.1.1 hr)).2.1
  refine ⟨by rw [hm, List.length_map], fun i h1 h2 => ?_⟩
  simp only [hm, List.getElem_map]
  exact (C117_update dt ps[i]).1

/-- C117 (part): whatever operations the evaluations apply, in the first step every particle, starting
without acceleration as the demo's particles do, is moved with the field of that evaluation. Missing:
the later steps, where it is false, see `C117_later_steps` and `C117_second_step_wrong`. -/
theorem C117_first_step_partial {n : ℕ} (ops : (Fin n → Particle) → Fin n → List TOp) (dt : ℝ)
    (ps : Fin n → Particle) (h0 : ∀ i j, (ps i).acceleration j = 0) (i : Fin n) :
    Moved dt (field (ops ps i) (ps i).position) (ps i) (run ops dt ps 1 i) := by
  have h := step_eq ops dt ps i
  have : (step ops dt ps i).acceleration = field (ops ps i) (ps i).position := by
    rw [h.1]; funext j; simp [h0]
  rw [← this]
  exact h.2

/-- C117: the acceleration of a particle after `k` steps is the sum of the fields of all `k`
evaluations, and step `k + 1` moves it with the sum of the fields of the `k + 1` evaluations up to then. -/
theorem C117_accumulates {n : ℕ} (ops : (Fin n → Particle) → Fin n → List TOp) (dt : ℝ)
    (ps : Fin n → Particle) (k : ℕ) (i : Fin n) :
    (∀ j, (run ops dt ps k i).acceleration j = (ps i).acceleration j +
      ∑ m ∈ Finset.range k, field (ops (run ops dt ps m) i) (run ops dt ps m i).position j) ∧
    Moved dt (fun j => (ps i).acceleration j +
        ∑ m ∈ Finset.range (k + 1), field (ops (run ops dt ps m) i) (run ops dt ps m i).position j)
      (run ops dt ps k i) (run ops dt ps (k + 1) i) := by
  refine ⟨run_acc ops dt ps k i, ?_⟩
  have h := (step_eq ops dt (run ops dt ps k) i).2
  have e : (run ops dt ps (k + 1) i).acceleration = fun j => (ps i).acceleration j +
      ∑ m ∈ Finset.range (k + 1), field (ops (run ops dt ps m) i) (run ops dt ps m i).position j :=
    funext (run_acc ops dt ps (k + 1) i)
  rw [← e]
  exact h

/-- C117: exactly when the fields of the earlier steps cancel does a step move a particle with the
current field. -/
theorem C117_later_steps {n : ℕ} (ops : (Fin n → Particle) → Fin n → List TOp) {dt : ℝ} (hdt : dt ≠ 0)
    (ps : Fin n → Particle) (h0 : ∀ i j, (ps i).acceleration j = 0) (k : ℕ) (i : Fin n) :
    Moved dt (field (ops (run ops dt ps k) i) (run ops dt ps k i).position)
      (run ops dt ps k i) (run ops dt ps (k + 1) i) ↔
    ∀ j, ∑ m ∈ Finset.range k, field (ops (run ops dt ps m) i) (run ops dt ps m i).position j = 0 := by
  have h := (C117_accumulates ops dt ps k i).2
  constructor
  · intro hc j
    have h1 := h.2.1 j
    have h2 := hc.2.1 j
    rw [h1] at h2
    simp only [h0] at h2
    rw [Finset.sum_range_succ] at h2
    have h3 : (∑ m ∈ Finset.range k, field (ops (run ops dt ps m) i) (run ops dt ps m i).position j) * dt = 0 := by
      linarith
    exact (mul_eq_zero.1 h3).resolve_right hdt
  · intro hz
    have e : (fun j => (ps i).acceleration j + ∑ m ∈ Finset.range (k + 1),
        field (ops (run ops dt ps m) i) (run ops dt ps m i).position j) =
        field (ops (run ops dt ps k) i) (run ops dt ps k i).position := by
      funext j
      rw [h0, Finset.sum_range_succ, hz j]
      ring
    rw [← e]
    exact h

/-- Two particles of mass one at distance one on the x axis, as the demo sets them up. -/
def twoBodies : Fin 2 → Particle := ![fresh (fun _ => 0) 1 0, fresh ![1, 0, 0] 1 1]

theorem twoBodies_field : field (allPairs twoBodies 0) (twoBodies 0).position 0 = -1 := by
  rw [field_allPairs]
  simp [Fin.sum_univ_two, pair, twoBodies, Stepping.fresh, dist2, Particle.source]

/-- C117: a wrong second step: for two bodies and any time step but zero, the second step of the demo
does not move the first body with the attraction of the second at its current position. -/
theorem C117_second_step_wrong {dt : ℝ} (hdt : dt ≠ 0) :
    ¬ Moved dt (field (allPairs (run allPairs dt twoBodies 1) 0) (run allPairs dt twoBodies 1 0).position)
      (run allPairs dt twoBodies 1 0) (run allPairs dt twoBodies 2 0) := by
  have hz : ∀ i j, (twoBodies i).acceleration j = 0 := by
    intro i j
    match i with
    | 0 => rfl
    | 1 => rfl
  rw [C117_later_steps allPairs hdt twoBodies hz 1 0]
  intro h
  have := h 0
  rw [Finset.sum_range_one] at this
  have e := twoBodies_field
  simp only [run] at this
  linarith

/-- C117: when all particles are in one leaf, the field is Newton's sum over the other particles. -/
theorem C117_single_leaf_field {n : ℕ} (ps : Fin n → Particle) (i : Fin n) :
    let l := List.ofFn fun j => (ps j).source
    field (allPairs ps i) (ps i).position =
      ![fieldX l ((ps i).position 0) ((ps i).position 1) ((ps i).position 2),
        fieldY l ((ps i).position 0) ((ps i).position 1) ((ps i).position 2),
        fieldZ l ((ps i).position 0) ((ps i).position 1) ((ps i).position 2)] := by
  simp only [field, allPairs, List.foldl_cons, List.foldl_nil, TOp.run, accSToTSum_eq]
  simp

/-- C117: with all particles in one leaf the total momentum never changes, in spite of the accumulated
accelerations. -/
theorem C117_momentum {n : ℕ} (dt : ℝ) (ps : Fin n → Particle) (h0 : ∀ i j, (ps i).acceleration j = 0)
    (k : ℕ) (j : Fin 3) : momentum (run allPairs dt ps k) j = momentum ps j := by
  induction k with
  | zero => rfl
  | succ k ih =>
    rw [← ih]
    unfold momentum
    have hz : ∑ i, (ps i).charge * ∑ m ∈ Finset.range (k + 1),
        field (allPairs (run allPairs dt ps m) i) (run allPairs dt ps m i).position j = 0 := by
      simp only [Finset.mul_sum]
      rw [Finset.sum_comm]
      refine Finset.sum_eq_zero fun m _ => ?_
      rw [← sum_field_allPairs (run allPairs dt ps m) j]
      exact Finset.sum_congr rfl fun i _ => by rw [(run_charge allPairs dt ps m i).1]
    have e : ∀ i, (run allPairs dt ps (k + 1) i).charge * (run allPairs dt ps (k + 1) i).velocity j =
        (run allPairs dt ps k i).charge * (run allPairs dt ps k i).velocity j -
        (ps i).charge * (∑ m ∈ Finset.range (k + 1),
          field (allPairs (run allPairs dt ps m) i) (run allPairs dt ps m i).position j) * dt := by
      intro i
      rw [(run_charge allPairs dt ps (k + 1) i).1, (run_charge allPairs dt ps k i).1,
        (C117_accumulates allPairs dt ps k i).2.2.1 j]
      simp only [h0]
      ring
    rw [Finset.sum_congr rfl fun i _ => e i, Finset.sum_sub_distrib, ← Finset.sum_mul, hz]
    ring

/-- The hypotheses of C117 are met by the two bodies; the first step pulls them together. -/
example (dt : ℝ) : (run allPairs dt twoBodies 1 0).position 0 = dt ^ 2 / 2 := by
  have hz : ∀ i j, (twoBodies i).acceleration j = 0 := by
    intro i j
    match i with
    | 0 => rfl
    | 1 => rfl
  have h := (C117_first_step_partial allPairs dt twoBodies hz 0).1 0
  rw [h, twoBodies_field]
  simp [twoBodies, Stepping.fresh]
  ring

/-- A finished parallel update of the two bodies in one task. -/
example (dt : ℝ) : ∃ st : ForEach.St Particle,
    ForEach.Reach (updateParticles dt) (ForEach.chunking 2 (ForEach.overFactor 1 1)).1 [twoBodies 0, twoBodies 1] st ∧
    ForEach.released (ForEach.chunking 2 (ForEach.overFactor 1 1)).2 st := by
  refine ⟨_, .step .start (.leaf (a := []) (b := []) (t := ⟨0, 2⟩) ?_), ?_⟩
  · decide
  · show _ ≤ 1
    decide

end Dashmm
