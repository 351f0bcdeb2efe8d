import Verif.Spec.Stepping
import Verif.Proofs.ComSum
import Mathlib.Algebra.BigOperators.Fin
import Mathlib.Tactic.FinCases
/-!
Lemmas about the time-stepping demo.
-/
namespace Dashmm.Stepping

open Com

theorem run_add (op : TOp) (x y z a0 a1 a2 : ℝ) :
    TOp.run ⟨x, y, z, a0, a1, a2⟩ op = ⟨x, y, z, a0 + (TOp.run ⟨x, y, z, 0, 0, 0⟩ op).a0,
      a1 + (TOp.run ⟨x, y, z, 0, 0, 0⟩ op).a1, a2 + (TOp.run ⟨x, y, z, 0, 0, 0⟩ op).a2⟩ := by
  cases op with
  | sToT srcs =>
    simp only [TOp.run]
    rw [accSToTSum_eq, accSToTSum_eq]
    simp
  | mToT d =>
    simp only [TOp.run, accMToT1, AccTarget.mk.injEq, true_and]
    refine ⟨?_, ?_, ?_⟩ <;> ring

theorem foldl_add (ops : List TOp) (x y z : ℝ) : ∃ f0 f1 f2, ∀ a0 a1 a2,
    ops.foldl TOp.run ⟨x, y, z, a0, a1, a2⟩ = ⟨x, y, z, a0 + f0, a1 + f1, a2 + f2⟩ := by
  induction ops with
  | nil => exact ⟨0, 0, 0, by simp⟩
  | cons op ops ih =>
    obtain ⟨f0, f1, f2, h⟩ := ih
    refine ⟨(TOp.run ⟨x, y, z, 0, 0, 0⟩ op).a0 + f0, (TOp.run ⟨x, y, z, 0, 0, 0⟩ op).a1 + f1,
      (TOp.run ⟨x, y, z, 0, 0, 0⟩ op).a2 + f2, fun a0 a1 a2 => ?_⟩
    rw [List.foldl_cons, run_add, h]
    simp [add_assoc]

theorem foldl_field (ops : List TOp) (x : Fin 3 → ℝ) (a0 a1 a2 : ℝ) :
    ops.foldl TOp.run ⟨x 0, x 1, x 2, a0, a1, a2⟩ =
      ⟨x 0, x 1, x 2, a0 + field ops x 0, a1 + field ops x 1, a2 + field ops x 2⟩ := by
  obtain ⟨f0, f1, f2, h⟩ := foldl_add ops (x 0) (x 1) (x 2)
  simp [field, h]

theorem evaluate_eq {n : ℕ} (ops : Fin n → List TOp) (ps : Fin n → Particle) (i : Fin n) :
    evaluate ops ps i = { ps i with acceleration := fun j => (ps i).acceleration j + field (ops i) (ps i).position j } := by
  unfold evaluate Particle.withTarget Particle.target
  rw [foldl_field]
  ext j <;> try rfl
  fin_cases j <;> simp

theorem updateOne_eq (dt : ℝ) (p : Particle) :
    updateOne dt p = { p with
      position := fun j => p.position j + p.velocity j * dt - p.acceleration j * dt ^ 2 / 2
      velocity := fun j => p.velocity j - p.acceleration j * dt } := by
  unfold updateOne
  ext j <;> simp only [List.foldl_cons, List.foldl_nil, updateComp] <;> try rfl
  · fin_cases j <;> simp <;> ring
  · fin_cases j <;> simp

theorem step_eq {n : ℕ} (ops : (Fin n → Particle) → Fin n → List TOp) (dt : ℝ) (ps : Fin n → Particle) (i : Fin n) :
    (step ops dt ps i).acceleration = (fun j => (ps i).acceleration j + field (ops ps i) (ps i).position j) ∧
    Moved dt (step ops dt ps i).acceleration (ps i) (step ops dt ps i) := by
  unfold step
  rw [updateOne_eq, evaluate_eq]
  exact ⟨rfl, fun j => rfl, fun j => rfl, rfl, rfl⟩

theorem run_acc {n : ℕ} (ops : (Fin n → Particle) → Fin n → List TOp) (dt : ℝ) (ps : Fin n → Particle) (k : ℕ) (i : Fin n)
    (j : Fin 3) : (run ops dt ps k i).acceleration j = (ps i).acceleration j +
      ∑ m ∈ Finset.range k, field (ops (run ops dt ps m) i) (run ops dt ps m i).position j := by
  induction k with
  | zero => simp [run]
  | succ k ih =>
    rw [Finset.sum_range_succ, ← add_assoc, ← ih]
    exact congrFun (step_eq ops dt (run ops dt ps k) i).1 j

theorem run_charge {n : ℕ} (ops : (Fin n → Particle) → Fin n → List TOp) (dt : ℝ) (ps : Fin n → Particle) (k : ℕ) (i : Fin n) :
    (run ops dt ps k i).charge = (ps i).charge ∧ (run ops dt ps k i).index = (ps i).index := by
  induction k with
  | zero => exact ⟨rfl, rfl⟩
  | succ k ih =>
    have h := (step_eq ops dt (run ops dt ps k) i).2.2.2
    exact ⟨h.1.trans ih.1, h.2.trans ih.2⟩

/-- The pull of one particle on another. -/
noncomputable def pair (p q : Particle) (j : Fin 3) : ℝ :=
  if dist2 q.source (p.position 0) (p.position 1) (p.position 2) = 0 then 0
  else q.charge * (p.position j - q.position j) /
    Real.sqrt (dist2 q.source (p.position 0) (p.position 1) (p.position 2)) ^ 3

theorem field_allPairs {n : ℕ} (ps : Fin n → Particle) (i : Fin n) (j : Fin 3) :
    field (allPairs ps i) (ps i).position j = ∑ m, pair (ps i) (ps m) j := by
  unfold field allPairs
  simp only [List.foldl_cons, List.foldl_nil, TOp.run, accSToTSum_eq]
  match j with
  | 0 =>
    simp [fieldX, fieldComp, List.map_ofFn, List.sum_ofFn, pair, Function.comp_def, Particle.source]
    exact Finset.sum_congr rfl fun m _ => by congr
  | 1 =>
    simp [fieldY, fieldComp, List.map_ofFn, List.sum_ofFn, pair, Function.comp_def, Particle.source]
    exact Finset.sum_congr rfl fun m _ => by congr
  | 2 =>
    simp [fieldZ, fieldComp, List.map_ofFn, List.sum_ofFn, pair, Function.comp_def, Particle.source]
    exact Finset.sum_congr rfl fun m _ => by congr

theorem pair_swap (p q : Particle) (j : Fin 3) : p.charge * pair p q j = - (q.charge * pair q p j) := by
  have hd : dist2 p.source (q.position 0) (q.position 1) (q.position 2) =
      dist2 q.source (p.position 0) (p.position 1) (p.position 2) := by
    simp only [dist2, Particle.source]; ring
  unfold pair
  rw [hd]
  split_ifs
  · simp
  · ring

theorem sum_field_allPairs {n : ℕ} (ps : Fin n → Particle) (j : Fin 3) :
    ∑ i, (ps i).charge * field (allPairs ps i) (ps i).position j = 0 := by
  simp only [field_allPairs, Finset.mul_sum]
  have h : ∑ i, ∑ m, (ps i).charge * pair (ps i) (ps m) j = - ∑ i, ∑ m, (ps i).charge * pair (ps i) (ps m) j := by
    conv_lhs => rw [Finset.sum_comm]
    rw [← Finset.sum_neg_distrib]
    refine Finset.sum_congr rfl fun i _ => ?_
    rw [← Finset.sum_neg_distrib]
    exact Finset.sum_congr rfl fun m _ => by rw [pair_swap]
  linarith

end Dashmm.Stepping
