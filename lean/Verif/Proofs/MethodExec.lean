import Verif.Proofs.Complete
import Verif.Proofs.Starved
import Verif.Model.MethodExec
namespace Dashmm
open Ev ExecState

theorem methodDag_ok {acts : List Act} (h1 : NoAssertionFails acts) (h2 : Ranked (edgesOf acts)) :
    (methodDag acts).Ok := by
  obtain ⟨H, hH⟩ := h2
  have hends : ∀ e ∈ edgesOf acts, e.src ∈ nodesOf acts ∧ e.dst ∈ nodesOf acts := by
    intro e he
    obtain ⟨pre, post, hpp⟩ := List.append_of_mem (mem_edgesOf.1 he)
    have := h1.2 pre e post hpp
    rw [hpp, nodesOf_append]
    exact ⟨List.mem_append_left _ this.1, List.mem_append_left _ this.2⟩
  refine ⟨h1.1, fun e he => (hends e he).1, fun e he => (hends e he).2, ?_, ?_, ?_, ?_⟩
  · intro r hr; exact (List.mem_filter.1 hr).1
  · exact List.Nodup.filter _ h1.1
  · intro r hr
    have hr2 := (List.mem_filter.1 hr).2
    simp only [decide_eq_true_eq] at hr2
    rw [ExecDag.inE, List.filter_eq_nil_iff]
    intro e he hd
    have hd' : e.dst = r := by simpa [methodDag] using hd
    have := hH e he
    rw [hd'] at this
    have h0 : dagRank H r = 0 := by
      obtain ⟨sd, ix, kd⟩ := r
      obtain ⟨rfl, rfl⟩ := hr2
      simp [dagRank]
    omega
  · exact ⟨dagRank H, hH⟩

theorem methodDag_inE {acts : List Act} {r : Ref} :
    (methodDag acts).inE r ≠ [] ↔ ∃ e ∈ edgesOf acts, e.dst = r := by
  constructor
  · intro h
    obtain ⟨e, he⟩ := List.exists_mem_of_ne_nil _ h
    obtain ⟨h1, h2⟩ := List.mem_filter.1 he
    exact ⟨e, h1, by simpa [methodDag] using h2⟩
  · rintro ⟨e, he, hd⟩ h
    have : e ∈ (methodDag acts).inE r := List.mem_filter.2 ⟨he, by simpa [methodDag] using hd⟩
    rw [h] at this; simp at this

theorem methodDag_mem_starts {acts : List Act} {r : Ref} :
    r ∈ (methodDag acts).starts ↔ r ∈ nodesOf acts ∧ IsStart r := by
  simp [methodDag, IsStart]

theorem methodDag_fed {acts : List Act} :
    (∀ r ∈ (methodDag acts).nodes, r ∉ (methodDag acts).starts → (methodDag acts).inE r ≠ []) ↔
      ∀ r, ¬ Starved acts r := by
  constructor
  · rintro h r ⟨h1, h2, h3⟩
    obtain ⟨e, he, hd⟩ := methodDag_inE.1 (h r h1 (fun hs => h2 (methodDag_mem_starts.1 hs).2))
    exact h3 e he hd
  · intro h r hr hs
    rw [methodDag_inE]
    by_contra hn
    push Not at hn
    exact h r ⟨hr, fun hi => hs (methodDag_mem_starts.2 ⟨hr, hi⟩), hn⟩

theorem sum_apply (l : List Prov) (v : Nat) (x : Index) :
    l.sum v x = (l.map fun p => p v x).sum := by
  induction l with
  | nil => rfl
  | cons a l ih => rw [List.sum_cons, List.map_cons, List.sum_cons, ← ih]; rfl

/-- A complete execution computes the evaluation of the DAG. -/
theorem methodDag_evaluation {acts : List Act} {val : Ref → Prov}
    (h : ∀ r, val r = (methodDag acts).base r + (methodDag acts).incoming val r) :
    IsEvaluation acts val := by
  intro r v x
  conv_lhs => rw [h r]
  show base r v x + _ = _
  congr 1
  unfold ExecDag.incoming ExecDag.inE inflow
  rw [sum_apply, List.map_map]
  show (List.map _ (List.filter _ (edgesOf acts))).sum = _
  induction edgesOf acts with
  | nil => rfl
  | cons e l ih =>
    by_cases hd : e.dst = r
    · rw [List.filter_cons_of_pos (by simpa [methodDag] using hd)]
      simp only [List.map_cons, List.sum_cons, if_pos hd, ih]
      rfl
    · rw [List.filter_cons_of_neg (by simpa [methodDag] using hd)]
      simp only [List.map_cons, List.sum_cons, if_neg hd, ih, Nat.zero_add]

end Dashmm
