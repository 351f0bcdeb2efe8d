import Verif.Proofs.ExpEnd
/-
C95: the memory of an evaluation, task by task and parcel by parcel.
-/
namespace Dashmm

open ExpMem

section
variable {V : Type} [AddCommMonoid V] {m : Method} {k : Expansion} {unif : Nat} {same : Bool} {s t : Fin 8 → Oct} {acts : List Act} {op : Edge → V → V} {base : Ref → V}
  {z : Edge → Sizes} {out : Ref → List Edge} {rank : Ref → ℕ} {ranks : ℕ} {L : Led} {n : ℕ} {S : St Ref Edge V}

/-- **C95.** During an evaluation with a built-in method and an expansion that goes with it, whatever the schedule, the number of ranks, the placement of the nodes and
the order of the edges of a node: no action goes wrong. That is, no task, no set and no operation uses memory that has been freed, frees a block twice,
frees memory inside a parcel, reads a view that is not there, meets a null pointer, or reaches an LCO that waits for nothing. -/
theorem C95_never_wrong (hc : Compatible m k) (hr : Runs (createProg m unif same s t) acts) (hout : ∀ r, (out r).Perm ((edgesOf acts).filter fun e => e.src = r))
    (hL : L.Wf) (h : St.Steps (evalDag acts op base) (evalPlan k z out rank ranks) L n S) (d : Do) :
    act (evalDag acts op base) (evalPlan k z out rank ranks) d S ≠ .err :=
  act_fine (evalPlan_good hc hr op base z hout rank ranks) hL h d

/-- **C95.** As long as there is something to do, something can be done; and no evaluation has more than `3 · nodes + 8 · edges` actions. -/
theorem C95_runs_to_the_end (hc : Compatible m k) (hr : Runs (createProg m unif same s t) acts) (hout : ∀ r, (out r).Perm ((edgesOf acts).filter fun e => e.src = r))
    (hL : L.Wf) (h : St.Steps (evalDag acts op base) (evalPlan k z out rank ranks) L n S) :
    n ≤ 3 * (nodesOf acts).length + 8 * (edgesOf acts).length ∧
      (¬ S.Over → ∃ d S', act (evalDag acts op base) (evalPlan k z out rank ranks) d S = .ok S') :=
  ⟨steps_bound (evalPlan_good hc hr op base z hout rank ranks) hL h, goes_on (evalPlan_good hc hr op base z hout rank ranks) hL h⟩

/-- **C95.** There is an end. -/
theorem C95_end_exists (hc : Compatible m k) (hr : Runs (createProg m unif same s t) acts) (hout : ∀ r, (out r).Perm ((edgesOf acts).filter fun e => e.src = r)) (hL : L.Wf) :
    ∃ n S, St.Steps (evalDag acts op base) (evalPlan k z out rank ranks) L n S ∧ S.Over := by
  obtain ⟨_, n, S, h1, h2, _⟩ := to_over (evalPlan_good hc hr op base z hout rank ranks) hL le_rfl .init
  exact ⟨n, S, h1, h2⟩

/-- **C95.** When all tasks have ended and all parcels have been handled, no parcel is left, and after the LCOs are destroyed the only
blocks that were not there before are those that the operations leak: at most, and if every node has an input exactly, as many as the edges account for.
(Partial: the tasks may not have ended when the LCOs are destroyed, `C95_destroy_race`; and the operations of some kernels leak.) -/
theorem C95_memory_at_end_partial (hc : Compatible m k) (hr : Runs (createProg m unif same s t) acts) (hout : ∀ r, (out r).Perm ((edgesOf acts).filter fun e => e.src = r))
    (hL : L.Wf) (h : St.Steps (evalDag acts op base) (evalPlan k z out rank ranks) L n S) (ho : S.Over) :
    ∃ L' lost, destroyAll S.data (nodesOf acts) S.led = some ((), L') ∧ L'.heap = L.heap + lost ∧ L'.parc = L.parc ∧
      lost.card ≤ ((edgesOf acts).map (edgeLeak k z)).sum ∧
      ((∀ r ∈ nodesOf acts, ¬ (r.side = .src ∧ r.kind = .parts) → ∃ e ∈ edgesOf acts, e.dst = r) → lost.card = ((edgesOf acts).map (edgeLeak k z)).sum) := by
  obtain ⟨_, L', lost, h1, h2, h3, h4, h5⟩ := at_end (evalPlan_good hc hr op base z hout rank ranks) hL h ho
  refine ⟨L', lost, h1, h2, h3, h4, fun hf => h5 ?_⟩
  intro r hr hs hi
  obtain ⟨e, he, hd⟩ := hf r hr (fun hh => hs (List.mem_filter.2 ⟨hr, by simpa using hh⟩))
  have : e ∈ (evalDag acts op base).inE r := List.mem_filter.2 ⟨he, decide_eq_true (p := e.dst = r) hd⟩
  rw [hi] at this
  cases this

/-- **C95.** With the Laplace kernel and with the centre-of-mass expansions nothing is leaked: the memory is as it was before the evaluation. -/
theorem C95_no_leak (hc : Compatible m k) (hk : k ≠ .yukawa ∧ k ≠ .helmholtz) (hr : Runs (createProg m unif same s t) acts)
    (hout : ∀ r, (out r).Perm ((edgesOf acts).filter fun e => e.src = r))
    (hL : L.Wf) (h : St.Steps (evalDag acts op base) (evalPlan k z out rank ranks) L n S) (ho : S.Over) :
    ∃ L', destroyAll S.data (nodesOf acts) S.led = some ((), L') ∧ L'.heap = L.heap ∧ L'.parc = L.parc := by
  obtain ⟨L', lost, h1, h2, h3, h4, _⟩ := C95_memory_at_end_partial hc hr hout hL h ho
  have h0 : ((edgesOf acts).map (edgeLeak k z)).sum = 0 := by
    rw [List.sum_eq_zero_iff]
    intro x hx
    obtain ⟨e, he, rfl⟩ := List.mem_map.1 hx
    unfold edgeLeak
    have := fun ho => (edge_tags hc hr he ho).1
    cases k <;> cases ho : e.op <;> simp_all [leaks]
  have : lost = 0 := Multiset.card_eq_zero.1 (by omega)
  exact ⟨L', h1, by rw [h2, this, add_zero], h3⟩

/-- **C95.** With the Yukawa kernel and FMM97, in which every node has an input, `6 s` blocks are leaked for every `I_to_L` edge (`yuk_e_to_l`, yukawa.cc:928), where `s` is the number of quadrature nodes. -/
theorem C95_yukawa_leaks (hr : Runs (createProg FMM97 unif same s t) acts) {q : ℕ} (hz : ∀ e, (z e).s = q)
    (hout : ∀ r, (out r).Perm ((edgesOf acts).filter fun e => e.src = r))
    (hL : L.Wf) (h : St.Steps (evalDag acts op base) (evalPlan .yukawa z out rank ranks) L n S) (ho : S.Over)
    (hf : ∀ r ∈ nodesOf acts, ¬ (r.side = .src ∧ r.kind = .parts) → ∃ e ∈ edgesOf acts, e.dst = r) :
    ∃ L' lost, destroyAll S.data (nodesOf acts) S.led = some ((), L') ∧ L'.heap = L.heap + lost ∧
      lost.card = 6 * q * ((edgesOf acts).filter fun e => e.op = .ItoL).length := by
  obtain ⟨L', lost, h1, h2, h3, _, h5⟩ := C95_memory_at_end_partial .fmm97_yukawa hr hout hL h ho
  refine ⟨L', lost, h1, h2, (h5 hf).trans ?_⟩
  have ht := fun e he ho => (edge_tags .fmm97_yukawa hr (e := e) he ho).1
  clear h5 hf h h1 hr hout
  generalize edgesOf acts = l at ht ⊢
  induction l with
  | nil => rfl
  | cons e es ih =>
    rw [List.map_cons, List.sum_cons, ih fun e' he' => ht e' (List.mem_cons_of_mem _ he')]
    have h0 := ht e (by simp)
    cases hop : e.op <;> simp_all [edgeLeak, leaks, mul_add, add_comm]

/-- **C95.** What is computed is what Model/Exec computes: a state of an evaluation with tasks and parcels has the counters and the contents of a
state there, so that C42, C43, C72 and the others hold for it. -/
theorem C95_refines (hc : Compatible m k) (hr : Runs (createProg m unif same s t) acts) (hout : ∀ r, (out r).Perm ((edgesOf acts).filter fun e => e.src = r))
    (hL : L.Wf) (h : St.Steps (evalDag acts op base) (evalPlan k z out rank ranks) L n S) :
    ∃ a, ExecState.Reach (evalDag acts op base) a ∧ a.cnt = S.cnt ∧ a.acc = S.acc ∧ (S.Over → a.Quiet) := by
  obtain ⟨a, lost, I⟩ := steps_inv (evalPlan_good hc hr op base z hout rank ranks) hL h
  exact ⟨a, I.reach, I.cnt, I.acc, I.quiet⟩

/-- **C95.** When every LCO has had all of its inputs, the contents are the result: each node holds what it held at first and, for each of its
edges, what the operation makes of the contents of the source. -/
theorem C95_result (hc : Compatible m k) (hr : Runs (createProg m unif same s t) acts) (hout : ∀ r, (out r).Perm ((edgesOf acts).filter fun e => e.src = r))
    (hL : L.Wf) (h : St.Steps (evalDag acts op base) (evalPlan k z out rank ranks) L n S)
    (hd : ∀ r ∈ nodesOf acts, ¬ (r.side = .src ∧ r.kind = .parts) → S.cnt r = 0 ∧ ∃ e ∈ edgesOf acts, e.dst = r) (r : Ref) :
    S.acc r = base r + (((edgesOf acts).filter fun e => e.dst = r).map fun e => op e (S.acc e.src)).sum := by
  have hG := evalPlan_good hc hr op base z hout rank ranks
  obtain ⟨a, lost, I⟩ := steps_inv hG hL h
  have R := reach_inv hG.ok I.reach
  rw [← I.acc]
  refine C43_result hG.ok I.reach ?_ r
  intro r hr
  obtain ⟨h1, h2⟩ := List.mem_filter.1 hr
  have h2 : r ∉ (evalDag acts op base).starts := by simpa using h2
  obtain ⟨h3, e, he, hde⟩ := hd r h1 fun hh => h2 (List.mem_filter.2 ⟨h1, by simpa using hh⟩)
  have : r ∈ Ev.triggered a.log := (R.zer r).2 ⟨by rw [I.cnt]; exact h3, fun hz => by
    have : e ∈ (evalDag acts op base).inE r := List.mem_filter.2 ⟨he, decide_eq_true (p := e.dst = r) hde⟩
    rw [List.length_eq_zero_iff.1 hz] at this
    cases this⟩
  obtain ⟨x, hx, hxr⟩ := List.mem_filterMap.1 this
  cases x <;> simp at hxr
  rw [← hxr]
  exact hx

end

/-! ### The race -/

namespace ExpMem

/-- A sequence of actions. -/
def runAll {V : Type} [AddCommMonoid V] (D : ExecDag Ref Edge V) (P : Plan Ref Edge) : List Do → St Ref Edge V → Option (St Ref Edge V)
  | [], s => some s
  | d :: ds, s => match act D P d s with
    | .ok s' => runAll D P ds s'
    | _ => none

theorem runAll_steps {V : Type} [AddCommMonoid V] {D : ExecDag Ref Edge V} {P : Plan Ref Edge} {L : Led} : ∀ {ds : List Do} {n : ℕ} {s s' : St Ref Edge V},
    St.Steps D P L n s → runAll D P ds s = some s' → St.Steps D P L (n + ds.length) s'
  | [], n, s, s', h, e => by cases e; exact h
  | d :: ds, n, s, s', h, e => by
    unfold runAll at e
    cases hd : act D P d s with
    | off => simp [hd] at e
    | err => simp [hd] at e
    | ok s1 =>
      simp only [hd] at e
      have := runAll_steps (.step h d hd) e
      rwa [show n + 1 + ds.length = n + (d :: ds).length by simp; omega] at this

/-- One leaf in each tree. -/
def raceTree : Fin 8 → Oct := fun i => if i = 0 then chain [] else .nil

def raceActs : List Act := createDag (BH fun _ _ => true) 1 false raceTree raceTree

def raceDag : ExecDag Ref Edge ℕ := evalDag raceActs (fun _ x => x + 1) (fun _ => 0)

def racePlan : Plan Ref Edge := evalPlan .laplace (fun _ => ⟨1, 9, 0, 0⟩) (fun r => (edgesOf raceActs).filter fun e => e.src = r) (fun _ => 0) 1

/-- `S_to_M`, `M_to_M`, `M_to_T`, each up to the point where the LCO that is set has triggered. -/
def raceDo : List Do := [.startLeaf 0, .serve 0, .set 0, .startSpawn 0, .serve 0, .set 0, .startSpawn 0, .serve 0, .tset 0]

/-- Every node but the leaves of sources has triggered. -/
def allIn (S : St Ref Edge ℕ) : Bool := raceDag.watched.all fun r => S.cnt r == 0 && !(raceDag.inE r).isEmpty

def Res.isErr {σ : Type} : Res σ → Bool
  | .err => true
  | _ => false

/-- The LCOs are destroyed, and then the first task ends. -/
def destroyThenFinish (S : St Ref Edge ℕ) : Bool :=
  match destroyAll S.data raceDag.nodes S.led with
  | none => false
  | some (_, L') => (act raceDag racePlan (.finish 0) { S with led := L' }).isErr

end ExpMem

/-- **C95.** The LCOs may be destroyed too early: an evaluation (Barnes-Hut, Laplace, one rank, one source leaf, one target leaf) reaches a state in which every LCO has triggered, so that
`execute_DAG` returns; `destroy_DAG` deletes the expansions; and then the task of the last multipole expansion, which has served its edges, deletes its expansion once more. -/
theorem C95_destroy_race : ∃ n S L', St.Steps raceDag racePlan ⟨0, 0, 0⟩ n S ∧
    (∀ r ∈ raceDag.watched, S.cnt r = 0 ∧ raceDag.inE r ≠ []) ∧
    destroyAll S.data raceDag.nodes S.led = some ((), L') ∧ act raceDag racePlan (.finish 0) { S with led := L' } = .err := by
  have key : (runAll raceDag racePlan raceDo (St.init raceDag ⟨0, 0, 0⟩)).any (fun S => allIn S && destroyThenFinish S) = true := by
    decide +kernel
  obtain ⟨S, h, hc⟩ := (Option.any_eq_true _ _).1 key
  rw [Bool.and_eq_true] at hc
  obtain ⟨h1, h2⟩ := hc
  unfold destroyThenFinish at h2
  split at h2
  · cases h2
  · rename_i u L' hd
    refine ⟨_, S, L', runAll_steps .init h, ?_, hd, ?_⟩
    · intro r hr
      have := List.all_eq_true.1 h1 r hr
      simpa using this
    · revert h2
      cases act raceDag racePlan (.finish 0) { S with led := L' } <;> simp [Res.isErr]

/-! ### The hypotheses can be met -/

example : ∃ n S, St.Steps raceDag racePlan ⟨0, 0, 0⟩ n S ∧ S.Over ∧ n = 12 := by
  have key : (runAll raceDag racePlan (raceDo ++ [.finish 0, .finish 0, .finish 0]) (St.init raceDag ⟨0, 0, 0⟩)).any
      (fun S => S.idle.isEmpty && S.trig.isEmpty && S.tasks.isEmpty && S.msgs.isEmpty) = true := by decide +kernel
  obtain ⟨S, h, hc⟩ := (Option.any_eq_true _ _).1 key
  simp only [Bool.and_eq_true, List.isEmpty_iff] at hc
  exact ⟨_, S, runAll_steps .init h, ⟨hc.1.1.1, hc.1.1.2, hc.1.2, hc.2⟩, rfl⟩

/-- FMM97 with the Yukawa kernel on two ranks, with 18 quadrature nodes: it comes to an end, and leaks. -/
example : ∃ n S L' lost, St.Steps (evalDag (createDag FMM97 2 false exA exA) (fun _ (x : ℕ) => x) fun _ => 0)
      (evalPlan .yukawa (fun _ => ⟨1, 18, 0, 0⟩) (fun r => (edgesOf (createDag FMM97 2 false exA exA)).filter fun e => e.src = r) (fun r => r.ix.x % 2) 2) ⟨0, 0, 0⟩ n S ∧ S.Over ∧
    destroyAll S.data (nodesOf (createDag FMM97 2 false exA exA)) S.led = some ((), L') ∧ L'.heap = 0 + lost ∧ 0 < lost.card := by
  have hr := createDag_runs FMM97 2 false exA exA
  obtain ⟨n, S, h, ho⟩ := C95_end_exists (op := fun _ (x : ℕ) => x) (base := fun _ => 0) (z := fun _ => ⟨1, 18, 0, 0⟩) (rank := fun r => r.ix.x % 2) (ranks := 2)
    (L := ⟨0, 0, 0⟩) .fmm97_yukawa hr (fun r => List.Perm.refl _) ⟨by simp, by simp, by simp⟩
  have hf : ∀ r ∈ nodesOf (createDag FMM97 2 false exA exA), ¬ (r.side = .src ∧ r.kind = .parts) → ∃ e ∈ edgesOf (createDag FMM97 2 false exA exA), e.dst = r := by decide +kernel
  obtain ⟨L', lost, h1, h2, h3⟩ := C95_yukawa_leaks hr (fun _ => rfl) (fun r => List.Perm.refl _) ⟨by simp, by simp, by simp⟩ h ho hf
  refine ⟨n, S, L', lost, h, ho, h1, h2, ?_⟩
  have : 0 < ((edgesOf (createDag FMM97 2 false exA exA)).filter fun e => e.op = .ItoL).length := by decide +kernel
  rw [h3]
  positivity

end Dashmm
