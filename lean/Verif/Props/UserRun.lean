import Verif.Spec.UserRun
import Verif.Props.Exec
/-!
Property C126: what the demo of a user's expansion prints.

Full statement: in every run that finishes, on every number of ranks and threads and in every schedule, each edge of
the DAG gives the line of its operation once, and each contribution to an expansion one line of an addition, and
nothing else is printed; so two runs print the same lines, in another order perhaps; and the line of an operation on
an expansion comes after all additions to it.
-/
namespace Dashmm

open UserRun Ev ExecState

/-- C126: in every execution in which all nodes trigger, the lines printed are those of the edges, each once. -/
theorem C126_output {acts : List Act} (hD : (methodDag acts).Ok) {s : ExecState Ref Edge Prov}
    (hs : Reach (methodDag acts) s) (hall : ∀ r ∈ (methodDag acts).watched, Ev.trigger r ∈ s.log) (c : Counts)
    (ho : Occupied c (edgesOf acts)) :
    (output c s.log).Perm ((edgesOf acts).flatMap (edgeLines c)) := by
  obtain ⟨h1, h2⟩ := C42_exactly_once hD hs hall
  have key : ∀ l : List (Ev Ref Edge),
      (output c l).Perm ((applied l).flatMap (applyLines c) ++ (arrived l).flatMap (arriveLines c)) := by
    intro l
    induction l with
    | nil => exact List.Perm.refl _
    | cons x xs ih =>
      cases x with
      | trigger r => exact ih
      | start r => exact ih
      | apply e =>
        have := ih.append_left (applyLines c e)
        simpa [output, eventLines, applied, arrived] using this
      | arrive e =>
        have := ih.append_left (arriveLines c e)
        refine this.trans ?_
        show (arriveLines c e ++ ((applied xs).flatMap (applyLines c) ++ (arrived xs).flatMap (arriveLines c))).Perm
          ((applied xs).flatMap (applyLines c) ++ (arriveLines c e ++ (arrived xs).flatMap (arriveLines c)))
        rw [← List.append_assoc, ← List.append_assoc]
        exact List.Perm.append_right _ List.perm_append_comm
  refine (key s.log).trans ?_
  refine ((h1.flatMap_right _).append (h2.flatMap_right _)).trans ?_
  refine (List.flatMap_append_perm (edgesOf acts) (applyLines c) (arriveLines c)).trans ?_
  rw [List.flatMap_congr fun e he => ?_]
  obtain ⟨p1, p2⟩ := ho e he
  obtain ⟨o, a, b⟩ := e
  cases o <;> simp_all [applyLines, arriveLines, edgeLines, ToExpansion] <;> grind

/-- C126: two executions of the same DAG print the same lines, up to their order. -/
theorem C126_same_output {acts : List Act} (hD : (methodDag acts).Ok) {s s' : ExecState Ref Edge Prov}
    (hs : Reach (methodDag acts) s) (hall : ∀ r ∈ (methodDag acts).watched, Ev.trigger r ∈ s.log)
    (hs' : Reach (methodDag acts) s') (hall' : ∀ r ∈ (methodDag acts).watched, Ev.trigger r ∈ s'.log) (c : Counts)
    (ho : Occupied c (edgesOf acts)) : (output c s.log).Perm (output c s'.log) :=
  (C126_output hD hs hall c ho).trans (C126_output hD hs' hall' c ho).symm

/-- C126: as many additions are printed as there are edges into expansions. -/
theorem C126_additions {acts : List Act} (hD : (methodDag acts).Ok) {s : ExecState Ref Edge Prov}
    (hs : Reach (methodDag acts) s) (hall : ∀ r ∈ (methodDag acts).watched, Ev.trigger r ∈ s.log) (c : Counts)
    (ho : Occupied c (edgesOf acts)) :
    (output c s.log).count .adding = (edgesOf acts).countP fun e => ToExpansion e.op := by
  rw [(C126_output hD hs hall c ho).count_eq]
  generalize edgesOf acts = es
  induction es with
  | nil => rfl
  | cons e es ih =>
    rw [List.flatMap_cons, List.count_append, ih, List.countP_cons, add_comm]
    congr 1
    obtain ⟨o, a, b⟩ := e
    cases o <;> simp [edgeLines, ToExpansion]

/-- C126, end to end: a run of the demo (FMM) that finishes on all ranks prints the lines of the edges, whatever the
schedule and the number of ranks. -/
theorem C126_run {unif : Nat} {same : Bool} {s t : Fin 8 → Oct} {acts : List Act}
    (hr : Runs (createProg FMM unif same s t) acts) {loc : Ref → Nat} {n k : Nat} {S : Sys Ref Edge Prov}
    (hS : Sys.Steps (methodDag acts) loc n k S) (hl : ∀ r ∈ (methodDag acts).watched, loc r < n)
    (hd : ∀ k < n, S.Done k) (c : Counts) (ho : Occupied c (edgesOf acts)) :
    (output c S.ex.log).Perm ((edgesOf acts).flatMap (edgeLines c)) :=
  C126_output (methodDag_ok (FMM_safe hr) (FMM_ranked hr)) hS.reach (all_triggered hS hl hd) c ho

/-- C126: what is printed before an edge of an expansion is served contains the additions of all edges into this
expansion. -/
theorem C126_order {acts : List Act} (hD : (methodDag acts).Ok) {s : ExecState Ref Edge Prov}
    (hs : Reach (methodDag acts) s) {pre post : List (Ev Ref Edge)} {e : Edge} (hl : s.log = pre ++ .apply e :: post)
    (c : Counts) :
    output c s.log = output c pre ++ applyLines c e ++ output c post ∧
    ((edgesOf acts).filter fun d => d.dst = e.src ∧ ToExpansion d.op).length ≤ (output c pre).count .adding := by
  constructor
  · rw [hl]
    simp [output, eventLines]
  · have h := C42_only_after_inputs hD hs hl
    have h1 : ((arrived pre).filter fun d => decide (d.dst = e.src ∧ ToExpansion d.op)).length ≤
        (output c pre).count .adding := by
      generalize pre = l
      induction l with
      | nil => exact Nat.zero_le _
      | cons x xs ih =>
        have hcons : output c (x :: xs) = eventLines c x ++ output c xs := by simp [output]
        rw [hcons, List.count_append]
        cases x with
        | trigger r => exact ih.trans (Nat.le_add_left _ _)
        | start r => exact ih.trans (Nat.le_add_left _ _)
        | apply d => exact ih.trans (Nat.le_add_left _ _)
        | arrive d =>
          show ((d :: arrived xs).filter _).length ≤ _
          rw [List.filter_cons]
          split_ifs with hd
          · have hd' : ToExpansion d.op := by simpa using (of_decide_eq_true hd).2
            have : (arriveLines c d).count .adding = 1 := by
              obtain ⟨o, a, b⟩ := d
              cases o <;> simp_all [arriveLines, ToExpansion]
            rw [List.length_cons]
            show _ ≤ (arriveLines c d).count .adding + _
            omega
          · exact ih.trans (Nat.le_add_left _ _)
    refine le_trans (le_of_eq ?_) h1
    have h2 := (h.filter fun d => decide (ToExpansion d.op)).length_eq
    rw [List.filter_filter] at h2
    have h3 : ((methodDag acts).inE ((methodDag acts).src e)) = (edgesOf acts).filter fun d => d.dst = e.src := rfl
    rw [h3, List.filter_filter] at h2
    rw [show (fun d : Edge => decide (d.dst = e.src ∧ ToExpansion d.op)) =
      fun d => decide (ToExpansion d.op) && decide (d.dst = e.src) from by
        funext d
        by_cases h4 : ToExpansion d.op <;> by_cases h5 : d.dst = e.src <;> simp [h4, h5]]
    exact h2.symm

/-! Non-vacuity. -/

/-- Two leaves, in opposite corners of the domain. -/
def UserRun.exApart : Fin 8 → Oct := fork 0 [0] 7 [7, 7, 7]

/-- FMM completes on them, on two ranks. -/
theorem UserRun.exCompletes : Completes (methodDag (createDag FMM 2 true exApart exApart)) (fun r => r.ix.level % 2) 2 := by
  rw [C44_fmm_completes_iff_partial (createDag_runs FMM 2 true exApart exApart) (fun r _ => Nat.mod_lt _ (by omega))]
  have hn : ∀ r ∈ nodesOf (createDag FMM 2 true exApart exApart), r.side = .tgt → r.kind = .normal →
      r.ix.level = 2 → r.ix = ⟨0, 0, 0, 2⟩ ∨ r.ix = ⟨3, 3, 3, 2⟩ := by decide +kernel
  have hl : leaves Index.root (.node exApart) = [⟨0, 0, 0, 2⟩, ⟨15, 15, 15, 4⟩] := by decide +kernel
  intro r h1 h2 h3 h4
  rcases hn r h1 h2 h3 h4 with h | h
  · refine ⟨⟨15, 15, 15, 4⟩, by rw [hl]; simp, ?_⟩
    rw [h]; unfold Separated; decide +kernel
  · refine ⟨⟨0, 0, 0, 2⟩, by rw [hl]; simp, ?_⟩
    rw [h]; unfold Separated; decide +kernel

/-- The demo (FMM) on two ranks: a run that finishes, and so prints the lines of the edges, with two additions and
more. -/
example : ∃ k S, Sys.Steps (methodDag (createDag FMM 2 true exApart exApart)) (fun r => r.ix.level % 2) 2 k S ∧
    (output ⟨fun _ => 1, fun _ => 2⟩ S.ex.log).Perm
      ((edgesOf (createDag FMM 2 true exApart exApart)).flatMap (edgeLines ⟨fun _ => 1, fun _ => 2⟩)) := by
  have hr := createDag_runs FMM 2 true exApart exApart
  obtain ⟨k, S, hS, hd⟩ := exists_done (methodDag_ok (FMM_safe hr) (FMM_ranked hr)) UserRun.exCompletes
  exact ⟨k, S, hS, C126_run hr hS (fun r _ => Nat.mod_lt _ (by omega)) hd _
    fun e _ => ⟨fun _ => Nat.one_pos, fun _ => Nat.two_pos⟩⟩

example : edgeLines ⟨fun _ => 6, fun _ => 2⟩ ⟨.StoM, ⟨.src, ⟨1, 0, 1, 2⟩, .parts⟩, ⟨.src, ⟨1, 0, 1, 2⟩, .normal⟩⟩ =
    [.sToM 6, .adding] := rfl

end Dashmm
