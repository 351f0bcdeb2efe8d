import Verif.Spec.RankTree
import Verif.Proofs.RankInv

/-! Helper lemmas: the end of the construction on all ranks. -/

namespace Dashmm
namespace RankTree
open Build Branch

section
variable {K : Type} [Field K] [LinearOrder K] [IsStrictOrderedRing K] {R : Type}

theorem WInv.cellDone {E : Env K R} {C : Cfg R} {w : World R} (h : WInv E C w) (hs : E.same = false) {q : List Nat} (hq : C.IsCell q)
    (hm : C.mem q ≠ []) (hc : (w.cell q).sets (place q) = 8) : CellDone E (place q) (C.mem q) (w.cell q) := by
  obtain ⟨n, hr⟩ := h.run q hq hm
  have e : ({ E with same := false } : Env K R) = E := by cases E; simp_all
  refine .alone (k := n) ?_ hc
  rw [e]; exact hr

theorem Ready.done {E : Env K R} {C : Cfg R} {w : World R} (h : WInv E C w) {k : Nat} (hr : Ready C w k) {q : List Nat} (hq : C.IsCell q)
    (hm : C.mem q ≠ []) : (w.cell q).sets (place q) = 8 := by
  by_cases e : C.owner q = k
  · exact (hr q hq hm).1 e
  · exact (h.sent q (h.got k q ((hr q hq hm).2 e)).1).2.2

theorem construction_of [FloorRing K] {E E0 : Env K R} {C : Cfg R} {w : World R} {k : Nat} {P : List R} {mem0 : List Nat → List R} (hu : 1 ≤ C.unif)
    (h : WInv E C w) (hd : 0 < E0.dom.size) (hin : ∀ x ∈ P, Grid.InDomain E0.dom (E0.pos x))
    (hmem : ∀ q, C.IsCell q → (mem0 q ≠ [] → C.mem q ≠ []))
    (harr : ∀ q, C.IsCell q → (mem0 q).Perm (P.filter fun x => Grid.gidOf E0.dom C.unif (E0.pos x) = cellOf C.unif q))
    (hr : Ready C w k) (hdone : ∀ q, C.IsCell q → mem0 q ≠ [] → CellDone E0 (place q) (mem0 q) (w.cell q)) :
    ∃ branch, (⟨mem0, w.cell, branch, C.before k, w.heap k, countsOf E0 C.unif P⟩ : Construction R).Ok E0 C.unif (C.root k) P := by
  classical
  have hb : ∀ q, ∃ b : Fin 8 → Oct, C.IsCell q → mem0 q ≠ [] → Shape (place q) (w.cell q) b ∧
      RemoteOk (w.heap k) (C.at k q) ⟨place q, b⟩ (w.own k q) := by
    intro q
    by_cases hc : C.IsCell q ∧ mem0 q ≠ []
    · obtain ⟨hq, hm0⟩ := hc
      have hm := hmem q hq hm0
      by_cases e : C.owner q = k
      · subst e
        have hbox : ∀ r ∈ mem0 q, Grid.InBoxOf E0.dom (place q) (E0.pos r) := by
          intro x hx
          have := List.mem_filter.1 ((harr q hq).mem_iff.1 hx)
          exact (gid_box hd hq.1 hq.2 (hin x this.1)).1 (by simpa using this.2)
        obtain ⟨b, hb⟩ := exists_branch hd hm0 hbox (hdone q hq hm0)
        have hL := h.loc q hq hm
        refine ⟨b, fun _ _ => ⟨hb, hL.copy hb, fun p x hx => hL.inside ?_ hx⟩⟩
        obtain ⟨v, hv, hvi⟩ := (hb [] (by simp [Oct8])).1 ⟨_, .refl _⟩
        exact ⟨v, hv, hvi⟩
      · obtain ⟨-, -, b, h1, h2⟩ := h.got k q ((hr q hq hm).2 e)
        exact ⟨b, fun _ _ => ⟨h1, h2⟩⟩
    · exact ⟨fun _ => .nil, fun h1 h2 => absurd ⟨h1, h2⟩ hc⟩
  choose branch hb using hb
  refine ⟨branch, fun q h1 h2 => harr q ⟨h1, h2⟩, fun q h1 h2 => ((harr q ⟨h1, h2⟩).length_eq).symm, fun q h1 h2 hm => hdone q ⟨h1, h2⟩ hm,
    fun q h1 h2 hm => (hb q ⟨h1, h2⟩ hm).1, h.top k, fun q h1 h2 hm => (hb q ⟨h1, h2⟩ hm).2.copy, fun q h1 h2 hm p b hl hcon => ?_⟩
  have hq : C.IsCell q := ⟨h1, h2⟩
  rcases (hb q hq hm).2.inside p b hl with rfl | hx
  · have := (C.at_top k hu hq).2
    have := hcon.2
    simp only at *
    omega
  · have h8 : 0 < 8 ^ C.unif := by positivity
    exact h.ownTop k q b hq hx ⟨hcon.1, by have := hcon.2; omega⟩

/-! ### addresses are available -/

theorem exists_free (C : Cfg R) (w : World R) (k : Nat) : ∃ B, ∀ x, B ≤ x → Free C w k x := by
  refine ⟨C.root k + nTop C.unif + 8 ^ C.unif + 1 + ((allPaths C.unif).flatMap (w.own k)).sum, fun x hx => ⟨fun h => ?_, fun q hq hm => ?_⟩⟩
  · have := h.2; omega
  · have : x ∈ (allPaths C.unif).flatMap (w.own k) := List.mem_flatMap.2 ⟨q, mem_allPaths.2 hq, hm⟩
    have := List.single_le_sum (by simp) _ this
    have h8 : 0 < 8 ^ C.unif := by positivity
    omega

theorem step_ne {E : Env K R} {i : Index} {s t : State R} (h : Build.Step E i s t) : t ≠ s := by
  cases h with
  | leaf v hv hn => intro e; have := congrArg (fun s => s.leaves.length) e; simp at this
  | split v hv hn c hc => intro e; have := congrArg (fun s => s.inner.length) e; simp at this
  | forward v hv hr h8 hf => intro e; have := congrArg (fun s => s.fwd.length) e; simp at this

section
variable {E : Env K R} {C : Cfg R} {w : World R}
variable (hd : 0 < E.dom.size) (hu : 1 ≤ C.unif) (hin : ∀ q, C.IsCell q → ∀ r ∈ C.mem q, Grid.InBoxOf E.dom (place q) (E.pos r))
include hd hu hin

theorem exists_shape (h : WInv E C w) {q : List Nat} (hq : C.IsCell q) (hm : C.mem q ≠ []) (hp : (w.cell q).pending = []) :
    ∃ b, Shape (place q) (w.cell q) b := by
  obtain ⟨n, hr⟩ := h.run q hq hm
  obtain ⟨f1, f2, -⟩ := C22_nodes hd hm (hin q hq) hr hp
  obtain ⟨n, hn⟩ : ∃ n, ∀ v ∈ (w.cell q).nodes, v.idx.level ≤ n := by
    refine ⟨((w.cell q).nodes.map fun v => v.idx.level).sum, fun v hv => ?_⟩
    exact List.single_le_sum (by simp) _ (List.mem_map.2 ⟨v, hv, rfl⟩)
  refine ⟨treeOf (fun j => ∃ v ∈ (w.cell q).nodes, v.idx = j) n (place q), fun p hp8 => treeOf_path n (place q) ?_ ?_ p hp8⟩
  · rintro p hp8 ⟨v, hv, hvi⟩
    refine ⟨?_, fun q' hq' => ?_⟩
    · have := hn v hv
      rw [hvi, below_level _ p hp8] at this
      omega
    · have hq8 : Oct8 q' := fun c hc => hp8 c (hq'.subset hc)
      obtain ⟨g1, g2⟩ := (f1 p hp8).1 ⟨v, hv, hvi⟩
      by_cases hqp : q' = p
      · subst hqp; exact ⟨v, hv, hvi⟩
      · refine (f1 q' hq8).2 ⟨?_, fun q'' hq'' hne => g2 q'' (hq''.trans hq') ?_⟩
        · obtain ⟨l, rfl⟩ := hq'
          obtain ⟨x, hx⟩ := List.exists_mem_of_length_pos g1
          obtain ⟨x1, x2⟩ := mem_inBox.1 hx
          unfold below at x2
          rw [List.foldl_append] at x2
          exact List.length_pos_of_mem (mem_inBox.2 ⟨x1, below_box hd l _ (fun c hc => hp8 c (List.mem_append_right _ hc)) x2⟩)
        · rintro rfl
          exact hne (hq'.eq_of_length_le hq''.length_le).symm
  · exact ⟨_, (h.inv hd hu hin hq hm).hroot, rfl⟩

/-- While something is missing, something can happen. -/
theorem stuck_ready (h : WInv E C w) (hfin : ∀ q, C.IsCell q → C.mem q ≠ [] → Quiet E (place q) (w.cell q) → (w.cell q).sets (place q) = 8)
    (hs : Stuck E C w) {k : Nat} (hk : k < C.ranks) : Ready C w k := by
  intro q hq hm
  have hquiet : Quiet E (place q) (w.cell q) := by
    intro s hst
    by_cases hi : s.inner = (w.cell q).inner
    · exact hs _ (.task w q hq s hst hi)
    · generalize hcell : w.cell q = s0 at hst
      cases hst with
      | leaf v hv hn => rw [hcell] at hi; exact hi rfl
      | forward v hv hr h8 hf => rw [hcell] at hi; exact hi rfl
      | split v hv hn c hc =>
        subst hcell
        obtain ⟨B, hB⟩ := exists_free C w (C.owner q)
        exact hs _ (.split w q hq v hv hn c hc (B + ·) (fun i _ => hB _ (by omega)) (List.Nodup.map (fun a b e => by simpa using e)
          (List.nodup_range.filter _)))
  have hc : (w.cell q).sets (place q) = 8 := hfin q hq hm hquiet
  have hp : (w.cell q).pending = [] := by
    obtain ⟨n, hr⟩ := h.run q hq hm
    exact C59_not_early hd hm (hin q hq) hr hc
  have hsent : q ∈ w.sent := by
    by_contra hns
    obtain ⟨b, hb⟩ := exists_shape hd hu hin h hq hm hp
    obtain ⟨msg, hmsg⟩ := message_total (cellOf C.unif q) b
    exact hs _ (.send w q hq hm hc hns b ((h.loc q hq hm).copy hb) msg hmsg)
  refine ⟨fun _ => hc, fun hne => ?_⟩
  rcases h.reach q hsent k hk (Ne.symm hne) with hg | ⟨msg, hmem⟩
  · exact hg
  · exfalso
    obtain ⟨B, hB⟩ := exists_free C w k
    obtain ⟨net, hnet⟩ : ∃ net, w.net.Perm ((k, q, msg) :: net) := by
      classical
      exact ⟨w.net.erase (k, q, msg), List.perm_cons_erase hmem⟩
    exact hs _ (.recv w k q msg net hnet B fun x hx _ => hB x hx)

omit hd hu hin in
theorem sum_upd {A : Type} [DecidableEq A] {l : List A} (hl : l.Nodup) {q : A} (hq : q ∈ l) (f : A → Nat) (x : Nat) :
    (l.map (upd f q (f q + x))).sum = (l.map f).sum + x := by
  induction l with
  | nil => simp at hq
  | cons a l ih =>
    rw [List.nodup_cons] at hl
    rcases List.mem_cons.1 hq with rfl | hq
    · have : l.map (upd f q (f q + x)) = l.map f := List.map_congr_left fun b hb => upd_ne _ _ fun e => hl.1 (e ▸ hb)
      rw [List.map_cons, List.map_cons, List.sum_cons, List.sum_cons, this, upd_same]
      omega
    · have hne : a ≠ q := fun e => hl.1 (e ▸ hq)
      rw [List.map_cons, List.map_cons, List.sum_cons, List.sum_cons, ih hl.2 hq, upd_ne _ _ hne]
      omega

/-- What has been done so far adds up to the number of steps. -/
structure Counted (E : Env K R) (C : Cfg R) (n : Nat) (w : World R) (f : List Nat → Nat) : Prop where
  run : ∀ q, C.IsCell q → C.mem q ≠ [] → Steps E (place q) (f q) (start ⟨place q, 0, (C.mem q).length⟩ (C.mem q)) (w.cell q)
  idle : ∀ q, C.mem q = [] → f q = 0
  sent : w.sent.Nodup
  got : ∀ k, (w.got k).Nodup
  net : ∀ e ∈ w.net, e.1 < C.ranks
  total : n = ((allPaths C.unif).map f).sum + w.sent.length + ((List.range C.ranks).map fun k => (w.got k).length).sum

omit hd hu hin in
theorem map_upd_length {A : Type} (got : Nat → List A) (k : Nat) (a : A) (n : Nat) (hk : k < n) :
    ((List.range n).map fun j => (upd got k (a :: got k) j).length).sum = ((List.range n).map fun j => (got j).length).sum + 1 := by
  have : (fun j => (upd got k (a :: got k) j).length) = upd (fun j => (got j).length) k ((got k).length + 1) := by
    funext j
    by_cases e : j = k
    · subst e; simp [upd_same]
    · rw [upd_ne _ _ e, upd_ne _ _ e]
  rw [this]
  exact sum_upd List.nodup_range (List.mem_range.2 hk) _ 1

theorem counted_reach {n : Nat} (h : Reach E C n w) : ∃ f, Counted E C n w f := by
  induction h with
  | init =>
    refine ⟨fun _ => 0, ?_, fun _ _ => rfl, by simp [init], by simp [init], by simp [init], by simp [init]⟩
    intro q hq hm
    have : (init C).cell q = start ⟨place q, 0, (C.mem q).length⟩ (C.mem q) := by simp [init, hm]
    rw [this]; exact .zero _
  | other _ hH ih =>
    obtain ⟨f, h⟩ := ih
    exact ⟨f, h.run, h.idle, h.sent, h.got, h.net, h.total⟩
  | @step n w w' hw hs ih =>
    obtain ⟨f, h⟩ := ih
    have hW := inv_reach hd hu hin hw
    have hcell : ∀ {q : List Nat} {s : State R}, C.IsCell q → Build.Step E (place q) (w.cell q) s →
        (∀ q', C.IsCell q' → C.mem q' ≠ [] → Steps E (place q') (upd f q (f q + 1) q') (start ⟨place q', 0, (C.mem q').length⟩ (C.mem q'))
          (upd w.cell q s q')) ∧ ∀ q', C.mem q' = [] → upd f q (f q + 1) q' = 0 := by
      intro q s hq hst
      have hm : C.mem q ≠ [] := by
        intro hm
        rw [hW.idle q hq hm] at hst
        cases hst with
        | leaf v hv => simp at hv
        | split v hv => simp at hv
        | forward v hv => simp at hv
      refine ⟨fun q' hq' hm' => ?_, fun q' hm' => ?_⟩
      · by_cases e : q' = q
        · subst e
          rw [upd_same, upd_same]
          exact .succ (h.run q' hq' hm') hst
        · rw [upd_ne _ _ e, upd_ne _ _ e]
          exact h.run q' hq' hm'
      · have e : q' ≠ q := fun e => hm (e ▸ hm')
        rw [upd_ne _ _ e]
        exact h.idle q' hm'
    cases hs with
    | task q hq s hs hi =>
      obtain ⟨g1, g2⟩ := hcell hq hs
      refine ⟨_, g1, g2, h.sent, h.got, h.net, ?_⟩
      rw [sum_upd (allPaths_nodup _) (mem_allPaths.2 hq), h.total]
      dsimp only
      omega
    | split q hq v hv hn c hc new hnew hdist =>
      obtain ⟨g1, g2⟩ := hcell hq (.split (w.cell q) v hv hn c hc)
      refine ⟨_, g1, g2, h.sent, h.got, h.net, ?_⟩
      rw [sum_upd (allPaths_nodup _) (mem_allPaths.2 hq), h.total]
      dsimp only
      omega
    | send q hq hm hc hs b hb msg hmsg =>
      refine ⟨f, h.run, h.idle, List.nodup_cons.2 ⟨hs, h.sent⟩, h.got, ?_, ?_⟩
      · intro e he
        rcases List.mem_append.1 he with he | he
        · obtain ⟨k, hk, rfl⟩ := List.mem_map.1 he
          exact List.mem_range.1 (List.mem_filter.1 hk).1
        · exact h.net e he
      · rw [h.total]
        simp only [List.length_cons]
        omega
    | recv k q msg net hm base hbase =>
      have hmem : (k, q, msg) ∈ w.net := hm.symm.mem_iff.1 (by simp)
      have hk := h.net _ hmem
      refine ⟨f, h.run, h.idle, h.sent, ?_, fun e he => h.net e (hm.symm.mem_iff.1 (List.mem_cons_of_mem _ he)), ?_⟩
      · intro k'
        dsimp only
        by_cases e : k' = k
        · subst e
          rw [upd_same]
          exact List.nodup_cons.2 ⟨(hW.net _ _ _ hmem).2.2.1, h.got k'⟩
        · rw [upd_ne _ _ e]; exact h.got k'
      · rw [h.total]
        dsimp only
        rw [map_upd_length _ _ _ _ hk]
        omega

/-- There is a bound on the number of steps. -/
theorem exists_bound (hT : ∀ q, C.IsCell q → C.mem q ≠ [] → ∃ B, ∀ k s, Steps E (place q) k (start ⟨place q, 0, (C.mem q).length⟩ (C.mem q)) s → k ≤ B) :
    ∃ B, ∀ n w, Reach E C n w → n ≤ B := by
  have hB : ∀ q, ∃ B, C.IsCell q → C.mem q ≠ [] → ∀ k s, Steps E (place q) k (start ⟨place q, 0, (C.mem q).length⟩ (C.mem q)) s → k ≤ B := by
    intro q
    by_cases h : C.IsCell q ∧ C.mem q ≠ []
    · obtain ⟨B, hB⟩ := hT q h.1 h.2
      exact ⟨B, fun _ _ => hB⟩
    · exact ⟨0, fun h1 h2 => absurd ⟨h1, h2⟩ h⟩
  choose B hB using hB
  refine ⟨((allPaths C.unif).map B).sum + (allPaths C.unif).length + C.ranks * (allPaths C.unif).length, fun n w h => ?_⟩
  obtain ⟨f, hf⟩ := counted_reach hd hu hin h
  have hW := inv_reach hd hu hin h
  have h1 : ((allPaths C.unif).map f).sum ≤ ((allPaths C.unif).map B).sum := by
    refine List.sum_le_sum fun q hq => ?_
    have hc := mem_allPaths.1 hq
    by_cases hm : C.mem q = []
    · rw [hf.idle q hm]; omega
    · exact hB q hc hm _ _ (hf.run q hc hm)
  have h2 : w.sent.length ≤ (allPaths C.unif).length :=
    (hf.sent.subperm fun q hq => mem_allPaths.2 (hW.sent q hq).1).length_le
  have h3 : ((List.range C.ranks).map fun k => (w.got k).length).sum ≤ C.ranks * (allPaths C.unif).length := by
    have := List.sum_le_card_nsmul ((List.range C.ranks).map fun k => (w.got k).length) (allPaths C.unif).length (by
      intro x hx
      obtain ⟨k, -, rfl⟩ := List.mem_map.1 hx
      exact ((hf.got k).subperm fun q hq => mem_allPaths.2 (hW.sent q (hW.got k q hq).1).1).length_le)
    simpa using this
  have := hf.total
  omega

omit hd hu hin in
omit [IsStrictOrderedRing K] in
/-- The construction ends. -/
theorem exists_stuck {B : Nat} (hB : ∀ n w, Reach E C n w → n ≤ B) : ∃ n w, Reach E C n w ∧ Stuck E C w := by
  by_contra hcon
  push Not at hcon
  have : ∀ n, ∃ w, Reach E C n w := by
    intro n
    induction n with
    | zero => exact ⟨_, .init⟩
    | succ n ih =>
      obtain ⟨w, hw⟩ := ih
      have := hcon n w hw
      unfold Stuck at this
      push Not at this
      obtain ⟨w', hw'⟩ := this
      exact ⟨w', .step hw hw'⟩
  obtain ⟨w, hw⟩ := this (B + 1)
  have := hB _ w hw
  omega

end
end

end RankTree
end Dashmm
