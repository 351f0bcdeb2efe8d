import Verif.Proofs.RankEnd
import Verif.Props.EndToEnd

/-!
# The trees on all ranks (C80)

The cells of the uniform grid are divided by tasks on the ranks they are assigned to; a finished branch is sent to all other ranks, which attach
copies of it to their own tops. Below, `w` is any state that can be reached, in any order of the tasks and messages of all the ranks, with any
other work of the ranks in between.
-/

namespace Dashmm

open Lap Ev ExecState Build Branch RankTree
open Grid (InDomain InBoxOf)

section
variable {K : Type} [Field K] [LinearOrder K] [IsStrictOrderedRing K] [FloorRing K] {R : Type} {E : Env K R} {C : Cfg R} {P : List R}

/-- Records that arrived are in the box of their cell. -/
theorem arrived_box (hd : 0 < E.dom.size) (hin : ∀ x ∈ P, InDomain E.dom (E.pos x)) (harr : Arrived E C P) :
    ∀ q, C.IsCell q → ∀ r ∈ C.mem q, InBoxOf E.dom (place q) (E.pos r) := by
  intro q hq x hx
  have := List.mem_filter.1 ((harr q hq).mem_iff.1 hx)
  exact (gid_box hd hq.1 hq.2 (hin x this.1)).1 (by simpa using this.2)

/-- The tree is determined by the records. -/
theorem built_unique {unif : Nat} {s s' : Fin 8 → Oct} {hold hold' : Index → List R} (h : Built E unif P s hold) (h' : Built E unif P s' hold') :
    s = s' := oct_ext s s' Index.root Index.root fun p => C78_same_tree h h' p

/-- **C80** There is one tree, given by the records, such that every rank that has finished its cells and received the others succeeds to
prune its top, and then has this tree of linked nodes at its root. -/
theorem C80_one_tree (hsame : E.same = false) (hd : 0 < E.dom.size) (hu : 1 ≤ C.unif) (hin : ∀ x ∈ P, InDomain E.dom (E.pos x)) (harr : Arrived E C P)
    {n : Nat} {w : World R} (hr : Reach E C n w) {hold : Index → List R} (hH : HoldsAt C w hold) (hready : ∃ k, Ready C w k) :
    ∃ s, Built E C.unif P s hold ∧ ∀ k, Ready C w k → ∀ np, (∀ b, C.root k ≤ b → b < C.root k + nTop C.unif → np b = 0) →
      ∃ H', pruneTopnodes (C.root k) C.unif np (countsOf E C.unif P) (w.heap k) = some H' ∧ Copy H' (C.root k) ⟨Index.root, s⟩ := by
  have hW := inv_reach hd hu (arrived_box hd hin harr) hr
  have key : ∀ k, Ready C w k → ∀ np, (∀ b, C.root k ≤ b → b < C.root k + nTop C.unif → np b = 0) →
      ∃ H' s, pruneTopnodes (C.root k) C.unif np (countsOf E C.unif P) (w.heap k) = some H' ∧ Copy H' (C.root k) ⟨Index.root, s⟩ ∧
        Built E C.unif P s hold := by
    intro k hk np hnp
    obtain ⟨br, hC⟩ := construction_of hu hW hd hin (fun q _ h => h) harr hk
      fun q hq hm => hW.cellDone hsame hq hm (Ready.done hW hk hq hm)
    exact C78_tree hC hd hin hu ⟨fun q h1 h2 hm v hv => hH.slices q ⟨h1, h2⟩ hm v hv,
      fun i hi => hH.other i fun q hq hm v hv => hi q hq.1 hq.2 hm v hv⟩ hnp
  obtain ⟨k0, hk0⟩ := hready
  obtain ⟨-, s, -, -, hB⟩ := key k0 hk0 (fun _ => 0) fun _ _ _ => rfl
  refine ⟨s, hB, fun k hk np hnp => ?_⟩
  obtain ⟨H', s', h1, h2, h3⟩ := key k hk np hnp
  obtain rfl := built_unique hB h3
  exact ⟨H', h1, h2⟩

/-- **C80** What the nodes hold is well defined once all cells are finished. -/
theorem C80_hold (hsame : E.same = false) (hd : 0 < E.dom.size) (hu : 1 ≤ C.unif) (hin : ∀ x ∈ P, InDomain E.dom (E.pos x)) (harr : Arrived E C P)
    {n : Nat} {w : World R} (hr : Reach E C n w) (hready : ∃ k, Ready C w k) : ∃ hold, HoldsAt C w hold := by
  have hW := inv_reach hd hu (arrived_box hd hin harr) hr
  obtain ⟨k, hk⟩ := hready
  obtain ⟨br, hC⟩ := construction_of hu hW hd hin (fun q _ h => h) harr hk
    fun q hq hm => hW.cellDone hsame hq hm (Ready.done hW hk hq hm)
  obtain ⟨hold, hH⟩ := C78_hold hC hd hin
  exact ⟨hold, fun q hq hm v hv => hH.slices q hq.1 hq.2 hm v hv, fun i hi => hH.other i fun q h1 h2 hm v hv => hi q ⟨h1, h2⟩ hm v hv⟩

/-- **C80** The construction does not get stuck: if no task can run and no message can be sent or received, then every rank has finished its cells and
received all the others. -/
theorem C80_never_stuck (hsame : E.same = false) (hd : 0 < E.dom.size) (hu : 1 ≤ C.unif) (hin : ∀ x ∈ P, InDomain E.dom (E.pos x))
    (harr : Arrived E C P) {n : Nat} {w : World R} (hr : Reach E C n w) (hs : Stuck E C w) : ∀ k < C.ranks, Ready C w k := by
  have hbox := arrived_box hd hin harr
  have hW := inv_reach hd hu hbox hr
  refine fun k hk => stuck_ready hd hu hbox hW (fun q hq hm hquiet => ?_) hs hk
  obtain ⟨m, hm'⟩ := hW.run q hq hm
  exact C59_completes hd hm (hbox q hq) hsame hm' hquiet

/-- **C80** The construction ends: if no place has more points than the threshold, there is a bound on the number of steps. -/
theorem C80_ends [Archimedean K] (hd : 0 < E.dom.size) (hu : 1 ≤ C.unif) (hin : ∀ x ∈ P, InDomain E.dom (E.pos x)) (harr : Arrived E C P)
    (ht : ∀ x ∈ P, (atPlace E x P).length ≤ E.threshold) : ∃ B, ∀ n w, Reach E C n w → n ≤ B := by
  have hbox := arrived_box hd hin harr
  refine exists_bound hd hu hbox fun q hq hm => C23_terminates_partial hd hm (hbox q hq) fun r hr => ?_
  have h1 := ht r (List.mem_filter.1 ((harr q hq).mem_iff.1 hr)).1
  refine le_trans ?_ h1
  unfold atPlace
  rw [((harr q hq).filter _).length_eq]
  exact (List.Sublist.filter _ List.filter_sublist).length_le

/-- **C80** So every input without too many coincident points is constructed on all ranks. -/
theorem C80_exists [Archimedean K] (hsame : E.same = false) (hd : 0 < E.dom.size) (hu : 1 ≤ C.unif) (hin : ∀ x ∈ P, InDomain E.dom (E.pos x))
    (harr : Arrived E C P) (ht : ∀ x ∈ P, (atPlace E x P).length ≤ E.threshold) :
    ∃ n w, Reach E C n w ∧ ∀ k < C.ranks, Ready C w k := by
  obtain ⟨B, hB⟩ := C80_ends hd hu hin harr ht
  obtain ⟨n, w, h1, h2⟩ := RankTree.exists_stuck hB
  exact ⟨n, w, h1, C80_never_stuck hsame hd hu hin harr h1 h2⟩

/-! ### If the targets are the sources -/

section
variable {C' : Cfg R} {n : Nat} {w : World R} (hsame : E.same = false) (hd : 0 < E.dom.size) (hu : 1 ≤ C.unif)
  (hin : ∀ x ∈ P, InDomain E.dom (E.pos x)) (harr : Arrived E C P) (hr : Reach E C n w) (hT : TargetOf C w C')
include hsame hd hu hin harr hr hT

omit hsame in
theorem target_arrived : Arrived { E with same := true } C' P ∧ ∀ q, C.IsCell q → (C.mem q ≠ [] → C'.mem q ≠ []) := by
  have hbox := arrived_box hd hin harr
  have hW := inv_reach hd hu hbox hr
  have hperm : ∀ q, C.IsCell q → (C'.mem q).Perm (C.mem q) := by
    intro q hq
    rw [hT.mem q hq]
    by_cases hm : C.mem q = []
    · rw [hW.idle q hq hm, hm]
    · obtain ⟨m, hm'⟩ := hW.run q hq hm
      exact C22_records hd hm (hbox q hq) hm'
  constructor
  · intro q hq
    have hq' : C.IsCell q := ⟨hq.1, by rw [hq.2, hT.unif]⟩
    have := (hperm q hq').trans (harr q hq')
    rw [hT.unif]
    exact this
  · intro q hq hm h
    exact hm (by have := hperm q hq; rw [h] at this; exact this.symm.eq_nil)

theorem target_done {n' : Nat} {w' : World R} (hr' : Reach { E with same := true } C' n' w') {q : List Nat} (hq : C.IsCell q) (hm : C.mem q ≠ [])
    (hc : (w'.cell q).sets (place q) = 8) : CellDone E (place q) (C.mem q) (w'.cell q) := by
  have hbox := arrived_box hd hin harr
  have hW := inv_reach hd hu hbox hr
  obtain ⟨ha, hne⟩ := target_arrived hd hu hin harr hr hT
  have hu' : 1 ≤ C'.unif := by rw [hT.unif]; exact hu
  have hW' := inv_reach (E := { E with same := true }) hd hu' (arrived_box (E := { E with same := true }) hd hin ha) hr'
  have hq' : C'.IsCell q := ⟨hq.1, by rw [hq.2, hT.unif]⟩
  obtain ⟨m, hs⟩ := hW.run q hq hm
  obtain ⟨m', hs'⟩ := hW'.run q hq' (hne q hq hm)
  rw [hT.mem q hq] at hs'
  have e : ({ E with same := false } : Env K R) = E := by cases E; simp_all
  refine .same (k := m) (s := w.cell q) ?_ (hT.done q hq hm) hs' hc
  rw [e]; exact hs

/-- **C80** If the targets are the sources, the target tree is the same tree again. -/
theorem C80_same_trees {n' : Nat} {w' : World R} (hr' : Reach { E with same := true } C' n' w') {hold hold' : Index → List R} (hH : HoldsAt C w hold)
    (hH' : HoldsAt C' w' hold') (hready : ∃ k, Ready C w k) (hready' : ∃ k, Ready C' w' k) :
    ∃ s, Built E C.unif P s hold ∧ Built E C.unif P s hold' ∧ ∀ np,
      (∀ k, Ready C w k → (∀ b, C.root k ≤ b → b < C.root k + nTop C.unif → np b = 0) →
        ∃ H', pruneTopnodes (C.root k) C.unif np (countsOf E C.unif P) (w.heap k) = some H' ∧ Copy H' (C.root k) ⟨Index.root, s⟩) ∧
      ∀ k, Ready C' w' k → (∀ b, C'.root k ≤ b → b < C'.root k + nTop C.unif → np b = 0) →
        ∃ H', pruneTopnodes (C'.root k) C.unif np (countsOf E C.unif P) (w'.heap k) = some H' ∧ Copy H' (C'.root k) ⟨Index.root, s⟩ := by
  obtain ⟨s, hB, hs⟩ := C80_one_tree hsame hd hu hin harr hr hH hready
  obtain ⟨ha, hne⟩ := target_arrived hd hu hin harr hr hT
  have hu' : 1 ≤ C'.unif := by rw [hT.unif]; exact hu
  have hW' := inv_reach (E := { E with same := true }) hd hu' (arrived_box (E := { E with same := true }) hd hin ha) hr'
  have hcell : ∀ q, C'.IsCell q ↔ C.IsCell q := fun q => by unfold Cfg.IsCell; rw [hT.unif]
  have hbox := arrived_box hd hin harr
  have hW := inv_reach hd hu hbox hr
  have hne' : ∀ q, C.IsCell q → C'.mem q ≠ [] → C.mem q ≠ [] := by
    intro q hq h hm
    rw [hT.mem q hq, hW.idle q hq hm] at h
    exact h rfl
  have key : ∀ k, Ready C' w' k → ∀ np, (∀ b, C'.root k ≤ b → b < C'.root k + nTop C.unif → np b = 0) →
      ∃ H' s, pruneTopnodes (C'.root k) C.unif np (countsOf E C.unif P) (w'.heap k) = some H' ∧ Copy H' (C'.root k) ⟨Index.root, s⟩ ∧
        Built E C.unif P s hold' := by
    intro k hk np hnp
    obtain ⟨br, hC⟩ := construction_of (E0 := E) (mem0 := C.mem) (P := P) hu' hW' hd hin (fun q hq h => hne q ((hcell q).1 hq) h)
      (fun q hq => by have := harr q ((hcell q).1 hq); rw [hT.unif]; exact this) hk
      fun q hq hm => target_done hsame hd hu hin harr hr hT hr' ((hcell q).1 hq) hm (Ready.done hW' hk hq (hne q ((hcell q).1 hq) hm))
    rw [hT.unif] at hC
    exact C78_tree hC hd hin hu ⟨fun q h1 h2 hm v hv => hH'.slices q ((hcell q).2 ⟨h1, h2⟩) (hne q ⟨h1, h2⟩ hm) v hv,
      fun i hi => hH'.other i fun q hq hm v hv => hi q hq.1 (by rw [hq.2, hT.unif]) (hne' q ((hcell q).1 hq) hm) v hv⟩ hnp
  obtain ⟨k0, hk0⟩ := hready'
  obtain ⟨-, s', -, -, hB'⟩ := key k0 hk0 (fun _ => 0) fun _ _ _ => rfl
  obtain rfl := built_unique hB hB'
  refine ⟨s, hB, hB', fun np => ⟨fun k hk hnp => hs k hk np hnp, fun k hk hnp => ?_⟩⟩
  obtain ⟨H', s', h1, h2, h3⟩ := key k hk np hnp
  obtain rfl := built_unique hB h3
  exact ⟨H', h1, h2⟩

/-- **C80** Then, too, it is well defined what the nodes of the target tree hold. -/
theorem C80_same_hold {n' : Nat} {w' : World R} (hr' : Reach { E with same := true } C' n' w') (hready' : ∃ k, Ready C' w' k) : ∃ hold', HoldsAt C' w' hold' := by
  obtain ⟨ha, hne⟩ := target_arrived hd hu hin harr hr hT
  have hu' : 1 ≤ C'.unif := by rw [hT.unif]; exact hu
  have hW' := inv_reach (E := { E with same := true }) hd hu' (arrived_box (E := { E with same := true }) hd hin ha) hr'
  have hcell : ∀ q, C'.IsCell q ↔ C.IsCell q := fun q => by unfold Cfg.IsCell; rw [hT.unif]
  have hW := inv_reach hd hu (arrived_box hd hin harr) hr
  have hne' : ∀ q, C.IsCell q → C'.mem q ≠ [] → C.mem q ≠ [] := by
    intro q hq h hm
    rw [hT.mem q hq, hW.idle q hq hm] at h
    exact h rfl
  obtain ⟨k, hk⟩ := hready'
  obtain ⟨br, hC⟩ := construction_of (E0 := E) (mem0 := C.mem) (P := P) hu' hW' hd hin (fun q hq h => hne q ((hcell q).1 hq) h)
    (fun q hq => by have := harr q ((hcell q).1 hq); rw [hT.unif]; exact this) hk
    fun q hq hm => target_done hsame hd hu hin harr hr hT hr' ((hcell q).1 hq) hm (Ready.done hW' hk hq (hne q ((hcell q).1 hq) hm))
  obtain ⟨hold, hH⟩ := C78_hold hC hd hin
  exact ⟨hold, fun q hq hm v hv => hH.slices q hq.1 hq.2 (hne' q ((hcell q).1 hq) hm) v hv,
    fun i hi => hH.other i fun q h1 h2 hm v hv => hi q ⟨h1, h2⟩ (hne q ((hcell q).1 ⟨h1, h2⟩) hm) v hv⟩

/-- **C80** Nor does the construction of the target tree get stuck if the targets are the sources. -/
theorem C80_same_never_stuck {n' : Nat} {w' : World R} (hr' : Reach { E with same := true } C' n' w') (hs : Stuck { E with same := true } C' w') :
    ∀ k < C'.ranks, Ready C' w' k := by
  have hbox := arrived_box hd hin harr
  have hW := inv_reach hd hu hbox hr
  obtain ⟨ha, hne⟩ := target_arrived hd hu hin harr hr hT
  have hu' : 1 ≤ C'.unif := by rw [hT.unif]; exact hu
  have hbox' := arrived_box (E := { E with same := true }) hd hin ha
  have hW' := inv_reach (E := { E with same := true }) hd hu' hbox' hr'
  refine fun k hk => stuck_ready (E := { E with same := true }) hd hu' hbox' hW' (fun q hq hm hquiet => ?_) hs hk
  have hq' : C.IsCell q := ⟨hq.1, by rw [hq.2, hT.unif]⟩
  have hm0 : C.mem q ≠ [] := by
    intro h
    rw [hT.mem q hq', hW.idle q hq' h] at hm
    exact hm rfl
  obtain ⟨m, h1⟩ := hW.run q hq' hm0
  obtain ⟨m', h2⟩ := hW'.run q hq hm
  rw [hT.mem q hq'] at h2
  exact ((C58_same hd hm0 (hbox q hq') h1 (hT.done q hq' hm0) h2).2.2.2 hquiet).1

end

end

/-! ### C80: evaluations -/

/-- **C80** An evaluation on many ranks: the domain is agreed upon, the cells get their records, and both trees are constructed by all ranks together. Then there is one source
tree and one target tree, which each rank has after pruning its tops, and an evaluation over them gives the right results. -/
theorem C80_evaluation {ranks : List (List Src × List Tgt)} {dom : Domain ℝ} (hI : Input false ranks dom) {threshold p : ℕ}
    {Cs : Cfg Src} {Ct : Cfg Tgt} (hu : 1 ≤ Cs.unif) (hut : Ct.unif = Cs.unif)
    (has : Arrived (srcEnv dom threshold) Cs (ranks.flatMap Prod.fst)) (hat : Arrived (tgtEnv dom threshold) Ct (ranks.flatMap Prod.snd))
    {ns nt : Nat} {ws : World Src} {wt : World Tgt} (hs : Reach (srcEnv dom threshold) Cs ns ws) (ht : Reach (tgtEnv dom threshold) Ct nt wt)
    (hready : ∃ k, Ready Cs ws k) (hready' : ∃ k, Ready Ct wt k) :
    ∃ s t holds holdt, HoldsAt Cs ws holds ∧ HoldsAt Ct wt holdt ∧
      Built (srcEnv dom threshold) Cs.unif (ranks.flatMap Prod.fst) s holds ∧ Built (tgtEnv dom threshold) Cs.unif (ranks.flatMap Prod.snd) t holdt ∧
      (∀ k, Ready Cs ws k → ∃ H', pruneTopnodes (Cs.root k) Cs.unif (fun _ => 0) (countsOf (srcEnv dom threshold) Cs.unif (ranks.flatMap Prod.fst))
        (ws.heap k) = some H' ∧ Copy H' (Cs.root k) ⟨Index.root, s⟩) ∧
      (∀ k, Ready Ct wt k → ∃ H', pruneTopnodes (Ct.root k) Cs.unif (fun _ => 0) (countsOf (tgtEnv dom threshold) Cs.unif (ranks.flatMap Prod.snd))
        (wt.heap k) = some H' ∧ Copy H' (Ct.root k) ⟨Index.root, t⟩) ∧
      ∀ (rule : Rule) (m : Method) (acts : List Act), Runs (createProg m Cs.unif false s t) acts →
      ∀ (loc : Ref → Nat) (n k : Nat) (S : Sys Ref Edge LapVal),
        Sys.Steps (lapDag (LapData.ofTrees dom p rule holds holdt) acts) loc n k S →
        (∀ r ∈ (lapDag (LapData.ofTrees dom p rule holds holdt) acts).watched, loc r < n) → (∀ k < n, S.Done k) →
        (m = Direct → Correct acts S.ex.acc holdt (ranks.flatMap Prod.fst) (ranks.flatMap Prod.snd) 0) ∧
        ((LapData.ofTrees dom p rule holds holdt).Clear acts →
          (m = FMM → Correct acts S.ex.acc holdt (ranks.flatMap Prod.fst) (ranks.flatMap Prod.snd) (fmmEps p)) ∧
          (m = FMM97 → rule.Even → ∀ ε, rule.Accurate p ε →
            Correct acts S.ex.acc holdt (ranks.flatMap Prod.fst) (ranks.flatMap Prod.snd) (max (fmmEps p) ε))) := by
  obtain ⟨hd, hP, hT⟩ := hI.dom
  obtain ⟨holds, hHs⟩ := C80_hold (E := srcEnv dom threshold) rfl hd hu hP has hs hready
  obtain ⟨holdt, hHt⟩ := C80_hold (E := tgtEnv dom threshold) rfl hd (by rw [hut]; exact hu) hT hat ht hready'
  obtain ⟨s, hBs, h1⟩ := C80_one_tree (E := srcEnv dom threshold) rfl hd hu hP has hs hHs hready
  obtain ⟨t, hBt, h2⟩ := C80_one_tree (E := tgtEnv dom threshold) rfl hd (by rw [hut]; exact hu) hT hat ht hHt hready'
  rw [hut] at hBt h2
  refine ⟨s, t, holds, holdt, hHs, hHt, hBs, hBt, fun k hk => h1 k hk _ fun _ _ _ => rfl, fun k hk => h2 k hk _ fun _ _ _ => rfl, ?_⟩
  intro rule m acts hr loc n k S hS hl hD
  refine ⟨?_, fun hc => ⟨?_, ?_⟩⟩
  · rintro rfl
    exact C79_direct hd hBs hBt hP hT hS hl hD hr
  · rintro rfl
    exact C79_fmm hd hBs hBt hP hT hS hl hD hr hc
  · rintro rfl hE ε hA
    exact C79_fmm97 hd hBs hBt hP hT hS hl hD hr hc hE hA

/-! ### An example -/

/-- Three ranks; each cell belongs to the rank given by its first step. -/
noncomputable def exRankCfg {R : Type} (E : Env ℝ R) (P : List R) : Cfg R where
  unif := 2
  ranks := 3
  owner q := q.headD 0 % 3
  root k := 100 + 1000 * k
  before _ _ := HNode.fresh
  mem q := P.filter fun x => Grid.gidOf E.dom 2 (E.pos x) = cellOf 2 q

/-- C80: the trees of the example (four points in two corners, threshold 1) are constructed on three ranks, and so is the evaluation. -/
example (p : ℕ) : ∃ ns nt ws wt, Reach (srcEnv ⟨⟨0, 0, 0⟩, 16⟩ 1) (exRankCfg (srcEnv ⟨⟨0, 0, 0⟩, 16⟩ 1) exSrc) ns ws ∧
    Reach (tgtEnv ⟨⟨0, 0, 0⟩, 16⟩ 1) (exRankCfg (tgtEnv ⟨⟨0, 0, 0⟩, 16⟩ 1) exTgt) nt wt ∧
    (∀ k < 3, Ready (exRankCfg (srcEnv ⟨⟨0, 0, 0⟩, 16⟩ 1) exSrc) ws k) ∧ (∀ k < 3, Ready (exRankCfg (tgtEnv ⟨⟨0, 0, 0⟩, 16⟩ 1) exTgt) wt k) ∧
    ∃ acts acc holdt, Correct acts acc holdt exSrc exTgt (fmmEps p) := by
  have h0 := exInput.dom
  have hs : ∀ x ∈ exSrc, (atPlace (srcEnv ⟨⟨0, 0, 0⟩, 16⟩ 1) x exSrc).length ≤ 1 := by
    intro x hx
    simp only [exSrc, List.mem_cons, List.not_mem_nil, or_false] at hx
    rcases hx with rfl | rfl <;> norm_num [atPlace, exSrc, srcEnv, List.filter_cons]
  have ht : ∀ x ∈ exTgt, (atPlace (tgtEnv ⟨⟨0, 0, 0⟩, 16⟩ 1) x exTgt).length ≤ 1 := by
    intro x hx
    simp only [exTgt, List.mem_cons, List.not_mem_nil, or_false] at hx
    rcases hx with rfl | rfl | rfl <;> norm_num [atPlace, exTgt, tgtEnv, List.filter_cons]
  have has : Arrived (srcEnv ⟨⟨0, 0, 0⟩, 16⟩ 1) (exRankCfg (srcEnv ⟨⟨0, 0, 0⟩, 16⟩ 1) exSrc) exSrc := fun q _ => List.Perm.refl _
  have hat : Arrived (tgtEnv ⟨⟨0, 0, 0⟩, 16⟩ 1) (exRankCfg (tgtEnv ⟨⟨0, 0, 0⟩, 16⟩ 1) exTgt) exTgt := fun q _ => List.Perm.refl _
  obtain ⟨ns, ws, hrs, hks⟩ := C80_exists rfl h0.1 (by simp [exRankCfg]) exSrc_in has hs
  obtain ⟨nt, wt, hrt, hkt⟩ := C80_exists rfl h0.1 (by simp [exRankCfg]) exTgt_in hat ht
  refine ⟨ns, nt, ws, wt, hrs, hrt, hks, hkt, ?_⟩
  obtain ⟨s, t, holds, holdt, -, -, hBs, hBt, -, -, h⟩ := C80_evaluation (p := p) exInput (Cs := exRankCfg (srcEnv ⟨⟨0, 0, 0⟩, 16⟩ 1) exSrc)
    (Ct := exRankCfg (tgtEnv ⟨⟨0, 0, 0⟩, 16⟩ 1) exTgt) (by simp [exRankCfg]) rfl has hat hrs hrt ⟨0, hks 0 (by simp [exRankCfg])⟩ ⟨0, hkt 0 (by simp [exRankCfg])⟩
  obtain rfl := exS_eq hBs
  obtain rfl := exT_eq hBt
  have hr := createDag_runs FMM 2 false exS exT
  obtain ⟨k, S, hS, hd⟩ := exists_lap_done (LapData.ofTrees ⟨⟨0, 0, 0⟩, 16⟩ p rule3 holds holdt) (FMM_safe hr) (FMM_ranked hr) (by decide +kernel)
    (loc := fun r => r.ix.level % 2) (n := 2) (fun r => Nat.mod_lt _ (by omega))
  have hc := exClear p rule3 hBs hBt (acts := createDag FMM 2 false exS exT) (by decide +kernel)
  exact ⟨_, _, holdt, ((h rule3 FMM _ hr _ _ k S hS (fun r _ => Nat.mod_lt _ (by omega)) hd).2 hc).1 rfl⟩

end Dashmm
