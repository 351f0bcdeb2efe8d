import Verif.Proofs.TreeDelete
import Verif.Props.RankTree

/-!
# What a tree allocates is given back (C92)

Below, `s` is any state of the construction of a tree by all ranks together (as in C80), with what is allocated on each rank. After the construction the rank prunes the top of its tree;
`delete_tree` then runs over what is there.
-/

namespace Dashmm

open Lap Ev ExecState Build Branch RankTree
open Grid (InDomain InBoxOf)

section
variable {K : Type} [Field K] [LinearOrder K] [IsStrictOrderedRing K] [FloorRing K] {R : Type} {E : Env K R} {C : Cfg R} {P : List R}

/-- **C92** Whatever the order of the tasks and messages, the construction frees nothing twice and nothing that it has not allocated. -/
theorem C92_never_bad (hd : 0 < E.dom.size) (hu : 1 ≤ C.unif) (hin : ∀ x ∈ P, InDomain E.dom (E.pos x)) (harr : Arrived E C P)
    {s : LWorld R} (h : LReach E C s) (k : Nat) : ∃ L, s.live k = some L :=
  ⟨_, (linv_reach hd hu (arrived_box hd hin harr) h).live k⟩

/-- **C92** The deletion of the tree on a rank ends, frees nothing twice and nothing that is not allocated, and reads no freed node; what is left is exactly the completion LCO of each
cell without records that is another rank's, and the array of length zero for each cell of another rank that was not divided. -/
theorem C92_delete (hd : 0 < E.dom.size) (hu : 1 ≤ C.unif) (hin : ∀ x ∈ P, InDomain E.dom (E.pos x)) (harr : Arrived E C P)
    {s : LWorld R} (h : LReach E C s) {k : Nat} (hset : Settled C s k) {np : Nat → Nat} (hnp : ∀ b, C.root k ≤ b → b < C.root k + nTop C.unif → np b = 0)
    {rmap : Nat → Nat} (hr : ∀ q, C.IsCell q → rmap (cellOf C.unif q) = C.owner q) :
    ∃ L H', s.live k = some L ∧ pruneTopnodes (C.root k) C.unif np (countsOf E C.unif P) (s.w.heap k) = some H' ∧
      ∃ N, ∀ fuel, N ≤ fuel → deleteTree C rmap fuel k H' L = some (leftOver E C k) := by
  have hbox := arrived_box hd hin harr
  have hl := linv_reach hd hu hbox h
  obtain ⟨n, hn⟩ := h.reach
  have hw := inv_reach hd hu hbox hn
  obtain ⟨H', g1, -, -, g2⟩ := C27_prune (counts := countsOf E C.unif P) hu (hw.top k) hnp
  obtain ⟨N, hN⟩ := delete_all hd hu hbox hw hl hset g2 hr
  refine ⟨_, H', hl.live k, g1, N, fun fuel hf => ?_⟩
  have := hN fuel hf
  rw [hl.live k, Option.bind_some] at this
  exact this

/-- **C92** If each cell of another rank has more records than the threshold, everything is given back; in particular if there is one rank. (Partial: in general not, see
`C92_delete` and `C92_leaks`.) -/
theorem C92_all_returned_partial (hd : 0 < E.dom.size) (hu : 1 ≤ C.unif) (hin : ∀ x ∈ P, InDomain E.dom (E.pos x)) (harr : Arrived E C P)
    {s : LWorld R} (h : LReach E C s) {k : Nat} (hset : Settled C s k) {np : Nat → Nat} (hnp : ∀ b, C.root k ≤ b → b < C.root k + nTop C.unif → np b = 0)
    {rmap : Nat → Nat} (hr : ∀ q, C.IsCell q → rmap (cellOf C.unif q) = C.owner q) (hfull : ∀ q, C.IsCell q → C.owner q ≠ k → E.threshold < (C.mem q).length) :
    ∃ L H', s.live k = some L ∧ pruneTopnodes (C.root k) C.unif np (countsOf E C.unif P) (s.w.heap k) = some H' ∧
      ∃ N, ∀ fuel, N ≤ fuel → deleteTree C rmap fuel k H' L = some ∅ := by
  have : leftOver E C k = ∅ := by
    ext o
    simp only [Set.mem_empty_iff_false, iff_false]
    rintro ⟨q, hq, ho, ⟨hm, _⟩ | ⟨_, hm, _⟩⟩
    · have := hfull q hq ho
      rw [hm] at this
      simp at this
    · have := hfull q hq ho
      omega
  rw [← this]
  exact C92_delete hd hu hin harr h hset hnp hr

/-- **C92** The completion LCO of a cell without records that is another rank's stays allocated. -/
theorem C92_leaks_one (hd : 0 < E.dom.size) (hu : 1 ≤ C.unif) (hin : ∀ x ∈ P, InDomain E.dom (E.pos x)) (harr : Arrived E C P)
    {s : LWorld R} (h : LReach E C s) {k : Nat} (hset : Settled C s k) {np : Nat → Nat} (hnp : ∀ b, C.root k ≤ b → b < C.root k + nTop C.unif → np b = 0)
    {rmap : Nat → Nat} (hr : ∀ q, C.IsCell q → rmap (cellOf C.unif q) = C.owner q) {q : List Nat} (hq : C.IsCell q) (hm : C.mem q = []) (ho : C.owner q ≠ k) :
    ∃ L H', s.live k = some L ∧ pruneTopnodes (C.root k) C.unif np (countsOf E C.unif P) (s.w.heap k) = some H' ∧
      ∃ N, ∀ fuel, N ≤ fuel → ∃ L', deleteTree C rmap fuel k H' L = some L' ∧ Obj.done (cellOf C.unif q) ∈ L' := by
  obtain ⟨L, H', h1, h2, N, h3⟩ := C92_delete hd hu hin harr h hset hnp hr
  exact ⟨L, H', h1, h2, N, fun fuel hf => ⟨_, h3 fuel hf, q, hq, ho, .inl ⟨hm, rfl⟩⟩⟩

/-- **C92** Every state of the construction can be reached with this account, with the completion LCOs of the received branches deleted. -/
theorem C92_every_run {n : Nat} {w : World R} (h : Reach E C n w) : ∀ ranks, ∃ s, LReach E C s ∧ s.w = w ∧ ∀ k < ranks, ∀ q ∈ w.got k, q ∈ s.dropped k := by
  intro ranks
  have hlift : ∃ s, LReach E C s ∧ s.w = w := by
    induction h with
    | init => exact ⟨_, .init, rfl⟩
    | @step n w w' _ hs ih =>
      obtain ⟨s, hs', rfl⟩ := ih
      cases hs with
      | task q hq t ht hi =>
        by_cases hf : t.fwd = (s.w.cell q).fwd
        · exact ⟨_, .step hs' (.leaf s q hq t ht hi hf), rfl⟩
        · obtain ⟨i, hi'⟩ : ∃ i, t.fwd = i :: (s.w.cell q).fwd := by
            generalize hc : s.w.cell q = c at ht hi hf
            cases ht with
            | leaf => exact absurd rfl hf
            | split => exact absurd rfl hf
            | forward v => exact ⟨_, rfl⟩
          exact ⟨_, .step hs' (.forward s q hq t ht i hi hi'), rfl⟩
      | split q hq v hv hn c hc new hnew hdist => exact ⟨_, .step hs' (.split s q hq v hv hn c hc new hnew hdist), rfl⟩
      | send q hq hm hc hs b hb msg hmsg => exact ⟨_, .step hs' (.send s q hq hm hc hs b hb msg hmsg), rfl⟩
      | recv k q msg net hm base hbase => exact ⟨_, .step hs' (.recv s k q msg net hm base hbase), rfl⟩
    | other _ hH ih =>
      obtain ⟨s, hs', rfl⟩ := ih
      exact ⟨_, .other hs' hH, rfl⟩
  obtain ⟨s, hs, rfl⟩ := hlift
  have key : ∀ (l : List (Nat × List Nat)) (s : LWorld R), LReach E C s → (∀ e ∈ l, e.2 ∈ s.w.got e.1) →
      ∃ s', LReach E C s' ∧ s'.w = s.w ∧ (∀ k, ∀ q ∈ s.dropped k, q ∈ s'.dropped k) ∧ ∀ e ∈ l, e.2 ∈ s'.dropped e.1 := by
    intro l
    induction l with
    | nil => intro s hs _; exact ⟨s, hs, rfl, fun _ _ h => h, by simp⟩
    | cons e l ih =>
      intro s hs hl
      by_cases hd : e.2 ∈ s.dropped e.1
      · obtain ⟨s', g1, g2, g3, g4⟩ := ih s hs fun e' he' => hl e' (by simp [he'])
        refine ⟨s', g1, g2, g3, ?_⟩
        intro e' he'
        rcases List.mem_cons.1 he' with rfl | he'
        · exact g3 _ _ hd
        · exact g4 e' he'
      · obtain ⟨s', g1, g2, g3, g4⟩ := ih _ (.step hs (.drop s e.1 e.2 (hl e (by simp)) hd)) fun e' he' => hl e' (by simp [he'])
        have hmono : ∀ k, ∀ q ∈ s.dropped k, q ∈ s'.dropped k := fun k q hq => g3 k q (by
          show q ∈ upd s.dropped e.1 (e.2 :: s.dropped e.1) k
          unfold upd
          split_ifs with hk
          · subst hk; exact List.mem_cons_of_mem _ hq
          · exact hq)
        refine ⟨s', g1, g2, hmono, ?_⟩
        intro e' he'
        rcases List.mem_cons.1 he' with rfl | he'
        · exact g3 _ _ (by simp [upd])
        · exact g4 e' he'
  obtain ⟨s', g1, g2, -, g4⟩ := key ((List.range ranks).flatMap fun k => (s.w.got k).map (k, ·)) s hs (by
    intro e he
    obtain ⟨k, _, he⟩ := List.mem_flatMap.1 he
    obtain ⟨q, hq, rfl⟩ := List.mem_map.1 he
    exact hq)
  exact ⟨s', g1, g2, fun k hk q hq => g4 (k, q) (List.mem_flatMap.2 ⟨k, List.mem_range.2 hk, List.mem_map.2 ⟨q, hq, rfl⟩⟩)⟩

end

/-! ### An example -/

theorem exTree_empty : (exRankCfg (srcEnv ⟨⟨0, 0, 0⟩, 16⟩ 1) exSrc).mem [1, 0] = [] := by
  have has : Arrived (srcEnv ⟨⟨0, 0, 0⟩, 16⟩ 1) (exRankCfg (srcEnv ⟨⟨0, 0, 0⟩, 16⟩ 1) exSrc) exSrc := fun q _ => List.Perm.refl _
  by_contra hne
  obtain ⟨x, hx⟩ := List.exists_mem_of_ne_nil _ hne
  have hbox := arrived_box exInput.dom.1 exSrc_in has [1, 0] (by simp [Cfg.IsCell, exRankCfg, Oct8]) x hx
  have hx' : x ∈ exSrc := (List.mem_filter.1 hx).1
  simp only [exSrc, List.mem_cons, List.not_mem_nil, or_false] at hx'
  rcases hx' with rfl | rfl <;> norm_num [place, srcEnv, InBoxOf, Grid.InSlot, Index.child, Index.root, Nat.shiftLeft_eq] at hbox

/-- **C92** The full statement (after the deletion of its trees a rank has everything back) is false: with two sources and three ranks, the construction reaches a state that is complete on
all ranks, and on each of the ranks 0 and 2 the deletion leaves a completion LCO allocated. -/
theorem C92_leaks : ∃ (C : Cfg Src) (s : LWorld Src), C.ranks = 3 ∧ Arrived (srcEnv ⟨⟨0, 0, 0⟩, 16⟩ 1) C exSrc ∧
    LReach (srcEnv ⟨⟨0, 0, 0⟩, 16⟩ 1) C s ∧ (∀ k < 3, Settled C s k) ∧
    ∀ k < 3, k ≠ 1 → ∃ L H', s.live k = some L ∧
      pruneTopnodes (C.root k) C.unif (fun _ => 0) (countsOf (srcEnv ⟨⟨0, 0, 0⟩, 16⟩ 1) C.unif exSrc) (s.w.heap k) = some H' ∧
      ∃ N, ∀ fuel, N ≤ fuel → ∃ L', deleteTree C (fun id => C.owner ((List.range 8).flatMap (fun a => (List.range 8).map fun b => [a, b])
        |>.find? (fun q => cellOf 2 q == id) |>.getD [])) fuel k H' L = some L' ∧ L'.Nonempty := by
  have h0 := exInput.dom
  have hs : ∀ x ∈ exSrc, (atPlace (srcEnv ⟨⟨0, 0, 0⟩, 16⟩ 1) x exSrc).length ≤ 1 := by
    intro x hx
    simp only [exSrc, List.mem_cons, List.not_mem_nil, or_false] at hx
    rcases hx with rfl | rfl <;> norm_num [atPlace, exSrc, srcEnv, List.filter_cons]
  have has : Arrived (srcEnv ⟨⟨0, 0, 0⟩, 16⟩ 1) (exRankCfg (srcEnv ⟨⟨0, 0, 0⟩, 16⟩ 1) exSrc) exSrc := fun q _ => List.Perm.refl _
  obtain ⟨ns, ws, hrs, hks⟩ := C80_exists rfl h0.1 (by simp [exRankCfg]) exSrc_in has hs
  obtain ⟨s, h1, rfl, h2⟩ := C92_every_run hrs 3
  have hset : ∀ k < 3, Settled (exRankCfg (srcEnv ⟨⟨0, 0, 0⟩, 16⟩ 1) exSrc) s k := fun k hk => ⟨hks k hk, h2 k hk⟩
  refine ⟨_, s, rfl, has, h1, hset, fun k hk hne => ?_⟩
  have hcell : (exRankCfg (srcEnv ⟨⟨0, 0, 0⟩, 16⟩ 1) exSrc).IsCell [1, 0] := by simp [Cfg.IsCell, exRankCfg, Oct8]
  obtain ⟨L, H', g1, g2, N, g3⟩ := C92_leaks_one h0.1 (by simp [exRankCfg]) exSrc_in has h1 (hset k hk) (np := fun _ => 0) (fun _ _ _ => rfl)
    (rmap := fun id => (exRankCfg (srcEnv ⟨⟨0, 0, 0⟩, 16⟩ 1) exSrc).owner ((List.range 8).flatMap (fun a => (List.range 8).map fun b => [a, b])
        |>.find? (fun q => cellOf 2 q == id) |>.getD [])) (by
      intro q hq
      obtain ⟨q1, q2⟩ := hq
      match q, q1, q2 with
      | [a, b], q1, q2 =>
        have ha := q1 a (by simp)
        have hb := q1 b (by simp)
        clear q1 q2
        show _ % 3 = _ % 3
        revert b
        revert a
        decide +kernel)
    hcell exTree_empty (fun e => hne (by rw [← e]; simp [exRankCfg]))
  exact ⟨L, H', g1, g2, N, fun fuel hf => by
    obtain ⟨L', e1, e2⟩ := g3 fuel hf
    exact ⟨L', e1, _, e2⟩⟩

/-- C92: on one rank the tree of the three targets of the example (in one cell there are two of them, so it is divided) is constructed, and everything is given back. -/
example : ∃ s : LWorld Tgt, LReach (tgtEnv ⟨⟨0, 0, 0⟩, 16⟩ 1) { exRankCfg (tgtEnv ⟨⟨0, 0, 0⟩, 16⟩ 1) exTgt with ranks := 1, owner := fun _ => 0 } s ∧
    Settled { exRankCfg (tgtEnv ⟨⟨0, 0, 0⟩, 16⟩ 1) exTgt with ranks := 1, owner := fun _ => 0 } s 0 ∧ ∃ L H', s.live 0 = some L ∧
      ∃ N, ∀ fuel, N ≤ fuel → deleteTree { exRankCfg (tgtEnv ⟨⟨0, 0, 0⟩, 16⟩ 1) exTgt with ranks := 1, owner := fun _ => 0 } (fun _ => 0) fuel 0 H' L = some ∅ := by
  have h0 := exInput.dom
  have ht : ∀ x ∈ exTgt, (atPlace (tgtEnv ⟨⟨0, 0, 0⟩, 16⟩ 1) x exTgt).length ≤ 1 := by
    intro x hx
    simp only [exTgt, List.mem_cons, List.not_mem_nil, or_false] at hx
    rcases hx with rfl | rfl | rfl <;> norm_num [atPlace, exTgt, tgtEnv, List.filter_cons]
  have hat : Arrived (tgtEnv ⟨⟨0, 0, 0⟩, 16⟩ 1) { exRankCfg (tgtEnv ⟨⟨0, 0, 0⟩, 16⟩ 1) exTgt with ranks := 1, owner := fun _ => 0 } exTgt :=
    fun q _ => List.Perm.refl _
  obtain ⟨n, w, hr, hk⟩ := C80_exists rfl h0.1 (by simp [exRankCfg]) exTgt_in hat ht
  obtain ⟨s, h1, rfl, h2⟩ := C92_every_run hr 1
  have hset : Settled { exRankCfg (tgtEnv ⟨⟨0, 0, 0⟩, 16⟩ 1) exTgt with ranks := 1, owner := fun _ => 0 } s 0 := ⟨hk 0 (by simp), h2 0 (by omega)⟩
  obtain ⟨L, H', g1, -, g2⟩ := C92_all_returned_partial h0.1 (by simp [exRankCfg]) exTgt_in hat h1 hset (np := fun _ => 0) (fun _ _ _ => rfl)
    (rmap := fun _ => 0) (fun _ _ => rfl) (fun _ _ h => absurd rfl h)
  exact ⟨s, h1, hset, L, H', g1, g2⟩

end Dashmm
