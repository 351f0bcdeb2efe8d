import Verif.Proofs.RankTree

/-! Helper lemmas: the invariant of the construction on all ranks. -/

namespace Dashmm
namespace RankTree
open Build Branch

section
variable {K : Type} [Field K] [LinearOrder K] [IsStrictOrderedRing K] {R : Type}

/-- The cell of the uniform grid on a rank. -/
def Cfg.at (C : Cfg R) (k : Nat) (q : List Nat) : Nat := C.grid k (cellOf C.unif q)

/-- The invariant. -/
structure WInv (E : Env K R) (C : Cfg R) (w : World R) : Prop where
  top : ∀ k, TopIntact (C.root k) C.unif (C.before k) (w.heap k)
  run : ∀ q, C.IsCell q → C.mem q ≠ [] → ∃ n, Steps E (place q) n (start ⟨place q, 0, (C.mem q).length⟩ (C.mem q)) (w.cell q)
  idle : ∀ q, C.IsCell q → C.mem q = [] → w.cell q = ⟨[], [], [], [], fun _ => 0, []⟩
  loc : ∀ q, C.IsCell q → C.mem q ≠ [] →
    LocalOk (w.heap (C.owner q)) (C.at (C.owner q) q) (place q) (w.cell q) (w.adr q) (w.own (C.owner q) q)
  sent : ∀ q ∈ w.sent, C.IsCell q ∧ C.mem q ≠ [] ∧ (w.cell q).sets (place q) = 8
  net : ∀ k q msg, (k, q, msg) ∈ w.net → q ∈ w.sent ∧ k ≠ C.owner q ∧ q ∉ w.got k ∧
    ∃ b, Shape (place q) (w.cell q) b ∧ message (cellOf C.unif q) b = some msg
  netOnce : (w.net.map fun e => (e.1, e.2.1)).Nodup
  got : ∀ k, ∀ q ∈ w.got k, q ∈ w.sent ∧ k ≠ C.owner q ∧
    ∃ b, Shape (place q) (w.cell q) b ∧ RemoteOk (w.heap k) (C.at k q) ⟨place q, b⟩ (w.own k q)
  bare : ∀ k q, C.IsCell q → k ≠ C.owner q → q ∉ w.got k → ∀ j, (w.heap k (C.at k q)).child j = none
  ownTop : ∀ k q x, C.IsCell q → x ∈ w.own k q → ¬ C.InTop k x
  ownDisj : ∀ k q q' x, C.IsCell q → C.IsCell q' → x ∈ w.own k q → x ∈ w.own k q' → q = q'
  reach : ∀ q ∈ w.sent, ∀ k < C.ranks, k ≠ C.owner q → q ∈ w.got k ∨ ∃ msg, (k, q, msg) ∈ w.net

theorem Cfg.at_top (C : Cfg R) (k : Nat) {q : List Nat} (hu : 1 ≤ C.unif) (hq : C.IsCell q) :
    C.InTop k (C.at k q) ∧ C.root k + nTop C.unif ≤ C.at k q := by
  have := topAddr_lt (r := C.root k) (u := C.unif) q hq.1 (by rw [hq.2])
  rw [topAddr_full hq.2, ← nTop_eq hu] at this
  unfold Cfg.InTop Cfg.at Cfg.grid
  omega

theorem Cfg.at_inj (C : Cfg R) (k : Nat) {q q' : List Nat} (hq : C.IsCell q) (hq' : C.IsCell q') (h : C.at k q = C.at k q') : q = q' := by
  apply topAddr_inj (r := 0) (u := C.unif) q q' hq.1 hq'.1 (by rw [hq.2]) (by rw [hq'.2])
  rw [topAddr_full hq.2, topAddr_full hq'.2]
  unfold Cfg.at Cfg.grid at h
  omega

/-- A step on one rank that changes only the children of one cell and memory outside of the top. -/
theorem intact_frame {r u : Nat} {H0 H H' : Heap} (h : TopIntact r u H0 H) {a : Nat} (ha : r + nTop u ≤ a)
    (h1 : ∀ x, r ≤ x ∧ x < r + nTop u + 8 ^ u → x ≠ a → H' x = H x)
    (h2 : (H' a).idx = (H a).idx ∧ (H' a).dagIdx = (H a).dagIdx ∧ (H' a).parent = (H a).parent) : TopIntact r u H0 H' := by
  have h8 : 0 < 8 ^ u := by positivity
  constructor
  · intro b hb1 hb2
    rw [h1 b ⟨hb1, by omega⟩ (by omega)]
    exact h.inner b hb1 hb2
  · intro b hb1 hb2
    by_cases e : b = a
    · subst e
      rw [h2.1, h2.2.1, h2.2.2]
      exact h.cells b hb1 hb2
    · rw [h1 b ⟨by omega, hb2⟩ e]
      exact h.cells b hb1 hb2

section
variable {E : Env K R} {C : Cfg R} {w : World R}

theorem Step.sets_mono {i : Index} {s t : State R} (h : Build.Step E i s t) (j : Index) : s.sets j ≤ t.sets j := by
  cases h with
  | leaf v hv hn => dsimp only; split <;> omega
  | split v hv hn c hc => dsimp only; split <;> omega
  | forward v hv hr h8 hf => dsimp only; split <;> omega

theorem Step.nodes_same {i : Index} {s t : State R} (h : Build.Step E i s t) (hi : t.inner = s.inner) (u : Cell) : u ∈ t.nodes ↔ u ∈ s.nodes := by
  cases h with
  | leaf v hv hn =>
    have : u ∈ s.pending ↔ u = v ∨ u ∈ s.pending.erase v := by
      constructor
      · intro hu
        by_cases e : u = v
        · exact .inl e
        · exact .inr ((List.mem_erase_of_ne e).2 hu)
      · rintro (rfl | hu)
        · exact hv
        · exact List.mem_of_mem_erase hu
    simp only [State.nodes, List.mem_append, List.mem_cons, this]
    tauto
  | split v hv hn c hc =>
    have := congrArg List.length hi
    simp at this
  | forward v hv hr h8 hf => exact Iff.rfl

variable (hd : 0 < E.dom.size) (hu : 1 ≤ C.unif) (hin : ∀ q, C.IsCell q → ∀ r ∈ C.mem q, Grid.InBoxOf E.dom (place q) (E.pos r))
include hd hu hin

theorem WInv.inv (h : WInv E C w) {q : List Nat} (hq : C.IsCell q) (hm : C.mem q ≠ []) :
    Build.Inv E ⟨place q, 0, (C.mem q).length⟩ (C.mem q) (w.cell q) := by
  obtain ⟨n, hs⟩ := h.run q hq hm
  exact inv_steps (root := ⟨place q, 0, (C.mem q).length⟩) hd (inv_start (List.length_pos_iff.2 hm) (hin q hq)) hs

omit hu in
theorem WInv.done (h : WInv E C w) {q : List Nat} (hs : q ∈ w.sent) : (w.cell q).pending = [] := by
  obtain ⟨hq, hm, hc⟩ := h.sent q hs
  obtain ⟨n, hr⟩ := h.run q hq hm
  exact C59_not_early hd hm (hin q hq) hr hc

/-- A task that makes no node. -/
theorem inv_task (h : WInv E C w) {q : List Nat} (hq : C.IsCell q) {s : State R} (hs : Build.Step E (place q) (w.cell q) s)
    (hi : s.inner = (w.cell q).inner) : WInv E C { w with cell := upd w.cell q s } := by
  have hm : C.mem q ≠ [] := by
    intro hm
    rw [h.idle q hq hm] at hs
    cases hs with
    | leaf v hv => simp at hv
    | split v hv => simp at hv
    | forward v hv => simp at hv
  have hn : ∀ q' u, u ∈ (upd w.cell q s q').nodes ↔ u ∈ (w.cell q').nodes := by
    intro q' u
    by_cases e : q' = q
    · subst e; rw [upd_same]; exact Step.nodes_same hs hi u
    · rw [upd_ne _ _ e]
  have hsent : ∀ q' ∈ w.sent, (upd w.cell q s q').sets (place q') = 8 := by
    intro q' hq'
    obtain ⟨g1, g2, g3⟩ := h.sent q' hq'
    by_cases e : q' = q
    · subst e
      rw [upd_same]
      obtain ⟨n, hr⟩ := h.run q' g1 g2
      have h1 := C59_never_too_many hd g2 (hin q' g1) (.succ hr hs) (place q')
      have h2 := Step.sets_mono hs (place q')
      omega
    · rw [upd_ne _ _ e]; exact g3
  refine ⟨h.top, ?_, ?_, ?_, ?_, ?_, h.netOnce, ?_, h.bare, h.ownTop, h.ownDisj, h.reach⟩
  · intro q' hq' hm'
    by_cases e : q' = q
    · subst e
      obtain ⟨n, hr⟩ := h.run q' hq' hm'
      exact ⟨n + 1, by dsimp only; rw [upd_same]; exact .succ hr hs⟩
    · dsimp only; rw [upd_ne _ _ e]; exact h.run q' hq' hm'
  · intro q' hq' hm'
    have e : q' ≠ q := fun e => hm (e ▸ hm')
    dsimp only; rw [upd_ne _ _ e]; exact h.idle q' hq' hm'
  · intro q' hq' hm'
    exact (h.loc q' hq' hm').nodes (hn q')
  · intro q' hq'
    obtain ⟨g1, g2, -⟩ := h.sent q' hq'
    exact ⟨g1, g2, hsent q' hq'⟩
  · intro k q' msg hmem
    obtain ⟨g1, g2, g3, b, g4, g5⟩ := h.net k q' msg hmem
    exact ⟨g1, g2, g3, b, g4.nodes (hn q'), g5⟩
  · intro k q' hmem
    obtain ⟨g1, g2, b, g4, g5⟩ := h.got k q' hmem
    exact ⟨g1, g2, b, g4.nodes (hn q'), g5⟩

/-- Other work of a rank. -/
theorem inv_other (h : WInv E C w) {k : Nat} {H : Heap} (hH : ∀ x, ¬ Free C w k x → H x = w.heap k x) :
    WInv E C { w with heap := upd w.heap k H } := by
  have htop : ∀ x, C.InTop k x → H x = w.heap k x := fun x hx => hH x fun hf => hf.1 hx
  have hown : ∀ q x, C.IsCell q → x ∈ w.own k q → H x = w.heap k x := fun q x hq hx => hH x fun hf => hf.2 q hq hx
  have hkeep : ∀ k' q x, C.IsCell q → x = C.at k' q ∨ x ∈ w.own k' q → upd w.heap k H k' x = w.heap k' x := by
    intro k' q x hq hx
    by_cases e : k' = k
    · subst e
      rw [upd_same]
      rcases hx with rfl | hx
      · exact htop _ (C.at_top k' hu hq).1
      · exact hown q x hq hx
    · rw [upd_ne _ _ e]
  refine ⟨?_, h.run, h.idle, ?_, h.sent, h.net, h.netOnce, ?_, ?_, h.ownTop, h.ownDisj, h.reach⟩
  · intro k'
    by_cases e : k' = k
    · subst e
      dsimp only
      rw [upd_same]
      have h8 : 0 < 8 ^ C.unif := by positivity
      refine intact_frame (h.top k') (a := C.root k' + nTop C.unif) (le_refl _) (fun x hx _ => htop x hx) ?_
      rw [htop _ ⟨by omega, by omega⟩]
      exact ⟨rfl, rfl, rfl⟩
    · dsimp only; rw [upd_ne _ _ e]; exact h.top k'
  · intro q hq hm
    exact (h.loc q hq hm).congr fun x hx => hkeep _ q x hq hx
  · intro k' q hg
    obtain ⟨g1, g2, b, g3, g4⟩ := h.got k' q hg
    exact ⟨g1, g2, b, g3, g4.congr fun x hx => hkeep _ q x (h.sent q g1).1 hx⟩
  · intro k' q hq hne hg j
    dsimp only
    rw [hkeep k' q _ hq (.inl rfl)]
    exact h.bare k' q hq hne hg j

/-- A branch is sent. -/
theorem inv_send (h : WInv E C w) {q : List Nat} (hq : C.IsCell q) (hm : C.mem q ≠ []) (hc : (w.cell q).sets (place q) = 8)
    (hs : q ∉ w.sent) {b : Fin 8 → Oct} (hb : Copy (w.heap (C.owner q)) (C.at (C.owner q) q) ⟨place q, b⟩) {msg : List Int}
    (hmsg : message (cellOf C.unif q) b = some msg) : WInv E C { w with
        net := ((List.range C.ranks).filter (· ≠ C.owner q)).map (fun k => (k, q, msg)) ++ w.net
        sent := q :: w.sent } := by
  have hnet : ∀ k q' m, (k, q', m) ∈ ((List.range C.ranks).filter (· ≠ C.owner q)).map (fun k => (k, q, msg)) ++ w.net ↔
      (k < C.ranks ∧ k ≠ C.owner q ∧ q' = q ∧ m = msg) ∨ (k, q', m) ∈ w.net := by
    intro k q' m
    simp only [List.mem_append, List.mem_map, List.mem_filter, List.mem_range, decide_eq_true_eq, ne_eq, Prod.mk.injEq]
    constructor
    · rintro (⟨k', ⟨h1, h2⟩, rfl, rfl, rfl⟩ | h)
      · exact .inl ⟨h1, h2, rfl, rfl⟩
      · exact .inr h
    · rintro (⟨h1, h2, rfl, rfl⟩ | h)
      · exact .inl ⟨k, ⟨h1, h2⟩, rfl, rfl, rfl⟩
      · exact .inr h
  have hshape : Shape (place q) (w.cell q) b := by
    obtain ⟨n, hr⟩ := h.run q hq hm
    have hL := h.loc q hq hm
    have hI := h.inv hd hu hin hq hm
    -- a path of the tree is a path in the memory
    have hpath : ∀ p m, TPath ⟨place q, b⟩ p m → ∃ a, Copy (w.heap (C.owner q)) a m ∧ ∃ v ∈ (w.cell q).nodes, v.idx = m.ix ∧ a = w.adr q m.ix := by
      intro p
      induction p using List.reverseRecOn with
      | nil =>
        intro m hp
        cases hp
        exact ⟨_, hb, _, hI.hroot, rfl, hL.root.symm⟩
      | append_singleton p j ih =>
        intro m hp
        have h8 := (tpath_under hp).2.2
        have hj : j < 8 := h8 j (by simp)
        obtain ⟨k, hk1, c, hk2, hk3⟩ : ∃ k, TPath ⟨place q, b⟩ p k ∧ ∃ c, k.c ⟨j, hj⟩ = .node c ∧ m = ⟨k.ix.child j, c⟩ := by
          clear ih hL hI hr hnet hb hmsg
          generalize hn : (⟨place q, b⟩ : TNode) = n0 at hp
          clear hn
          generalize hpj : p ++ [j] = l at hp
          induction hp generalizing p with
          | refl => simp at hpj
          | @step n m p' c j' hj' ht ih' =>
            cases p with
            | nil =>
              simp only [List.nil_append, List.cons.injEq] at hpj
              obtain ⟨rfl, rfl⟩ := hpj
              cases ht
              exact ⟨n, .refl _, c, hj', rfl⟩
            | cons a p =>
              simp only [List.cons_append, List.cons.injEq] at hpj
              obtain ⟨rfl, rfl⟩ := hpj
              obtain ⟨k, h1, h2⟩ := ih' p (fun c hc => h8 c (by simp only [List.cons_append, List.mem_cons]; exact .inr hc)) rfl
              exact ⟨k, .step j' hj' h1, h2⟩
        obtain ⟨a, ha, v, hv, hvi, rfl⟩ := ih k hk1
        cases ha with
        | mk _ _ b' idx null ptr parent dag copy =>
          have h1 := ptr _ c hk2
          by_cases hu' : ∃ u ∈ (w.cell q).nodes, u.idx = v.idx.child j
          · obtain ⟨u, hu1, hu2⟩ := hu'
            have h2 := (hL.kid v hv j hj u hu1 hu2).1
            rw [hvi] at h2 hu2
            have h3 : b' ⟨j, hj⟩ = w.adr q u.idx := by
              have := h1.symm.trans h2
              simpa using this
            refine ⟨_, hk3 ▸ copy _ c hk2, u, hu1, by rw [hk3, hu2], ?_⟩
            rw [h3, hk3, hu2]
          · push Not at hu'
            have h2 := hL.null v hv j hj hu'
            rw [hvi] at h2
            rw [h2] at h1
            cases h1
    intro p hp
    constructor
    · rintro ⟨m, hm⟩
      obtain ⟨a, -, v, hv, hvi, -⟩ := hpath p m hm
      exact ⟨v, hv, by rw [hvi]; exact (tpath_under hm).2.1⟩
    · rintro ⟨v, hv, hvi⟩
      -- by induction on the path
      have : ∀ p, Oct8 p → (∃ v ∈ (w.cell q).nodes, v.idx = below (place q) p) → ∃ m, TPath ⟨place q, b⟩ p m := by
        intro p
        induction p using List.reverseRecOn with
        | nil => intro _ _; exact ⟨_, .refl _⟩
        | append_singleton p j ih =>
          rintro hp8 ⟨v, hv, hvi⟩
          have hp : Oct8 p := fun c hc => hp8 c (List.mem_append_left _ hc)
          have hj : j < 8 := hp8 j (by simp)
          have hb1 : below (place q) (p ++ [j]) = (below (place q) p).child j := by simp [below]
          rw [hb1] at hvi
          rcases hI.up v hv with rfl | ⟨y, hy, k, hk, he⟩
          · simp only at hvi
            have h1 := congrArg Index.level hvi
            rw [child_level hj, below_level _ _ hp] at h1
            omega
          · have he' := (Index.child_inj _ _ j k hj hk (hvi.symm.trans he)).1
            have hyn : y ∈ (w.cell q).nodes := by simp [State.nodes, hy]
            obtain ⟨m, hm⟩ := ih hp ⟨y, hyn, he'.symm⟩
            rw [show j = (⟨j, hj⟩ : Fin 8).val from rfl, tpath_snoc hm ⟨j, hj⟩]
            intro hnil
            obtain ⟨a, ha, u, hu1, hu2, rfl⟩ := hpath p m hm
            cases ha with
            | mk _ _ b' idx null ptr parent dag copy =>
              have h1 := null _ hnil
              have hmix : m.ix = below (place q) p := (tpath_under hm).2.1
              have h2 := (hL.kid u hu1 j hj v hv (by rw [hvi, hu2, hmix])).1
              rw [hu2] at h2
              rw [h2] at h1
              cases h1
      exact this p hp ⟨v, hv, hvi⟩
  have hgot : ∀ k, q ∉ w.got k := fun k hg => hs (h.got k q hg).1
  refine ⟨h.top, h.run, h.idle, h.loc, ?_, ?_, ?_, ?_, h.bare, h.ownTop, h.ownDisj, ?_⟩
  · intro q' hq'
    rcases List.mem_cons.1 hq' with rfl | hq'
    · exact ⟨hq, hm, hc⟩
    · exact h.sent q' hq'
  · intro k q' m hmem
    rcases (hnet k q' m).1 hmem with ⟨h1, h2, rfl, rfl⟩ | hmem
    · exact ⟨by simp, h2, hgot k, b, hshape, hmsg⟩
    · obtain ⟨g1, g2⟩ := h.net k q' m hmem
      exact ⟨List.mem_cons_of_mem _ g1, g2⟩
  · dsimp only
    rw [List.map_append, List.map_map]
    refine List.Nodup.append ?_ h.netOnce ?_
    · refine List.Nodup.map ?_ (List.nodup_range.filter _)
      intro a b e
      simpa using e
    · intro e he1 he2
      obtain ⟨k, -, rfl⟩ := List.mem_map.1 he1
      obtain ⟨⟨k', q', m⟩, h1, h2⟩ := List.mem_map.1 he2
      simp only [Function.comp, Prod.mk.injEq] at h2
      obtain ⟨rfl, rfl⟩ := h2
      exact hs (h.net k' q' m h1).1
  · intro k q' hg
    obtain ⟨g1, g2⟩ := h.got k q' hg
    exact ⟨List.mem_cons_of_mem _ g1, g2⟩
  · intro q' hq' k hk hne
    rcases List.mem_cons.1 hq' with rfl | hq'
    · exact .inr ⟨msg, (hnet _ _ _).2 (.inl ⟨hk, hne, rfl, rfl⟩)⟩
    · rcases h.reach q' hq' k hk hne with h1 | ⟨m, h1⟩
      · exact .inl h1
      · exact .inr ⟨m, (hnet _ _ _).2 (.inr h1)⟩

/-- A branch is received. -/
theorem inv_recv (h : WInv E C w) {k : Nat} {q : List Nat} {msg : List Int} {net : List (Nat × List Nat × List Int)}
    (hm : w.net.Perm ((k, q, msg) :: net)) {base : Nat}
    (hbase : ∀ x, base ≤ x → x < base + (msg.getD 1 0).toNat → Free C w k x) : WInv E C { w with
        heap := upd w.heap k (receive (C.grid k) base msg (w.heap k))
        own := upd w.own k (upd (w.own k) q ((List.range (msg.getD 1 0).toNat).map (base + ·)))
        net := net
        got := upd w.got k (q :: w.got k) } := by
  have hmem : (k, q, msg) ∈ w.net := hm.symm.mem_iff.1 (by simp)
  obtain ⟨hsent, hne, hng, b, hshape, hmsg⟩ := h.net k q msg hmem
  obtain ⟨hq, hmne, -⟩ := h.sent q hsent
  obtain ⟨msg', hc1, -, -, -, hc5⟩ := C24_count (cellOf C.unif q) b
  obtain rfl : msg' = msg := by rw [hmsg] at hc1; exact (Option.some.inj hc1).symm
  have hsz : 1 ≤ Branch.Oct.size (.node b) := by rw [Branch.Oct.size]; omega
  have hlen : (msg'.getD 1 0).toNat = Branch.Oct.size (.node b) - 1 := by rw [hc5]; simp
  rw [hlen] at hbase ⊢
  have hidx : (w.heap k (C.at k q)).idx = place q := by
    have := ((intact_shape hu (h.top k)).2 q hq.1 (by rw [hq.2])).1
    rw [topAddr_full hq.2, ← nTop_eq hu] at this
    exact this
  have hblock : ∀ x, (base ≤ x ∧ x + 1 < base + Branch.Oct.size (.node b)) → Free C w k x := fun x hx => hbase x hx.1 (by omega)
  obtain ⟨g1, g2, g3, g4, g5⟩ := C24_copy hmsg (C.grid k) base (w.heap k) (h.bare k q hq hne hng)
    (fun hx => (hblock _ hx).1 (C.at_top k hu hq).1)
  rw [show C.grid k (cellOf C.unif q) = C.at k q from rfl] at g1 g2 g3 g4 g5
  rw [hidx] at g1
  generalize hR : receive (C.grid k) base msg' (w.heap k) = H' at *
  have hown : ∀ x, x ∈ (List.range (Branch.Oct.size (.node b) - 1)).map (base + ·) ↔ base ≤ x ∧ x + 1 < base + Branch.Oct.size (.node b) := by
    intro x
    simp only [List.mem_map, List.mem_range]
    constructor
    · rintro ⟨y, hy, rfl⟩; omega
    · intro hx; exact ⟨x - base, by omega, by omega⟩
  -- other cells of the rank
  have hkeep : ∀ k' q' x, C.IsCell q' → ¬ (k' = k ∧ q' = q) → x = C.at k' q' ∨ x ∈ w.own k' q' → upd w.heap k H' k' x = w.heap k' x := by
    intro k' q' x hq' hnot hx
    by_cases e : k' = k
    · subst e
      have hqq : q' ≠ q := fun e => hnot ⟨rfl, e⟩
      rw [upd_same]
      rcases hx with rfl | hx
      · exact g2 _ (fun e => hqq (C.at_inj k' hq' hq e)) fun hb => (hblock _ hb).1 (C.at_top k' hu hq').1
      · exact g2 _ (fun e => h.ownTop k' q' x hq' hx (e ▸ (C.at_top k' hu hq).1)) fun hb => (hblock _ hb).2 q' hq' hx
    · rw [upd_ne _ _ e]
  have hownne : ∀ k' q', ¬ (k' = k ∧ q' = q) →
      upd w.own k (upd (w.own k) q ((List.range (Branch.Oct.size (.node b) - 1)).map (base + ·))) k' q' = w.own k' q' := by
    intro k' q' hnot
    by_cases e : k' = k
    · subst e
      rw [upd_same, upd_ne _ _ fun e => hnot ⟨rfl, e⟩]
    · rw [upd_ne _ _ e]
  have howneq : upd w.own k (upd (w.own k) q ((List.range (Branch.Oct.size (.node b) - 1)).map (base + ·))) k q =
      (List.range (Branch.Oct.size (.node b) - 1)).map (base + ·) := by rw [upd_same, upd_same]
  have hgotmem : ∀ k' q', q' ∈ upd w.got k (q :: w.got k) k' ↔ (k' = k ∧ q' = q) ∨ q' ∈ w.got k' := by
    intro k' q'
    by_cases e : k' = k
    · subst e; rw [upd_same]; simp
    · rw [upd_ne _ _ e]; simp [e]
  have hnetmem : ∀ e, e ∈ net → e ∈ w.net := fun e he => hm.symm.mem_iff.1 (List.mem_cons_of_mem _ he)
  have honce : ((k, q) :: net.map fun e => (e.1, e.2.1)).Nodup := by
    have := (hm.map fun e => (e.1, e.2.1)).nodup_iff.1 h.netOnce
    simpa using this
  refine ⟨?_, h.run, h.idle, ?_, h.sent, ?_, ?_, ?_, ?_, ?_, ?_, ?_⟩
  · intro k'
    by_cases e : k' = k
    · subst e
      dsimp only
      rw [upd_same]
      refine intact_frame (h.top k') (C.at_top k' hu hq).2 (fun x hx hne => ?_) ⟨?_, g3, g4⟩
      · exact g2 x hne fun hb => (hblock x hb).1 hx
      · rw [(copy_path g1).1, hidx]
    · dsimp only; rw [upd_ne _ _ e]; exact h.top k'
  · intro q' hq' hm'
    have hnot : ¬ (C.owner q' = k ∧ q' = q) := by rintro ⟨e1, rfl⟩; exact hne e1.symm
    dsimp only
    rw [hownne _ _ hnot]
    exact (h.loc q' hq' hm').congr fun x hx => hkeep _ q' x hq' hnot hx
  · intro k' q' m hmem'
    obtain ⟨j1, j2, j3, j4⟩ := h.net k' q' m (hnetmem _ hmem')
    refine ⟨j1, j2, ?_, j4⟩
    rw [hgotmem]
    rintro (⟨rfl, rfl⟩ | hg)
    · rw [List.nodup_cons] at honce
      exact honce.1 (List.mem_map.2 ⟨_, hmem', rfl⟩)
    · exact j3 hg
  · exact (List.nodup_cons.1 honce).2
  · intro k' q' hg
    rw [hgotmem] at hg
    dsimp only
    by_cases hnot : k' = k ∧ q' = q
    · obtain ⟨rfl, rfl⟩ := hnot
      refine ⟨hsent, hne, b, hshape, ?_⟩
      rw [howneq, upd_same]
      refine ⟨g1, fun p x hx => ?_⟩
      rcases g5 p x hx with h' | h'
      · exact .inl h'
      · exact .inr ((hown x).2 h')
    · obtain ⟨j1, j2, b', j3, j4⟩ := h.got k' q' (hg.resolve_left hnot)
      refine ⟨j1, j2, b', j3, ?_⟩
      rw [hownne _ _ hnot]
      exact j4.congr fun x hx => hkeep _ q' x (h.sent q' j1).1 hnot hx
  · intro k' q' hq' hne' hg j
    rw [hgotmem] at hg
    push Not at hg
    have hnot : ¬ (k' = k ∧ q' = q) := fun e => hg.1 e.1 e.2
    dsimp only
    rw [hkeep k' q' _ hq' hnot (.inl rfl)]
    exact h.bare k' q' hq' hne' hg.2 j
  · intro k' q' x hq' hx
    dsimp only at hx
    by_cases hnot : k' = k ∧ q' = q
    · obtain ⟨rfl, rfl⟩ := hnot
      rw [howneq, hown] at hx
      exact (hblock x hx).1
    · rw [hownne _ _ hnot] at hx
      exact h.ownTop k' q' x hq' hx
  · intro k' q1 q2 x hq1 hq2 hx1 hx2
    dsimp only at hx1 hx2
    by_cases n1 : k' = k ∧ q1 = q <;> by_cases n2 : k' = k ∧ q2 = q
    · rw [n1.2, n2.2]
    · rw [hownne _ _ n2] at hx2
      obtain ⟨rfl, rfl⟩ := n1
      rw [howneq, hown] at hx1
      exact absurd hx2 ((hblock x hx1).2 q2 hq2)
    · rw [hownne _ _ n1] at hx1
      obtain ⟨rfl, rfl⟩ := n2
      rw [howneq, hown] at hx2
      exact absurd hx1 ((hblock x hx2).2 q1 hq1)
    · rw [hownne _ _ n1] at hx1
      rw [hownne _ _ n2] at hx2
      exact h.ownDisj k' q1 q2 x hq1 hq2 hx1 hx2
  · intro q' hq' k' hk' hne'
    rw [hgotmem]
    rcases h.reach q' hq' k' hk' hne' with h1 | ⟨m, h1⟩
    · exact .inl (.inr h1)
    · rcases List.mem_cons.1 (hm.mem_iff.1 h1) with h2 | h2
      · simp only [Prod.mk.injEq] at h2
        exact .inl (.inl ⟨h2.1, h2.2.1⟩)
      · exact .inr ⟨m, h2⟩

/-- A node is divided. -/
theorem inv_split (h : WInv E C w) {q : List Nat} (hq : C.IsCell q) {v : Cell} (hv : v ∈ (w.cell q).pending) (hn : ¬ v.n ≤ E.threshold)
      {c : Nat → List R} (hc : Split8 E v.idx (slice (w.cell q).mem v) c) {new : Nat → Nat}
      (hnew : ∀ i ∈ made c, Free C w (C.owner q) (new i)) (hdist : ((made c).map new).Nodup) : WInv E C { w with
        cell := upd w.cell q { w.cell q with
          mem := overwrite (w.cell q).mem v (joined c)
          pending := kids v c ++ (w.cell q).pending.erase v
          inner := v :: (w.cell q).inner
          sets := fun j => if j = v.idx then (w.cell q).sets j + missing c else (w.cell q).sets j }
        heap := upd w.heap (C.owner q) (addKids (w.adr q v.idx) c new (w.heap (C.owner q)))
        adr := upd w.adr q fun j => match (made c).find? fun i => j = v.idx.child i with
          | some i => new i
          | none => w.adr q j
        own := upd w.own (C.owner q) (upd (w.own (C.owner q)) q ((made c).map new ++ w.own (C.owner q) q)) } := by
  have hm : C.mem q ≠ [] := by
    intro hm
    rw [h.idle q hq hm] at hv
    simp at hv
  have hns : q ∉ w.sent := by
    intro hs
    rw [h.done hd hin hs] at hv
    simp at hv
  have hI := h.inv hd hu hin hq hm
  have hL := h.loc q hq hm
  have hstep : Build.Step E (place q) (w.cell q) _ := .split (w.cell q) v hv hn c hc
  set st' : State R := { w.cell q with
          mem := overwrite (w.cell q).mem v (joined c)
          pending := kids v c ++ (w.cell q).pending.erase v
          inner := v :: (w.cell q).inner
          sets := fun j => if j = v.idx then (w.cell q).sets j + missing c else (w.cell q).sets j } with hst'
  set k := C.owner q with hk
  have hvn : v ∈ (w.cell q).nodes := by simp [State.nodes, hv]
  have hnew0 : ∀ i ∈ made c, new i ≠ C.at k q ∧ new i ∉ w.own k q := fun i hi =>
    ⟨fun e => (hnew i hi).1 (e ▸ (C.at_top k hu hq).1), (hnew i hi).2 q hq⟩
  have hL' := hL.split (st' := st') rfl hI hv rfl rfl rfl hnew0 hdist
  obtain ⟨s1, s2, s3⟩ := addKids_spec (w.adr q v.idx) c new (w.heap k) (fun i hi e => by
    rcases hL.at hvn with h' | h'
    · exact (hnew0 i hi).1 (e.trans h')
    · exact (hnew0 i hi).2 (e ▸ h')) hdist
  generalize hH' : addKids (w.adr q v.idx) c new (w.heap k) = H' at *
  have hkeep : ∀ k' q' x, C.IsCell q' → ¬ (k' = k ∧ q' = q) → x = C.at k' q' ∨ x ∈ w.own k' q' → upd w.heap k H' k' x = w.heap k' x := by
    intro k' q' x hq' hnot hx
    by_cases e : k' = k
    · subst e
      have hqq : q' ≠ q := fun e => hnot ⟨rfl, e⟩
      rw [upd_same]
      refine s3 x ?_ ?_
      · intro e
        rcases hx with rfl | hx <;> rcases hL.at hvn with h' | h'
        · exact hqq (C.at_inj _ hq' hq (e.trans h'))
        · exact h.ownTop _ q _ hq h' (e ▸ (C.at_top _ hu hq').1)
        · exact h.ownTop _ q' _ hq' hx (by rw [e, h']; exact (C.at_top _ hu hq).1)
        · exact hqq (h.ownDisj _ q' q _ hq' hq hx (e ▸ h'))
      · intro hmem
        obtain ⟨i, hi, e⟩ := List.mem_map.1 hmem
        have hf := hnew i hi
        rcases hx with rfl | hx
        · exact hf.1 (by rw [e]; exact (C.at_top _ hu hq').1)
        · exact hf.2 q' hq' (by rw [e]; exact hx)
    · rw [upd_ne _ _ e]
  have hownne : ∀ k' q', ¬ (k' = k ∧ q' = q) →
      upd w.own k (upd (w.own k) q ((made c).map new ++ w.own k q)) k' q' = w.own k' q' := by
    intro k' q' hnot
    by_cases e : k' = k
    · rw [e, upd_same, upd_ne _ _ fun e' => hnot ⟨e, e'⟩]
    · rw [upd_ne _ _ e]
  have howneq : upd w.own k (upd (w.own k) q ((made c).map new ++ w.own k q)) k q = (made c).map new ++ w.own k q := by
    rw [upd_same, upd_same]
  have hcell : ∀ q', q' ∈ w.sent → upd w.cell q st' q' = w.cell q' := fun q' hs => upd_ne _ _ fun e => hns (e ▸ hs)
  refine ⟨?_, ?_, ?_, ?_, ?_, ?_, h.netOnce, ?_, ?_, ?_, ?_, h.reach⟩
  · intro k'
    by_cases e : k' = k
    · rw [e]
      dsimp only
      rw [upd_same]
      refine intact_frame (h.top k) (C.at_top k hu hq).2 (fun x hx hne => ?_) ?_
      · refine s3 x ?_ ?_
        · intro e
          rcases hL.at hvn with h' | h'
          · exact hne (e.trans h')
          · exact h.ownTop _ q _ hq h' (e ▸ hx)
        · intro hmem
          obtain ⟨i, hi, e⟩ := List.mem_map.1 hmem
          exact (hnew i hi).1 (by rw [e]; exact hx)
      · by_cases e : w.adr q v.idx = C.at k q
        · rw [← e, s1]; exact ⟨rfl, rfl, rfl⟩
        · rw [s3 _ (Ne.symm e) fun hmem => ?_]
          · exact ⟨rfl, rfl, rfl⟩
          · obtain ⟨i, hi, e⟩ := List.mem_map.1 hmem
            exact (hnew0 i hi).1 e
    · dsimp only; rw [upd_ne _ _ e]; exact h.top k'
  · intro q' hq' hm'
    dsimp only
    by_cases e : q' = q
    · subst e
      obtain ⟨n, hr⟩ := h.run q' hq' hm'
      rw [upd_same]
      exact ⟨n + 1, .succ hr hstep⟩
    · rw [upd_ne _ _ e]; exact h.run q' hq' hm'
  · intro q' hq' hm'
    have e : q' ≠ q := fun e => hm (e ▸ hm')
    dsimp only
    rw [upd_ne _ _ e]
    exact h.idle q' hq' hm'
  · intro q' hq' hm'
    dsimp only
    by_cases e : q' = q
    · subst e
      rw [upd_same, upd_same, upd_same, upd_same, upd_same]
      exact hL'
    · have hnot : ¬ (C.owner q' = k ∧ q' = q) := fun h => e h.2
      rw [upd_ne _ _ e, upd_ne _ _ e, hownne _ _ hnot]
      exact (h.loc q' hq' hm').congr fun x hx => hkeep _ q' x hq' hnot hx
  · intro q' hq'
    dsimp only
    rw [hcell q' hq']
    exact h.sent q' hq'
  · intro k' q' m hmem
    obtain ⟨g1, g2⟩ := h.net k' q' m hmem
    dsimp only
    rw [hcell q' g1]
    exact ⟨g1, g2⟩
  · intro k' q' hg
    obtain ⟨g1, g2, b, g3, g4⟩ := h.got k' q' hg
    dsimp only
    have hnot : ¬ (k' = k ∧ q' = q) := fun e => hns (e.2 ▸ g1)
    rw [hcell q' g1, hownne _ _ hnot]
    exact ⟨g1, g2, b, g3, g4.congr fun x hx => hkeep _ q' x (h.sent q' g1).1 hnot hx⟩
  · intro k' q' hq' hne hg j
    dsimp only
    have hnot : ¬ (k' = k ∧ q' = q) := by
      rintro ⟨rfl, rfl⟩
      exact hne hk
    rw [hkeep k' q' _ hq' hnot (.inl rfl)]
    exact h.bare k' q' hq' hne hg j
  · intro k' q' x hq' hx
    dsimp only at hx
    by_cases hnot : k' = k ∧ q' = q
    · rw [hnot.1, hnot.2, howneq, List.mem_append] at hx
      rw [hnot.1]
      rcases hx with hx | hx
      · obtain ⟨i, hi, rfl⟩ := List.mem_map.1 hx
        exact (hnew i hi).1
      · exact h.ownTop _ q x hq hx
    · rw [hownne _ _ hnot] at hx
      exact h.ownTop k' q' x hq' hx
  · intro k' q1 q2 x hq1 hq2 hx1 hx2
    dsimp only at hx1 hx2
    have hcase : ∀ q', C.IsCell q' → ¬ (k' = k ∧ q' = q) → k' = k → x ∈ (made c).map new ++ w.own k q → x ∈ w.own k' q' → q = q' := by
      intro q' hq' hnot e hx hx'
      rw [e] at hx'
      rcases List.mem_append.1 hx with hx | hx
      · obtain ⟨i, hi, rfl⟩ := List.mem_map.1 hx
        exact absurd hx' ((hnew i hi).2 q' hq')
      · exact h.ownDisj k q q' x hq hq' hx hx'
    by_cases n1 : k' = k ∧ q1 = q <;> by_cases n2 : k' = k ∧ q2 = q
    · rw [n1.2, n2.2]
    · rw [hownne _ _ n2] at hx2
      rw [n1.1, n1.2, howneq] at hx1
      rw [n1.2]
      exact hcase q2 hq2 n2 n1.1 hx1 hx2
    · rw [hownne _ _ n1] at hx1
      rw [n2.1, n2.2, howneq] at hx2
      rw [n2.2]
      exact (hcase q1 hq1 n1 n2.1 hx2 hx1).symm
    · rw [hownne _ _ n1] at hx1
      rw [hownne _ _ n2] at hx2
      exact h.ownDisj k' q1 q2 x hq1 hq2 hx1 hx2

omit hd hin in
theorem inv_init : WInv E C (init C) := by
  have hcell : ∀ q, C.mem q ≠ [] → (init C).cell q = start ⟨place q, 0, (C.mem q).length⟩ (C.mem q) := by
    intro q hm
    simp [init, hm]
  have hbare : ∀ k q, C.IsCell q → ∀ j, ((init C).heap k (C.at k q)).child j = none := by
    intro k q hq j
    obtain ⟨b, h1, h2, h3, h4, -⟩ := C25_paths hu (C.root k) (C.before k) q hq.1 (by rw [hq.2])
    obtain ⟨e, h5⟩ := h4 hq.2
    have := h5 j
    rw [e] at this
    exact this
  refine ⟨fun k => intact_refl _, ?_, ?_, ?_, by simp [init], by simp [init], by simp [init], by simp [init], ?_, by simp [init], by simp [init],
    by simp [init]⟩
  · intro q hq hm
    rw [hcell q hm]
    exact ⟨0, .zero _⟩
  · intro q hq hm
    simp [init, hm]
  · intro q hq hm
    have hnode : ∀ v, v ∈ ((init C).cell q).nodes ↔ v = ⟨place q, 0, (C.mem q).length⟩ := by
      intro v; rw [hcell q hm]; simp [start, State.nodes]
    have hix : ((init C).heap (C.owner q) (C.at (C.owner q) q)).idx = place q := by
      have := ((intact_shape hu (intact_refl (r := C.root (C.owner q)) (u := C.unif) (C.before (C.owner q)))).2 q hq.1 (by rw [hq.2])).1
      rw [topAddr_full hq.2, ← nTop_eq hu] at this
      exact this
    refine ⟨rfl, ?_, ?_, ?_, ?_, ?_, ?_⟩
    · intro v hv hne; rw [hnode] at hv; subst hv; exact absurd rfl hne
    · intro u hu' v hv _; rw [hnode] at hu' hv; rw [hu', hv]
    · intro v hv; rw [hnode] at hv; subst hv; exact hix
    · intro v hv hne; rw [hnode] at hv; subst hv; exact absurd rfl hne
    · intro v hv j hj _; exact hbare _ q hq j
    · intro v hv j hj u hu' e
      rw [hnode] at hv hu'
      subst hv; subst hu'
      have := child_level (i := place q) hj
      simp only at e
      rw [← e] at this
      omega
  · intro k q hq _ _ j
    exact hbare k q hq j

theorem inv_step {w' : World R} (h : WInv E C w) (hs : Step E C w w') : WInv E C w' := by
  cases hs with
  | task q hq s hs hi => exact inv_task hd hu hin h hq hs hi
  | split q hq v hv hn c hc new hnew hdist => exact inv_split hd hu hin h hq hv hn hc hnew hdist
  | send q hq hm hc hs b hb msg hmsg => exact inv_send hd hu hin h hq hm hc hs hb hmsg
  | recv k q msg net hm base hbase => exact inv_recv hd hu hin h hm hbase

theorem inv_reach {n : Nat} (h : Reach E C n w) : WInv E C w := by
  induction h with
  | init => exact inv_init hu
  | step _ hs ih => exact inv_step hd hu hin ih hs
  | other _ hH ih => exact inv_other hd hu hin ih hH

end
end

end RankTree
end Dashmm
