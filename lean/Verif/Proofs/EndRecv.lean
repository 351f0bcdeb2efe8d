import Verif.Proofs.EndTop
import Verif.Props.Branch

/-! Helper lemmas: all branches received; a construction exists. -/

namespace Dashmm

open Build Branch

theorem received_ok {r u : Nat} (hu : 1 ≤ u) {branch : List Nat → (Fin 8 → Oct)} {H0 : Heap} {l : List (List Nat × Nat)} {H : Heap}
    (h : Received r u branch H0 l H) :
    TopIntact r u H0 H ∧ (∀ e ∈ l, Oct8 e.1 ∧ e.1.length = u ∧ r + nTop u + 8 ^ u ≤ e.2 ∧
      Copy H (r + nTop u + cellOf u e.1) ⟨place e.1, branch e.1⟩ ∧
      ∀ p x, Linked H (r + nTop u + cellOf u e.1) p x → x = r + nTop u + cellOf u e.1 ∨ InBlock branch e x) ∧
    ∀ q, Oct8 q → q.length = u → q ∉ l.map Prod.fst → ∀ j, (H (r + nTop u + cellOf u q)).child j = none := by
  induction h with
  | nil =>
    refine ⟨intact_refl _, by simp, fun q hq hl _ j => ?_⟩
    obtain ⟨b, h1, h2, h3, h4, -⟩ := C25_paths hu r H0 q hq (by omega)
    obtain ⟨e, h5⟩ := h4 hl
    rw [← e]; exact h5 j
  | @cons l H q base msg _ hq hl hnew hm hbase hfree ih =>
    obtain ⟨i1, i2, i3⟩ := ih
    have hcell : ∀ q, Oct8 q → q.length = u → cellOf u q < 8 ^ u := by
      intro q hq hl
      have := topAddr_lt (r := r) (u := u) q hq (by omega)
      rw [topAddr_full hl] at this
      omega
    have hinj : ∀ q q', Oct8 q → Oct8 q' → q.length = u → q'.length = u → cellOf u q = cellOf u q' → q = q' := by
      intro q q' hq hq' hl hl' e
      apply topAddr_inj (r := 0) (u := u) q q' hq hq' (by omega) (by omega)
      rw [topAddr_full hl, topAddr_full hl', e]
    have hc := hcell q hq hl
    have hidx : (H (r + nTop u + cellOf u q)).idx = place q := by
      have := (intact_shape hu i1).2 q hq (by omega)
      rw [topAddr_full hl, ← nTop_eq hu] at this
      exact this.1
    obtain ⟨g1, g2, g3, g4, g5⟩ := C24_copy hm (fun i => r + nTop u + i) base H (i3 q hq hl hnew) (by omega)
    rw [hidx] at g1
    generalize receive (fun i => r + nTop u + i) base msg H = R at *
    refine ⟨⟨?_, ?_⟩, ?_, ?_⟩
    · intro b hb1 hb2
      rw [g2 b (by omega) (by omega)]
      exact i1.inner b hb1 hb2
    · intro b hb1 hb2
      by_cases hb : b = r + nTop u + cellOf u q
      · subst hb
        rw [g3, g4]
        refine ⟨?_, (i1.cells _ hb1 hb2).2⟩
        rw [(copy_path g1).1, ← hidx]
        exact (i1.cells _ hb1 hb2).1
      · rw [g2 b hb (by omega)]
        exact i1.cells b hb1 hb2
    · intro e he
      rcases List.mem_cons.1 he with rfl | he
      · exact ⟨hq, hl, hbase, g1, fun p x hx => g5 p x hx⟩
      · obtain ⟨j1, j2, j3, j4, j5⟩ := i2 e he
        have hne : e.1 ≠ q := fun h => hnew (by rw [← h]; exact List.mem_map_of_mem he)
        have hne' : cellOf u e.1 ≠ cellOf u q := fun h => hne (hinj _ _ j1 hq j2 hl h)
        have hsame : ∀ p x, Linked H (r + nTop u + cellOf u e.1) p x → R x = H x := by
          intro p x hx
          rcases j5 p x hx with h | h
          · subst h
            have := hcell e.1 j1 j2
            exact g2 _ (by omega) (by omega)
          · have h' := h.1
            refine g2 _ (by omega) fun hin => hfree e he x hin h
        refine ⟨j1, j2, j3, Copy.congr j4 hsame, fun p x hx => j5 p x ?_⟩
        -- links in the new memory are links in the old one
        have : ∀ p a b, Linked R a p b → ∀ p0, Linked H (r + nTop u + cellOf u e.1) p0 a → Linked H a p b := by
          intro p a b hab
          induction hab with
          | refl a => intro _ _; exact .refl _
          | @step a b c j p hj hch hi _ ih =>
            intro p0 h0
            have ea := hsame p0 a h0
            rw [ea] at hch hi
            have hstep : (H b).idx = (H a).idx.child j := by
              -- the child is in the old copy too
              obtain ⟨m, -, hm2⟩ := (copy_path j4).2.2 p0 a h0
              cases hm2 with
              | mk _ _ b' idx null ptr parent dag copy =>
                cases hmc : m.c ⟨j, hj⟩ with
                | nil => rw [null _ hmc] at hch; cases hch
                | node c =>
                  have e := ptr _ c hmc
                  rw [hch] at e
                  cases e
                  rw [(copy_path (copy _ c hmc)).1, idx]
            exact .step hj hch hstep (ih (p0 ++ [j]) (linked_append h0 (.step hj hch hstep (.refl _))))
        exact this p _ x hx [] (.refl _)
    · intro q' hq' hl' hn j
      have hn1 : q' ≠ q := fun h => hn (by rw [h]; simp)
      have hn2 : q' ∉ l.map Prod.fst := fun h => hn (by rw [List.map_cons]; exact List.mem_cons_of_mem _ h)
      have := hcell q' hq' hl'
      rw [g2 _ (fun h => hn1 (hinj _ _ hq' hq hl' hl (by omega))) (by omega)]
      exact i3 q' hq' hl' hn2 j

/-! ### A construction exists -/

/-- All paths of a length. -/
def allPaths : Nat → List (List Nat)
  | 0 => [[]]
  | n + 1 => (List.range 8).flatMap fun j => (allPaths n).map (j :: ·)

theorem mem_allPaths {n : Nat} {q : List Nat} : q ∈ allPaths n ↔ Oct8 q ∧ q.length = n := by
  induction n generalizing q with
  | zero =>
    simp only [allPaths, List.mem_singleton]
    constructor
    · rintro rfl; exact ⟨by simp [Oct8], rfl⟩
    · rintro ⟨-, h⟩; exact List.length_eq_zero_iff.1 h
  | succ n ih =>
    simp only [allPaths, List.mem_flatMap, List.mem_range, List.mem_map]
    constructor
    · rintro ⟨j, hj, a, ha, rfl⟩
      obtain ⟨h1, h2⟩ := ih.1 ha
      refine ⟨fun c hc => ?_, by simp [h2]⟩
      rcases List.mem_cons.1 hc with rfl | hc
      · exact hj
      · exact h1 c hc
    · rintro ⟨h1, h2⟩
      cases q with
      | nil => simp at h2
      | cons j a => exact ⟨j, h1 j (by simp), a, ih.2 ⟨fun c hc => h1 c (by simp [hc]), by simpa using h2⟩, rfl⟩

theorem allPaths_nodup (n : Nat) : (allPaths n).Nodup := by
  induction n with
  | zero => simp [allPaths]
  | succ n ih =>
    unfold allPaths
    rw [List.nodup_flatMap]
    refine ⟨fun j _ => ih.map fun a b h => by simpa using h, List.Pairwise.imp_of_mem ?_ List.nodup_range⟩
    intro a b _ _ hab x hx hy
    obtain ⟨p, -, rfl⟩ := List.mem_map.1 hx
    obtain ⟨p', -, e⟩ := List.mem_map.1 hy
    simp at e
    exact hab e.1.symm

theorem exists_received (r u : Nat) (branch : List Nat → (Fin 8 → Oct)) (H0 : Heap) (qs : List (List Nat))
    (h8 : ∀ q ∈ qs, Oct8 q ∧ q.length = u) (hn : qs.Nodup) :
    ∃ l H B, l.map Prod.fst = qs ∧ Received r u branch H0 l H ∧ ∀ e ∈ l, ∀ x, InBlock branch e x → x < B := by
  induction qs with
  | nil => exact ⟨[], _, 0, rfl, .nil, by simp⟩
  | cons q qs ih =>
    rw [List.nodup_cons] at hn
    obtain ⟨l, H, B, h1, h2, h3⟩ := ih (fun q hq => h8 q (by simp [hq])) hn.2
    obtain ⟨msg, hm⟩ := message_total (cellOf u q) (branch q)
    set base := max B (r + nTop u + 8 ^ u) with hb
    refine ⟨(q, base) :: l, _, base + Branch.Oct.size (.node (branch q)), by simp [h1], .cons h2 (h8 q (by simp)).1 (h8 q (by simp)).2
      (by rw [h1]; exact hn.1) hm (le_max_right _ _) ?_, ?_⟩
    · intro e he x hx hx'
      have := h3 e he x hx'
      have h' := hx.1
      simp only at h'
      have : B ≤ base := le_max_left _ _
      omega
    · intro e he x hx
      have : B ≤ base := le_max_left _ _
      rcases List.mem_cons.1 he with rfl | he
      · have := hx.2; simp only at this; omega
      · have := h3 e he x hx; omega

open Classical in
/-- The tree of a set of indices. -/
noncomputable def treeOf (S : Index → Prop) : Nat → Index → (Fin 8 → Oct)
  | 0, _ => fun _ => .nil
  | n + 1, i => fun j => if S (i.child j) then .node (treeOf S n (i.child j)) else .nil

theorem treeOf_path {S : Index → Prop} : ∀ (n : Nat) (i : Index)
    (_ : ∀ p, Oct8 p → S (below i p) → p.length ≤ n ∧ ∀ q, q <+: p → S (below i q)) (_ : S i) (p : List Nat), Oct8 p →
    ((∃ m, TPath ⟨i, treeOf S n i⟩ p m) ↔ S (below i p)) := by
  intro n
  induction n with
  | zero =>
    intro i hS hi p hp
    constructor
    · rintro ⟨m, h⟩
      cases h with
      | refl => exact hi
      | step j hj _ => simp [treeOf] at hj
    · intro h
      have := (hS p hp h).1
      have : p = [] := List.length_eq_zero_iff.1 (by omega)
      subst this
      exact ⟨_, .refl _⟩
  | succ n ih =>
    intro i hS hi p hp
    cases p with
    | nil => exact ⟨fun _ => hi, fun _ => ⟨_, .refl _⟩⟩
    | cons j p =>
      have hj : j < 8 := hp j (by simp)
      have hp' : Oct8 p := fun c hc => hp c (by simp [hc])
      have hS' : ∀ p, Oct8 p → S (below (i.child j) p) → p.length ≤ n ∧ ∀ q, q <+: p → S (below (i.child j) q) := by
        intro p hp h
        have h8 : Oct8 (j :: p) := by
          intro c hc
          rcases List.mem_cons.1 hc with rfl | hc
          · exact hj
          · exact hp c hc
        obtain ⟨a, b⟩ := hS (j :: p) h8 h
        refine ⟨by simpa using a, fun q hq => b (j :: q) (List.cons_prefix_cons.2 ⟨rfl, hq⟩)⟩
      constructor
      · rintro ⟨m, h⟩
        generalize hl : j :: p = l at h
        cases h with
        | refl => simp at hl
        | @step _ _ p' c j' hj' h =>
          simp only [List.cons.injEq] at hl
          obtain ⟨rfl, rfl⟩ := hl
          simp only [treeOf] at hj'
          split at hj'
          · rename_i hs
            cases hj'
            exact (ih _ hS' hs p hp').1 ⟨m, h⟩
          · cases hj'
      · intro h
        have hs : S (i.child j) := (hS (j :: p) hp h).2 [j] (List.cons_prefix_cons.2 ⟨rfl, List.nil_prefix⟩)
        obtain ⟨m, hm⟩ := (ih _ hS' hs p hp').2 h
        exact ⟨m, .step ⟨j, hj⟩ (by simp [treeOf, hs]) hm⟩

section
variable {K : Type} [Field K] [LinearOrder K] [IsStrictOrderedRing K] {R : Type}

theorem exists_quiet {E : Env K R} {i : Index} {s0 : State R} {B : Nat} (hB : ∀ k s, Steps E i k s0 s → k ≤ B) :
    ∃ k s, Steps E i k s0 s ∧ Quiet E i s := by
  by_contra hcon
  push Not at hcon
  have : ∀ k, ∃ s, Steps E i k s0 s := by
    intro k
    induction k with
    | zero => exact ⟨s0, .zero _⟩
    | succ k ih =>
      obtain ⟨s, hs⟩ := ih
      have := hcon k s hs
      unfold Quiet at this
      push Not at this
      obtain ⟨t, ht⟩ := this
      exact ⟨t, .succ hs ht⟩
  obtain ⟨s, hs⟩ := this (B + 1)
  have := hB _ s hs
  omega

/-- The branch of a finished cell. -/
theorem exists_branch {E : Env K R} {i : Index} {mem : List R} {s : State R} (hd : 0 < E.dom.size) (h0 : mem ≠ [])
    (hin : ∀ r ∈ mem, Grid.InBoxOf E.dom i (E.pos r)) (h : CellDone E i mem s) :
    ∃ c, ∀ p, Oct8 p → ((∃ m, TPath ⟨i, c⟩ p m) ↔ ∃ v ∈ s.nodes, v.idx = below i p) := by
  obtain ⟨f1, f2, f3, f4⟩ := h.facts hd h0 hin
  obtain ⟨n, hn⟩ : ∃ n, ∀ v ∈ s.nodes, v.idx.level ≤ n := by
    refine ⟨(s.nodes.map fun v => v.idx.level).sum, fun v hv => ?_⟩
    exact List.single_le_sum (by simp) _ (List.mem_map.2 ⟨v, hv, rfl⟩)
  refine ⟨treeOf (fun j => ∃ v ∈ s.nodes, v.idx = j) n i, fun p hp => treeOf_path n i ?_ ?_ p hp⟩
  · rintro p hp ⟨v, hv, hvi⟩
    refine ⟨?_, fun q hq => ?_⟩
    · have := hn v hv
      rw [hvi, below_level i p hp] at this
      omega
    · have hq8 : Oct8 q := fun c hc => hp c (hq.subset hc)
      obtain ⟨g1, g2⟩ := (f1 p hp).1 ⟨v, hv, hvi⟩
      by_cases hqp : q = p
      · subst hqp; exact ⟨v, hv, hvi⟩
      · refine (f1 q hq8).2 ⟨?_, fun q' hq' hne => g2 q' (hq'.trans hq) ?_⟩
        · obtain ⟨l, rfl⟩ := hq
          obtain ⟨x, hx⟩ := List.exists_mem_of_length_pos g1
          obtain ⟨x1, x2⟩ := mem_inBox.1 hx
          unfold below at x2
          rw [List.foldl_append] at x2
          exact List.length_pos_of_mem (mem_inBox.2 ⟨x1, below_box hd l _ (fun c hc => hp c (List.mem_append_right _ hc)) x2⟩)
        · rintro rfl
          exact hne (hq.eq_of_length_le hq'.length_le).symm
  · refine (f1 [] (by simp)).2 ⟨?_, ?_⟩
    · obtain ⟨x, hx⟩ := List.exists_mem_of_ne_nil _ h0
      exact List.length_pos_of_mem (mem_inBox.2 ⟨hx, hin x hx⟩)
    · intro q hq hne
      simp at hq
      exact absurd hq hne

variable [FloorRing K] {E : Env K R} {unif root : Nat} {P : List R}

/-- What the nodes hold is well defined. -/
theorem exists_hold {C : Construction R} (hC : C.Ok E unif root P) (hd : 0 < E.dom.size)
    (hin : ∀ x ∈ P, Grid.InDomain E.dom (E.pos x)) : ∃ hold, C.Holds unif hold := by
  classical
  let Q : Index → (List Nat × Cell) → Prop := fun i e => Oct8 e.1 ∧ e.1.length = unif ∧ C.mem e.1 ≠ [] ∧ e.2 ∈ (C.run e.1).nodes ∧ e.2.idx = i
  have huniq : ∀ i e e', Q i e → Q i e' → e = e' := by
    rintro i ⟨q, v⟩ ⟨q', v'⟩ ⟨a1, a2, a3, a4, a5⟩ ⟨b1, b2, b3, b4, b5⟩
    simp only at *
    have fa := (hC.done q a1 a2 a3).facts hd a3 (cell_box hC hd hin a1 a2)
    have fb := (hC.done q' b1 b2 b3).facts hd b3 (cell_box hC hd hin b1 b2)
    obtain ⟨p, hp, hpe⟩ := fa.2.1 v a4
    obtain ⟨p', hp', hpe'⟩ := fb.2.1 v' b4
    have hq : q = q' := by
      have e : place (q ++ p) = place (q' ++ p') := by
        rw [place_append, place_append, ← hpe, ← hpe', a5, b5]
      have h1 : Oct8 (q ++ p) := fun c hc => (List.mem_append.1 hc).elim (a1 c) (hp c)
      have h2 : Oct8 (q' ++ p') := fun c hc => (List.mem_append.1 hc).elim (b1 c) (hp' c)
      have hlen : (q ++ p).length = (q' ++ p').length := by
        have := congrArg Index.level e
        rwa [place_level _ h1, place_level _ h2] at this
      have := path_inj (q ++ p) (q' ++ p') h1 h2 hlen e
      exact (List.append_inj this (by omega)).1
    subst hq
    have : v = v' := by
      have hnd := fa.2.2.2
      exact List.inj_on_of_nodup_map hnd a4 b4 (by rw [a5, b5])
    rw [this]
  refine ⟨fun i => if h : ∃ e, Q i e then slice (C.run h.choose.1).mem h.choose.2 else [], ?_, ?_⟩
  · intro q hq hl hne v hv
    have hex : ∃ e, Q v.idx e := ⟨(q, v), hq, hl, hne, hv, rfl⟩
    have := huniq _ _ _ hex.choose_spec (show Q v.idx (q, v) from ⟨hq, hl, hne, hv, rfl⟩)
    simp only [dif_pos hex]
    rw [this]
  · intro i hi
    rw [dif_neg]
    rintro ⟨⟨q, v⟩, h1, h2, h3, h4, h5⟩
    exact hi q h1 h2 h3 v h4 h5

/-- Every input without too many coincident points has a construction. -/
theorem exists_construction [Archimedean K] (H0 : Heap) (hd : 0 < E.dom.size) (hu : 1 ≤ unif) (hin : ∀ x ∈ P, Grid.InDomain E.dom (E.pos x))
    (ht : ∀ x ∈ P, (atPlace E x P).length ≤ E.threshold) : ∃ C : Construction R, C.Ok E unif root P := by
  classical
  set mem : List Nat → List R := fun q => P.filter fun x => Grid.gidOf E.dom unif (E.pos x) = cellOf unif q with hmem
  have hrun : ∀ q, ∃ s, Oct8 q → q.length = unif → mem q ≠ [] → CellDone E (place q) (mem q) s := by
    intro q
    by_cases h : Oct8 q ∧ q.length = unif ∧ mem q ≠ []
    · obtain ⟨h1, h2, h3⟩ := h
      have hb : ∀ r ∈ mem q, Grid.InBoxOf E.dom (place q) (E.pos r) := by
        intro x hx
        have := List.mem_filter.1 hx
        exact (gid_box hd h1 h2 (hin x this.1)).1 (by simpa using this.2)
      obtain ⟨B, hB⟩ := C23_terminates_partial (E := { E with same := false }) hd h3 hb (fun r hr => by
        have h1 := ht r (List.mem_filter.1 hr).1
        refine le_trans ?_ h1
        unfold atPlace
        exact (List.Sublist.filter _ List.filter_sublist).length_le)
      obtain ⟨k, s, hs, hq⟩ := exists_quiet hB
      exact ⟨s, fun _ _ _ => .alone hs (C59_completes (E := { E with same := false }) hd h3 hb rfl hs hq)⟩
    · exact ⟨⟨[], [], [], [], fun _ => 0, []⟩, fun h1 h2 h3 => absurd ⟨h1, h2, h3⟩ h⟩
  choose run hrun using hrun
  have hbox : ∀ q, Oct8 q → q.length = unif → ∀ r ∈ mem q, Grid.InBoxOf E.dom (place q) (E.pos r) := by
    intro q h1 h2 x hx
    have := List.mem_filter.1 hx
    exact (gid_box hd h1 h2 (hin x this.1)).1 (by simpa using this.2)
  have hbr : ∀ q, ∃ c, Oct8 q → q.length = unif → mem q ≠ [] → ∀ p, Oct8 p →
      ((∃ m, TPath ⟨place q, c⟩ p m) ↔ ∃ v ∈ (run q).nodes, v.idx = below (place q) p) := by
    intro q
    by_cases h : Oct8 q ∧ q.length = unif ∧ mem q ≠ []
    · obtain ⟨h1, h2, h3⟩ := h
      obtain ⟨c, hc⟩ := exists_branch hd h3 (hbox q h1 h2) (hrun q h1 h2 h3)
      exact ⟨c, fun _ _ _ => hc⟩
    · exact ⟨fun _ => .nil, fun h1 h2 h3 => absurd ⟨h1, h2, h3⟩ h⟩
  choose branch hbr using hbr
  obtain ⟨l, H, B, e1, e2, -⟩ := exists_received root unif branch H0 (allPaths unif) (fun q hq => mem_allPaths.1 hq)
    (allPaths_nodup unif)
  obtain ⟨r1, r2, -⟩ := received_ok hu e2
  have hl : ∀ q, Oct8 q → q.length = unif → ∃ b, (q, b) ∈ l := by
    intro q h1 h2
    have : q ∈ l.map Prod.fst := by rw [e1]; exact mem_allPaths.2 ⟨h1, h2⟩
    obtain ⟨e, he, rfl⟩ := List.mem_map.1 this
    exact ⟨e.2, he⟩
  refine ⟨⟨mem, run, branch, H0, H, fun n => (P.filter fun x => Grid.gidOf E.dom unif (E.pos x) = n).length⟩,
    fun q _ _ => List.Perm.refl _, fun q _ _ => rfl, hrun, hbr, r1, ?_, ?_⟩
  · intro q h1 h2 _
    obtain ⟨b, hb⟩ := hl q h1 h2
    exact (r2 _ hb).2.2.2.1
  · intro q h1 h2 _ p b hb
    obtain ⟨b', hb'⟩ := hl q h1 h2
    have hbase := (r2 _ hb').2.2.1
    rcases (r2 _ hb').2.2.2.2 p b hb with h | h
    · rw [h]; simp only; omega
    · have := h.1; simp only at this hbase
      have h8 : 0 < 8 ^ unif := by positivity
      omega

end

end Dashmm
