import Verif.Proofs.EndTree
import Verif.Props.Build

/-! Helper lemmas: the pruned top with the branches below it. -/

namespace Dashmm

open Build Branch
open Grid (InBoxOf InDomain gidOf gidOf_spec parent_of_path simpleKey_inj)

/-! ### Memory -/

theorem Copy.congr {H H' : Heap} {a : Nat} {n : TNode} (h : Copy H a n) (hh : ∀ p b, Linked H a p b → H' b = H b) : Copy H' a n := by
  induction h with
  | mk a n b idx null ptr parent dag copy ih =>
    have hk : ∀ (j : Fin 8) c, n.c j = .node c → ∀ p x, Linked H (b j) p x → Linked H a (j.val :: p) x := by
      intro j c hc p x hl
      have hci := copy j c hc
      refine .step j.isLt (ptr j c hc) ?_ hl
      cases hci with
      | mk _ _ _ idx' => rw [idx', idx]
    have ha := hh [] a (.refl _)
    have hb : ∀ (j : Fin 8) c, n.c j = .node c → H' (b j) = H (b j) := fun j c hc => hh _ _ (hk j c hc [] _ (.refl _))
    refine .mk a n b ?_ ?_ ?_ ?_ ?_ ?_
    · rw [ha]; exact idx
    · intro j hj; rw [ha]; exact null j hj
    · intro j c hj; rw [ha]; exact ptr j c hj
    · intro j c hj; rw [hb j c hj]; exact parent j c hj
    · intro j c hj; rw [hb j c hj]; exact dag j c hj
    · intro j c hj
      exact ih j c hj fun p x hl => hh _ _ (hk j c hj p x hl)

open Classical in
/-- The tree of the cells that are alive, from a path `d` steps above the cells on. -/
noncomputable def kidsAt (u : Nat) (counts : Nat → Nat) (branch : List Nat → (Fin 8 → Oct)) : Nat → List Nat → (Fin 8 → Oct)
  | 0, q => branch q
  | d + 1, q => fun j => if Alive u counts (q ++ [j.val]) then .node (kidsAt u counts branch d (q ++ [j.val])) else .nil

theorem place_snoc (q : List Nat) (j : Nat) : place (q ++ [j]) = (place q).child j := by
  unfold place; rw [List.foldl_append]; rfl

theorem place_append (q p : List Nat) : place (q ++ p) = below (place q) p := by
  unfold place below; rw [List.foldl_append]

theorem kids_copy {u r : Nat} {counts : Nat → Nat} {H' : Heap} {branch : List Nat → (Fin 8 → Oct)}
    (hS : Shape r u (Alive u counts) H')
    (hI : ∀ p, Oct8 p → p.length ≤ u → (H' (topAddr r u p)).idx = place p ∧ (H' (topAddr r u p)).dagIdx = place p)
    (hC : ∀ q, Oct8 q → q.length = u → Alive u counts q → Copy H' (topAddr r u q) ⟨place q, branch q⟩) :
    ∀ d q, Oct8 q → q.length + d = u → (d = 0 → Alive u counts q) → Copy H' (topAddr r u q) ⟨place q, kidsAt u counts branch d q⟩ := by
  intro d
  induction d with
  | zero => intro q hq hl ha; exact hC q hq (by omega) (ha rfl)
  | succ d ih =>
    intro q hq hl _
    have key : ∀ (j : Fin 8) c, kidsAt u counts branch (d + 1) q j = .node c → Alive u counts (q ++ [j.val]) ∧
        c = kidsAt u counts branch d (q ++ [j.val]) := by
      intro j c h
      simp only [kidsAt] at h
      split at h
      · rename_i ha; cases h; exact ⟨ha, rfl⟩
      · cases h
    refine .mk _ _ (fun j => topAddr r u (q ++ [j.val])) (hI q hq (by omega)).1 ?_ ?_ ?_ ?_ ?_
    · intro j hj
      refine hS.no q j hq (by omega) j.isLt fun ha => ?_
      simp [kidsAt, ha] at hj
    · intro j c hj; exact (hS.yes q j hq (by omega) j.isLt (key j c hj).1).1
    · intro j c hj; exact (hS.yes q j hq (by omega) j.isLt (key j c hj).1).2
    · intro j c hj
      rw [(hI _ (hq.snoc j.isLt) (by simp; omega)).2]
      exact place_snoc q j
    · intro j c hj
      obtain ⟨ha, rfl⟩ := key j c hj
      have := ih (q ++ [j.val]) (hq.snoc j.isLt) (by simp; omega) fun _ => ha
      rw [place_snoc] at this
      exact this

/-! ### Shape -/

theorem kids_tree {u thr : Nat} {counts : Nat → Nat} {branch : List Nat → (Fin 8 → Oct)} {cnt : Index → Nat}
    (hA : ∀ q, Oct8 q → q.length ≤ u → (Alive u counts q ↔ 1 ≤ cnt (place q)))
    (hm : ∀ i j, j < 8 → 1 ≤ cnt (Index.child i j) → 1 ≤ cnt i)
    (hb : ∀ q, Oct8 q → q.length = u → 1 ≤ cnt (place q) → ∀ p, Oct8 p → ((∃ m, TPath ⟨place q, branch q⟩ p m) ↔
      1 ≤ cnt (place (q ++ p)) ∧ ∀ q', q' <+: p → q' ≠ p → thr < cnt (place (q ++ q')))) :
    ∀ d q, Oct8 q → q.length + d = u → (d = 0 → 1 ≤ cnt (place q)) → ∀ p, Oct8 p →
      ((∃ m, TPath ⟨place q, kidsAt u counts branch d q⟩ p m) ↔ p = [] ∨ (1 ≤ cnt (place (q ++ p)) ∧
        ∀ q', q' <+: p → q' ≠ p → u ≤ (q ++ q').length → thr < cnt (place (q ++ q')))) := by
  have hmono : ∀ (p q : List Nat), Oct8 p → 1 ≤ cnt (place (q ++ p)) → 1 ≤ cnt (place q) := by
    intro p
    induction p using List.reverseRecOn with
    | nil => intro q _ h; simpa using h
    | append_singleton p j ih =>
      intro q hp h
      rw [← List.append_assoc, place_snoc] at h
      exact ih q (fun c hc => hp c (by simp [hc])) (hm _ j (hp j (by simp)) h)
  intro d
  induction d with
  | zero =>
    intro q hq hl h1 p hp
    simp only [kidsAt]
    rw [hb q hq (by omega) (h1 rfl) p hp]
    constructor
    · rintro ⟨a, b⟩; exact .inr ⟨a, fun q' x y _ => b q' x y⟩
    · rintro (rfl | ⟨a, b⟩)
      · refine ⟨by simpa using h1 rfl, ?_⟩
        intro q' h h'; simp at h; exact absurd h h'
      · exact ⟨a, fun q' x y => b q' x y (by simp; omega)⟩
  | succ d ih =>
    intro q hq hl _ p hp
    cases p with
    | nil => exact ⟨fun _ => .inl rfl, fun _ => ⟨_, .refl _⟩⟩
    | cons j p =>
      have hj : j < 8 := hp j (by simp)
      have hp' : Oct8 p := fun c hc => hp c (by simp [hc])
      have h1 : (∃ m, TPath ⟨place q, kidsAt u counts branch (d + 1) q⟩ (j :: p) m) ↔
          Alive u counts (q ++ [j]) ∧ ∃ m, TPath ⟨place (q ++ [j]), kidsAt u counts branch d (q ++ [j])⟩ p m := by
        constructor
        · rintro ⟨m, hm⟩
          generalize hl : j :: p = l at hm
          cases hm with
          | refl => simp at hl
          | @step _ _ p' c j' hj' h =>
            simp only [List.cons.injEq] at hl
            obtain ⟨rfl, rfl⟩ := hl
            simp only [kidsAt] at hj'
            split at hj'
            · rename_i ha
              cases hj'
              rw [place_snoc]
              exact ⟨ha, m, h⟩
            · cases hj'
        · rintro ⟨ha, m, h⟩
          rw [place_snoc] at h
          exact ⟨m, .step ⟨j, hj⟩ (by simp [kidsAt, ha]) h⟩
      have hq' := hq.snoc hj
      have hlen : (q ++ [j]).length + d = u := by simp; omega
      have hal := hA (q ++ [j]) hq' (by omega)
      rw [h1, hal]
      have happ : ∀ l, q ++ [j] ++ l = q ++ j :: l := by intro l; simp
      constructor
      · rintro ⟨ha, h⟩
        refine .inr ?_
        rcases (ih _ hq' hlen (fun _ => ha) p hp').1 h with rfl | ⟨h2, h3⟩
        · refine ⟨ha, ?_⟩
          intro q' hp1 hne hu
          cases q' with
          | nil => simp at hu; omega
          | cons a l =>
            obtain ⟨rfl, hpre⟩ := List.cons_prefix_cons.1 hp1
            simp at hpre; subst hpre; exact absurd rfl hne
        · rw [happ] at h2
          refine ⟨h2, ?_⟩
          intro q' hp1 hne hu
          cases q' with
          | nil => simp at hu; omega
          | cons a l =>
            obtain ⟨rfl, hpre⟩ := List.cons_prefix_cons.1 hp1
            have := h3 l hpre (fun e => hne (by rw [e])) (by rw [happ]; exact hu)
            rwa [happ] at this
      · rintro (h | ⟨h2, h3⟩)
        · simp at h
        · rw [← happ] at h2
          have ha := hmono p (q ++ [j]) hp' h2
          refine ⟨ha, (ih _ hq' hlen (fun _ => ha) p hp').2 (.inr ⟨h2, ?_⟩)⟩
          intro q' hp1 hne hu
          rw [happ] at hu ⊢
          exact h3 (j :: q') (List.cons_prefix_cons.2 ⟨rfl, hp1⟩) (fun e => hne (by simpa using e)) hu

/-! ### Cells -/

section
variable {K : Type} [Field K] [LinearOrder K] [IsStrictOrderedRing K] {R : Type}

theorem below_level (i : Index) (p : List Nat) (hp : Oct8 p) : (below i p).level = i.level + p.length := (parent_of_path i p hp).2

theorem place_level (p : List Nat) (hp : Oct8 p) : (place p).level = p.length := by
  have := below_level ⟨0, 0, 0, 0⟩ p hp
  simpa [place, below] using this

theorem below_box {d : Domain K} (hs : 0 < d.size) {x : Point K} : ∀ (p : List Nat) (i : Index), Oct8 p → InBoxOf d (below i p) x → InBoxOf d i x := by
  intro p
  induction p using List.reverseRecOn with
  | nil => intro i _ h; exact h
  | append_singleton p j ih =>
    intro i hp h
    unfold below at h
    rw [List.foldl_append] at h
    exact ih i (fun c hc => hp c (by simp [hc])) (parent_box hs (hp j (by simp)) h)

theorem gid_box [FloorRing K] {d : Domain K} (hs : 0 < d.size) {u : Nat} {q : List Nat} (hq : Oct8 q) (hl : q.length = u) {x : Point K}
    (hx : InDomain d x) : gidOf d u x = cellOf u q ↔ InBoxOf d (place q) x := by
  obtain ⟨i, h1, h2, h3⟩ := gidOf_spec hs u hx
  have hpl : (place q).level = u := by rw [place_level q hq, hl]
  constructor
  · intro h
    rw [h3] at h
    have hr := path_range q hq hl
    obtain ⟨a, b, c⟩ := h2
    rw [h1] at a b c
    have := simpleKey_inj a.1 b.1 c.1 hr.2.1 hr.2.2.1 hr.2.2.2 h
    have e : i = place q := by
      obtain ⟨ix, iy, iz, il⟩ := i
      obtain ⟨e1, e2, e3⟩ := this
      simp only at e1 e2 e3 h1
      have : place q = ⟨(place q).x, (place q).y, (place q).z, (place q).level⟩ := rfl
      rw [this, hpl, e1, e2, e3, h1]
      rfl
    rw [← e]; exact ⟨by rw [h1]; exact a, by rw [h1]; exact b, by rw [h1]; exact c⟩
  · intro h
    have := box_unique hs (by rw [h1, hpl]) h2 h
    rw [h3, this]; rfl

/-- What a finished cell is like. -/
theorem CellDone.facts {E : Env K R} {i : Index} {mem : List R} {s : State R} (hd : 0 < E.dom.size) (h0 : mem ≠ [])
    (hin : ∀ r ∈ mem, InBoxOf E.dom i (E.pos r)) (h : CellDone E i mem s) :
    (∀ p : List Nat, (∀ c ∈ p, c < 8) → ((∃ u ∈ s.nodes, u.idx = below i p) ↔
      1 ≤ (inBox E (below i p) mem).length ∧ ∀ q, q <+: p → q ≠ p → E.threshold < (inBox E (below i q) mem).length)) ∧
    (∀ u ∈ s.nodes, ∃ p : List Nat, (∀ c ∈ p, c < 8) ∧ u.idx = below i p) ∧
    (∀ v ∈ s.nodes, (slice s.mem v).Perm (inBox E v.idx mem)) ∧ (s.nodes.map Cell.idx).Nodup := by
  cases h with
  | alone hs hc =>
    have hp := C59_not_early (E := { E with same := false }) hd h0 hin hs hc
    obtain ⟨h1, h2, -⟩ := C22_nodes (E := { E with same := false }) hd h0 hin hs hp
    exact ⟨h1, h2, fun v hv => (C22_slices (E := { E with same := false }) hd h0 hin hs v hv).2.2.1,
      C22_unique (E := { E with same := false }) hd h0 hin hs⟩
  | @same k s' hs hc m _ ht hc' =>
    have hp := C22_records (E := { E with same := false }) hd h0 hin hs
    have h0' : s'.mem ≠ [] := fun h => h0 (by rw [h] at hp; exact hp.symm.eq_nil)
    have hin' : ∀ r ∈ s'.mem, InBoxOf E.dom i (E.pos r) := fun r hr => hin r (hp.mem_iff.1 hr)
    have hpend := C59_not_early (E := { E with same := true }) hd h0' hin' ht hc'
    obtain ⟨h1, h2, -⟩ := C22_nodes (E := { E with same := true }) hd h0' hin' ht hpend
    have hlen : ∀ j, (inBox E j s'.mem).length = (inBox E j mem).length := fun j => (inBox_perm hp).length_eq
    refine ⟨fun p hp8 => ?_, h2, fun v hv => ?_, C22_unique (E := { E with same := true }) hd h0' hin' ht⟩
    · have := h1 p hp8
      change (_ ↔ 1 ≤ (inBox E (below i p) s'.mem).length ∧ ∀ q, q <+: p → q ≠ p → E.threshold < (inBox E (below i q) s'.mem).length) at this
      simpa only [hlen] using this
    · exact (C22_slices (E := { E with same := true }) hd h0' hin' ht v hv).2.2.1.trans (inBox_perm hp)

variable [FloorRing K] {E : Env K R} {unif root : Nat} {P : List R} {C : Construction R}

section
variable (hC : C.Ok E unif root P) (hd : 0 < E.dom.size) (hin : ∀ x ∈ P, InDomain E.dom (E.pos x))
include hC hd hin

theorem cell_box {q : List Nat} (hq : Oct8 q) (hl : q.length = unif) : ∀ x ∈ C.mem q, InBoxOf E.dom (place q) (E.pos x) := by
  intro x hx
  have := List.mem_filter.1 ((hC.arrive q hq hl).mem_iff.1 hx)
  exact (gid_box hd hq hl (hin x this.1)).1 (by simpa using this.2)

theorem cell_inBox {q : List Nat} (hq : Oct8 q) (hl : q.length = unif) {p : List Nat} (hp : Oct8 p) :
    (inBox E (below (place q) p) (C.mem q)).Perm (inBox E (below (place q) p) P) := by
  refine (inBox_perm (hC.arrive q hq hl)).trans ?_
  unfold inBox
  rw [List.filter_filter]
  refine List.Perm.of_eq (List.filter_congr ?_)
  intro x hx
  by_cases h : InBoxOf E.dom (below (place q) p) (E.pos x)
  · simp [h, (gid_box hd hq hl (hin x hx)).2 (below_box hd p _ hp h)]
  · simp [h]

theorem cell_count {q : List Nat} (hq : Oct8 q) (hl : q.length = unif) : (C.mem q).length = (inBox E (place q) P).length := by
  have := (cell_inBox hC hd hin hq hl (p := []) (by simp [Oct8])).length_eq
  rw [show below (place q) [] = place q from rfl] at this
  rw [← this]
  unfold inBox
  rw [List.filter_eq_self.2]
  intro x hx
  simpa using cell_box hC hd hin hq hl x hx

theorem alive_count : ∀ q, Oct8 q → q.length ≤ unif → (Alive unif C.counts q ↔ 1 ≤ (inBox E (place q) P).length) := by
  intro q hq hl
  constructor
  · rintro ⟨e, he, h1, h2⟩
    have hqe : Oct8 (q ++ e) := fun c hc => (List.mem_append.1 hc).elim (hq c) (he c)
    rw [hC.counted _ hqe h1, cell_count hC hd hin hqe h1] at h2
    obtain ⟨x, hx⟩ := List.exists_mem_of_length_pos h2
    obtain ⟨x1, x2⟩ := mem_inBox.1 hx
    rw [place_append] at x2
    exact List.length_pos_of_mem (mem_inBox.2 ⟨x1, below_box hd e _ he x2⟩)
  · intro h
    obtain ⟨x, hx⟩ := List.exists_mem_of_length_pos h
    obtain ⟨x1, x2⟩ := mem_inBox.1 hx
    obtain ⟨n, hn⟩ : ∃ n, q.length + n = unif := ⟨unif - q.length, by omega⟩
    clear hx h
    induction n generalizing q with
    | zero =>
      refine ⟨[], by simp [Oct8], by simpa using hn, ?_⟩
      rw [List.append_nil, hC.counted q hq (by simpa using hn), cell_count hC hd hin hq (by simpa using hn)]
      exact List.length_pos_of_mem (mem_inBox.2 ⟨x1, x2⟩)
    | succ n ih =>
      obtain ⟨j, hj⟩ := some_child x2
      rw [← place_snoc] at hj
      exact (alive_inner (by omega)).2 ⟨j, j.isLt, ih (q ++ [j.val]) (hq.snoc j.isLt) (by simp; omega) hj (by simp; omega)⟩

theorem mem_ne_nil {q : List Nat} (hq : Oct8 q) (hl : q.length = unif) (h : 1 ≤ (inBox E (place q) P).length) : C.mem q ≠ [] := by
  intro e
  rw [← cell_count hC hd hin hq hl, e] at h
  simp at h

/-- The tree on a rank. -/
theorem construction_built (hu : 1 ≤ unif) {hold : Index → List R} (hH : C.Holds unif hold) {np : Nat → Nat}
    (hnp : ∀ b, root ≤ b → b < root + nTop unif → np b = 0) :
    ∃ H' s, pruneTopnodes root unif np C.counts C.after = some H' ∧ Copy H' root ⟨Index.root, s⟩ ∧
      Built E unif P s hold := by
  obtain ⟨hS, hI⟩ := intact_shape hu hC.top
  obtain ⟨H', h1, h2, h3, h4⟩ := prune_shape (np := np) (counts := C.counts) hu (fun q hq hl => by
    have := topAddr_inner (r := root) hq hl
    exact hnp _ this.1 (by rw [nTop_eq hu]; exact this.2)) hS
  have hA := alive_count hC hd hin
  have hnodes : ∀ q, Oct8 q → q.length = unif → 1 ≤ (inBox E (place q) P).length → ∀ p, Oct8 p →
      ((∃ v ∈ (C.run q).nodes, v.idx = below (place q) p) ↔ 1 ≤ (inBox E (place (q ++ p)) P).length ∧
        ∀ q', q' <+: p → q' ≠ p → E.threshold < (inBox E (place (q ++ q')) P).length) := by
    intro q hq hl h1 p hp
    have hne := mem_ne_nil hC hd hin hq hl h1
    rw [((hC.done q hq hl hne).facts hd hne (cell_box hC hd hin hq hl)).1 p hp, place_append,
      (cell_inBox hC hd hin hq hl hp).length_eq]
    refine and_congr Iff.rfl (forall_congr' fun q' => forall_congr' fun hpre => ?_)
    rw [(cell_inBox hC hd hin hq hl (p := q') (fun c hc => hp c (hpre.subset hc))).length_eq, place_append]
  have htree : TreeOver (fun i => (inBox E i P).length) unif E.threshold (kidsAt unif C.counts C.branch unif []) := by
    intro p hp
    have := kids_tree (u := unif) (thr := E.threshold) (counts := C.counts) (branch := C.branch)
      (cnt := fun i => (inBox E i P).length) hA (fun i j hj h => by
        obtain ⟨x, hx⟩ := List.exists_mem_of_length_pos h
        obtain ⟨x1, x2⟩ := mem_inBox.1 hx
        exact List.length_pos_of_mem (mem_inBox.2 ⟨x1, parent_box hd hj x2⟩)) (fun q hq hl h1 p hp => by
        rw [hC.shape q hq hl (mem_ne_nil hC hd hin hq hl h1) p hp, hnodes q hq hl h1 p hp]) unif [] (by simp [Oct8]) (by simp)
        (fun h => by omega) p hp
    simp only [List.nil_append] at this
    exact this
  have hsl : ∀ p m, TPath ⟨Index.root, kidsAt unif C.counts C.branch unif []⟩ p m → unif ≤ p.length →
      ∃ q p2, p = q ++ p2 ∧ Oct8 q ∧ q.length = unif ∧ C.mem q ≠ [] ∧ ∃ v ∈ (C.run q).nodes, v.idx = m.ix ∧ m.ix = place p := by
    intro p m hpm hlen
    obtain ⟨-, hix, hp⟩ := tpath_under hpm
    have hix' : m.ix = place p := hix
    have hq : Oct8 (p.take unif) := fun c hc => hp c (List.mem_of_mem_take hc)
    have hql : (p.take unif).length = unif := by simp; omega
    have hcat : p.take unif ++ p.drop unif = p := List.take_append_drop _ _
    have hp2 : Oct8 (p.drop unif) := fun c hc => hp c (List.mem_of_mem_drop hc)
    rcases (htree p hp).1 ⟨m, hpm⟩ with h0 | ⟨g1, g2⟩
    · subst h0; simp at hlen; omega
    · have hone : 1 ≤ (inBox E (place (p.take unif)) P).length := by
        obtain ⟨x, hx⟩ := List.exists_mem_of_length_pos g1
        obtain ⟨x1, x2⟩ := mem_inBox.1 hx
        rw [← hcat, place_append] at x2
        exact List.length_pos_of_mem (mem_inBox.2 ⟨x1, below_box hd _ _ hp2 x2⟩)
      obtain ⟨v, hv, hvi⟩ := (hnodes _ hq hql hone _ hp2).2 ⟨by rw [hcat]; exact g1, fun q' hpre hne => by
        refine g2 _ ?_ ?_ (by simp; omega)
        · conv_rhs => rw [← hcat]
          exact (List.prefix_append_right_inj _).2 hpre
        · intro e
          apply hne
          conv_rhs at e => rw [← hcat]
          exact List.append_cancel_left e⟩
      rw [← place_append, hcat] at hvi
      exact ⟨_, _, hcat.symm, hq, hql, mem_ne_nil hC hd hin hq hql hone, v, hv, by rw [hvi, hix'], hix'⟩
  refine ⟨H', kidsAt unif C.counts C.branch unif [], h1, ?_, htree, ?_, ?_, ?_⟩
  · have hI' : ∀ p, Oct8 p → p.length ≤ unif → (H' (topAddr root unif p)).idx = place p ∧ (H' (topAddr root unif p)).dagIdx = place p := by
      intro p hp hl
      rw [(h4 _).1, (h4 _).2]
      exact ⟨(hI p hp hl).1, (hI p hp hl).2.1⟩
    have := kids_copy (branch := C.branch) h2 hI' (fun q hq hl ha => by
      have hne := mem_ne_nil hC hd hin hq hl ((hA q hq (by omega)).1 ha)
      rw [topAddr_full hl, ← nTop_eq hu]
      refine Copy.congr (hC.copy q hq hl hne) fun p b hb => h3 b fun p' hp' hl' e => ?_
      have := topAddr_inner (r := root) hp' hl'
      refine hC.apart q hq hl hne p b hb ⟨by rw [e]; exact this.1, by rw [e, nTop_eq hu]; exact this.2⟩) unif [] (by simp [Oct8]) (by simp)
      (fun h => by omega)
    rw [topAddr_nil hu] at this
    exact this
  · intro p m hpm hlen
    obtain ⟨q, p2, rfl, hq, hql, hne, v, hv, e1, e2⟩ := hsl p m hpm hlen
    rw [← e1, hH.slices q hq hql hne v hv]
    refine (((hC.done q hq hql hne).facts hd hne (cell_box hC hd hin hq hql)).2.2.1 v hv).trans ?_
    have hp2 : Oct8 p2 := fun c hc => (tpath_under hpm).2.2 c (List.mem_append_right _ hc)
    rw [e1, e2, place_append]
    exact cell_inBox hC hd hin hq hql hp2
  · intro i hi
    refine hH.other i fun q hq hql hne v hv e => ?_
    obtain ⟨p, hp, he⟩ := ((hC.done q hq hql hne).facts hd hne (cell_box hC hd hin hq hql)).2.1 v hv
    rw [← e, he, below_level _ p hp, place_level q hq] at hi
    omega
  · intro i hi
    refine hH.other i fun q hq hql hne v hv e => ?_
    obtain ⟨p, hp, he⟩ := ((hC.done q hq hql hne).facts hd hne (cell_box hC hd hin hq hql)).2.1 v hv
    have hone : 1 ≤ (inBox E (place q) P).length := by
      rw [← cell_count hC hd hin hq hql]; exact List.length_pos_iff.2 hne
    obtain ⟨g1, g2⟩ := (hnodes q hq hql hone p hp).1 ⟨v, hv, he⟩
    have hqp : Oct8 (q ++ p) := fun c hc => (List.mem_append.1 hc).elim (hq c) (hp c)
    obtain ⟨m, hm⟩ := (htree (q ++ p) hqp).2 (.inr ⟨g1, fun q' hpre hne' hl => by
      obtain ⟨l, rfl⟩ : ∃ l, q' = q ++ l := by
        obtain ⟨l, hl'⟩ := List.prefix_of_prefix_length_le (List.prefix_append q p) hpre (by omega)
        exact ⟨l, hl'.symm⟩
      exact g2 l ((List.prefix_append_right_inj _).1 hpre) (fun e => hne' (by rw [e]))⟩)
    refine hi _ m hm ?_
    rw [← e, he, ← place_append]
    exact (tpath_under hm).2.1
end
end

end Dashmm
