import Verif.Spec.EndToEnd
import Verif.Proofs.Inputs
import Verif.Proofs.BuildTree
import Verif.Proofs.MergeShift
import Verif.Proofs.Prune

/-! Helper lemmas: in a tree that was built from records, the leaves, and the target nodes where a method stops, hold every record
once. -/

namespace Dashmm

open Build Branch
open Grid (InBoxOf parent_of_path)

theorem tpath_under {n m : TNode} {p : List Nat} (h : TPath n p m) : Under n m ∧ m.ix = p.foldl Index.child n.ix ∧ Oct8 p := by
  induction h with
  | refl n => exact ⟨.refl _, rfl, by intro c hc; simp at hc⟩
  | @step n m p c j hj h ih =>
    refine ⟨.down (mem_kids.2 ⟨j, hj, rfl⟩) ih.1, by simpa using ih.2.1, ?_⟩
    intro x hx
    rcases List.mem_cons.1 hx with rfl | hx
    · exact j.isLt
    · exact ih.2.2 x hx

theorem under_tpath {n m : TNode} (h : Under n m) : ∃ p, TPath n p m := by
  induction h with
  | refl n => exact ⟨[], .refl _⟩
  | @down n k m hk _ ih =>
    obtain ⟨p, hp⟩ := ih
    obtain ⟨j, h1, h2⟩ := mem_kids.1 hk
    refine ⟨j.val :: p, .step j h1 ?_⟩
    rw [← h2]; exact hp

theorem tpath_snoc {n m : TNode} {p : List Nat} (h : TPath n p m) (j : Fin 8) :
    (∃ k, TPath n (p ++ [j.val]) k) ↔ m.c j ≠ .nil := by
  induction h with
  | refl n =>
    constructor
    · rintro ⟨k, hk⟩
      generalize hl : [] ++ [j.val] = l at hk
      cases hk with
      | refl => simp at hl
      | step i hi _ =>
        intro h0
        simp only [List.nil_append, List.cons.injEq] at hl
        have : j = i := Fin.ext hl.1
        subst this
        rw [h0] at hi; cases hi
    · intro h
      cases hc : n.c j with
      | nil => exact absurd hc h
      | node c => exact ⟨_, .step j hc (.refl _)⟩
  | @step n m p c i hi h ih =>
    rw [← ih]
    constructor
    · rintro ⟨k, hk⟩
      generalize hl : (i.val :: p) ++ [j.val] = l at hk
      cases hk with
      | refl => simp at hl
      | @step _ _ p' c' i' hi' h' =>
        simp only [List.cons_append, List.cons.injEq] at hl
        obtain ⟨e1, e2⟩ := hl
        have : i = i' := Fin.ext e1
        subst this
        rw [hi] at hi'
        cases hi'
        rw [e2]; exact ⟨k, h'⟩
    · rintro ⟨k, hk⟩; exact ⟨k, .step i hi hk⟩

section
variable {K : Type} [Field K] [LinearOrder K] [IsStrictOrderedRing K] {R : Type}

open Classical in
theorem some_child {d : Domain K} {i : Index} {p : Point K} (hp : InBoxOf d i p) :
    ∃ c : Fin 8, InBoxOf d (i.child c) p := by
  set m := center d i with hm
  set bx := if p.x < m.x then 0 else 1 with hbx
  set by' := if p.y < m.y then 0 else 1 with hby
  set bz := if p.z < m.z then 0 else 1 with hbz
  have h1 : bx < 2 := by rw [hbx]; split <;> omega
  have h2 : by' < 2 := by rw [hby]; split <;> omega
  have h3 : bz < 2 := by rw [hbz]; split <;> omega
  refine ⟨⟨bx + 2 * by' + 4 * bz, by omega⟩, child_box (by simp; omega) hp ?_⟩
  have e1 : (bx + 2 * by' + 4 * bz) % 2 = bx := by omega
  have e2 : (bx + 2 * by' + 4 * bz) / 2 % 2 = by' := by omega
  have e3 : (bx + 2 * by' + 4 * bz) / 4 % 2 = bz := by omega
  unfold Octant
  simp only [e1, e2, e3]
  refine ⟨?_, ?_, ?_⟩
  · rw [hbx]; split <;> simp_all [center]
  · rw [hby]; split <;> simp_all [center]
  · rw [hbz]; split <;> simp_all [center]

theorem desc_box {d : Domain K} (hs : 0 < d.size) {a b : TNode} (h : Under a b) {p : Point K}
    (hp : InBoxOf d b.ix p) : InBoxOf d a.ix p := by
  induction h with
  | refl => exact hp
  | down hk _ ih =>
    obtain ⟨j, -, h2⟩ := mem_kids.1 hk
    have := ih hp
    rw [h2] at this
    exact parent_box hs j.isLt this

section built
variable {E : Env K R} {unif : Nat} {P : List R} {s : Fin 8 → Oct} {hold : Index → List R}

/-- A node above a record that has any child, or is above the uniform level, has the child with the record. -/
theorem Built.kid (hB : Built E unif P s hold) {n : TNode}
    (hn : Under (rootNode s) n) {x : R} (hx : x ∈ P) (hb : InBoxOf E.dom n.ix (E.pos x))
    (hl : n.isLeaf = false ∨ n.ix.level < unif) : ∃ k ∈ n.kids, InBoxOf E.dom k.ix (E.pos x) := by
  obtain ⟨p, hp⟩ := under_tpath hn
  obtain ⟨-, hix, h8⟩ := tpath_under hp
  obtain ⟨j, hj⟩ := some_child hb
  have hlev : n.ix.level = p.length := by
    rw [hix, (parent_of_path _ p h8).2]; simp [rootNode, Index.root]
  have hpl : place p = n.ix := by rw [hix]; rfl
  have hone : ∀ i, InBoxOf E.dom i (E.pos x) → 1 ≤ (inBox E i P).length := fun i hi =>
    List.length_pos_of_mem (mem_inBox.2 ⟨hx, hi⟩)
  have hbelow : unif ≤ p.length → E.threshold < (inBox E n.ix P).length := by
    intro hu
    rcases hl with hl | hl
    · obtain ⟨k, hk⟩ := kids_exists hl
      obtain ⟨i, h1, h2⟩ := mem_kids.1 hk
      have : ∃ m, TPath ⟨Index.root, s⟩ (p ++ [i.val]) m := (tpath_snoc hp i).2 (by rw [h1]; simp)
      rcases (hB.tree _ (h8.snoc i.isLt)).1 this with h | ⟨-, h⟩
      · simp at h
      · have := h p (List.prefix_append _ _) (by simp) hu
        rwa [hpl] at this
    · omega
  have hkid : ∃ m, TPath ⟨Index.root, s⟩ (p ++ [j.val]) m := by
    refine (hB.tree _ (h8.snoc j.isLt)).2 (.inr ⟨hone _ ?_, ?_⟩)
    · simp only [place, List.foldl_append, List.foldl_cons, List.foldl_nil]
      rw [show List.foldl Index.child ⟨0, 0, 0, 0⟩ p = n.ix from hpl]
      exact hj
    · intro q hq hne hu
      rcases prefix_concat hq with h | h
      · by_cases hqp : q = p
        · subst hqp; simp only [hpl]; exact hbelow hu
        · rcases (hB.tree p h8).1 ⟨n, hp⟩ with h0 | ⟨-, h0⟩
          · subst h0; simp at h; exact absurd h hqp
          · exact h0 q h hqp hu
      · exact absurd h hne
  have := (tpath_snoc hp j).1 hkid
  cases hc : n.c j with
  | nil => exact absurd hc this
  | node c => exact ⟨⟨n.ix.child j, c⟩, mem_kids.2 ⟨j, hc, rfl⟩, hj⟩

/-- Below a node with a record there is a leaf with the record, from the uniform level on. -/
theorem Built.leaf (hB : Built E unif P s hold) {x : R} (hx : x ∈ P) (n : TNode) : Under (rootNode s) n →
    InBoxOf E.dom n.ix (E.pos x) → ∃ i, Under n i ∧ i.isLeaf = true ∧ unif ≤ i.ix.level ∧ InBoxOf E.dom i.ix (E.pos x) := by
  induction n using tnode_induction with
  | h n ih =>
    intro hn hb
    by_cases h : n.isLeaf = false ∨ n.ix.level < unif
    · obtain ⟨k, hk, hkb⟩ := hB.kid hn hx hb h
      obtain ⟨i, h1, h2⟩ := ih k hk (hn.kid hk) hkb
      exact ⟨i, .down hk h1, h2⟩
    · push Not at h
      exact ⟨n, .refl _, by simpa using h.1, h.2, hb⟩

theorem leaf_unique (hd : 0 < E.dom.size) {x : Point K} : ∀ n : TNode, ∀ i j, Under n i → Under n j → i.isLeaf = true → j.isLeaf = true →
    InBoxOf E.dom i.ix x → InBoxOf E.dom j.ix x → i = j := by
  intro n
  induction n using tnode_induction with
  | h n ih =>
    intro i j hi hj li lj bi bj
    cases hi with
    | refl =>
      cases hj with
      | refl => rfl
      | down hk _ => rw [Under.not_leaf hk] at li; simp at li
    | @down _ k _ hk hki =>
      cases hj with
      | refl => rw [Under.not_leaf hk] at lj; simp at lj
      | @down _ k' _ hk' hkj =>
        have e1 := desc_box hd hki bi
        have e2 := desc_box hd hkj bj
        obtain ⟨a, a1, a2⟩ := mem_kids.1 hk
        obtain ⟨b, b1, b2⟩ := mem_kids.1 hk'
        rw [a2] at e1; rw [b2] at e2
        have hab : a = b := Fin.ext (sibling_box hd a.isLt b.isLt e1 e2)
        subst hab
        have : k = k' := by
          cases k; cases k'
          simp only at *
          rw [a1] at b1
          cases b1
          rw [a2, b2]
        subst this
        exact ih k hk i j hki hkj li lj bi bj

theorem sum_one {ι : Type*} [DecidableEq ι] {l : List ι} {v : Nat} {i : ι} (hn : l.Nodup) (hi : i ∈ l) :
    (l.map fun j => if j = i then v else 0).sum = v := by
  induction l with
  | nil => simp at hi
  | cons a l ih =>
    rw [List.nodup_cons] at hn
    rw [List.map_cons, List.sum_cons]
    rcases List.mem_cons.1 hi with rfl | h
    · rw [if_pos rfl, List.sum_eq_zero, Nat.add_zero]
      intro y hy
      obtain ⟨j, hj, rfl⟩ := List.mem_map.1 hy
      exact if_neg fun e => hn.1 (by rw [← e]; exact hj)
    · rw [if_neg (fun e => hn.1 (by rw [e]; exact h)), ih hn.2 h, Nat.zero_add]

/-- Records filtered by predicates of which exactly one holds for each record. -/
theorem perm_filters {ι : Type*} [DecidableEq ι] (l : List ι) (P : List R) (p : ι → R → Prop) [∀ i, DecidablePred (p i)] (hn : l.Nodup)
    (h : ∀ x ∈ P, ∃ i ∈ l, p i x ∧ ∀ j ∈ l, p j x → j = i) : (l.flatMap fun i => P.filter fun x => p i x).Perm P := by
  classical
  rw [List.perm_iff_count]
  intro a
  rw [List.count_flatMap]
  have e : (List.count a ∘ fun i => P.filter fun x => p i x) = fun i => if p i a then P.count a else 0 := by
    funext i
    simp only [Function.comp]
    by_cases hp : p i a
    · rw [if_pos hp, List.count_filter (by simpa using hp)]
    · rw [if_neg hp]
      apply List.count_eq_zero_of_not_mem
      intro hm
      exact hp (by simpa using (List.mem_filter.1 hm).2)
  rw [e]
  by_cases ha : a ∈ P
  · obtain ⟨i, hi, hpi, hu⟩ := h a ha
    have e2 : (l.map fun j => if p j a then P.count a else 0) = l.map fun j => if j = i then P.count a else 0 := by
      apply List.map_congr_left
      intro j hj
      by_cases hji : j = i
      · subst hji; simp [hpi]
      · rw [if_neg hji, if_neg fun hp => hji (hu j hj hp)]
    rw [e2, sum_one hn hi]
  · rw [List.count_eq_zero_of_not_mem ha]
    simp

open Classical in
/-- The leaves hold every record once. -/
theorem Built.leaves_perm (hB : Built E unif P s hold) (hd : 0 < E.dom.size) (hin : ∀ x ∈ P, InBoxOf E.dom Index.root (E.pos x)) :
    ((leaves Index.root (.node s)).flatMap hold).Perm P := by
  have e : ∀ i ∈ leaves Index.root (.node s), (hold i).Perm (P.filter fun x => InBoxOf E.dom i (E.pos x)) := by
    intro i hi
    obtain ⟨n, hn, hl, rfl⟩ := (mem_leaves (n := rootNode s)).1 hi
    obtain ⟨p, hp⟩ := under_tpath hn
    obtain ⟨-, hix, h8⟩ := tpath_under hp
    have hlev : n.ix.level = p.length := by
      rw [hix, (parent_of_path _ p h8).2]; simp [rootNode, Index.root]
    by_cases hu : unif ≤ p.length
    · exact hB.slices p n hp hu
    · rw [hB.top _ (by omega)]
      rw [List.filter_eq_nil_iff.2]
      intro x hx hb
      obtain ⟨k, hk, -⟩ := hB.kid hn hx (by simpa using hb) (.inr (by omega))
      rw [Under.not_leaf hk] at hl; simp at hl
  refine (List.Perm.flatMap (List.Perm.refl _) e).trans (perm_filters _ P (fun i x => InBoxOf E.dom i (E.pos x))
    (leaves_nodup ⟨Index.root, s⟩) ?_)
  intro x hx
  obtain ⟨i, h1, h2, -, h4⟩ := hB.leaf hx (rootNode s) (.refl _) (hin x hx)
  refine ⟨i.ix, mem_leaves.2 ⟨i, h1, h2, rfl⟩, h4, ?_⟩
  intro j hj hb
  obtain ⟨n, hn, hl, rfl⟩ := (mem_leaves (n := rootNode s)).1 hj
  rw [leaf_unique hd (rootNode s) i n h1 hn h2 hl h4 hb]

/-- A node of the tree from the uniform level on holds the records of its box. -/
theorem Built.hold_perm (hB : Built E unif P s hold) {n : TNode} (hn : Under (rootNode s) n) (hu : unif ≤ n.ix.level) :
    (hold n.ix).Perm (inBox E n.ix P) := by
  obtain ⟨p, hp⟩ := under_tpath hn
  obtain ⟨-, hix, h8⟩ := tpath_under hp
  have hlev : n.ix.level = p.length := by
    rw [hix, (parent_of_path _ p h8).2]; simp [rootNode, Index.root]
  exact hB.slices p n hp (by omega)

open Classical in
/-- Nothing but records of the box. -/
theorem Built.hold_box (hB : Built E unif P s hold) {i : Index} {x : R} (hx : x ∈ hold i) :
    x ∈ P ∧ InBoxOf E.dom i (E.pos x) := by
  by_cases h : ∃ p m, TPath ⟨Index.root, s⟩ p m ∧ m.ix = i
  · obtain ⟨p, m, hp, rfl⟩ := h
    have hn := (tpath_under hp).1
    by_cases hu : unif ≤ m.ix.level
    · exact mem_inBox.1 ((hB.hold_perm hn hu).mem_iff.1 hx)
    · rw [hB.top _ (by omega)] at hx; simp at hx
  · push Not at h
    rw [hB.other i h] at hx; simp at hx

end built

/-- The target nodes where the method stops hold every target once. -/
theorem Built.parts_perm {E : Env K R} {unif : Nat} {P : List R} {t : Fin 8 → Oct} {hold : Index → List R}
    (hB : Built E unif P t hold) (hd : 0 < E.dom.size) (hin : ∀ x ∈ P, InBoxOf E.dom Index.root (E.pos x))
    {m : Method} {same : Bool} (hadd : ∀ n p c r, Act.add r ∈ (theVisit m unif same n p c).1 → r.side = .tgt ∧ r.ix = n.ix)
    (hparts : ∀ n p c, Act.addParts .tgt n.ix ∈ (theVisit m unif same n p c).1 ↔ refine m unif same n c = false)
    (hsrc : ∀ n r, Act.add r ∈ ownSrc m n → r.side = .src)
    {s : Fin 8 → Oct} {acts : List Act} (hr : Runs (createProg m unif same s t) acts) (hn : (nodesOf acts).Nodup) :
    (((nodesOf acts).filter fun r => r.side = .tgt ∧ r.kind = .parts).flatMap fun r => hold r.ix).Perm P := by
  classical
  have hmem : ∀ r ∈ nodesOf acts, r.side = .tgt → r.kind = .parts →
      ∃ n, Under (rootNode t) n ∧ n.ix = r.ix ∧ unif ≤ n.ix.level := by
    intro r hra hs hk
    have h : Act.add r ∈ createDag m unif same s t := by
      rw [← (runs_perm hr).mem_iff]
      unfold nodesOf at hra
      obtain ⟨a, ha, hae⟩ := List.mem_filterMap.1 hra
      cases a with
      | link e => simp at hae
      | add r' => simp at hae; subst hae; exact ha
    rcases createDag_mem h with ⟨n, -, ha⟩ | ⟨n, p, c, hv, ha⟩
    · have := hsrc n r ha; rw [hs] at this; cases this
    · have e := (hadd n p c r ha).2
      refine ⟨n, hv.under, e.symm, ?_⟩
      have hp : Act.addParts .tgt n.ix ∈ (theVisit m unif same n p c).1 := by
        obtain ⟨rs, rx, rk⟩ := r
        simp only at e hs hk
        subst e hs hk
        exact ha
      have := (hparts n p c).1 hp
      unfold refine at this
      split at this
      · simp at this
      · omega
  have e : ∀ r ∈ (nodesOf acts).filter fun r => r.side = .tgt ∧ r.kind = .parts,
      (hold r.ix).Perm (P.filter fun x => InBoxOf E.dom r.ix (E.pos x)) := by
    intro r hra
    obtain ⟨h1, h2⟩ := List.mem_filter.1 hra
    have h2' : r.side = .tgt ∧ r.kind = .parts := by simpa using h2
    obtain ⟨n, hu, e, hl⟩ := hmem r h1 h2'.1 h2'.2
    rw [← e]
    exact hB.hold_perm hu hl
  refine (List.Perm.flatMap (List.Perm.refl _) e).trans (perm_filters _ P (fun r x => InBoxOf E.dom r.ix (E.pos x))
    (hn.filter _) ?_)
  intro x hx
  obtain ⟨i, h1, h2, h3, h4⟩ := hB.leaf hx (rootNode t) (.refl _) (hin x hx)
  obtain ⟨r, ⟨r1, r2, r3, r4⟩, hu⟩ := visit_add_ix hadd hparts hsrc hr ((mem_leaves (n := rootNode t)).2 ⟨i, h1, h2, rfl⟩) h3
  have key : ∀ q ∈ nodesOf acts, q.side = .tgt → q.kind = .parts → InBoxOf E.dom q.ix (E.pos x) → InSubtree q.ix i.ix := by
    intro q hq hs hk hb
    obtain ⟨n, hn, e, -⟩ := hmem q hq hs hk
    rw [← e] at hb ⊢
    obtain ⟨j, j1, j2, -, j4⟩ := hB.leaf hx n hn hb
    rw [leaf_unique hd (rootNode t) i j h1 (hn.trans j1) h2 j2 h4 j4]
    exact j1.isDesc
  have hrb : InBoxOf E.dom r.ix (E.pos x) := by
    obtain ⟨n, hn, e, -⟩ := hmem r r1 r2 r3
    obtain ⟨j, j1, j2, j3⟩ := h1.ancestor (l := n.ix.level) (by simp [rootNode, Index.root]) (by rw [e]; exact r4.1)
    have e' : j.ix = r.ix := by
      have := j2.isDesc.2
      rw [j3, e, r4.2] at this
      exact this.symm
    rw [← e']
    exact desc_box hd j2 h4
  refine ⟨r, List.mem_filter.2 ⟨r1, by simp [r2, r3]⟩, hrb, ?_⟩
  intro q hq hb
  obtain ⟨q1, q2⟩ := List.mem_filter.1 hq
  have q2' : q.side = .tgt ∧ q.kind = .parts := by simpa using q2
  exact hu q q1 q2'.1 q2'.2 (key q q1 q2'.1 q2'.2 hb)

end

end Dashmm
