import Verif.Proofs.EndRecv

/-!
The tree of a set of points, from the paths to the leaves of the points.
-/

namespace Dashmm

open Build Branch
open Grid (InBoxOf)

variable {K : Type} [Field K] [LinearOrder K] [IsStrictOrderedRing K] {R : Type}

/-- A tree is given by its paths. -/
theorem oct_ext : ∀ (s s' : Fin 8 → Oct) (i i' : Index),
    (∀ p, (∃ m, TPath ⟨i, s⟩ p m) ↔ ∃ m, TPath ⟨i', s'⟩ p m) → s = s' := by
  have key : ∀ (o : Oct) (s s' : Fin 8 → Oct) (i i' : Index), o = .node s →
      (∀ p, (∃ m, TPath ⟨i, s⟩ p m) ↔ ∃ m, TPath ⟨i', s'⟩ p m) → s = s' := by
    intro o
    induction o with
    | nil => intro s s' i i' h; cases h
    | node c ih =>
      rintro s s' i i' h hp
      cases h
      funext j
      have h1 := hp [j.val]
      have e : ∀ (i : Index) (s : Fin 8 → Oct) (p : List Nat), (∃ m, TPath ⟨i, s⟩ (j.val :: p) m) ↔
          ∃ c, s j = .node c ∧ ∃ m, TPath ⟨i.child j, c⟩ p m := by
        intro i s p
        constructor
        · rintro ⟨m, hm⟩
          generalize hl : j.val :: p = l at hm
          cases hm with
          | refl => cases hl
          | step j' hj h =>
            obtain ⟨e1, e2⟩ := List.cons.inj hl
            obtain rfl := Fin.ext e1
            subst e2
            exact ⟨_, hj, _, h⟩
        · rintro ⟨c, hc, m, hm⟩
          exact ⟨m, .step j hc hm⟩
      have e' := fun p => (e i c p).symm.trans ((hp (j.val :: p)).trans (e i' s' p))
      cases h2 : c j with
      | nil =>
        cases h3 : s' j with
        | nil => rfl
        | node d =>
          have := (e' []).2 ⟨d, h3, _, .refl _⟩
          obtain ⟨_, h, _⟩ := this
          rw [h2] at h; cases h
      | node d =>
        obtain ⟨d', h3, -⟩ := (e' []).1 ⟨d, h2, _, .refl _⟩
        rw [h3]
        congr 1
        refine ih j d d' (i.child j) (i'.child j) h2 fun p => ?_
        have := e' p
        rw [h2, h3] at this
        simpa using this
  intro s s' i i' h
  exact key _ s s' i i' rfl h

/-- Of two boxes with the same point one is inside the other. -/
theorem box_compare {d : Domain K} (hs : 0 < d.size) {x : Point K} : ∀ (p q : List Nat) (i : Index), Oct8 p → Oct8 q →
    InBoxOf d (below i p) x → InBoxOf d (below i q) x → p <+: q ∨ q <+: p := by
  intro p
  induction p with
  | nil => intro q i _ _ _ _; exact .inl (List.nil_prefix)
  | cons a p ih =>
    intro q i hp hq h1 h2
    cases q with
    | nil => exact .inr (List.nil_prefix)
    | cons b q =>
      have ha : a < 8 := hp a (.head _)
      have hb : b < 8 := hq b (.head _)
      have hp' : Oct8 p := fun c hc => hp c (.tail _ hc)
      have hq' : Oct8 q := fun c hc => hq c (.tail _ hc)
      have e1 : InBoxOf d (i.child a) x := below_box hs p _ hp' h1
      have e2 : InBoxOf d (i.child b) x := below_box hs q _ hq' h2
      obtain rfl := sibling_box hs ha hb e1 e2
      rcases ih q (i.child a) hp' hq' h1 h2 with h | h
      · exact .inl (List.cons_prefix_cons.2 ⟨rfl, h⟩)
      · exact .inr (List.cons_prefix_cons.2 ⟨rfl, h⟩)

/-- The tree over records is the union of the paths to their leaves. -/
theorem treeOver_iff {E : Env K R} (hs : 0 < E.dom.size) {unif : Nat} {P : List R} {s : Fin 8 → Oct} (d : R → List Nat)
    (h8 : ∀ x ∈ P, Oct8 (d x)) (hbox : ∀ x ∈ P, InBoxOf E.dom (place (d x)) (E.pos x)) (hu : ∀ x ∈ P, unif ≤ (d x).length)
    (hle : ∀ x ∈ P, (inBox E (place (d x)) P).length ≤ E.threshold)
    (hgt : ∀ x ∈ P, ∀ q, q <+: d x → q ≠ d x → unif ≤ q.length → E.threshold < (inBox E (place q) P).length) :
    TreeOver (fun i => (inBox E i P).length) unif E.threshold s ↔
      ∀ p, Oct8 p → ((∃ m, TPath ⟨Index.root, s⟩ p m) ↔ p = [] ∨ ∃ x ∈ P, p <+: d x) := by
  refine forall_congr' fun p => forall_congr' fun hp => ?_
  have : (p = [] ∨ (1 ≤ (inBox E (place p) P).length ∧
      ∀ q, q <+: p → q ≠ p → unif ≤ q.length → E.threshold < (inBox E (place q) P).length)) ↔ p = [] ∨ ∃ x ∈ P, p <+: d x := by
    refine or_congr Iff.rfl ⟨?_, ?_⟩
    · rintro ⟨h1, h2⟩
      obtain ⟨x, hx⟩ := List.exists_mem_of_length_pos h1
      obtain ⟨hx, hb⟩ := List.mem_filter.1 hx
      have hb : InBoxOf E.dom (place p) (E.pos x) := by simpa using hb
      refine ⟨x, hx, ?_⟩
      rcases box_compare hs p (d x) Index.root hp (h8 x hx) hb (hbox x hx) with h | h
      · exact h
      · by_cases e : d x = p
        · rw [e]
        · have := h2 _ h e (hu x hx)
          have := hle x hx
          omega
    · rintro ⟨x, hx, hpx⟩
      have hb : InBoxOf E.dom (place p) (E.pos x) := by
        obtain ⟨e, he⟩ := hpx
        have := hbox x hx
        rw [← he, place_append] at this
        exact below_box hs e _ (fun c hc => h8 x hx c (by rw [← he]; exact List.mem_append.2 (.inr hc))) this
      refine ⟨List.length_pos_of_mem (a := x) (List.mem_filter.2 ⟨hx, by simpa using hb⟩), ?_⟩
      intro q hq hne hl
      refine hgt x hx q (hq.trans hpx) ?_ hl
      rintro rfl
      exact hne (hq.eq_of_length_le hpx.length_le)
  rw [this]

/-- Paths to the leaves of a tree. -/
def leafPaths : Oct → List (List Nat)
  | .nil => []
  | .node c =>
    let l := (List.finRange 8).flatMap fun j => (leafPaths (c j)).map (j.val :: ·)
    if l.isEmpty then [[]] else l

theorem leafPaths_ne (c : Fin 8 → Oct) : ∃ l, l ∈ leafPaths (.node c) := by
  rw [leafPaths]
  split
  · exact ⟨[], .head _⟩
  · rename_i h
    exact List.exists_mem_of_ne_nil _ fun e => h (by simp [e])

/-- The paths of a tree are the beginnings of the paths to its leaves. -/
theorem tpath_iff_leaf : ∀ (o : Oct) (s : Fin 8 → Oct), o = .node s → ∀ (i : Index) (p : List Nat),
    (∃ m, TPath ⟨i, s⟩ p m) ↔ ∃ l ∈ leafPaths (.node s), p <+: l := by
  intro o
  induction o with
  | nil => intro s h; cases h
  | node c ih =>
    rintro s h i p
    cases h
    constructor
    · rintro ⟨m, hm⟩
      cases hm with
      | refl =>
        obtain ⟨l, hl⟩ := leafPaths_ne c
        exact ⟨l, hl, List.nil_prefix⟩
      | @step _ _ p d j hj h =>
        have hj' : c j = .node d := hj
        obtain ⟨l, hl, hp⟩ := (ih j d hj' _ p).1 ⟨m, h⟩
        have hmem : j.val :: l ∈ (List.finRange 8).flatMap fun j => (leafPaths (c j)).map (j.val :: ·) :=
          List.mem_flatMap.2 ⟨j, List.mem_finRange _, List.mem_map.2 ⟨l, by rw [hj']; exact hl, rfl⟩⟩
        refine ⟨j.val :: l, ?_, List.cons_prefix_cons.2 ⟨rfl, hp⟩⟩
        rw [leafPaths]
        split
        · rename_i h0
          rw [List.isEmpty_iff.1 h0] at hmem
          cases hmem
        · exact hmem
    · rintro ⟨l, hl, hp⟩
      cases p with
      | nil => exact ⟨_, .refl _⟩
      | cons a p =>
        rw [leafPaths] at hl
        split at hl
        · simp only [List.mem_singleton] at hl
          subst hl
          simp at hp
        · obtain ⟨j, -, hl⟩ := List.mem_flatMap.1 hl
          obtain ⟨l', hl', rfl⟩ := List.mem_map.1 hl
          obtain ⟨rfl, hp'⟩ := List.cons_prefix_cons.1 hp
          cases hc : c j with
          | nil => rw [hc] at hl'; cases hl'
          | node d =>
            rw [hc] at hl'
            obtain ⟨m, hm⟩ := (ih j d hc (i.child j) p).2 ⟨l', hl', hp'⟩
            exact ⟨m, .step j hc hm⟩

/-- The tree over records, from the paths to their leaves. -/
theorem Built.eq_of {E : Env K R} (hs : 0 < E.dom.size) {unif : Nat} {P : List R} {s s' : Fin 8 → Oct} {hold : Index → List R}
    (hB : Built E unif P s hold) (d : R → List Nat)
    (h8 : ∀ x ∈ P, Oct8 (d x)) (hbox : ∀ x ∈ P, InBoxOf E.dom (place (d x)) (E.pos x)) (hu : ∀ x ∈ P, unif ≤ (d x).length)
    (hle : ∀ x ∈ P, (inBox E (place (d x)) P).length ≤ E.threshold)
    (hgt : ∀ x ∈ P, ∀ q, q <+: d x → q ≠ d x → unif ≤ q.length → E.threshold < (inBox E (place q) P).length)
    (hs' : ∀ l, l ∈ leafPaths (.node s') ↔ ∃ x ∈ P, l = d x) : s = s' := by
  refine oct_ext s s' Index.root Index.root fun p => ?_
  rw [tpath_iff_leaf _ s' rfl]
  have h := (treeOver_iff hs d h8 hbox hu hle hgt).1 hB.tree
  constructor
  · rintro ⟨m, hm⟩
    rcases (h p (tpath_under hm).2.2).1 ⟨m, hm⟩ with rfl | ⟨x, hx, hp⟩
    · obtain ⟨l, hl⟩ := leafPaths_ne s'
      exact ⟨l, hl, List.nil_prefix⟩
    · exact ⟨d x, (hs' _).2 ⟨x, hx, rfl⟩, hp⟩
  · rintro ⟨l, hl, hp⟩
    obtain ⟨x, hx, rfl⟩ := (hs' l).1 hl
    refine (h p fun c hc => h8 x hx c (hp.subset hc)).2 (.inr ⟨x, hx, hp⟩)

end Dashmm
