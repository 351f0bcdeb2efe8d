import Verif.Proofs.TreeLedger
namespace Dashmm
namespace RankTree
open Build Branch
set_option linter.unusedSectionVars false
variable {K : Type} [Field K] [LinearOrder K] [IsStrictOrderedRing K] {R : Type}

theorem below_inj (i : Index) : ∀ (n : Nat) (p p' : List Nat), p.length = n → Oct8 p → Oct8 p' → below i p = below i p' → p = p' := by
  intro n
  induction n with
  | zero =>
    intro p p' hn hp hp' h
    have h1 := below_level i p hp
    have h2 := below_level i p' hp'
    rw [h] at h1
    have : p'.length = 0 := by omega
    rw [List.length_eq_zero_iff.1 hn, List.length_eq_zero_iff.1 this]
  | succ n ih =>
    intro p p' hn hp hp' h
    have h1 := below_level i p hp
    have h2 := below_level i p' hp'
    rw [h] at h1
    have hl : p'.length = n + 1 := by omega
    obtain ⟨a, x, rfl⟩ : ∃ a x, p = a ++ [x] := ⟨p.dropLast, p.getLast (List.ne_nil_of_length_pos (by omega)), (List.dropLast_append_getLast _).symm⟩
    obtain ⟨b, y, rfl⟩ : ∃ b y, p' = b ++ [y] := ⟨p'.dropLast, p'.getLast (List.ne_nil_of_length_pos (by omega)), (List.dropLast_append_getLast _).symm⟩
    simp only [below, List.foldl_append, List.foldl_cons, List.foldl_nil] at h
    obtain ⟨e1, e2⟩ := Index.child_inj _ _ x y (hp x (by simp)) (hp' y (by simp)) h
    rw [ih a b (by simpa using hn) (fun c hc => hp c (by simp [hc])) (fun c hc => hp' c (by simp [hc])) e1, e2]

theorem chain_append {H : Heap} {a b c : Nat} {p p' : List Nat} (h : Chain H a p b) (h' : Chain H b p' c) : Chain H a (p ++ p') c := by
  induction h with
  | refl => exact h'
  | step hj hc _ ih => exact .step hj hc (ih h')

theorem chain_local {H : Heap} {a0 : Nat} {i : Index} {st : State R} {adr : Index → Nat} {ow : List Nat} (h : LocalOk H a0 i st adr ow) :
    ∀ {a : Nat} {p : List Nat} {x : Nat}, Chain H a p x → ∀ u ∈ st.nodes, a = adr u.idx →
      Oct8 p ∧ ∃ v ∈ st.nodes, v.idx = below u.idx p ∧ x = adr v.idx := by
  intro a p x hp
  induction hp with
  | refl a => intro u hu e; exact ⟨by intro c hc; simp at hc, u, hu, rfl, e⟩
  | @step a b c j p hj hc _ ih =>
    intro u hu e
    subst e
    obtain ⟨u', hu', hi⟩ : ∃ u' ∈ st.nodes, u'.idx = u.idx.child j := by
      by_contra hno
      push Not at hno
      rw [h.null u hu j hj hno] at hc
      cases hc
    have hk := (h.kid u hu j hj u' hu' hi).1
    rw [hc] at hk
    obtain ⟨g1, v, g2, g3, g4⟩ := ih u' hu' (Option.some.inj hk)
    refine ⟨?_, v, g2, ?_, g4⟩
    · intro z hz
      rcases List.mem_cons.1 hz with rfl | hz
      · exact hj
      · exact g1 z hz
    · rw [g3, hi]; rfl

section
variable {E : Env K R} {C : Cfg R} {s : LWorld R}

/-- The branch of an own cell, as the deletion finds it. -/
theorem own_chains {H : Heap} {a0 : Nat} {q : List Nat} {mem0 : List R} {st : State R} {adr : Index → Nat} {ow : List Nat}
    (h : LocalOk H a0 (place q) st adr ow) (hI : Build.Inv E ⟨place q, 0, mem0.length⟩ mem0 st)
    (hmine : ∀ x ∈ ow, ∃ v ∈ st.nodes, v.idx ≠ place q ∧ adr v.idx = x) :
    (∀ p p' x, Chain H a0 p x → Chain H a0 p' x → p = p') ∧ (∃ n, ∀ p x, Chain H a0 p x → p.length ≤ n) ∧
    {x | ∃ p, p ≠ [] ∧ Chain H a0 p x} = {x | x ∈ ow} := by
  have hroot := hI.hroot
  have hlocal := fun {p x} (hp : Chain H a0 p x) => chain_local h hp _ hroot h.root.symm
  refine ⟨?_, ?_, ?_⟩
  · intro p p' x hp hp'
    obtain ⟨g1, v, g2, g3, g4⟩ := hlocal hp
    obtain ⟨g1', v', g2', g3', g4'⟩ := hlocal hp'
    have := h.inj v g2 v' g2' (g4.symm.trans g4')
    exact below_inj (place q) _ p p' rfl g1 g1' (g3.symm.trans (this.trans g3'))
  · obtain ⟨n, hn⟩ : ∃ n, ∀ v ∈ st.nodes, v.idx.level ≤ n := by
      refine ⟨(st.nodes.map fun v => v.idx.level).sum, fun v hv => ?_⟩
      exact List.single_le_sum (by simp) _ (List.mem_map.2 ⟨v, hv, rfl⟩)
    refine ⟨n, fun p x hp => ?_⟩
    obtain ⟨g1, v, g2, g3, g4⟩ := hlocal hp
    have := hn v g2
    rw [g3, below_level _ p g1] at this
    omega
  · ext x
    constructor
    · rintro ⟨p, hne, hp⟩
      obtain ⟨g1, v, g2, g3, g4⟩ := hlocal hp
      show x ∈ ow
      rw [g4]
      refine h.low v g2 fun e => hne ?_
      refine below_inj (place q) _ p [] rfl g1 (by intro c hc; simp at hc) ?_
      exact g3.symm.trans e
    · intro hx
      obtain ⟨v, g1, g2, g3⟩ := hmine x hx
      have key : ∀ n, ∀ u ∈ st.nodes, u.idx.level ≤ n → ∃ p, Chain H a0 p (adr u.idx) := by
        intro n
        induction n with
        | zero =>
          intro u hu hl
          rcases hI.up u hu with rfl | ⟨v, hv, j, hj, e⟩
          · exact ⟨[], by rw [h.root]; exact .refl _⟩
          · rw [e, child_level hj] at hl; omega
        | succ n ih =>
          intro u hu hl
          rcases hI.up u hu with rfl | ⟨v, hv, j, hj, e⟩
          · exact ⟨[], by rw [h.root]; exact .refl _⟩
          · have hvn : v ∈ st.nodes := by simp [State.nodes, hv]
            obtain ⟨p, hp⟩ := ih v hvn (by rw [e, child_level hj] at hl; omega)
            exact ⟨p ++ [j], chain_append hp (.step hj (h.kid v hvn j hj u hu e).1 (.refl _))⟩
      obtain ⟨p, hp⟩ := key _ v g1 (le_refl _)
      refine ⟨p, ?_, g3 ▸ hp⟩
      rintro rfl
      obtain ⟨-, v', g2', g3', g4'⟩ := hlocal hp
      exact g2 ((h.inj v g1 v' g2' g4').trans g3')

/-- A cell without records or one whose branch has no nodes. -/
theorem no_chains {H : Heap} {a : Nat} (h : ∀ j, (H a).child j = none) :
    (∀ p p' x, Chain H a p x → Chain H a p' x → p = p') ∧ (∃ n, ∀ p x, Chain H a p x → p.length ≤ n) ∧
    {x | ∃ p, p ≠ [] ∧ Chain H a p x} = {x | x ∈ ([] : List Nat)} := by
  have key : ∀ p x, Chain H a p x → p = [] := by
    intro p x hp
    cases hp with
    | refl => rfl
    | step _ hc _ => rw [h] at hc; cases hc
  refine ⟨fun p p' x hp hp' => by rw [key p x hp, key p' x hp'], ⟨0, fun p x hp => by simp [key p x hp]⟩, ?_⟩
  ext x
  simp only [Set.mem_ofPred_eq, List.not_mem_nil, iff_false]
  rintro ⟨p, hne, hp⟩
  exact hne (key p x hp)

variable (hd : 0 < E.dom.size) (hu : 1 ≤ C.unif) (hin : ∀ q, C.IsCell q → ∀ r ∈ C.mem q, Grid.InBoxOf E.dom (place q) (E.pos r))
include hd hu hin

/-- When the completion LCO of the cell has its inputs, those of all nodes below have been deleted. -/
theorem all_forwarded (h : WInv E C s.w) {q : List Nat} (hq : C.IsCell q) (hm : C.mem q ≠ []) (h8 : (s.w.cell q).sets (place q) = 8)
    {u : Cell} (hun : u ∈ (s.w.cell q).nodes) (hne : u.idx ≠ place q) : u.idx ∈ (s.w.cell q).fwd := by
  have hI := h.inv hd hu hin hq hm
  have g := comp_of hd hu hin h hq hm
  rcases hI.up u hun with rfl | ⟨v, hv, j, hj, e⟩
  · exact absurd rfl hne
  · have hvn : v ∈ (s.w.cell q).nodes := by simp [State.nodes, hv]
    have hv8 : ¬ (s.w.cell q).sets v.idx < 8 := fun hlt => by
      have := open_root hI g _ v hvn (le_refl _) hlt
      dsimp only at this
      omega
    have := g.inner v hv
    have hnil : openKids (s.w.cell q).nodes (s.w.cell q).fwd v.idx = [] := List.length_eq_zero_iff.1 (by omega)
    by_contra hf
    have hmem : j ∈ openKids (s.w.cell q).nodes (s.w.cell q).fwd v.idx := by
      unfold openKids
      simp only [List.mem_filter, List.mem_range, decide_eq_true_eq]
      exact ⟨hj, by rw [← e]; exact List.mem_map.2 ⟨u, hun, rfl⟩, by rw [← e]; exact hf⟩
    rw [hnil] at hmem
    simp at hmem

/-- A received branch is without nodes exactly if the cell is a leaf. -/
theorem empty_iff (h : WInv E C s.w) (x : XInv C s.w) {k : Nat} {q : List Nat} (hg : q ∈ s.w.got k) :
    s.w.own k q = [] ↔ (C.mem q).length ≤ E.threshold := by
  obtain ⟨hs, hne, b, hshape, hrem⟩ := h.got k q hg
  obtain ⟨hq, hm, h8⟩ := h.sent q hs
  have hI := h.inv hd hu hin hq hm
  have hpend := h.done hd hin hs
  obtain ⟨base, n, e1, e2⟩ := x.array k q hg
  have h0 : s.w.own k q = [] ↔ n = 0 := by
    rw [e1]; constructor
    · intro e; have := congrArg List.length e; simpa using this
    · rintro rfl; rfl
  have h1 : n = 0 ↔ freed (s.w.heap k) (C.at k q) = none := by
    rw [e2]; split_ifs with e <;> simp [e]
  have h2 : freed (s.w.heap k) (C.at k q) = none ↔ ∀ j < 8, (s.w.heap k (C.at k q)).child j = none := by
    unfold freed
    rw [List.findSome?_eq_none_iff]
    simp
  have h3 : (∀ j < 8, (s.w.heap k (C.at k q)).child j = none) ↔ ∀ j < 8, ∀ u ∈ (s.w.cell q).nodes, u.idx ≠ (place q).child j := by
    have hc := hrem.copy
    cases hc with
    | mk _ _ bb idx null ptr parent dag copy =>
      have hcase : ∀ j : Fin 8, (s.w.heap k (C.at k q)).child j = none ↔ b j = .nil := by
        intro j
        cases hb : b j with
        | nil => simp only [iff_true]; exact null j hb
        | node c => rw [ptr j c hb]; simp
      have hpath : ∀ j : Fin 8, b j = .nil ↔ ∀ u ∈ (s.w.cell q).nodes, u.idx ≠ (place q).child j := by
        intro j
        have := hshape [j.val] (by intro c hc; simp at hc; omega)
        constructor
        · intro hb u hun e
          obtain ⟨m, hm⟩ := this.2 ⟨u, hun, e⟩
          generalize hp : [j.val] = p at hm
          cases hm with
          | refl => simp at hp
          | step j' hj' h' =>
            simp only [List.cons.injEq] at hp
            have e : j = j' := Fin.ext hp.1
            subst e
            exact absurd (hb.symm.trans hj') (by simp)
        · intro hno
          cases hb : b j with
          | nil => rfl
          | node c =>
            obtain ⟨u, hun, e⟩ := this.1 ⟨_, .step j hb (.refl _)⟩
            exact absurd e (hno u hun)
      constructor
      · intro hall j hj
        exact (hpath ⟨j, hj⟩).1 ((hcase ⟨j, hj⟩).1 (hall j hj))
      · intro hall j hj
        exact (hcase ⟨j, hj⟩).2 ((hpath ⟨j, hj⟩).2 (hall j hj))
  rw [h0, h1, h2, h3]
  have hrn := hI.hroot
  constructor
  · intro hno
    simp only [State.nodes, hpend, List.nil_append, List.mem_append] at hrn
    rcases hrn with hl | hl
    · exact hI.small _ hl
    · exfalso
      obtain ⟨c, hc1, hc2⟩ := hI.div _ hl
      have hpos : 1 ≤ (C.mem q).length := List.length_pos_iff.2 hm
      have : ∃ j < 8, (c j).length ≠ 0 := by
        by_contra hall
        push Not at hall
        have : offsetOf c 8 = 0 := by
          simp only [offsetOf, List.sum_eq_zero_iff, List.mem_map, List.mem_range, forall_exists_index, and_imp]
          rintro x j hj rfl
          exact hall j hj
        dsimp only at hc1
        omega
      obtain ⟨j, hj, hne⟩ := this
      obtain ⟨u, hu1, hu2⟩ := (mem_kids_made hd hu hin ⟨place q, 0, (C.mem q).length⟩ c ((place q).child j)).2
        ⟨j, by simp [made, hj, List.length_eq_zero_iff.not.1 hne], rfl⟩
      exact hno j hj u (hc2 u hu1) hu2
  · intro hle j hj u hun e
    rcases hI.up u hun with rfl | ⟨v, hv, i, hi, e'⟩
    · have := congrArg Index.level e
      rw [child_level hj] at this
      dsimp only at this
      omega
    · have hvn : v ∈ (s.w.cell q).nodes := by simp [State.nodes, hv]
      have hvr := (Index.child_inj _ _ i j hi hj (e'.symm.trans e)).1
      have := idx_inj hI hvn hI.hroot hvr
      subst this
      have := hI.large _ hv
      dsimp only at this
      omega

end

/-! ### The loop over the cells -/

theorem fold_groups (f : Nat → Set Obj → Ledger) (G need : Nat → Set Obj) : ∀ (l : List Nat) (L : Set Obj), l.Nodup →
    (∀ id ∈ l, ∀ L, need id ⊆ L → f id L = some (L \ G id)) → (∀ id ∈ l, ∀ id' ∈ l, id ≠ id' → ∀ o ∈ need id, o ∉ G id') →
    (∀ id ∈ l, need id ⊆ L) → l.foldlM (fun L id => f id L) L = some (L \ {o | ∃ id ∈ l, o ∈ G id})
  | [], L, _, _, _, _ => by simp
  | a :: l, L, hl, h1, h2, h3 => by
    rw [List.nodup_cons] at hl
    rw [List.foldlM_cons, h1 a (by simp) L (h3 a (by simp))]
    simp only [Option.bind_eq_bind, Option.bind_some]
    rw [fold_groups f G need l _ hl.2 (fun id hid => h1 id (by simp [hid])) (fun id hid id' hid' => h2 id (by simp [hid]) id' (by simp [hid'])) ?_]
    · congr 1
      ext o
      simp only [Set.mem_sdiff, Set.mem_ofPred_eq, List.mem_cons, exists_eq_or_imp, not_or, and_assoc]
    · intro id hid o ho
      exact ⟨h3 id (by simp [hid]) ho, h2 id (by simp [hid]) a (by simp) (fun e => hl.1 (e ▸ hid)) o ho⟩

theorem readTop_eq {L : Set Obj} (h : Obj.top ∈ L) : readTop L = some L := if_pos h

/-- The objects of an own cell. -/
def ownGroup (id : Nat) (S : Set Nat) : Set Obj := {.lock id, .done id} ∪ nodesAt S

theorem deleteCell_own {H : Heap} {a n : Nat} (h1 : ∀ p p' x, Chain H a p x → Chain H a p' x → p = p')
    (hd : ∀ p x, Chain H a p x → p.length ≤ n) {fuel : Nat} (hf : n ≤ fuel) {id : Nat} {L : Set Obj}
    (hL : {.top} ∪ ownGroup id {x | ∃ p, p ≠ [] ∧ Chain H a p x} ⊆ L) :
    deleteCell H fuel true a id L = some (L \ ownGroup id {x | ∃ p, p ≠ [] ∧ Chain H a p x}) := by
  have htop : Obj.top ∈ L := hL (.inl rfl)
  have hlock : Obj.lock id ∈ L := hL (.inr (.inl (.inl rfl)))
  have hdone : Obj.done id ∈ L := hL (.inr (.inl (.inr rfl)))
  unfold deleteCell
  simp only [readTop_eq htop, Option.bind_eq_bind, Option.bind_some, if_true, dealloc_mem hlock]
  have := destroyKids_eq H a n h1 hd (L \ {Obj.lock id}) (by
    rintro o ho
    refine ⟨hL (.inr (.inr ho)), ?_⟩
    obtain ⟨x, _, rfl⟩ := ho
    simp) fuel hf
  refine Eq.trans (congrArg (fun o => Option.bind o (dealloc (.done id))) this) ?_
  show dealloc _ _ = _
  rw [dealloc_mem]
  · congr 1
    ext o
    simp only [ownGroup, Set.mem_sdiff, Set.mem_union, Set.mem_insert_iff, Set.mem_singleton_iff]
    tauto
  · refine ⟨⟨hdone, by simp⟩, ?_⟩
    rintro ⟨x, _, e⟩
    cases e

/-- The objects of a cell of another rank. -/
def otherGroup (id : Nat) (f : Option Nat) : Set Obj := {.lock id} ∪ {o | ∃ x n, f = some x ∧ o = .array x n}

theorem deleteCell_other {H : Heap} {a : Nat} {fuel : Nat} {id : Nat} {L : Set Obj} (htop : Obj.top ∈ L) (hlock : Obj.lock id ∈ L)
    (hx : ∀ x, freed H a = some x → ∃ n, Obj.array x n ∈ L) :
    deleteCell H fuel false a id L = some (L \ otherGroup id (freed H a)) := by
  unfold deleteCell
  simp only [readTop_eq htop, Option.bind_eq_bind, Option.bind_some, dealloc_mem hlock, Bool.false_eq_true, if_false]
  cases hf : freed H a with
  | none =>
    simp only
    congr 1
    ext o
    simp [otherGroup]
  | some x =>
    obtain ⟨n, hn⟩ := hx x hf
    simp only [deleteArray]
    rw [if_pos ⟨n, hn, by simp⟩]
    congr 1
    ext o
    simp only [otherGroup, Set.mem_sdiff, Set.mem_union, Set.mem_singleton_iff, Set.mem_ofPred_eq, Option.some.injEq]
    constructor
    · rintro ⟨⟨g1, g2⟩, g3⟩
      refine ⟨g1, ?_⟩
      rintro (e | ⟨y, m, rfl, e⟩)
      · exact g2 e
      · exact g3 ⟨m, e⟩
    · rintro ⟨g1, g2⟩
      exact ⟨⟨g1, fun e => g2 (.inl e)⟩, fun ⟨m, e⟩ => g2 (.inr ⟨x, m, rfl, e⟩)⟩

/-! ### All of it -/

section
variable {E : Env K R} {C : Cfg R} {s : LWorld R}
variable (hd : 0 < E.dom.size) (hu : 1 ≤ C.unif) (hin : ∀ q, C.IsCell q → ∀ r ∈ C.mem q, Grid.InBoxOf E.dom (place q) (E.pos r))
include hd hu hin

theorem own_cell (h : WInv E C s.w) (x : XInv C s.w) {H : Heap} {q : List Nat} (hq : C.IsCell q)
    (hH : ∀ y, ¬ (C.root (C.owner q) ≤ y ∧ y < C.root (C.owner q) + nTop C.unif) → H y = s.w.heap (C.owner q) y) :
    (∀ p p' y, Chain H (C.at (C.owner q) q) p y → Chain H (C.at (C.owner q) q) p' y → p = p') ∧
    (∃ n, ∀ p y, Chain H (C.at (C.owner q) q) p y → p.length ≤ n) ∧
    {y | ∃ p, p ≠ [] ∧ Chain H (C.at (C.owner q) q) p y} = {y | y ∈ s.w.own (C.owner q) q} := by
  have hat : H (C.at (C.owner q) q) = s.w.heap (C.owner q) (C.at (C.owner q) q) :=
    hH _ (by have := (C.at_top (C.owner q) hu hq).2; omega)
  by_cases hm : C.mem q = []
  · obtain ⟨e, hc⟩ := x.bareOwn q hq hm
    rw [e]
    exact no_chains (fun j => by rw [hat]; exact hc j)
  · refine own_chains (E := E) ((h.loc q hq hm).congr ?_) (h.inv hd hu hin hq hm) (x.mine q hq hm)
    rintro y (rfl | hy)
    · exact hat
    · refine hH y fun hc => h.ownTop _ q y hq hy ?_
      have : 0 < 8 ^ C.unif := by positivity
      unfold Cfg.InTop
      omega

theorem other_cell (h : WInv E C s.w) (x : XInv C s.w) {H : Heap} {k : Nat} {q : List Nat} (hq : C.IsCell q) (hk : C.owner q ≠ k)
    (hH : ∀ y, ¬ (C.root k ≤ y ∧ y < C.root k + nTop C.unif) → H y = s.w.heap k y) :
    (q ∈ s.w.got k ∧ ∃ base n, s.w.own k q = (List.range n).map (base + ·) ∧ freed H (C.at k q) = if n = 0 then none else some base) ∨
    (q ∉ s.w.got k ∧ freed H (C.at k q) = none) := by
  have hat : H (C.at k q) = s.w.heap k (C.at k q) := hH _ (by have := (C.at_top k hu hq).2; omega)
  by_cases hg : q ∈ s.w.got k
  · left
    obtain ⟨base, n, e1, e2⟩ := x.array k q hg
    exact ⟨hg, base, n, e1, by rw [freed_congr hat]; exact e2⟩
  · right
    refine ⟨hg, ?_⟩
    rw [freed_congr hat]
    unfold freed
    rw [List.findSome?_eq_none_iff]
    intro j _
    exact h.bare k q hq (Ne.symm hk) hg j

theorem delete_all (h : WInv E C s.w) (x : LInv C s) {k : Nat} (hset : Settled C s k) {H : Heap}
    (hH : ∀ y, ¬ (C.root k ≤ y ∧ y < C.root k + nTop C.unif) → H y = s.w.heap k y) {rmap : Nat → Nat}
    (hr : ∀ q, C.IsCell q → rmap (cellOf C.unif q) = C.owner q) :
    ∃ N, ∀ fuel, N ≤ fuel → (s.live k).bind (deleteTree C rmap fuel k H) = some (leftOver E C k) := by
  classical
  -- the depth of the branches
  have hdep : ∀ id, ∃ n, id < 8 ^ C.unif → rmap id = k → ∀ p y, Chain H (C.grid k id) p y → p.length ≤ n := by
    intro id
    by_cases hid : id < 8 ^ C.unif
    · obtain ⟨q, g1, g2, rfl⟩ := cell_path (r := 0) hid
      by_cases hk : rmap (cellOf C.unif q) = k
      · have hq : C.IsCell q := ⟨g1, g2⟩
        have ho : C.owner q = k := (hr q hq).symm.trans hk
        subst ho
        obtain ⟨n, hn⟩ := (own_cell hd hu hin h x.x hq hH).2.1
        exact ⟨n, fun _ _ => hn⟩
      · exact ⟨0, fun _ e => absurd e hk⟩
    · exact ⟨0, fun e => absurd e hid⟩
  choose dep hdep using hdep
  refine ⟨((List.range (8 ^ C.unif)).map dep).sum, fun fuel hf => ?_⟩
  have hfuel : ∀ id < 8 ^ C.unif, dep id ≤ fuel := fun id hid =>
    (List.single_le_sum (by simp) _ (List.mem_map.2 ⟨id, List.mem_range.2 hid, rfl⟩)).trans hf
  rw [x.live k, Option.bind_some]
  set L0 : Set Obj := {o | Exp C s k o} with hL0
  let G : Nat → Set Obj := fun id => if rmap id = k then ownGroup id {y | ∃ p, p ≠ [] ∧ Chain H (C.grid k id) p y}
    else otherGroup id (freed H (C.grid k id))
  let need : Nat → Set Obj := fun id => {.top} ∪ if rmap id = k then ownGroup id {y | ∃ p, p ≠ [] ∧ Chain H (C.grid k id) p y}
    else otherGroup id (freed H (C.grid k id)) ∩ L0
  have hcell : ∀ id < 8 ^ C.unif, ∃ q, C.IsCell q ∧ cellOf C.unif q = id := fun id hid => by
    obtain ⟨q, g1, g2, g3⟩ := cell_path (r := 0) hid
    exact ⟨q, ⟨g1, g2⟩, g3⟩
  have hlt : ∀ q, C.IsCell q → cellOf C.unif q < 8 ^ C.unif := fun q hq => by
    have := (C.at_top k hu hq).1
    unfold Cfg.InTop Cfg.at Cfg.grid at this
    omega
  have hown : ∀ q, C.IsCell q → C.owner q = k → {y | ∃ p, p ≠ [] ∧ Chain H (C.grid k (cellOf C.unif q)) p y} = {y | y ∈ s.w.own k q} := by
    intro q hq ho
    subst ho
    exact (own_cell hd hu hin h x.x hq hH).2.2
  have hother : ∀ q, C.IsCell q → C.owner q ≠ k → ∀ y n, Obj.array y n ∈ otherGroup (cellOf C.unif q) (freed H (C.grid k (cellOf C.unif q))) → q ∈ s.w.got k ∧
      y ∈ s.w.own k q ∧ Obj.array y (s.w.own k q).length ∈ L0 := by
    intro q hq ho y n hy
    have hfr : freed H (C.at k q) = some y := by
      rcases hy with e | ⟨y', n', e, e'⟩
      · cases e
      · cases e'; exact e
    rcases other_cell hd hu hin h x.x hq ho hH with ⟨hg, base, m, e1, e2⟩ | ⟨_, e⟩
    · rw [e2] at hfr
      split_ifs at hfr with hm0
      cases hfr
      refine ⟨hg, ?_, ?_⟩
      · rw [e1]; exact List.mem_map.2 ⟨0, by simp; omega, by simp⟩
      · refine ⟨?_, q, hg, ?_⟩
        · rw [e1]; simp; omega
        · rw [e1]; simp
    · rw [e] at hfr; cases hfr
  have hfold := fold_groups (fun id L => deleteCell H fuel (rmap id == k) (C.grid k id) id L) G need (List.range (8 ^ C.unif)) L0
    List.nodup_range ?_ ?_ ?_
  rotate_left
  · intro id hid L hL
    rw [List.mem_range] at hid
    obtain ⟨q, hq, rfl⟩ := hcell id hid
    by_cases ho : rmap (cellOf C.unif q) = k
    · simp only [need, G, if_pos ho] at hL ⊢
      rw [show (rmap (cellOf C.unif q) == k) = true by simpa using ho]
      have ho' : C.owner q = k := (hr q hq).symm.trans ho
      have hdq := hdep _ hid ho
      have hfq := hfuel _ hid
      subst ho'
      exact deleteCell_own (own_cell hd hu hin h x.x hq hH).1 hdq hfq hL
    · simp only [need, G, if_neg ho] at hL ⊢
      rw [show (rmap (cellOf C.unif q) == k) = false by simpa using ho]
      have ho' : C.owner q ≠ k := fun e => ho ((hr q hq).trans e)
      refine deleteCell_other (hL (.inl rfl)) (hL (.inr ⟨.inl rfl, hlt q hq⟩)) ?_
      intro y hy
      have := hother q hq ho' y 0 (.inr ⟨y, 0, hy, rfl⟩)
      exact ⟨_, hL (.inr ⟨.inr ⟨y, _, hy, rfl⟩, this.2.2⟩)⟩
  · intro id hid id' hid' hne o ho ho'
    rw [List.mem_range] at hid hid'
    obtain ⟨q, hq, eq⟩ := hcell id hid
    obtain ⟨q', hq', eq'⟩ := hcell id' hid'
    have hqq : q ≠ q' := fun e => hne (by rw [← eq, ← eq', e])
    have r1 := hr q hq
    have r2 := hr q' hq'
    have o1 := hown q hq
    have o2 := hown q' hq'
    have t1 := hother q hq
    have t2 := hother q' hq'
    rw [eq] at r1 o1 t1
    rw [eq'] at r2 o2 t2
    clear eq eq'
    simp only [need, G] at ho ho'
    by_cases e : rmap id = k <;> by_cases e' : rmap id' = k <;>
      simp only [e, e', if_true, if_false] at ho ho'
    · rw [o1 (r1.symm.trans e)] at ho
      rw [o2 (r2.symm.trans e')] at ho'
      rcases ho with rfl | (rfl | rfl) | ⟨y, hy, rfl⟩ <;> rcases ho' with (g | g) | ⟨y', hy', g⟩ <;> cases g
      · exact hne rfl
      · exact hne rfl
      · exact hqq (h.ownDisj k q q' y hq hq' hy hy')
    · rcases ho with rfl | (rfl | rfl) | ⟨y, hy, rfl⟩ <;> rcases ho' with g | ⟨y', n', hy', g⟩ <;> cases g
      exact hne rfl
    · rcases ho with rfl | ⟨rfl | ⟨y, n, hy, rfl⟩, _⟩ <;> rcases ho' with (g | g) | ⟨y', hy', g⟩ <;> cases g
      exact hne rfl
    · rcases ho with rfl | ⟨rfl | ⟨y, n, hy, rfl⟩, _⟩
      · rcases ho' with g | ⟨y', n', hy', g⟩ <;> cases g
      · rcases ho' with g | ⟨y', n', hy', g⟩ <;> cases g
        exact hne rfl
      · have g1 := t1 (fun e1 => e (r1.trans e1)) y n (.inr ⟨y, n, hy, rfl⟩)
        have g2 := t2 (fun e1 => e' (r2.trans e1)) y n ho'
        exact hqq (h.ownDisj k q q' y hq hq' g1.2.1 g2.2.1)
  · intro id hid o ho
    rw [List.mem_range] at hid
    obtain ⟨q, hq, rfl⟩ := hcell id hid
    simp only [need] at ho
    rcases ho with rfl | ho
    · trivial
    · split_ifs at ho with e
      · have ho' : C.owner q = k := (hr q hq).symm.trans e
        rw [hown q hq ho'] at ho
        rcases ho with (rfl | rfl) | ⟨y, hy, rfl⟩
        · exact hid
        · refine ⟨hid, fun q' hq' e' => ?_⟩
          have hg := x.drop k q' hq'
          obtain ⟨hs, hne, _⟩ := h.got k q' hg
          have := cellOf_inj (h.sent q' hs).1 hq e'
          subst this
          exact hne ho'.symm
        · exact ⟨q, hq, ho', hy⟩
      · exact ho.2
  unfold deleteTree
  rw [hfold]
  simp only [Option.bind_eq_bind, Option.bind_some]
  have hG : ∀ o id, o ∈ G id → o ≠ .top ∧ o ≠ .unifDone ∧ (∀ j, o ≠ .empty j) ∧ ∀ p i, o ≠ .nodeDone p i := by
    intro o id ho
    simp only [G] at ho
    split_ifs at ho
    · rcases ho with (rfl | rfl) | ⟨y, _, rfl⟩ <;> simp
    · rcases ho with rfl | ⟨y, n, _, rfl⟩ <;> simp
  rw [dealloc_mem (show Obj.top ∈ L0 \ {o | ∃ id ∈ List.range (8 ^ C.unif), o ∈ G id} from ⟨trivial, fun ⟨id, _, hid⟩ => (hG _ id hid).1 rfl⟩)]
  simp only [Option.bind_some]
  rw [dealloc_mem (show Obj.unifDone ∈ (L0 \ {o | ∃ id ∈ List.range (8 ^ C.unif), o ∈ G id}) \ {Obj.top} from
    ⟨⟨trivial, fun ⟨id, _, hid⟩ => (hG _ id hid).2.1 rfl⟩, by simp⟩)]
  congr 1
  ext o
  have hmemG : ∀ q, C.IsCell q → o ∈ G (cellOf C.unif q) → ∃ id ∈ List.range (8 ^ C.unif), o ∈ G id := fun q hq ho =>
    ⟨_, List.mem_range.2 (hlt q hq), ho⟩
  constructor
  · rintro ⟨⟨⟨g1, g2⟩, g3⟩, g4⟩
    change Exp C s k o at g1
    cases o with
    | top => exact absurd rfl g3
    | unifDone => exact absurd rfl g4
    | lock id =>
      exfalso
      apply g2
      obtain ⟨q, hq, rfl⟩ := hcell id g1
      refine hmemG q hq ?_
      simp only [G]
      split_ifs
      · exact .inl (.inl rfl)
      · exact .inl rfl
    | done id =>
      obtain ⟨q, hq, rfl⟩ := hcell id g1.1
      by_cases ho : C.owner q = k
      · exfalso
        apply g2
        refine hmemG q hq ?_
        simp only [G]
        rw [if_pos ((hr q hq).trans ho)]
        exact .inl (.inr rfl)
      · refine ⟨q, hq, ho, .inl ⟨?_, rfl⟩⟩
        by_contra hm
        exact g1.2 q (hset.2 q ((hset.1 q hq hm).2 ho)) rfl
    | node y =>
      obtain ⟨q, hq, ho, hy⟩ := g1
      exfalso
      apply g2
      refine hmemG q hq ?_
      simp only [G]
      rw [if_pos ((hr q hq).trans ho), hown q hq ho]
      exact .inr ⟨y, hy, rfl⟩
    | nodeDone q i =>
      obtain ⟨hq, ho, ⟨v, hv, rfl⟩, hne, hf⟩ := g1
      exfalso
      by_cases hm : C.mem q = []
      · rw [h.idle q hq hm] at hv
        simp [State.nodes] at hv
      · exact hf (all_forwarded hd hu hin h hq hm ((hset.1 q hq hm).1 ho) hv hne)
    | array y n =>
      obtain ⟨hn, q, hg, e⟩ := g1
      obtain ⟨hs, hne, _⟩ := h.got k q hg
      have hq := (h.sent q hs).1
      have ho : C.owner q ≠ k := Ne.symm hne
      exfalso
      apply g2
      refine hmemG q hq ?_
      simp only [G]
      rw [if_neg (fun e => ho ((hr q hq).symm.trans e))]
      refine .inr ⟨y, n, ?_, rfl⟩
      rcases other_cell hd hu hin h x.x hq ho hH with ⟨_, base, m, e1, e2⟩ | ⟨hng, _⟩
      · have hmn : m = n := by
          have := congrArg List.length (e1.symm.trans e)
          simpa using this
        subst hmn
        have hb : base = y := by
          have := congrArg (fun l => l.getD 0 0) (e1.symm.trans e)
          simpa [List.getD_eq_getElem?_getD, hn] using this
        subst hb
        rw [if_neg (by omega)] at e2
        exact e2
      · exact absurd hg hng
    | empty id =>
      obtain ⟨q, hg, rfl, e⟩ := g1
      obtain ⟨hs, hne, _⟩ := h.got k q hg
      obtain ⟨hq, hm, _⟩ := h.sent q hs
      refine ⟨q, hq, Ne.symm hne, .inr ⟨List.length_pos_iff.2 hm, (empty_iff hd hu hin h x.x hg).1 e, rfl⟩⟩
  · rintro ⟨q, hq, ho, ⟨hm, rfl⟩ | ⟨hm1, hm2, rfl⟩⟩
    · refine ⟨⟨⟨⟨hlt q hq, fun q' hq' e => ?_⟩, ?_⟩, by simp⟩, by simp⟩
      · have hs := (h.got k q' (x.drop k q' hq')).1
        obtain ⟨hq1, hm1, _⟩ := h.sent q' hs
        have := cellOf_inj hq1 hq e
        subst this
        exact hm1 hm
      · rintro ⟨id, hid, hG'⟩
        rw [List.mem_range] at hid
        obtain ⟨q', hq', rfl⟩ := hcell id hid
        simp only [G] at hG'
        split_ifs at hG' with e
        · rcases hG' with (g | g) | ⟨y, _, g⟩
          · cases g
          · have := cellOf_inj hq hq' (Obj.done.inj g)
            subst this
            exact ho ((hr q hq).symm.trans e)
          · cases g
        · rcases hG' with g | ⟨y, n, _, g⟩ <;> cases g
    · have hm : C.mem q ≠ [] := List.length_pos_iff.1 hm1
      have hg := (hset.1 q hq hm).2 ho
      exact ⟨⟨⟨⟨q, hg, rfl, (empty_iff hd hu hin h x.x hg).2 hm2⟩, fun ⟨id, _, hid⟩ => (hG _ id hid).2.2.1 _ rfl⟩, by simp⟩, by simp⟩

end

end RankTree
end Dashmm
