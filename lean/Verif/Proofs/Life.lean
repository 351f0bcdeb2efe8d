import Verif.Spec.Life
import Verif.Spec.DagBuild
import Verif.Proofs.DistroDag
/-
Proofs about the life of the DAG.
-/
namespace Dashmm.Life
open Dashmm Distro

/-! ### Creating the nodes -/

/-- The state after some nodes were added. -/
structure Inv (h : Mem) (refs : List Ref) : Prop where
  ptr : ∀ r, (h.ptr r).isSome ↔ r ∈ refs
  at_ : ∀ r a, h.ptr r = some a → h.node a = some (r, none)
  own : ∀ a x, h.node a = some x → h.ptr x.1 = some a
  next : ∀ a x, h.node a = some x → a < h.nextNode
  lco : ∀ i, h.lco i = false

theorem inv_blank {h₀ : Mem} (h : Blank h₀) : Inv h₀ [] := by
  constructor
  · intro r; simp [h.2 r]
  · intro r a h1; rw [h.2 r] at h1; cases h1
  · intro a x h1; rw [h.1.1 a] at h1; cases h1
  · intro a x h1; rw [h.1.1 a] at h1; cases h1
  · exact h.1.2

theorem Inv.add {h : Mem} {refs : List Ref} (hi : Inv h refs) {r : Ref} (hr : r ∉ refs) :
    ∃ h', add r h = some h' ∧ Inv h' (refs ++ [r]) := by
  have hn : h.ptr r = none := by
    cases hp : h.ptr r with
    | none => rfl
    | some a => exact absurd ((hi.ptr r).1 (by simp [hp])) hr
  have he : Life.add r h = some { h with
      ptr := fun r' => if r' = r then some h.nextNode else h.ptr r'
      node := fun a => if a = h.nextNode then some (r, none) else h.node a
      nextNode := h.nextNode + 1 } := by simp only [Life.add, hn]
  refine ⟨_, he, ?_⟩
  have hlt : ∀ r' a, h.ptr r' = some a → a < h.nextNode := fun r' a h1 => hi.next a _ (hi.at_ r' a h1)
  constructor
  · intro r'
    dsimp only
    by_cases e : r' = r
    · simp [e]
    · simp [e, hi.ptr]
  · intro r' a h1
    dsimp only at h1 ⊢
    by_cases e : r' = r
    · simp only [e, if_true, Option.some.injEq] at h1; simp [← h1, e]
    · simp only [e, if_false] at h1
      rw [if_neg (by have := hlt _ _ h1; omega)]
      exact hi.at_ _ _ h1
  · intro a x h1
    dsimp only at h1 ⊢
    by_cases e : a = h.nextNode
    · simp only [e, if_true, Option.some.injEq] at h1; simp [← h1, e]
    · simp only [e, if_false] at h1
      have h2 := hi.own _ _ h1
      rw [if_neg (by rintro rfl; rw [hn] at h2; cases h2)]
      exact h2
  · intro a x h1
    dsimp only at h1 ⊢
    by_cases e : a = h.nextNode
    · omega
    · simp only [e, if_false] at h1
      have := hi.next _ _ h1; omega
  · exact hi.lco

theorem Inv.deref {h : Mem} {refs : List Ref} (hi : Inv h refs) {r : Ref} (hr : r ∈ refs) :
    deref h r = some (r, none) := by
  obtain ⟨a, ha⟩ := Option.isSome_iff_exists.1 ((hi.ptr r).2 hr)
  simp [Life.deref, ha, hi.at_ _ _ ha]

theorem actAll_append (l l' : List Act) (h : Mem) : actAll (l ++ l') h = (actAll l h).bind (actAll l') := by
  simp only [actAll, List.foldlM_append]; rfl

theorem nodesOf_append (l l' : List Act) : nodesOf (l ++ l') = nodesOf l ++ nodesOf l' := by simp [nodesOf]

theorem actAll_ok {h₀ : Mem} (hb : Blank h₀) {acts : List Act} (hs : NoAssertionFails acts) :
    ∃ h, actAll acts h₀ = some h ∧ Inv h (nodesOf acts) := by
  induction acts using List.reverseRecOn with
  | nil => exact ⟨_, rfl, inv_blank hb⟩
  | append_singleton l a ih =>
    have hl : NoAssertionFails l := by
      refine ⟨?_, fun pre e post h => hs.2 pre e (post ++ [a]) (by simp [h])⟩
      have := hs.1
      rw [nodesOf_append] at this
      exact this.of_append_left
    obtain ⟨h, e1, e2⟩ := ih hl
    rw [actAll_append, e1]
    cases a with
    | add r =>
      have hn : r ∉ nodesOf l := by
        have := hs.1
        rw [nodesOf_append, List.nodup_append] at this
        intro hr
        exact this.2.2 r hr r (by simp [nodesOf]) rfl
      obtain ⟨h', e3, e4⟩ := e2.add hn
      refine ⟨h', ?_, ?_⟩
      · simp [actAll, act, e3]
      · rw [nodesOf_append]; simpa [nodesOf] using e4
    | link e =>
      obtain ⟨h1, h2⟩ := hs.2 l e [] rfl
      refine ⟨h, ?_, ?_⟩
      · simp [actAll, act, link, e2.deref h1, e2.deref h2]
      · rw [nodesOf_append]; simpa [nodesOf] using e2

/-! ### Walks -/

theorem kids_flatMap_nodup {f : TNode → List Ref} {n : TNode}
    (hf : ∀ k ∈ n.kids, (f k).Nodup) (hd : ∀ k ∈ n.kids, ∀ r ∈ f k, IsDesc k.ix r.ix) : (n.kids.flatMap f).Nodup := by
  rw [List.nodup_flatMap]
  refine ⟨hf, ?_⟩
  have hk : n.kids.Pairwise fun k k' => k ∈ n.kids ∧ k' ∈ n.kids ∧ ∀ x, ¬ (IsDesc k.ix x ∧ IsDesc k'.ix x) := by
    have hp : n.kids.Pairwise fun k k' => ∀ x, ¬ (IsDesc k.ix x ∧ IsDesc k'.ix x) := by
      unfold TNode.kids
      rw [List.pairwise_filterMap]
      refine (List.nodup_finRange 8).imp ?_
      intro i j hij k hk k' hk'
      have g : ∀ (i : Fin 8) (k : TNode), (match n.c i with
          | .nil => none
          | .node c => some ⟨n.ix.child i, c⟩) = some k → k.ix = n.ix.child i := by
        intro i k h
        cases hc : n.c i with
        | nil => simp [hc] at h
        | node c => simp [hc] at h; rw [← h]
      rintro x ⟨d1, d2⟩
      rw [g i k hk] at d1; rw [g j k' hk'] at d2
      exact hij (Fin.ext (isDesc_child_unique i.isLt j.isLt d1 d2))
    exact hp.imp_of_mem fun ha hb hc => ⟨ha, hb, hc⟩
  refine hk.imp ?_
  rintro k k' ⟨h1, h2, h3⟩ r hr hr'
  exact h3 r.ix ⟨hd k h1 r hr, hd k' h2 r hr'⟩

theorem kid_not_desc {n k : TNode} (hk : k ∈ n.kids) : ¬ IsDesc k.ix n.ix := by
  intro h
  have := h.1
  have := kid_level hk
  omega

theorem kid_desc {n k : TNode} (hk : k ∈ n.kids) {x : Index} (h : IsDesc k.ix x) : IsDesc n.ix x := by
  obtain ⟨i, _, h2⟩ := mem_kids.1 hk
  rw [h2] at h
  exact isDesc_of_child i.isLt h

theorem collect_desc {own : Index → List Ref} (ho : ∀ ix, ∀ r ∈ own ix, r.ix = ix) (n : TNode) :
    ∀ r ∈ collect own n.ix (.node n.c), IsDesc n.ix r.ix := by
  intro r hr
  obtain ⟨n', hu, h⟩ := (collect_mem own n r).1 hr
  rw [ho _ _ h]
  exact hu.isDesc

theorem collect_nodup {own : Index → List Ref} (ho : ∀ ix, ∀ r ∈ own ix, r.ix = ix) (hn : ∀ ix, (own ix).Nodup)
    (n : TNode) : (collect own n.ix (.node n.c)).Nodup := by
  induction n using tnode_induction with
  | h n ih =>
    rw [collect, flatMap_kids (collect own) (fun _ => by rw [collect]) n, List.nodup_append]
    refine ⟨kids_flatMap_nodup ih fun k hk r hr => collect_desc ho k r hr, hn _, ?_⟩
    rintro r hr r' hr' rfl
    obtain ⟨k, hk, hr⟩ := List.mem_flatMap.1 hr
    have := collect_desc ho k r hr
    rw [ho _ _ hr'] at this
    exact kid_not_desc hk this

/-! #### The LCOs of the source tree -/

theorem lcosS_node (n : TNode) : lcosS n.ix (.node n.c) =
    [(⟨.src, n.ix, .normal⟩ : Ref), ⟨.src, n.ix, .interm⟩] ++ n.kids.flatMap fun k => lcosS k.ix (.node k.c) := by
  rw [lcosS, flatMap_kids lcosS (fun _ => by rw [lcosS]) n]

theorem lcosS_mem (n : TNode) : ∀ r, r ∈ lcosS n.ix (.node n.c) ↔
    r.side = .src ∧ r.kind ≠ .parts ∧ ∃ n', Under n n' ∧ r.ix = n'.ix := by
  induction n using tnode_induction with
  | h n ih =>
    intro r
    rw [lcosS_node, List.mem_append, List.mem_flatMap]
    constructor
    · rintro (h | ⟨k, hk, h⟩)
      · simp only [List.mem_cons, List.not_mem_nil, or_false] at h
        rcases h with rfl | rfl <;> exact ⟨rfl, by simp, n, .refl _, rfl⟩
      · obtain ⟨h1, h2, n', hu, hx⟩ := (ih k hk r).1 h
        exact ⟨h1, h2, n', .down hk hu, hx⟩
    · rintro ⟨h1, h2, n', hu, hx⟩
      cases hu with
      | refl =>
        left
        obtain ⟨sd, ix, k⟩ := r
        simp only at h1 h2 hx
        subst h1; subst hx
        cases k <;> simp at h2 ⊢
      | down hk hu => exact .inr ⟨_, hk, (ih _ hk r).2 ⟨h1, h2, n', hu, hx⟩⟩

theorem lcosS_nodup (n : TNode) : (lcosS n.ix (.node n.c)).Nodup := by
  induction n using tnode_induction with
  | h n ih =>
    rw [lcosS_node, List.nodup_append]
    have hd : ∀ k ∈ n.kids, ∀ r ∈ lcosS k.ix (.node k.c), IsDesc k.ix r.ix := by
      intro k hk r hr
      obtain ⟨_, _, n', hu, hx⟩ := (lcosS_mem k r).1 hr
      rw [hx]; exact hu.isDesc
    refine ⟨by simp, kids_flatMap_nodup ih hd, ?_⟩
    rintro r hr r' hr' rfl
    obtain ⟨k, hk, hr'⟩ := List.mem_flatMap.1 hr'
    have := hd k hk r hr'
    have e : r.ix = n.ix := by
      simp only [List.mem_cons, List.not_mem_nil, or_false] at hr
      rcases hr with rfl | rfl <;> rfl
    rw [e] at this
    exact kid_not_desc hk this

/-! #### The LCOs of the target tree -/

theorem lcosT_node (ptr : Ref → Option Nat) (n : TNode) : lcosT ptr n.ix (.node n.c) =
    [(⟨.tgt, n.ix, .normal⟩ : Ref), ⟨.tgt, n.ix, .interm⟩] ++
      if (ptr ⟨.tgt, n.ix, .parts⟩).isSome then [(⟨.tgt, n.ix, .parts⟩ : Ref)]
      else n.kids.flatMap fun k => lcosT ptr k.ix (.node k.c) := by
  rw [lcosT, flatMap_kids (lcosT ptr) (fun _ => by rw [lcosT]) n]

theorem lcosT_desc (ptr : Ref → Option Nat) (n : TNode) : ∀ r ∈ lcosT ptr n.ix (.node n.c),
    r.side = .tgt ∧ IsDesc n.ix r.ix := by
  induction n using tnode_induction with
  | h n ih =>
    intro r hr
    rw [lcosT_node, List.mem_append] at hr
    rcases hr with h | h
    · simp only [List.mem_cons, List.not_mem_nil, or_false] at h
      rcases h with rfl | rfl <;> exact ⟨rfl, isDesc_refl _⟩
    · split at h
      · simp only [List.mem_cons, List.not_mem_nil, or_false] at h
        subst h; exact ⟨rfl, isDesc_refl _⟩
      · obtain ⟨k, hk, h⟩ := List.mem_flatMap.1 h
        exact ⟨(ih k hk r h).1, kid_desc hk (ih k hk r h).2⟩

theorem lcosT_nodup (ptr : Ref → Option Nat) (n : TNode) : (lcosT ptr n.ix (.node n.c)).Nodup := by
  induction n using tnode_induction with
  | h n ih =>
    rw [lcosT_node]
    split
    · simp
    · rw [List.nodup_append]
      refine ⟨by simp, kids_flatMap_nodup ih fun k hk r hr => (lcosT_desc ptr k r hr).2, ?_⟩
      rintro r hr r' hr' rfl
      obtain ⟨k, hk, hr'⟩ := List.mem_flatMap.1 hr'
      have := (lcosT_desc ptr k r hr').2
      have e : r.ix = n.ix := by
        simp only [List.mem_cons, List.not_mem_nil, or_false] at hr
        rcases hr with rfl | rfl <;> rfl
      rw [e] at this
      exact kid_not_desc hk this

theorem kid_ext {n k k' : TNode} (hk : k ∈ n.kids) (hk' : k' ∈ n.kids) (h : k.ix = k'.ix) : k = k' := by
  obtain ⟨i, h1, h2⟩ := mem_kids.1 hk
  obtain ⟨j, h3, h4⟩ := mem_kids.1 hk'
  rw [h2, h4] at h
  have := (Index.child_inj _ _ _ _ i.isLt j.isLt h).2
  have e : i = j := Fin.ext this
  subst e
  rw [h1] at h3
  obtain ⟨ix, c⟩ := k
  obtain ⟨ix', c'⟩ := k'
  simp only [Oct.node.injEq] at h2 h3 h4
  rw [h2, h4, h3]

/-- A visit is determined by the node it is at. -/
theorem Visit.unique {m : Method} {unif : Nat} {same : Bool} {n : TNode} {p : Bool} {c : List TNode}
    {n₁ n₂ : TNode} {p₁ p₂ : Bool} {c₁ c₂ : List TNode}
    (h₁ : Visit m unif same n p c n₁ p₁ c₁) (h₂ : Visit m unif same n p c n₂ p₂ c₂) (he : n₁.ix = n₂.ix) :
    n₁ = n₂ ∧ p₁ = p₂ ∧ c₁ = c₂ := by
  induction h₁ with
  | here n p c =>
    cases h₂ with
    | here => exact ⟨rfl, rfl, rfl⟩
    | down hr hk h =>
      have := h.under.isDesc
      rw [← he] at this
      exact absurd this (kid_not_desc hk)
  | down hr hk h ih =>
    cases h₂ with
    | here =>
      have := h.under.isDesc
      rw [he] at this
      exact absurd this (kid_not_desc hk)
    | down hr' hk' h' =>
      have e := kid_ext hk hk' (kid_desc_unique hk hk' h.under.isDesc (by rw [he]; exact h'.under.isDesc))
      subst e
      exact ih h' he

/-- The walk reaches every node of the DAG: no target node of the DAG is below one that has a parts node. -/
theorem lcosT_reach {m : Method} {unif : Nat} {same : Bool} {n : TNode} {p : Bool} {c : List TNode} {ptr : Ref → Option Nat}
    (hp : ∀ n' p' c', Visit m unif same n p c n' p' c' → refine m unif same n' c' = true → ptr ⟨.tgt, n'.ix, .parts⟩ = none)
    {n₁ : TNode} {p₁ : Bool} {c₁ : List TNode} (h : Visit m unif same n p c n₁ p₁ c₁)
    {k : Kind} (hk : k = .parts → (ptr ⟨.tgt, n₁.ix, .parts⟩).isSome) :
    (⟨.tgt, n₁.ix, k⟩ : Ref) ∈ lcosT ptr n.ix (.node n.c) := by
  induction h with
  | here n p c =>
    rw [lcosT_node]
    cases k with
    | parts => rw [hk rfl]; simp
    | normal => simp
    | interm => simp
  | @down n p c kd n' p' c' hr hkd h ih =>
    rw [lcosT_node, hp n p c (.here _ _ _) hr]
    simp only [Option.isSome_none, Bool.false_eq_true, if_false]
    refine List.mem_append_right _ (List.mem_flatMap.2 ⟨kd, hkd, ih ?_ hk⟩)
    intro n'' p'' c'' hv hrf
    exact hp n'' p'' c'' (.down hr hkd hv) hrf

/-! ### Making the LCOs -/

structure LInv (h : Mem) (refs : List Ref) (served : Ref → Prop) : Prop where
  ptr : ∀ r, (h.ptr r).isSome ↔ r ∈ refs
  at_ : ∀ r a, h.ptr r = some a → ∃ g, h.node a = some (r, g) ∧ (g.isSome ↔ served r)
  own : ∀ a x, h.node a = some x → h.ptr x.1 = some a
  live : ∀ i, h.lco i = true ↔ ∃ a r, h.node a = some (r, some i)
  inj : ∀ a b r r' i, h.node a = some (r, some i) → h.node b = some (r', some i) → a = b
  fresh : ∀ i, h.lco i = true → i < h.nextLco

theorem LInv.congr {h : Mem} {refs : List Ref} {p q : Ref → Prop} (hi : LInv h refs p) (hpq : ∀ r ∈ refs, p r ↔ q r) : LInv h refs q := by
  refine { hi with at_ := ?_ }
  intro r a hr
  obtain ⟨g, h1, h2⟩ := hi.at_ r a hr
  exact ⟨g, h1, h2.trans (hpq r ((hi.ptr r).1 (by simp [hr])))⟩

theorem Inv.linv {h : Mem} {refs : List Ref} (hi : Inv h refs) : LInv h refs fun _ => False where
  ptr := hi.ptr
  at_ r a hr := ⟨none, hi.at_ r a hr, by simp⟩
  own := hi.own
  live i := by
    rw [hi.lco i]
    simp only [Bool.false_eq_true, false_iff, not_exists]
    intro a r h1
    have h2 := hi.at_ _ _ (hi.own _ _ h1)
    rw [h1] at h2; simp at h2
  inj a b r r' i h1 h2 := by
    have h3 := hi.at_ _ _ (hi.own _ _ h1)
    rw [h1] at h3; simp at h3
  fresh i h1 := by rw [hi.lco i] at h1; cases h1

theorem LInv.mk1 {h : Mem} {refs : List Ref} {served : Ref → Prop} (hi : LInv h refs served) {r : Ref} (hr : ¬ served r)
    (rank : Int) (loc : Ref → Int) :
    ∃ h', mkLco rank loc r h = some h' ∧ LInv h' refs (fun r' => served r' ∨ (r' = r ∧ loc r' = rank)) ∧ h'.ptr = h.ptr := by
  unfold mkLco
  cases hp : h.ptr r with
  | none =>
    refine ⟨h, rfl, hi.congr fun r' hr' => ⟨.inl, ?_⟩, rfl⟩
    rintro (h1 | ⟨rfl, _⟩)
    · exact h1
    · have := (hi.ptr r').2 hr'
      rw [hp] at this; cases this
  | some a =>
    obtain ⟨g, hg, hs⟩ := hi.at_ r a hp
    dsimp only
    rw [hg]
    dsimp only
    have hgn : g = none := by
      cases g with
      | none => rfl
      | some i => exact absurd (hs.1 rfl) hr
    subst hgn
    by_cases hl : loc r = rank
    · rw [if_pos hl]
      refine ⟨_, rfl, ?_, rfl⟩
      have hnl : h.lco h.nextLco = false := by
        by_contra hc
        rw [Bool.not_eq_false] at hc
        exact absurd (hi.fresh _ hc) (by omega)
      have hold : ∀ b x, b ≠ a → ((if b = a then some (r, some h.nextLco) else h.node b) = some x ↔ h.node b = some x) := by
        intro b x hb; rw [if_neg hb]
      constructor
      · exact hi.ptr
      · intro r' b hb
        dsimp only at hb ⊢
        by_cases e : b = a
        · subst e
          have : r' = r := by
            obtain ⟨g', h1, _⟩ := hi.at_ _ _ hb
            rw [hg] at h1; simp at h1; exact h1.1.symm
          subst this
          exact ⟨_, by rw [if_pos rfl], by simp [hl]⟩
        · obtain ⟨g', h1, h2⟩ := hi.at_ _ _ hb
          refine ⟨g', by rw [if_neg e]; exact h1, h2.trans ⟨.inl, ?_⟩⟩
          rintro (h3 | ⟨rfl, _⟩)
          · exact h3
          · rw [hp] at hb; exact absurd (Option.some.inj hb).symm e
      · intro b x hb
        dsimp only at hb ⊢
        by_cases e : b = a
        · subst e
          rw [if_pos rfl] at hb
          have := Option.some.inj hb
          rw [← this]; exact hp
        · rw [if_neg e] at hb; exact hi.own _ _ hb
      · intro i
        dsimp only
        by_cases e : i = h.nextLco
        · simp only [e, if_true, true_iff]
          exact ⟨a, r, by simp⟩
        · rw [if_neg e, hi.live]
          constructor
          · rintro ⟨b, r', hb⟩
            refine ⟨b, r', ?_⟩
            rw [if_neg (by rintro rfl; rw [hg] at hb; simp at hb)]
            exact hb
          · rintro ⟨b, r', hb⟩
            by_cases e' : b = a
            · rw [if_pos e'] at hb
              simp only [Option.some.injEq, Prod.mk.injEq] at hb
              exact absurd hb.2.symm e
            · rw [if_neg e'] at hb; exact ⟨b, r', hb⟩
      · intro b b' r₁ r₂ i h1 h2
        dsimp only at h1 h2
        have key : ∀ b r₁, h.node b = some (r₁, some h.nextLco) → False := by
          intro b r₁ h1
          have := (hi.live _).2 ⟨b, r₁, h1⟩
          rw [hnl] at this; cases this
        by_cases e : b = a
        · by_cases e' : b' = a
          · rw [e, e']
          · rw [if_pos e] at h1; rw [if_neg e'] at h2
            simp only [Option.some.injEq, Prod.mk.injEq] at h1
            rw [← h1.2] at h2
            exact (key _ _ h2).elim
        · by_cases e' : b' = a
          · rw [if_neg e] at h1; rw [if_pos e'] at h2
            simp only [Option.some.injEq, Prod.mk.injEq] at h2
            rw [← h2.2] at h1
            exact (key _ _ h1).elim
          · rw [if_neg e] at h1; rw [if_neg e'] at h2
            exact hi.inj _ _ _ _ _ h1 h2
      · intro i h1
        dsimp only at h1 ⊢
        by_cases e : i = h.nextLco
        · omega
        · rw [if_neg e] at h1
          have := hi.fresh _ h1; omega
    · rw [if_neg hl]
      refine ⟨h, rfl, hi.congr fun r' _ => ⟨.inl, ?_⟩, rfl⟩
      rintro (h1 | ⟨rfl, h2⟩)
      · exact h1
      · exact absurd h2 hl

theorem mkLcos_append (rank : Int) (loc : Ref → Int) (l l' : List Ref) (h : Mem) :
    mkLcos rank loc (l ++ l') h = (mkLcos rank loc l h).bind (mkLcos rank loc l') := by
  simp only [mkLcos, List.foldlM_append]; rfl

theorem LInv.mkAll {h : Mem} {refs : List Ref} (hi : LInv h refs fun _ => False) (rank : Int) (loc : Ref → Int)
    {l : List Ref} (hn : l.Nodup) :
    ∃ h', mkLcos rank loc l h = some h' ∧ LInv h' refs (fun r => r ∈ l ∧ loc r = rank) ∧ h'.ptr = h.ptr := by
  induction l using List.reverseRecOn with
  | nil => exact ⟨h, rfl, hi.congr (by simp), rfl⟩
  | append_singleton l r ih =>
    obtain ⟨h1, e1, e2, e3⟩ := ih hn.of_append_left
    have hr : r ∉ l := by
      rw [List.nodup_append] at hn
      exact fun h => hn.2.2 r h r (by simp) rfl
    obtain ⟨h2, e4, e5, e6⟩ := e2.mk1 (r := r) (fun h => hr h.1) rank loc
    refine ⟨h2, ?_, e5.congr fun r' _ => ?_, e6.trans e3⟩
    · rw [mkLcos_append, e1]; simp [mkLcos, e4]
    · simp only [List.mem_append, List.mem_singleton]; tauto

/-! ### Destroying -/

/-- While the LCOs are deleted. `gone` are the addresses that were handled. -/
structure RInv (h₀ h : Mem) (rank : Int) (loc : Ref → Int) (gone : List Nat) : Prop where
  ptr : h.ptr = h₀.ptr
  node : h.node = h₀.node
  live : ∀ i, h.lco i = true ↔ h₀.lco i = true ∧ ¬ ∃ a ∈ gone, ∃ r, h₀.node a = some (r, some i) ∧ loc r = rank

theorem rmLcos_ok {h₀ : Mem} {refs : List Ref} {served : Ref → Prop} (hi : LInv h₀ refs served) (rank : Int) (loc : Ref → Int)
    {l : List Nat} (hn : l.Nodup)
    (hl : ∀ a ∈ l, ∃ r g, h₀.node a = some (r, g) ∧ (loc r = rank → g.isSome)) :
    ∃ h, rmLcos rank loc l h₀ = some h ∧ RInv h₀ h rank loc l := by
  induction l using List.reverseRecOn with
  | nil => exact ⟨h₀, rfl, rfl, rfl, by simp⟩
  | append_singleton l a ih =>
    obtain ⟨h1, e1, e2⟩ := ih hn.of_append_left fun b hb => hl b (by simp [hb])
    have ha : a ∉ l := by
      rw [List.nodup_append] at hn
      exact fun h => hn.2.2 a h a (by simp) rfl
    obtain ⟨r, g, hg, hs⟩ := hl a (by simp)
    have happ : rmLcos rank loc (l ++ [a]) h₀ = rmLco rank loc a h1 := by
      unfold rmLcos at e1 ⊢
      rw [List.foldlM_append, e1]
      show (rmLco rank loc a h1).bind some = _
      simp
    have hnode : h1.node a = some (r, g) := by rw [e2.node]; exact hg
    rw [happ]
    unfold rmLco
    rw [hnode]
    dsimp only
    by_cases hloc : loc r = rank
    · rw [if_pos hloc]
      obtain ⟨i, rfl⟩ := Option.isSome_iff_exists.1 (hs hloc)
      dsimp only
      have hlive : h1.lco i = true := by
        rw [e2.live]
        refine ⟨(hi.live i).2 ⟨a, r, hg⟩, ?_⟩
        rintro ⟨b, hb, r', hb', _⟩
        have := hi.inj _ _ _ _ _ hb' hg
        rw [this] at hb; exact ha hb
      rw [if_pos hlive]
      refine ⟨_, rfl, e2.ptr, e2.node, ?_⟩
      intro j
      dsimp only
      by_cases e : j = i
      · subst e
        simp only [if_true, Bool.false_eq_true, false_iff, not_and, not_not]
        intro _
        exact ⟨a, by simp, r, hg, hloc⟩
      · rw [if_neg e, e2.live]
        constructor
        · rintro ⟨h2, h3⟩
          refine ⟨h2, ?_⟩
          rintro ⟨b, hb, r', hb', hl'⟩
          rcases List.mem_append.1 hb with hb | hb
          · exact h3 ⟨b, hb, r', hb', hl'⟩
          · rw [List.mem_singleton] at hb
            rw [hb, hg] at hb'
            simp only [Option.some.injEq, Prod.mk.injEq] at hb'
            exact e hb'.2.symm
        · rintro ⟨h2, h3⟩
          exact ⟨h2, fun ⟨b, hb, r', hb', hl'⟩ => h3 ⟨b, by simp [hb], r', hb', hl'⟩⟩
    · rw [if_neg hloc]
      refine ⟨h1, rfl, e2.ptr, e2.node, ?_⟩
      intro j
      rw [e2.live]
      constructor
      · rintro ⟨h2, h3⟩
        refine ⟨h2, ?_⟩
        rintro ⟨b, hb, r', hb', hl'⟩
        rcases List.mem_append.1 hb with hb | hb
        · exact h3 ⟨b, hb, r', hb', hl'⟩
        · rw [List.mem_singleton] at hb
          rw [hb, hg] at hb'
          simp only [Option.some.injEq, Prod.mk.injEq] at hb'
          rw [hb'.1] at hloc; exact hloc hl'
      · rintro ⟨h2, h3⟩
        exact ⟨h2, fun ⟨b, hb, r', hb', hl'⟩ => h3 ⟨b, by simp [hb], r', hb', hl'⟩⟩

theorem delNodes_ok {h₀ : Mem} {l : List Nat} (hn : l.Nodup) (hl : ∀ a ∈ l, (h₀.node a).isSome) :
    ∃ h, delNodes l h₀ = some h ∧ h.ptr = h₀.ptr ∧ h.lco = h₀.lco ∧ ∀ a, h.node a = if a ∈ l then none else h₀.node a := by
  induction l using List.reverseRecOn with
  | nil => exact ⟨h₀, rfl, rfl, rfl, by simp⟩
  | append_singleton l a ih =>
    obtain ⟨h1, e1, e2, e3, e4⟩ := ih hn.of_append_left fun b hb => hl b (by simp [hb])
    have ha : a ∉ l := by
      rw [List.nodup_append] at hn
      exact fun h => hn.2.2 a h a (by simp) rfl
    have happ : delNodes (l ++ [a]) h₀ = delNode a h1 := by
      unfold delNodes at e1 ⊢
      rw [List.foldlM_append, e1]
      show (delNode a h1).bind some = _
      simp
    obtain ⟨x, hx⟩ := Option.isSome_iff_exists.1 (hl a (by simp))
    have hnode : h1.node a = some x := by rw [e4, if_neg ha]; exact hx
    rw [happ]
    unfold delNode
    rw [hnode]
    refine ⟨_, rfl, e2, e3, ?_⟩
    intro b
    dsimp only
    by_cases e : b = a
    · simp [e]
    · rw [if_neg e, e4]; simp [e]

/-! ### The four vectors -/

theorem internals_mem {ptr : Ref → Option Nat} {sd : Side} {ix : Index} {r : Ref} :
    r ∈ internals ptr sd ix ↔ (ptr r).isSome ∧ r.side = sd ∧ r.ix = ix ∧ r.kind ≠ .parts := by
  obtain ⟨a, b, k⟩ := r
  unfold internals
  rw [List.mem_filter]
  constructor
  · rintro ⟨h1, h2⟩
    simp only [List.mem_cons, List.not_mem_nil, or_false, Ref.mk.injEq] at h1
    rcases h1 with ⟨rfl, rfl, rfl⟩ | ⟨rfl, rfl, rfl⟩ <;> exact ⟨h2, rfl, rfl, by simp⟩
  · rintro ⟨h1, h2, h3, h4⟩
    simp only at h2 h3 h4
    subst h2; subst h3
    refine ⟨?_, h1⟩
    cases k <;> simp at h4 ⊢

theorem terminals_mem {ptr : Ref → Option Nat} {sd : Side} {ix : Index} {r : Ref} :
    r ∈ terminals ptr sd ix ↔ (ptr r).isSome ∧ r.side = sd ∧ r.ix = ix ∧ r.kind = .parts := by
  obtain ⟨a, b, k⟩ := r
  unfold terminals
  rw [List.mem_filter]
  constructor
  · rintro ⟨h1, h2⟩
    simp only [List.mem_cons, List.not_mem_nil, or_false, Ref.mk.injEq] at h1
    obtain ⟨rfl, rfl, rfl⟩ := h1
    exact ⟨h2, rfl, rfl, rfl⟩
  · rintro ⟨h1, h2, h3, h4⟩
    simp only at h2 h3 h4
    subst h2; subst h3; subst h4
    exact ⟨by simp, h1⟩

theorem internals_nodup (ptr : Ref → Option Nat) (sd : Side) (ix : Index) : (internals ptr sd ix).Nodup :=
  List.Nodup.filter _ (by simp)

theorem terminals_nodup (ptr : Ref → Option Nat) (sd : Side) (ix : Index) : (terminals ptr sd ix).Nodup :=
  List.Nodup.filter _ (by simp)

def sideTree (s t : Fin 8 → Oct) : Side → Fin 8 → Oct
  | .src => s
  | .tgt => t

section
variable {m : Method} {unif : Nat} {same : Bool} {s t : Fin 8 → Oct} {acts : List Act} (sh : Shape m unif same s t acts)
include sh

/-- The references collected into a vector. -/
theorem collected {h : Mem} (hp : ∀ r, (h.ptr r).isSome ↔ r ∈ nodesOf acts) (sd : Side) (term : Bool) :
    let l := collect (if term then terminals h.ptr sd else internals h.ptr sd) Index.root (.node (sideTree s t sd))
    l.Nodup ∧ ∀ r, r ∈ l ↔ r ∈ nodesOf acts ∧ r.side = sd ∧ (r.kind = .parts ↔ term = true) := by
  intro l
  have ho : ∀ ix, ∀ r, r ∈ (if term then terminals h.ptr sd else internals h.ptr sd) ix ↔
      r ∈ nodesOf acts ∧ r.side = sd ∧ r.ix = ix ∧ (r.kind = .parts ↔ term = true) := by
    intro ix r
    cases term with
    | true => simp only [if_true, terminals_mem, hp, iff_true]
    | false => simp only [Bool.false_eq_true, if_false, internals_mem, hp, iff_false, ne_eq]
  set own := (if term then terminals h.ptr sd else internals h.ptr sd) with hown
  have hl : l = collect own (rootNode (sideTree s t sd)).ix
      (.node (rootNode (sideTree s t sd)).c) := rfl
  refine ⟨?_, ?_⟩
  · rw [hl]
    refine collect_nodup (fun ix r hr => ((ho ix r).1 hr).2.2.1) (fun ix => ?_) _
    rw [hown]
    cases term with
    | true => exact terminals_nodup _ _ _
    | false => exact internals_nodup _ _ _
  · intro r
    rw [hl, collect_mem]
    constructor
    · rintro ⟨n, _, h1⟩
      obtain ⟨h2, h3, _, h4⟩ := (ho _ _).1 h1
      exact ⟨h2, h3, h4⟩
    · rintro ⟨h1, h2, h3⟩
      cases sd with
      | src =>
        obtain ⟨n, hu, hx, _⟩ := sh.src r h1 h2
        exact ⟨n, hu, (ho _ _).2 ⟨h1, h2, hx, h3⟩⟩
      | tgt =>
        obtain ⟨n, p, c, hu, hx, _⟩ := sh.tgt r h1 h2
        exact ⟨n, hu.under, (ho _ _).2 ⟨h1, h2, hx, h3⟩⟩

/-- The walks that make the LCOs reach every node of the DAG but the sources. -/
theorem lcos_reach {h : Mem} (hp : ∀ r, (h.ptr r).isSome ↔ r ∈ nodesOf acts) {r : Ref} (hr : r ∈ nodesOf acts) (hl : NeedsLco r) :
    r ∈ lcosS Index.root (.node s) ++ lcosT h.ptr Index.root (.node t) := by
  rw [List.mem_append]
  cases hsd : r.side with
  | src =>
    left
    obtain ⟨n, hu, hx, _⟩ := sh.src r hr hsd
    exact (lcosS_mem (rootNode s) r).2 ⟨hsd, fun hk => hl ⟨hsd, hk⟩, n, hu, hx⟩
  | tgt =>
    right
    obtain ⟨n, p, c, hv, hx, _, _⟩ := sh.tgt r hr hsd
    have hn : ∀ n' p' c', Visit m unif same (rootNode t) false [rootNode s] n' p' c' →
        refine m unif same n' c' = true → h.ptr ⟨.tgt, n'.ix, .parts⟩ = none := by
      intro n' p' c' hv' hrf
      cases hpp : h.ptr ⟨.tgt, n'.ix, .parts⟩ with
      | none => rfl
      | some a =>
        have hm := (hp _).1 (by rw [hpp]; rfl)
        obtain ⟨n₂, p₂, c₂, hv₂, hx₂, hf, _⟩ := sh.tgt _ hm rfl
        obtain ⟨e1, e2, e3⟩ := Visit.unique hv' hv₂ hx₂
        have := hf rfl
        rw [← e1, ← e3, hrf] at this
        cases this
    obtain ⟨sd, ix, k⟩ := r
    simp only at hsd hx
    subst hsd; subst hx
    refine lcosT_reach hn hv ?_
    rintro rfl
    exact (hp _).2 hr

end

theorem lcos_nodup (ptr : Ref → Option Nat) (s t : Fin 8 → Oct) :
    (lcosS Index.root (.node s) ++ lcosT ptr Index.root (.node t)).Nodup := by
  rw [List.nodup_append]
  refine ⟨lcosS_nodup (rootNode s), lcosT_nodup ptr (rootNode t), ?_⟩
  rintro r hr r' hr' rfl
  have h1 := ((lcosS_mem (rootNode s) r).1 hr).1
  have h2 := (lcosT_desc ptr (rootNode t) r hr').1
  rw [h1] at h2; cases h2

end Dashmm.Life
