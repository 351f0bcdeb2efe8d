import Verif.Spec.TreeLife
import Verif.Proofs.RankEnd
namespace Dashmm
namespace RankTree
open Build Branch

/-! ### `destroy_branch` -/

theorem dealloc_mem {o : Obj} {L : Set Obj} (h : o ∈ L) : dealloc o L = some (L \ {o}) := by
  unfold dealloc; exact if_pos h

theorem alloc_new {o : Obj} {L : Set Obj} (h : o ∉ L) : alloc o L = some (insert o L) := by
  unfold alloc; exact if_neg h

/-- The nodes at some addresses. -/
def nodesAt (S : Set Nat) : Set Obj := {o | ∃ x ∈ S, o = .node x}

@[simp] theorem nodesAt_empty : nodesAt ∅ = ∅ := by ext o; simp [nodesAt]

/-- What can be reached from some addresses. -/
def reached (H : Heap) (V : List Nat) : Set Nat := {x | ∃ a ∈ V, ∃ p, Chain H a p x}

theorem destroyRound_eq (H : Heap) : ∀ (V : List Nat) (L : Set Obj), V.Nodup → (∀ a ∈ V, Obj.node a ∈ L) →
    destroyRound H V L = some (V.flatMap (kidsAt H), L \ nodesAt {x | x ∈ V})
  | [], L, _, _ => by
    simp [destroyRound]
  | a :: V, L, hV, hL => by
    rw [List.nodup_cons] at hV
    have h1 := dealloc_mem (hL a (by simp))
    have h2 := destroyRound_eq H V (L \ {Obj.node a}) hV.2 (fun b hb => ⟨hL b (by simp [hb]), by
      simp only [Set.mem_singleton_iff, Obj.node.injEq]; rintro rfl; exact hV.1 hb⟩)
    rw [destroyRound, h1]
    simp only [Option.bind_eq_bind, Option.bind_some, h2, List.flatMap_cons]
    congr 2
    ext o
    simp only [nodesAt, Set.mem_sdiff, Set.mem_singleton_iff, Set.mem_ofPred_eq, List.mem_cons]
    constructor
    · rintro ⟨⟨h1, h2⟩, h3⟩
      refine ⟨h1, ?_⟩
      rintro ⟨x, rfl | hx, rfl⟩
      · exact h2 rfl
      · exact h3 ⟨x, hx, rfl⟩
    · rintro ⟨h1, h2⟩
      exact ⟨⟨h1, fun e => h2 ⟨a, .inl rfl, e⟩⟩, fun ⟨x, hx, e⟩ => h2 ⟨x, .inr hx, e⟩⟩

theorem mem_kidsAt {H : Heap} {a x : Nat} : x ∈ kidsAt H a ↔ ∃ j < 8, (H a).child j = some x := by
  simp [kidsAt, List.mem_filterMap]

/-- Each address is reached in one way only. -/
def OneWay (H : Heap) (V : List Nat) : Prop :=
  ∀ a ∈ V, ∀ b ∈ V, ∀ p p' x, Chain H a p x → Chain H b p' x → a = b ∧ p = p'

theorem OneWay.kids {H : Heap} {V : List Nat} (h : OneWay H V) (hV : V.Nodup) :
    OneWay H (V.flatMap (kidsAt H)) ∧ (V.flatMap (kidsAt H)).Nodup := by
  have hone : ∀ a ∈ V, ∀ b ∈ V, ∀ i < 8, ∀ j < 8, ∀ x y, (H a).child i = some x → (H b).child j = some y → ∀ p p' z, Chain H x p z → Chain H y p' z →
      a = b ∧ i = j ∧ p = p' := by
    intro a ha b hb i hi j hj x y hx hy p p' z hp hp'
    have := h a ha b hb (i :: p) (j :: p') z (.step hi hx hp) (.step hj hy hp')
    simp only [List.cons.injEq] at this
    exact this
  constructor
  · intro x hx y hy p p' z hp hp'
    obtain ⟨a, ha, hx⟩ := List.mem_flatMap.1 hx
    obtain ⟨b, hb, hy⟩ := List.mem_flatMap.1 hy
    obtain ⟨i, hi, hx⟩ := mem_kidsAt.1 hx
    obtain ⟨j, hj, hy⟩ := mem_kidsAt.1 hy
    obtain ⟨rfl, rfl, e⟩ := hone a ha b hb i hi j hj x y hx hy p p' z hp hp'
    rw [hx] at hy
    exact ⟨Option.some.inj hy, e⟩
  · rw [List.nodup_flatMap]
    refine ⟨fun a ha => ?_, ?_⟩
    · unfold kidsAt
      refine List.pairwise_filterMap.2 ((List.nodup_range (n := 8)).imp_of_mem ?_)
      intro i j hi hj hne x hx y hy e
      subst e
      exact hne (hone a ha a ha i (List.mem_range.1 hi) j (List.mem_range.1 hj) x x hx hy [] [] x (.refl _) (.refl _)).2.1
    · refine hV.imp_of_mem ?_
      intro a b ha hb hne x hx hy
      obtain ⟨i, hi, hx⟩ := mem_kidsAt.1 hx
      obtain ⟨j, hj, hy⟩ := mem_kidsAt.1 hy
      exact hne (hone a ha b hb i hi j hj x x hx hy [] [] x (.refl _) (.refl _)).1

theorem nodesAt_mono {S T : Set Nat} (h : S ⊆ T) : nodesAt S ⊆ nodesAt T := fun _ ⟨x, hx, e⟩ => ⟨x, h hx, e⟩

theorem destroyBranch_eq (H : Heap) : ∀ (n : Nat) (V : List Nat) (L : Set Obj), V.Nodup → OneWay H V →
    (∀ a ∈ V, ∀ p x, Chain H a p x → p.length < n) → nodesAt (reached H V) ⊆ L → ∀ fuel, n ≤ fuel →
    destroyBranch H fuel V L = some (L \ nodesAt (reached H V))
  | n, [], L, _, _, _, _, fuel, _ => by
    have : nodesAt (reached H []) = ∅ := by ext o; simp [nodesAt, reached]
    cases fuel <;> simp [destroyBranch, this]
  | 0, a :: V, L, _, _, hd, _, fuel, _ => absurd (hd a (by simp) [] a (.refl _)) (by simp)
  | n + 1, a :: V, L, hV, h1, hd, hL, 0, hf => by omega
  | n + 1, a :: V, L, hV, h1, hd, hL, fuel + 1, hf => by
    generalize hW : a :: V = W at *
    obtain ⟨k1, k2⟩ := h1.kids hV
    have hr := destroyRound_eq H W L hV (fun b hb => hL ⟨b, ⟨b, hb, [], .refl _⟩, rfl⟩)
    have hsplit : reached H W = {x | x ∈ W} ∪ reached H (W.flatMap (kidsAt H)) := by
      ext x
      constructor
      · rintro ⟨b, hb, p, hp⟩
        cases hp with
        | refl => exact .inl hb
        | @step _ c _ j p hj hc h => exact .inr ⟨c, List.mem_flatMap.2 ⟨b, hb, mem_kidsAt.2 ⟨j, hj, hc⟩⟩, p, h⟩
      · rintro (hx | ⟨c, hc, p, hp⟩)
        · exact ⟨x, hx, [], .refl _⟩
        · obtain ⟨b, hb, hc⟩ := List.mem_flatMap.1 hc
          obtain ⟨j, hj, hc⟩ := mem_kidsAt.1 hc
          exact ⟨b, hb, j :: p, .step hj hc hp⟩
    have hdisj : ∀ x ∈ W, x ∉ reached H (W.flatMap (kidsAt H)) := by
      rintro x hx ⟨c, hc, p, hp⟩
      obtain ⟨b, hb, hc⟩ := List.mem_flatMap.1 hc
      obtain ⟨j, hj, hc⟩ := mem_kidsAt.1 hc
      have := (h1 b hb x hx (j :: p) [] x (.step hj hc hp) (.refl _)).2
      simp at this
    have ih := destroyBranch_eq H n (W.flatMap (kidsAt H)) (L \ nodesAt {x | x ∈ W}) k2 k1 (fun c hc p x hp => by
        obtain ⟨b, hb, hc⟩ := List.mem_flatMap.1 hc
        obtain ⟨j, hj, hc⟩ := mem_kidsAt.1 hc
        have := hd b hb (j :: p) x (.step hj hc hp)
        simp at this
        omega) (by
        rintro o ⟨x, hx, rfl⟩
        refine ⟨hL ⟨x, hsplit ▸ .inr hx, rfl⟩, ?_⟩
        rintro ⟨y, hy, e⟩
        cases e
        exact hdisj x hy hx) fuel (by omega)
    have hstep : destroyBranch H (fuel + 1) W L = (destroyRound H W L).bind fun r => destroyBranch H fuel r.1 r.2 := by
      subst hW; rfl
    rw [hstep, hr]
    simp only [Option.bind_some, ih]
    congr 1
    ext o
    rw [hsplit]
    constructor
    · rintro ⟨⟨g1, g2⟩, g3⟩
      refine ⟨g1, ?_⟩
      rintro ⟨x, hx | hx, rfl⟩
      · exact g2 ⟨x, hx, rfl⟩
      · exact g3 ⟨x, hx, rfl⟩
    · rintro ⟨g1, g2⟩
      exact ⟨⟨g1, fun ⟨x, hx, e⟩ => g2 ⟨x, .inl hx, e⟩⟩, fun ⟨x, hx, e⟩ => g2 ⟨x, .inr hx, e⟩⟩

/-- The loop over the children of a cell, include/dashmm/tree.h:890-894. -/
theorem destroyKids_eq (H : Heap) (a n : Nat) (h1 : ∀ p p' x, Chain H a p x → Chain H a p' x → p = p')
    (hd : ∀ p x, Chain H a p x → p.length ≤ n) (L : Set Obj) (hL : nodesAt {x | ∃ p, p ≠ [] ∧ Chain H a p x} ⊆ L) (fuel : Nat) (hf : n ≤ fuel) :
    (List.range 8).foldlM (fun L j => match (H a).child j with
      | some x => destroyBranch H fuel [x] L
      | none => some L) L = some (L \ nodesAt {x | ∃ p, p ≠ [] ∧ Chain H a p x}) := by
  have key : ∀ (l : List Nat) (L : Set Obj), l.Nodup → (∀ j ∈ l, j < 8) →
      nodesAt {x | ∃ j ∈ l, ∃ p, Chain H a (j :: p) x} ⊆ L →
      l.foldlM (fun L j => match (H a).child j with
        | some x => destroyBranch H fuel [x] L
        | none => some L) L = some (L \ nodesAt {x | ∃ j ∈ l, ∃ p, Chain H a (j :: p) x}) := by
    intro l
    induction l with
    | nil =>
      intro L _ _ _
      simp
    | cons j l ih =>
      intro L hl h8 hL
      rw [List.nodup_cons] at hl
      have hj : j < 8 := h8 j (by simp)
      cases hc : (H a).child j with
      | none =>
        have e : nodesAt {x | ∃ i ∈ j :: l, ∃ p, Chain H a (i :: p) x} = nodesAt {x | ∃ i ∈ l, ∃ p, Chain H a (i :: p) x} := by
          congr 1
          ext x
          simp only [List.mem_cons, Set.mem_ofPred_eq]
          constructor
          · rintro ⟨i, rfl | hi, p, hp⟩
            · cases hp with | step _ hc' _ => rw [hc] at hc'; cases hc'
            · exact ⟨i, hi, p, hp⟩
          · rintro ⟨i, hi, p, hp⟩; exact ⟨i, .inr hi, p, hp⟩
        rw [List.foldlM_cons, hc, e]
        rw [e] at hL
        exact ih L hl.2 (fun i hi => h8 i (by simp [hi])) hL
      | some x =>
        have hreach : reached H [x] = {z | ∃ p, Chain H a (j :: p) z} := by
          ext z
          constructor
          · rintro ⟨b, hb, p, hp⟩
            rw [List.mem_singleton.1 hb] at hp
            exact ⟨p, .step hj hc hp⟩
          · rintro ⟨p, hp⟩
            cases hp with
            | step _ hc' h => rw [hc] at hc'; cases hc'; exact ⟨x, by simp, p, h⟩
        have hdb := destroyBranch_eq H n [x] L (by simp) (by
          intro b hb b' hb' p p' z hp hp'
          rw [List.mem_singleton.1 hb] at hp ⊢
          rw [List.mem_singleton.1 hb'] at hp' ⊢
          have := h1 (j :: p) (j :: p') z (.step hj hc hp) (.step hj hc hp')
          exact ⟨rfl, (List.cons.inj this).2⟩) (by
          intro b hb p z hp
          rw [List.mem_singleton.1 hb] at hp
          have := hd (j :: p) z (.step hj hc hp)
          simp at this
          omega) (by
          rw [hreach]
          refine (nodesAt_mono ?_).trans hL
          rintro z ⟨p, hp⟩
          exact ⟨j, by simp, p, hp⟩) fuel hf
        rw [List.foldlM_cons, hc]
        simp only [hdb, Option.bind_eq_bind, Option.bind_some]
        rw [ih _ hl.2 (fun i hi => h8 i (by simp [hi])) (by
          rintro o ⟨z, ⟨i, hi, p, hp⟩, rfl⟩
          refine ⟨hL ⟨z, ⟨i, by simp [hi], p, hp⟩, rfl⟩, ?_⟩
          rintro ⟨z', hz', e⟩
          cases e
          rw [hreach] at hz'
          obtain ⟨p', hp'⟩ := hz'
          have := (List.cons.inj (h1 _ _ z hp hp')).1
          exact hl.1 (this ▸ hi))]
        congr 1
        rw [hreach]
        ext o
        constructor
        · rintro ⟨⟨g1, g2⟩, g3⟩
          refine ⟨g1, ?_⟩
          rintro ⟨z, ⟨i, hi, p, hp⟩, rfl⟩
          rcases List.mem_cons.1 hi with rfl | hi
          · exact g2 ⟨z, ⟨p, hp⟩, rfl⟩
          · exact g3 ⟨z, ⟨i, hi, p, hp⟩, rfl⟩
        · rintro ⟨g1, g2⟩
          refine ⟨⟨g1, ?_⟩, ?_⟩
          · rintro ⟨z, ⟨p, hp⟩, e⟩; exact g2 ⟨z, ⟨j, by simp, p, hp⟩, e⟩
          · rintro ⟨z, ⟨i, hi, p, hp⟩, e⟩; exact g2 ⟨z, ⟨i, by simp [hi], p, hp⟩, e⟩
  have e : {x | ∃ p, p ≠ [] ∧ Chain H a p x} = {x | ∃ j ∈ List.range 8, ∃ p, Chain H a (j :: p) x} := by
    ext x
    constructor
    · rintro ⟨p, hne, hp⟩
      cases hp with
      | refl => exact absurd rfl hne
      | @step _ b _ j p hj hc h => exact ⟨j, List.mem_range.2 hj, p, .step hj hc h⟩
    · rintro ⟨j, _, p, hp⟩
      exact ⟨j :: p, by simp, hp⟩
  rw [e] at hL ⊢
  exact key _ L List.nodup_range (fun j hj => List.mem_range.1 hj) hL

end RankTree
end Dashmm
