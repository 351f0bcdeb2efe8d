import Verif.Proofs.TopTree
namespace Dashmm
namespace Branch
open Grid (simpleKey simpleKey_inj simpleKey_lt)

theorem Oct8.snoc {p : List Nat} (h : Oct8 p) {j : Nat} (hj : j < 8) : Oct8 (p ++ [j]) := by
  intro c hc
  rcases List.mem_append.1 hc with hc | hc
  · exact h c hc
  · rw [List.mem_singleton.1 hc]; exact hj

theorem topAddr_full {r u : Nat} {p : List Nat} (h : p.length = u) : topAddr r u p = r + S u + cellOf u p := by
  unfold topAddr cellOf; rw [if_pos h]; rfl

theorem topAddr_inner {r u : Nat} {p : List Nat} (hp : Oct8 p) (h : p.length < u) :
    r ≤ topAddr r u p ∧ topAddr r u p < r + S u := by
  unfold topAddr; rw [if_neg (by omega)]
  have := posOf_lt p hp h
  omega

theorem cell_path {r u n : Nat} (hn : n < 8 ^ u) :
    ∃ q, Oct8 q ∧ q.length = u ∧ cellOf u q = n := by
  obtain ⟨q, h1, h2, h3⟩ := topAddr_surj (r := r) (u := u) (r + S u + n) (by omega) (by omega)
  have hl : q.length = u := by
    by_contra hh
    have := topAddr_inner (r := r) h1 (show q.length < u by omega)
    omega
  rw [topAddr_full hl] at h3
  exact ⟨q, h1, hl, by omega⟩

/-- The links that exist are those in `L`. -/
structure Shape (r u : Nat) (L : List Nat → Prop) (H : Heap) : Prop where
  yes : ∀ p j, Oct8 p → p.length < u → j < 8 → L (p ++ [j]) →
    (H (topAddr r u p)).child j = some (topAddr r u (p ++ [j])) ∧ (H (topAddr r u (p ++ [j]))).parent = some (topAddr r u p)
  no : ∀ p j, Oct8 p → p.length < u → j < 8 → ¬ L (p ++ [j]) → (H (topAddr r u p)).child j = none

theorem Shape.congr {r u : Nat} {L L' : List Nat → Prop} {H : Heap} (h : Shape r u L H)
    (he : ∀ q, Oct8 q → q.length ≤ u → q ≠ [] → (L' q ↔ L q)) : Shape r u L' H := by
  constructor
  · intro p j hp hl hj hL
    exact h.yes p j hp hl hj ((he _ (hp.snoc hj) (by simp; omega) (by simp)).1 hL)
  · intro p j hp hl hj hL
    exact h.no p j hp hl hj (fun hh => hL ((he _ (hp.snoc hj) (by simp; omega) (by simp)).2 hh))

theorem snoc_inj {r u : Nat} {p q : List Nat} {i j : Nat} (hp : Oct8 p) (hq : Oct8 q) (hi : i < 8) (hj : j < 8) (hlp : p.length < u)
    (hlq : q.length < u) (h : topAddr r u (p ++ [i]) = topAddr r u (q ++ [j])) : p = q ∧ i = j := by
  have := topAddr_inj (p ++ [i]) (q ++ [j]) (hp.snoc hi) (hq.snoc hj) (by simp; omega) (by simp; omega) h
  have := List.append_inj' this rfl
  exact ⟨this.1, by simpa using this.2⟩

/-! ### first phase -/

theorem removeEmpty_step {r u n : Nat} {counts : Nat → Nat} {H : Heap} (hu : 1 ≤ u) (hn : n < 8 ^ u)
    (h : Shape r u (fun q => q.length = u → cellOf u q < n → 0 < counts (cellOf u q)) H)
    (hpar : ∀ p j, Oct8 p → p.length < u → j < 8 → (H (topAddr r u (p ++ [j]))).parent = some (topAddr r u p)) :
    ∃ H', removeEmpty r u counts H n = some H' ∧
      Shape r u (fun q => q.length = u → cellOf u q < n + 1 → 0 < counts (cellOf u q)) H' ∧
      (∀ b, (∀ p, Oct8 p → p.length < u → b ≠ topAddr r u p) → H' b = H b) ∧
      (∀ b, (H' b).idx = (H b).idx ∧ (H' b).dagIdx = (H b).dagIdx ∧ (H' b).parent = (H b).parent) := by
  obtain ⟨q, hq, hql, hqc⟩ := cell_path (r := r) hn
  unfold removeEmpty
  simp only [nTop_eq hu]
  by_cases h0 : counts n = 0
  · rw [if_pos h0]
    -- the path has a last step
    obtain ⟨p, j, rfl⟩ : ∃ p j, q = p ++ [j] := by
      cases q using List.reverseRecOn with
      | nil => simp at hql; omega
      | append_singleton p j => exact ⟨p, j, rfl⟩
    have hp : Oct8 p := fun c hc => hq c (List.mem_append_left _ hc)
    have hj : j < 8 := hq j (by simp)
    have hpl : p.length < u := by simp at hql; omega
    have haddr : r + S u + n = topAddr r u (p ++ [j]) := by rw [topAddr_full hql, hqc]
    rw [haddr, hpar p j hp hpl hj]
    simp only
    -- only child j is the cell
    have hchild : ∀ i, i < 8 → ((H (topAddr r u p)).child i = some (topAddr r u (p ++ [j])) ↔ i = j) := by
      intro i hi
      constructor
      · intro hh
        by_cases hL : (p ++ [i]).length = u → cellOf u (p ++ [i]) < n → 0 < counts (cellOf u (p ++ [i]))
        · have := (h.yes p i hp hpl hi hL).1
          rw [this] at hh
          exact (snoc_inj hp hp hi hj hpl hpl (Option.some.inj hh)).2
        · rw [h.no p i hp hpl hi hL] at hh; simp at hh
      · rintro rfl
        exact (h.yes p i hp hpl hi (fun _ hlt => by omega)).1
    have hfind : (List.range 8).find? (fun i => decide ((H (topAddr r u p)).child i = some (topAddr r u (p ++ [j])))) = some j := by
      have hex : ((List.range 8).find? (fun i => decide ((H (topAddr r u p)).child i = some (topAddr r u (p ++ [j]))))).isSome := by
        rw [List.find?_isSome]
        exact ⟨j, List.mem_range.2 hj, by simpa using (hchild j hj).2 rfl⟩
      obtain ⟨i, hi⟩ := Option.isSome_iff_exists.1 hex
      have h1 := List.mem_of_find?_eq_some hi
      have h2 := List.find?_some hi
      rw [(hchild i (List.mem_range.1 h1)).1 (by simpa using h2)] at hi
      exact hi
    unfold removeChild
    rw [hfind]
    refine ⟨_, rfl, ?_, ?_, ?_⟩
    · constructor
      · intro p' j' hp' hl' hj' hL
        have hold := h.yes p' j' hp' hl' hj' (fun a b => hL a (by omega))
        unfold Heap.set
        have hne : ¬ (p' = p ∧ j' = j) := by
          rintro ⟨rfl, rfl⟩
          have := hL hql (by omega)
          rw [hqc] at this; omega
        constructor
        · by_cases he : topAddr r u p' = topAddr r u p
          · rw [if_pos he]
            have := topAddr_inj p' p hp' hp (by omega) (by omega) he
            subst this
            simp only
            rw [if_neg (fun hh => hne ⟨rfl, hh⟩)]
            exact hold.1
          · rw [if_neg he]; exact hold.1
        · by_cases he : topAddr r u (p' ++ [j']) = topAddr r u p
          · rw [if_pos he, ← he]; exact hold.2
          · rw [if_neg he]; exact hold.2
      · intro p' j' hp' hl' hj' hL
        unfold Heap.set
        by_cases hne : p' = p ∧ j' = j
        · obtain ⟨rfl, rfl⟩ := hne
          rw [if_pos rfl]; simp
        · have hold : (H (topAddr r u p')).child j' = none := by
            apply h.no p' j' hp' hl' hj'
            intro hh
            apply hL
            intro a b
            apply hh a
            by_contra hge
            have hcc : cellOf u (p' ++ [j']) = n := by omega
            have : topAddr r u (p' ++ [j']) = topAddr r u (p ++ [j]) := by
              rw [topAddr_full a, topAddr_full hql, hcc, hqc]
            exact hne (snoc_inj hp' hp hj' hj hl' hpl this)
          by_cases he : topAddr r u p' = topAddr r u p
          · rw [if_pos he]
            simp only
            by_cases hjj : j' = j
            · rw [if_pos hjj]
            · rw [if_neg hjj, ← he]; exact hold
          · rw [if_neg he]; exact hold
    · intro b hb
      unfold Heap.set
      rw [if_neg (hb p hp hpl)]
    · intro b
      unfold Heap.set
      by_cases he : b = topAddr r u p
      · rw [if_pos he, he]; exact ⟨rfl, rfl, rfl⟩
      · rw [if_neg he]; exact ⟨rfl, rfl, rfl⟩
  · rw [if_neg h0]
    refine ⟨H, rfl, h.congr ?_, fun _ _ => rfl, fun _ => ⟨rfl, rfl, rfl⟩⟩
    intro q' _ _ _
    constructor
    · intro hh a b; exact hh a (by omega)
    · intro hh a b
      by_cases hc : cellOf u q' = n
      · rw [hc]; omega
      · exact hh a (by omega)

theorem removeEmpty_all {r u : Nat} {counts : Nat → Nat} {H : Heap} (hu : 1 ≤ u) (h : Shape r u (fun _ => True) H) :
    ∃ H', (List.range (8 ^ u)).foldlM (removeEmpty r u counts) H = some H' ∧
      Shape r u (fun q => q.length = u → 0 < counts (cellOf u q)) H' ∧
      (∀ b, (∀ p, Oct8 p → p.length < u → b ≠ topAddr r u p) → H' b = H b) ∧
      (∀ b, (H' b).idx = (H b).idx ∧ (H' b).dagIdx = (H b).dagIdx ∧ (H' b).parent = (H b).parent) := by
  have key : ∀ n, n ≤ 8 ^ u → ∃ H', (List.range n).foldlM (removeEmpty r u counts) H = some H' ∧
      Shape r u (fun q => q.length = u → cellOf u q < n → 0 < counts (cellOf u q)) H' ∧
      (∀ b, (∀ p, Oct8 p → p.length < u → b ≠ topAddr r u p) → H' b = H b) ∧
      (∀ b, (H' b).idx = (H b).idx ∧ (H' b).dagIdx = (H b).dagIdx ∧ (H' b).parent = (H b).parent) := by
    intro n
    induction n with
    | zero =>
      intro _
      exact ⟨H, rfl, h.congr (fun q _ _ _ => by simp), fun _ _ => rfl, fun _ => ⟨rfl, rfl, rfl⟩⟩
    | succ n ih =>
      intro hn
      obtain ⟨H1, a1, a2, a3, a4⟩ := ih (by omega)
      obtain ⟨H2, b1, b2, b3, b4⟩ := removeEmpty_step hu (by omega) a2 (fun p j hp hl hj => by
        rw [(a4 _).2.2]; exact (h.yes p j hp hl hj trivial).2)
      refine ⟨H2, ?_, b2, fun b hb => (b3 b hb).trans (a3 b hb), fun b => ?_⟩
      · rw [List.range_succ, List.foldlM_append, a1]
        simp [b1]
      · rw [(b4 b).1, (b4 b).2.1, (b4 b).2.2]; exact a4 b
  obtain ⟨H', h1, h2, h3⟩ := key _ (Nat.le_refl _)
  refine ⟨H', h1, h2.congr ?_, h3⟩
  intro q hq hl _
  constructor
  · intro hh a _; exact hh a
  · intro hh a
    apply hh a
    have := topAddr_lt (r := 0) q hq hl
    rw [topAddr_full a] at this
    omega

/-! ### second phase -/

theorem alive_full {u : Nat} {counts : Nat → Nat} {q : List Nat} (h : q.length = u) :
    Alive u counts q ↔ 0 < counts (cellOf u q) := by
  constructor
  · rintro ⟨e, _, h2, h3⟩
    have : e = [] := List.length_eq_zero_iff.1 (by simp at h2; omega)
    subst this; simpa using h3
  · intro hh; exact ⟨[], by simp [Oct8], by simpa using h, by simpa using hh⟩

theorem alive_inner {u : Nat} {counts : Nat → Nat} {q : List Nat} (h : q.length < u) :
    Alive u counts q ↔ ∃ j, j < 8 ∧ Alive u counts (q ++ [j]) := by
  constructor
  · rintro ⟨e, h1, h2, h3⟩
    cases e with
    | nil => simp at h2; omega
    | cons j e =>
      refine ⟨j, h1 j (by simp), e, fun c hc => h1 c (by simp [hc]), ?_, ?_⟩
      · simpa using h2
      · simpa using h3
  · rintro ⟨j, hj, e, h1, h2, h3⟩
    refine ⟨j :: e, ?_, by simpa using h2, by simpa using h3⟩
    intro c hc
    rcases List.mem_cons.1 hc with rfl | hc
    · exact hj
    · exact h1 c hc

theorem leafAt_iff {r u : Nat} {L : List Nat → Prop} {H : Heap} (h : Shape r u L H) {p : List Nat} (hp : Oct8 p) (hl : p.length < u) :
    leafAt H (topAddr r u p) = true ↔ ∀ j, j < 8 → ¬ L (p ++ [j]) := by
  unfold leafAt
  rw [List.all_eq_true]
  constructor
  · intro hh j hj hL
    have := hh j (List.mem_range.2 hj)
    rw [(h.yes p j hp hl hj hL).1] at this
    simp at this
  · intro hh j hj
    rw [h.no p j hp hl (List.mem_range.1 hj) (hh j (List.mem_range.1 hj))]
    rfl

theorem prefix_snoc {p q : List Nat} {i j : Nat} (h1 : (p ++ [i]) <+: q) (h2 : (p ++ [j]) <+: q) : i = j := by
  obtain ⟨a, rfl⟩ := h1
  obtain ⟨b, hb⟩ := h2
  simp only [List.append_assoc, List.append_cancel_left_eq] at hb
  simp at hb
  exact hb.1.symm

theorem prefix_next {p q : List Nat} (h1 : p <+: q) (h2 : q ≠ p) (hq : Oct8 q) : ∃ i, i < 8 ∧ (p ++ [i]) <+: q := by
  obtain ⟨a, rfl⟩ := h1
  cases a with
  | nil => simp at h2
  | cons i a => exact ⟨i, hq i (by simp), a, by simp⟩

structure Post (r u : Nat) (counts : Nat → Nat) (p : List Nat) (L : List Nat → Prop) (H H' : Heap) : Prop where
  shape : Shape r u (fun q => (p <+: q ∧ q ≠ p ∧ Alive u counts q) ∨ (¬ (p <+: q ∧ q ≠ p) ∧ L q)) H'
  frame : ∀ b, (∀ q, Oct8 q → q.length < u → b ≠ topAddr r u q) → H' b = H b
  idx : ∀ b, (H' b).idx = (H b).idx ∧ (H' b).dagIdx = (H b).dagIdx

theorem rdl {r u : Nat} {np counts : Nat → Nat} (hnp : ∀ q, Oct8 q → q.length < u → np (topAddr r u q) = 0) :
    ∀ (d : Nat) (p : List Nat) (H : Heap) (L : List Nat → Prop), Oct8 p → p.length + d + 1 = u → Shape r u L H →
      (∀ q, Oct8 q → q.length < u → p <+: q → q ≠ p → L q) →
      (∀ q, Oct8 q → q.length = u → p <+: q → (L q ↔ 0 < counts (cellOf u q))) →
      Post r u counts p L H (removeDownwardLinks np d H (topAddr r u p)).1 ∧
      ((removeDownwardLinks np d H (topAddr r u p)).2 = true ↔ ¬ Alive u counts p) := by
  intro d
  induction d with
  | zero =>
    intro p H L hp hd hS h1 h2
    unfold removeDownwardLinks
    simp only
    refine ⟨⟨hS.congr ?_, fun _ _ => rfl, fun _ => ⟨rfl, rfl⟩⟩, ?_⟩
    · intro q hq hl _
      by_cases hpq : p <+: q ∧ q ≠ p
      · have hql : q.length = u := by
          obtain ⟨i, _, hi⟩ := prefix_next hpq.1 hpq.2 hq
          have := hi.length_le
          simp at this; omega
        have := h2 q hq hql hpq.1
        rw [alive_full hql]
        tauto
      · tauto
    · rw [Bool.and_eq_true, leafAt_iff hS hp (by omega), hnp p hp (by omega), alive_inner (show p.length < u by omega)]
      constructor
      · rintro ⟨ha, _⟩ ⟨j, hj, hal⟩
        have hl : (p ++ [j]).length = u := by simp; omega
        rw [alive_full hl] at hal
        exact ha j hj ((h2 _ (hp.snoc hj) hl ⟨[j], rfl⟩).2 hal)
      · intro ha
        refine ⟨fun j hj hL => ha ⟨j, hj, ?_⟩, rfl⟩
        have hl : (p ++ [j]).length = u := by simp; omega
        rw [alive_full hl]
        exact (h2 _ (hp.snoc hj) hl ⟨[j], rfl⟩).1 hL
  | succ d ih =>
    intro p H L hp hd hS h1 h2
    have hpl : p.length < u := by omega
    unfold removeDownwardLinks
    simp only
    generalize hf : (fun (H : Heap) (i : Nat) =>
      match (H (topAddr r u p)).child i with
      | none => H
      | some c =>
        if (removeDownwardLinks np d H c).2 = true then
          Heap.set (Heap.set (removeDownwardLinks np d H c).1 c { (removeDownwardLinks np d H c).1 c with parent := none })
            (topAddr r u p)
            { Heap.set (removeDownwardLinks np d H c).1 c { (removeDownwardLinks np d H c).1 c with parent := none }
                (topAddr r u p) with
              child := fun j => if j = i then none else
                (Heap.set (removeDownwardLinks np d H c).1 c { (removeDownwardLinks np d H c).1 c with parent := none }
                  (topAddr r u p)).child j }
        else (removeDownwardLinks np d H c).1) = f
    have key : ∀ k, k ≤ 8 →
        Shape r u (fun q => (∃ i, i < k ∧ (p ++ [i]) <+: q ∧ Alive u counts q) ∨ ((∀ i, i < k → ¬ (p ++ [i]) <+: q) ∧ L q))
          ((List.range k).foldl f H) ∧
        (∀ b, (∀ q, Oct8 q → q.length < u → b ≠ topAddr r u q) → ((List.range k).foldl f H) b = H b) ∧
        (∀ b, (((List.range k).foldl f H) b).idx = (H b).idx ∧ (((List.range k).foldl f H) b).dagIdx = (H b).dagIdx) := by
      intro k
      induction k with
      | zero =>
        intro _
        exact ⟨hS.congr (fun q _ _ _ => by simp), fun _ _ => rfl, fun _ => ⟨rfl, rfl⟩⟩
      | succ k ihk =>
        intro hk
        obtain ⟨b1, b2, b3⟩ := ihk (by omega)
        rw [List.range_succ, List.foldl_append, List.foldl_cons, List.foldl_nil]
        generalize (List.range k).foldl f H = G at *
        have hk8 : k < 8 := by omega
        have hkl : (p ++ [k]).length < u := by simp; omega
        have hother : ∀ q, (p ++ [k]) <+: q → ∀ i, i < k → ¬ (p ++ [i]) <+: q := by
          intro q hq i hi hh
          have := prefix_snoc hh hq; omega
        have hLk : L (p ++ [k]) := h1 _ (hp.snoc hk8) hkl ⟨[k], rfl⟩ (by simp)
        have hyes := b1.yes p k hp hpl hk8 (.inr ⟨hother _ (List.prefix_refl _), hLk⟩)
        obtain ⟨post, hb⟩ := ih (p ++ [k]) G _ (hp.snoc hk8) (by simp; omega) b1
          (fun q hq hql hpq hne => .inr ⟨hother q hpq, h1 q hq hql (List.IsPrefix.trans ⟨[k], rfl⟩ hpq) (by
            rintro rfl
            have := hpq.length_le
            simp at this)⟩)
          (fun q hq hql hpq => by
            have := h2 q hq hql (List.IsPrefix.trans ⟨[k], rfl⟩ hpq)
            have ho := hother q hpq
            constructor
            · rintro (⟨i, hi, hh, _⟩ | ⟨_, hh⟩)
              · exact absurd hh (ho i hi)
              · exact this.1 hh
            · intro hh; exact .inr ⟨ho, this.2 hh⟩)
        have hfG : f G k = if (removeDownwardLinks np d G (topAddr r u (p ++ [k]))).2 = true then
          Heap.set (Heap.set (removeDownwardLinks np d G (topAddr r u (p ++ [k]))).1 (topAddr r u (p ++ [k])) { (removeDownwardLinks np d G (topAddr r u (p ++ [k]))).1 (topAddr r u (p ++ [k])) with parent := none })
            (topAddr r u p)
            { Heap.set (removeDownwardLinks np d G (topAddr r u (p ++ [k]))).1 (topAddr r u (p ++ [k])) { (removeDownwardLinks np d G (topAddr r u (p ++ [k]))).1 (topAddr r u (p ++ [k])) with parent := none }
                (topAddr r u p) with
              child := fun j => if j = k then none else
                (Heap.set (removeDownwardLinks np d G (topAddr r u (p ++ [k]))).1 (topAddr r u (p ++ [k])) { (removeDownwardLinks np d G (topAddr r u (p ++ [k]))).1 (topAddr r u (p ++ [k])) with parent := none }
                  (topAddr r u p)).child j }
          else (removeDownwardLinks np d G (topAddr r u (p ++ [k]))).1 := by
          rw [← hf]
          simp only
          rw [hyes.1]
        rw [hfG]
        generalize removeDownwardLinks np d G (topAddr r u (p ++ [k])) = res at *
        obtain ⟨G', bb⟩ := res
        simp only at post hb ⊢
        by_cases hbt : bb = true
        · rw [if_pos hbt]
          have hdead := hb.1 hbt
          have hcp : topAddr r u p ≠ topAddr r u (p ++ [k]) := by
            intro hh
            have := topAddr_inj p (p ++ [k]) hp (hp.snoc hk8) (by omega) (by omega) hh
            simp at this
          have heq : ∀ b, Heap.set (Heap.set G' (topAddr r u (p ++ [k])) { G' (topAddr r u (p ++ [k])) with parent := none }) (topAddr r u p)
              { Heap.set G' (topAddr r u (p ++ [k])) { G' (topAddr r u (p ++ [k])) with parent := none } (topAddr r u p) with
                child := fun j => if j = k then none else
                  (Heap.set G' (topAddr r u (p ++ [k])) { G' (topAddr r u (p ++ [k])) with parent := none } (topAddr r u p)).child j } b
              = if b = topAddr r u p then { G' b with child := fun j => if j = k then none else (G' b).child j }
                else if b = topAddr r u (p ++ [k]) then { G' b with parent := none } else G' b := by
            intro b
            unfold Heap.set
            by_cases e1 : b = topAddr r u p
            · rw [if_pos e1, if_pos e1, if_neg hcp, e1]
            · rw [if_neg e1, if_neg e1]
              by_cases e2 : b = topAddr r u (p ++ [k])
              · rw [if_pos e2, if_pos e2, e2]
              · rw [if_neg e2, if_neg e2]
          generalize Heap.set (Heap.set G' (topAddr r u (p ++ [k])) { G' (topAddr r u (p ++ [k])) with parent := none }) (topAddr r u p)
              { Heap.set G' (topAddr r u (p ++ [k])) { G' (topAddr r u (p ++ [k])) with parent := none } (topAddr r u p) with
                child := fun j => if j = k then none else
                  (Heap.set G' (topAddr r u (p ++ [k])) { G' (topAddr r u (p ++ [k])) with parent := none } (topAddr r u p)).child j } = F at *
          -- the old relation, without the removed link
          have hold : Shape r u (fun q => q ≠ p ++ [k] ∧ ((p ++ [k] <+: q ∧ q ≠ p ++ [k] ∧ Alive u counts q) ∨
              (¬ (p ++ [k] <+: q ∧ q ≠ p ++ [k]) ∧ ((∃ i, i < k ∧ (p ++ [i]) <+: q ∧ Alive u counts q) ∨
                ((∀ i, i < k → ¬ (p ++ [i]) <+: q) ∧ L q))))) F := by
            constructor
            · rintro q j hq hl hj ⟨hne, hL⟩
              obtain ⟨c1, c2⟩ := post.shape.yes q j hq hl hj hL
              constructor
              · rw [heq]
                by_cases e1 : topAddr r u q = topAddr r u p
                · rw [if_pos e1]
                  have := topAddr_inj q p hq hp (by omega) (by omega) e1
                  subst this
                  simp only
                  rw [if_neg (by rintro rfl; exact hne rfl)]
                  exact c1
                · rw [if_neg e1]
                  by_cases e2 : topAddr r u q = topAddr r u (p ++ [k])
                  · rw [if_pos e2]; exact c1
                  · rw [if_neg e2]; exact c1
              · rw [heq]
                by_cases e1 : topAddr r u (q ++ [j]) = topAddr r u p
                · rw [if_pos e1]; exact c2
                · rw [if_neg e1, if_neg]
                  · exact c2
                  · intro hh
                    obtain ⟨rfl, rfl⟩ := snoc_inj hq hp hj hk8 hl hpl hh
                    exact hne rfl
            · intro q j hq hl hj hL
              rw [heq]
              by_cases e1 : topAddr r u q = topAddr r u p
              · rw [if_pos e1]
                have := topAddr_inj q p hq hp (by omega) (by omega) e1
                subst this
                simp only
                by_cases hjk : j = k
                · rw [if_pos hjk]
                · rw [if_neg hjk]
                  exact post.shape.no q j hq hl hj (fun hh => hL ⟨by simpa using hjk, hh⟩)
              · rw [if_neg e1]
                have hne : q ++ [j] ≠ p ++ [k] := by
                  intro hh
                  have := List.append_inj' hh rfl
                  exact e1 (by rw [this.1])
                have := post.shape.no q j hq hl hj (fun hh => hL ⟨hne, hh⟩)
                by_cases e2 : topAddr r u q = topAddr r u (p ++ [k])
                · rw [if_pos e2]; exact this
                · rw [if_neg e2]; exact this
          refine ⟨hold.congr ?_, ?_, ?_⟩
          · intro q hq hl _
            by_cases hqk : q = p ++ [k]
            · constructor
              · rintro (⟨i, hi, hh, hal⟩ | ⟨hh, _⟩)
                · rw [hqk] at hal; exact absurd hal hdead
                · exact absurd (by rw [hqk]) (hh k (by omega))
              · rintro ⟨hh, _⟩; exact absurd hqk hh
            · by_cases hpre : (p ++ [k]) <+: q
              · have ho := hother q hpre
                constructor
                · rintro (⟨i, hi, hh, hal⟩ | ⟨hh, _⟩)
                  · exact ⟨hqk, .inl ⟨hpre, hqk, hal⟩⟩
                  · exact absurd hpre (hh k (by omega))
                · rintro ⟨_, ⟨_, _, hal⟩ | ⟨hh, _⟩⟩
                  · exact .inl ⟨k, by omega, hpre, hal⟩
                  · exact absurd ⟨hpre, hqk⟩ hh
              · constructor
                · rintro (⟨i, hi, hh, hal⟩ | ⟨hh, hL⟩)
                  · have : i < k := by
                      by_contra hge
                      have : i = k := by omega
                      subst this; exact hpre hh
                    exact ⟨hqk, .inr ⟨fun hx => hpre hx.1, .inl ⟨i, this, hh, hal⟩⟩⟩
                  · exact ⟨hqk, .inr ⟨fun hx => hpre hx.1, .inr ⟨fun i hi => hh i (by omega), hL⟩⟩⟩
                · rintro ⟨_, ⟨hh, _⟩ | ⟨_, ⟨i, hi, hh, hal⟩ | ⟨hh, hL⟩⟩⟩
                  · exact absurd hh hpre
                  · exact .inl ⟨i, by omega, hh, hal⟩
                  · refine .inr ⟨fun i hi => ?_, hL⟩
                    by_cases hik : i = k
                    · rw [hik]; exact hpre
                    · exact hh i (by omega)
          · intro b hb
            rw [heq, if_neg (hb p hp hpl), if_neg (hb _ (hp.snoc hk8) hkl), post.frame b hb, b2 b hb]
          · intro b
            rw [heq, ← (b3 b).1, ← (b3 b).2, ← (post.idx b).1, ← (post.idx b).2]
            by_cases e1 : b = topAddr r u p
            · rw [if_pos e1]; exact ⟨rfl, rfl⟩
            · rw [if_neg e1]
              by_cases e2 : b = topAddr r u (p ++ [k])
              · rw [if_pos e2]; exact ⟨rfl, rfl⟩
              · rw [if_neg e2]; exact ⟨rfl, rfl⟩
        · rw [if_neg hbt]
          have halive : Alive u counts (p ++ [k]) := by
            by_contra hh; exact hbt (hb.2 hh)
          refine ⟨post.shape.congr ?_, fun b hb => (post.frame b hb).trans (b2 b hb),
            fun b => ⟨(post.idx b).1.trans (b3 b).1, (post.idx b).2.trans (b3 b).2⟩⟩
          intro q hq hl _
          by_cases hqk : q = p ++ [k]
          · subst hqk
            have ho := hother _ (List.prefix_refl (p ++ [k]))
            constructor
            · intro _; exact .inr ⟨fun hh => hh.2 rfl, .inr ⟨ho, hLk⟩⟩
            · intro _; exact .inl ⟨k, by omega, List.prefix_refl _, halive⟩
          · by_cases hpre : (p ++ [k]) <+: q
            · constructor
              · rintro (⟨i, hi, hh, hal⟩ | ⟨hh, _⟩)
                · exact .inl ⟨hpre, hqk, hal⟩
                · exact absurd hpre (hh k (by omega))
              · rintro (⟨_, _, hal⟩ | ⟨hh, _⟩)
                · exact .inl ⟨k, by omega, hpre, hal⟩
                · exact absurd ⟨hpre, hqk⟩ hh
            · constructor
              · rintro (⟨i, hi, hh, hal⟩ | ⟨hh, hL⟩)
                · have : i < k := by
                    by_contra hge
                    have : i = k := by omega
                    subst this; exact hpre hh
                  exact .inr ⟨fun hx => hpre hx.1, .inl ⟨i, this, hh, hal⟩⟩
                · exact .inr ⟨fun hx => hpre hx.1, .inr ⟨fun i hi => hh i (by omega), hL⟩⟩
              · rintro (⟨hh, _⟩ | ⟨_, ⟨i, hi, hh, hal⟩ | ⟨hh, hL⟩⟩)
                · exact absurd hh hpre
                · exact .inl ⟨i, by omega, hh, hal⟩
                · refine .inr ⟨fun i hi => ?_, hL⟩
                  by_cases hik : i = k
                  · rw [hik]; exact hpre
                  · exact hh i (by omega)
    obtain ⟨k1, k2, k3⟩ := key 8 (Nat.le_refl _)
    generalize (List.range 8).foldl f H = F at *
    have hall : ∀ q, Oct8 q → ((∃ i, i < 8 ∧ (p ++ [i]) <+: q) ↔ (p <+: q ∧ q ≠ p)) := by
      intro q hq
      constructor
      · rintro ⟨i, _, hi⟩
        refine ⟨List.IsPrefix.trans ⟨[i], rfl⟩ hi, ?_⟩
        rintro rfl
        have := hi.length_le
        simp at this
      · rintro ⟨a, b⟩; exact prefix_next a b hq
    refine ⟨⟨k1.congr ?_, k2, k3⟩, ?_⟩
    · intro q hq hl _
      have ha := hall q hq
      by_cases hpq : p <+: q ∧ q ≠ p
      · obtain ⟨i, hi, hpi⟩ := ha.2 hpq
        constructor
        · rintro (⟨_, _, hal⟩ | ⟨hh, _⟩)
          · exact .inl ⟨i, hi, hpi, hal⟩
          · exact absurd hpq hh
        · rintro (⟨_, _, _, hal⟩ | ⟨hh, _⟩)
          · exact .inl ⟨hpq.1, hpq.2, hal⟩
          · exact absurd hpi (hh i hi)
      · constructor
        · rintro (⟨a, b, _⟩ | ⟨_, hL⟩)
          · exact absurd ⟨a, b⟩ hpq
          · exact .inr ⟨fun i hi hh => hpq (ha.1 ⟨i, hi, hh⟩), hL⟩
        · rintro (⟨i, hi, hh, _⟩ | ⟨_, hL⟩)
          · exact absurd (ha.1 ⟨i, hi, hh⟩) hpq
          · exact .inr ⟨hpq, hL⟩
    · rw [Bool.and_eq_true, leafAt_iff k1 hp hpl, hnp p hp hpl, alive_inner hpl]
      constructor
      · rintro ⟨ha, _⟩ ⟨j, hj, hal⟩
        exact ha j hj (.inl ⟨j, hj, List.prefix_refl _, hal⟩)
      · intro ha
        refine ⟨?_, rfl⟩
        intro j hj hh
        rcases hh with ⟨i, hi, hpi, hal⟩ | ⟨hh, _⟩
        · exact ha ⟨j, hj, hal⟩
        · exact hh j hj (List.prefix_refl _)

/-- Both phases together. -/
theorem prune_shape {r u : Nat} {np counts : Nat → Nat} {H : Heap} (hu : 1 ≤ u)
    (hnp : ∀ q, Oct8 q → q.length < u → np (topAddr r u q) = 0) (h : Shape r u (fun _ => True) H) :
    ∃ H', pruneTopnodes r u np counts H = some H' ∧ Shape r u (Alive u counts) H' ∧
      (∀ b, (∀ p, Oct8 p → p.length < u → b ≠ topAddr r u p) → H' b = H b) ∧
      (∀ b, (H' b).idx = (H b).idx ∧ (H' b).dagIdx = (H b).dagIdx) := by
  obtain ⟨H1, a1, a2, a3, a4⟩ := removeEmpty_all (counts := counts) hu h
  have := rdl (counts := counts) hnp (u - 1) [] H1 _ (by simp [Oct8]) (by simp; omega) a2 (fun q _ hl _ _ hh => by omega)
    (fun q _ hl _ => ⟨fun hh => hh hl, fun hh _ => hh⟩)
  rw [topAddr_nil hu] at this
  refine ⟨_, ?_, this.1.shape.congr ?_, fun b hb => (this.1.frame b hb).trans (a3 b hb),
    fun b => ⟨(this.1.idx b).1.trans (a4 b).1, (this.1.idx b).2.trans (a4 b).2.1⟩⟩
  · unfold pruneTopnodes
    rw [a1]
  · intro q _ _ hq
    have : [] <+: q ∧ q ≠ [] := ⟨List.nil_prefix, hq⟩
    tauto

/-! ### in terms of links -/

theorem setup_at {r u : Nat} (hu : 1 ≤ u) (H : Heap) (p : List Nat) (hp : Oct8 p) (hl : p.length ≤ u) :
    (setupBasics r u H (topAddr r u p)).idx = place p ∧ (setupBasics r u H (topAddr r u p)).dagIdx = place p := by
  cases p using List.reverseRecOn with
  | nil =>
    rw [topAddr_nil hu]
    have := setupBasics_setup (r := r) hu H
    exact ⟨this.root, this.top.2⟩
  | append_singleton p j =>
    have hl' : p.length < u := by simp at hl; omega
    have := setup_path (r := r) hu H p (fun c hc => hp c (List.mem_append_left _ hc)) hl' j (hp j (by simp))
    exact ⟨this.2.1, this.2.2.1⟩

theorem linked_append {H : Heap} {a b c : Nat} {p q : List Nat} (h1 : Linked H a p b) (h2 : Linked H b q c) : Linked H a (p ++ q) c := by
  induction h1 with
  | refl a => exact h2
  | step hj hc hi _ ih => exact .step hj hc hi (ih h2)

theorem linked_snoc {H : Heap} {a c : Nat} {p : List Nat} {j : Nat} (h : Linked H a (p ++ [j]) c) :
    ∃ b, Linked H a p b ∧ (H b).child j = some c ∧ (H c).idx = (H b).idx.child j ∧ j < 8 := by
  induction p generalizing a with
  | nil =>
    cases h with
    | step hj hc hi h => cases h; exact ⟨a, .refl _, hc, hi, hj⟩
  | cons i p ih =>
    cases h with
    | step hj hc hi h =>
      obtain ⟨b, h1, h2⟩ := ih h
      exact ⟨b, .step hj hc hi h1, h2⟩

theorem linked_unique {H : Heap} {a b c : Nat} {p : List Nat} (h1 : Linked H a p b) (h2 : Linked H a p c) : b = c := by
  induction h1 with
  | refl a => cases h2; rfl
  | step hj hc hi _ ih =>
    cases h2 with
    | step hj' hc' hi' h' =>
      rw [hc] at hc'
      obtain rfl := Option.some.inj hc'
      exact ih h'

theorem linked_oct8 {H : Heap} {a b : Nat} {p : List Nat} (h : Linked H a p b) : Oct8 p := by
  induction h with
  | refl a => simp [Oct8]
  | step hj _ _ _ ih =>
    intro c hc
    rcases List.mem_cons.1 hc with rfl | hc
    · exact hj
    · exact ih c hc

theorem linked_idx {H : Heap} {a b : Nat} {p : List Nat} (h : Linked H a p b) : (H b).idx = p.foldl Index.child (H a).idx := by
  induction h with
  | refl a => rfl
  | step _ _ hi _ ih => rw [ih, hi]; rfl

/-- The links of a heap of a given shape. -/
theorem shape_linked {r u : Nat} (hu : 1 ≤ u) {L : List Nat → Prop} {H : Heap} (h : Shape r u L H)
    (hidx : ∀ p, Oct8 p → p.length ≤ u → (H (topAddr r u p)).idx = place p)
    (hpre : ∀ p j, p ≠ [] → L (p ++ [j]) → j < 8 → L p) :
    ∀ p, Oct8 p → p.length ≤ u → ∀ b, Linked H r p b ↔ b = topAddr r u p ∧ (p = [] ∨ L p) := by
  intro p
  induction p using List.reverseRecOn with
  | nil =>
    intro _ _ b
    constructor
    · intro hh; cases hh; exact ⟨(topAddr_nil hu).symm, .inl rfl⟩
    · rintro ⟨rfl, _⟩; rw [topAddr_nil hu]; exact .refl _
  | append_singleton p j ih =>
    intro hp hl b
    have hp' : Oct8 p := fun c hc => hp c (List.mem_append_left _ hc)
    have hj := hp j (by simp)
    have hl' : p.length < u := by simp at hl; omega
    have ih := ih hp' (by omega)
    constructor
    · intro hh
      obtain ⟨a, h1, h2, h3, _⟩ := linked_snoc hh
      obtain ⟨rfl, _⟩ := (ih a).1 h1
      by_cases hL : L (p ++ [j])
      · rw [(h.yes p j hp' hl' hj hL).1] at h2
        exact ⟨(Option.some.inj h2).symm, .inr hL⟩
      · rw [h.no p j hp' hl' hj hL] at h2; simp at h2
    · rintro ⟨rfl, hh⟩
      have hL : L (p ++ [j]) := by
        rcases hh with hh | hh
        · simp at hh
        · exact hh
      have hpl : p = [] ∨ L p := by
        by_cases he : p = []
        · exact .inl he
        · exact .inr (hpre p j he hL hj)
      refine linked_append ((ih _).2 ⟨rfl, hpl⟩) (.step hj (h.yes p j hp' hl' hj hL).1 ?_ (.refl _))
      rw [hidx _ hp hl, hidx p hp' (by omega)]
      unfold place; rw [List.foldl_append]; rfl

theorem intact_shape {r u : Nat} (hu : 1 ≤ u) {H0 H : Heap} (h : TopIntact r u H0 H) : Shape r u (fun _ => True) H ∧
    ∀ p, Oct8 p → p.length ≤ u → (H (topAddr r u p)).idx = place p ∧ (H (topAddr r u p)).dagIdx = place p ∧
      (H (topAddr r u p)).parent = (setupBasics r u H0 (topAddr r u p)).parent := by
  have hall : ∀ p, Oct8 p → p.length ≤ u → (H (topAddr r u p)).idx = place p ∧ (H (topAddr r u p)).dagIdx = place p ∧
      (H (topAddr r u p)).parent = (setupBasics r u H0 (topAddr r u p)).parent := by
    intro p hp hl
    have hs := setup_at (r := r) hu H0 p hp hl
    by_cases he : p.length = u
    · have hc := topAddr_lt (r := r) p hp hl
      have hf := topAddr_full (r := r) he
      have := h.cells (topAddr r u p) (by rw [nTop_eq hu]; omega) (by rw [nTop_eq hu]; omega)
      rw [this.1, this.2.1, this.2.2]; exact ⟨hs.1, hs.2, rfl⟩
    · have hc := topAddr_inner (r := r) hp (show p.length < u by omega)
      rw [h.inner _ hc.1 (by rw [nTop_eq hu]; exact hc.2)]
      exact ⟨hs.1, hs.2, rfl⟩
  refine ⟨⟨?_, fun p j _ _ _ hh => absurd trivial hh⟩, hall⟩
  intro p j hp hl hj _
  have hc := topAddr_inner (r := r) hp hl
  have hs := setup_path (r := r) hu H0 p hp hl j hj
  rw [(hall _ (hp.snoc hj) (by simp; omega)).2.2, h.inner _ hc.1 (by rw [nTop_eq hu]; exact hc.2)]
  exact ⟨hs.1, hs.2.2.2⟩

theorem intact_refl {r u : Nat} (H : Heap) : TopIntact r u H (setupBasics r u H) :=
  ⟨fun _ _ _ => rfl, fun _ _ _ => ⟨rfl, rfl, rfl⟩⟩

/-! ### lookup -/

theorem walk_linked {H : Heap} {b : Nat} : ∀ {a : Nat} {p : List Nat}, Linked H a p b → ∀ fuel, p.length ≤ fuel →
    walk H (H b).idx fuel a = some b := by
  intro a p h
  induction h with
  | refl a =>
    intro fuel _
    unfold walk
    simp
  | @step a b' c j q hj hc hi hl ih =>
    intro fuel hf
    have h8 : Oct8 (j :: q) := linked_oct8 (.step hj hc hi hl)
    have hidx : (H c).idx = (j :: q).foldl Index.child (H a).idx := linked_idx (.step hj hc hi hl)
    have hidx' := linked_idx hl
    obtain ⟨h1, h2⟩ := Grid.parent_of_path (H a).idx (j :: q) h8
    obtain ⟨h3, h4⟩ := Grid.parent_of_path (H b').idx q (fun c hc => h8 c (by simp [hc]))
    rw [← hidx] at h1 h2
    rw [← hidx'] at h3 h4
    have hlen : (j :: q).length = q.length + 1 := rfl
    obtain ⟨fuel, rfl⟩ : ∃ f, fuel = f + 1 := ⟨fuel - 1, by rw [hlen] at hf; omega⟩
    unfold walk
    simp only
    rw [if_neg (by omega), if_neg (by omega)]
    have e1 : (H c).idx.level - (H a).idx.level = (j :: q).length := by omega
    rw [e1, h1, if_neg (by simp)]
    have e2 : (j :: q).length - 1 = q.length := rfl
    rw [e2, h3, hi, Index.whichChild_child _ _ hj, hc]
    simp only
    exact ih fuel (by rw [hlen] at hf; omega)

end Branch
end Dashmm
