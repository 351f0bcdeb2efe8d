import Verif.Proofs.Branch
namespace Dashmm
namespace Branch

theorem extractStep_eq {this base : Nat} {branch tree : Nat → Int} {H : Heap} {i : Nat} {a : Nat}
    (ha : a = if tree i < 0 then this else base + (tree i).toNat) (hne : a ≠ base + i) (b : Nat) :
    extractStep this base branch tree H i b =
      if b = a then { H a with child := fun j => if j = (branch i).toNat then some (base + i) else (H a).child j }
      else if b = base + i then
        ⟨(H a).idx.child (branch i).toNat, (H a).idx.child (branch i).toNat, some a, (H (base + i)).child⟩
      else H b := by
  unfold extractStep
  simp only [← ha]
  simp only [Heap.set]
  by_cases h1 : b = a
  · subst h1
    simp [hne]
  · by_cases h2 : b = base + i
    · subst h2
      simp [hne]
    · simp [h1, h2]

/-- Where the node of position `P` is. -/
def addr (this base P : Nat) : Nat := if P = 0 then this else base + (P - 1)

/-- The heap after `m` steps. -/
structure Mid (this base : Nat) (es : List (Int × Fin 8)) (H0 : Heap) (m : Nat) (H : Heap) : Prop where
  out : ∀ b, b ≠ this → ¬ (base ≤ b ∧ b < base + es.length) → H b = H0 b
  thisIdx : (H this).idx = (H0 this).idx
  thisDag : (H this).dagIdx = (H0 this).dagIdx
  thisParent : (H this).parent = (H0 this).parent
  idx : ∀ k (P : Nat) (i : Fin 8), k < m → es[k]? = some ((P : Int) - 1, i) →
    (H (base + k)).idx = (H (addr this base P)).idx.child i ∧ (H (base + k)).dagIdx = (H (addr this base P)).idx.child i ∧
      (H (base + k)).parent = some (addr this base P)
  child : ∀ P, P ≤ es.length → ∀ j v, (H (addr this base P)).child j = some v ↔
    ∃ k, k < m ∧ v = base + k ∧ ∃ i : Fin 8, i.val = j ∧ es[k]? = some ((P : Int) - 1, i)

theorem addr_ne_succ {this base n k P : Nat} (hfresh : ¬ (base ≤ this ∧ this < base + n)) (hk : k < n) (hP : P ≤ k) :
    addr this base P ≠ base + k := by
  unfold addr
  split <;> omega

theorem addr_inj {this base n P Q : Nat} (hfresh : ¬ (base ≤ this ∧ this < base + n)) (hP : P ≤ n) (hQ : Q ≤ n)
    (h : addr this base P = addr this base Q) : P = Q := by
  unfold addr at h
  split at h <;> split at h <;> omega

theorem addr_succ (this base k : Nat) : addr this base (k + 1) = base + k := by unfold addr; simp

theorem mid_step {this base : Nat} {root : Kids} {es : List (Int × Fin 8)} {T : List Kids} {H0 H : Heap} {m : Nat}
    {branch tree : Nat → Int} (hF : Faithful root es T) (hfresh : ¬ (base ≤ this ∧ this < base + es.length))
    (hb : ∀ k e, es[k]? = some e → branch k = ((e.2 : Nat) : Int) ∧ tree k = e.1)
    (hm : m < es.length) (h : Mid this base es H0 m H) :
    Mid this base es H0 (m + 1) (extractStep this base branch tree H m) := by
  have hg : es[m]? = some es[m] := List.getElem?_eq_getElem hm
  obtain ⟨P, c, c', hp, hPm, hTP, hTm, hcn⟩ := hF.sound m es[m].1 es[m].2 hg
  obtain ⟨hbr, htr⟩ := hb m _ hg
  have ha : addr this base P = if tree m < 0 then this else base + (tree m).toNat := by
    rw [htr, hp]
    unfold addr
    by_cases h0 : P = 0
    · subst h0; simp
    · rw [if_neg h0, if_neg (by omega)]; omega
  have hne := addr_ne_succ (n := es.length) hfresh hm hPm
  have hbn : (branch m).toNat = es[m].2.val := by rw [hbr]; simp
  have heq := fun b => extractStep_eq (branch := branch) (tree := tree) (H := H) (i := m) ha hne b
  rw [hbn] at heq
  have hthis : this ≠ base + m := by omega
  have hkeep : ∀ b, b ≠ base + m → (extractStep this base branch tree H m b).idx = (H b).idx ∧
      (extractStep this base branch tree H m b).dagIdx = (H b).dagIdx ∧
      (extractStep this base branch tree H m b).parent = (H b).parent := by
    intro b hbm
    rw [heq b]
    by_cases h1 : b = addr this base P
    · subst h1; simp
    · rw [if_neg h1, if_neg hbm]; exact ⟨rfl, rfl, rfl⟩
  constructor
  · intro b h1 h2
    rw [heq b, if_neg, if_neg]
    · exact h.out b h1 h2
    · omega
    · unfold addr; split
      · exact h1
      · omega
  · rw [(hkeep this hthis).1]; exact h.thisIdx
  · rw [(hkeep this hthis).2.1]; exact h.thisDag
  · rw [(hkeep this hthis).2.2]; exact h.thisParent
  · intro k Q i hk hq
    obtain ⟨Q', _, _, h1, h2, _⟩ := hF.sound k _ _ hq
    have hQQ : Q' = Q := by omega
    subst hQQ
    have hQne : addr this base Q' ≠ base + m := addr_ne_succ (n := es.length) hfresh hm (by omega)
    rw [(hkeep _ hQne).1]
    by_cases hkm : k = m
    · subst hkm
      rw [hg] at hq
      have he : es[k] = ((Q' : Int) - 1, i) := Option.some.inj hq
      rw [heq (base + k), if_neg (Ne.symm hne), if_pos rfl]
      have hPQ : P = Q' := by rw [he] at hp; simp at hp; omega
      subst hPQ
      rw [he]
      exact ⟨rfl, rfl, rfl⟩
    · have hkne : base + k ≠ base + m := by omega
      rw [(hkeep _ hkne).1, (hkeep _ hkne).2.1, (hkeep _ hkne).2.2]
      exact h.idx k Q' i (by omega) hq
  · intro Q hQ j v
    have old := h.child Q hQ j v
    rw [heq]
    by_cases hQP : Q = P
    · subst hQP
      rw [if_pos rfl]
      simp only
      by_cases hj : j = es[m].2.val
      · rw [if_pos hj]
        constructor
        · intro hv
          have hv : base + m = v := Option.some.inj hv
          refine ⟨m, by omega, hv.symm, es[m].2, hj.symm, ?_⟩
          rw [hg, ← hp]
        · rintro ⟨k, hk, rfl, i, hi, hki⟩
          -- no other entry has the same parent and child
          have : k = m := by
            by_contra hkm
            have hlt : k < m := by omega
            have hs := List.pairwise_iff_getElem.1 hF.sorted k m (by omega) hm hlt
            have hek : es[k] = ((Q : Int) - 1, i) := by
              have := List.getElem?_eq_getElem (l := es) (i := k) (by omega)
              rw [this] at hki; exact Option.some.inj hki
            rw [hek] at hs
            rcases hs with hs | ⟨_, hs⟩
            · rw [hp] at hs; simp at hs
            · simp only [Fin.lt_def] at hs; omega
          rw [this]
      · rw [if_neg hj, old]
        constructor
        · rintro ⟨k, hk, h1⟩; exact ⟨k, by omega, h1⟩
        · rintro ⟨k, hk, h1, i, hi, h2⟩
          refine ⟨k, ?_, h1, i, hi, h2⟩
          by_contra hkm
          have : k = m := by omega
          subst this
          rw [hg] at h2
          have he : es[k] = ((Q : Int) - 1, i) := Option.some.inj h2
          rw [he] at hj
          exact hj hi.symm
    · rw [if_neg (fun hh => hQP (addr_inj hfresh hQ (by omega) hh))]
      have hold : (if addr this base Q = base + m then
          (⟨(H (addr this base P)).idx.child es[m].2.val, (H (addr this base P)).idx.child es[m].2.val,
            some (addr this base P), (H (base + m)).child⟩ : HNode)
          else H (addr this base Q)).child j = (H (addr this base Q)).child j := by
        by_cases hh : addr this base Q = base + m
        · rw [if_pos hh, hh]
        · rw [if_neg hh]
      rw [hold, old]
      constructor
      · rintro ⟨k, hk, h1⟩; exact ⟨k, by omega, h1⟩
      · rintro ⟨k, hk, h1, i, hi, h2⟩
        refine ⟨k, ?_, h1, i, hi, h2⟩
        by_contra hkm
        have : k = m := by omega
        subst this
        rw [hg] at h2
        have he : es[k] = ((Q : Int) - 1, i) := Option.some.inj h2
        rw [he] at hp
        simp at hp
        omega

theorem mid_start {this base : Nat} {es : List (Int × Fin 8)} {H0 : Heap} 
    (hfresh : ¬ (base ≤ this ∧ this < base + es.length)) (hnull : ∀ j, (H0 this).child j = none) :
    Mid this base es H0 0 (alloc H0 base es.length) := by
  have ht : alloc H0 base es.length this = H0 this := by unfold alloc; rw [if_neg hfresh]
  refine ⟨?_, by rw [ht], by rw [ht], by rw [ht], ?_, ?_⟩
  · intro b _ h2; unfold alloc; rw [if_neg h2]
  · intro k P i hk; omega
  · intro P hP j v
    constructor
    · intro hv
      exfalso
      unfold addr at hv
      by_cases h0 : P = 0
      · rw [if_pos h0, ht, hnull] at hv; simp at hv
      · rw [if_neg h0] at hv
        unfold alloc at hv
        rw [if_pos (by omega)] at hv
        simp [HNode.fresh] at hv
    · rintro ⟨k, hk, _⟩; omega

theorem mid_end {this base : Nat} {root : Kids} {es : List (Int × Fin 8)} {T : List Kids} {H0 : Heap}
    {branch tree : Nat → Int} (hF : Faithful root es T) (hfresh : ¬ (base ≤ this ∧ this < base + es.length))
    (hb : ∀ k e, es[k]? = some e → branch k = ((e.2 : Nat) : Int) ∧ tree k = e.1)
    (hnull : ∀ j, (H0 this).child j = none) :
    Mid this base es H0 es.length (extract this base branch tree es.length H0) := by
  have key : ∀ m, m ≤ es.length → Mid this base es H0 m
      ((List.range m).foldl (extractStep this base branch tree) (alloc H0 base es.length)) := by
    intro m
    induction m with
    | zero => intro _; exact mid_start hfresh hnull
    | succ m ih =>
      intro hm
      rw [List.range_succ, List.foldl_append]
      exact mid_step hF hfresh hb (by omega) (ih (by omega))
  exact key es.length (Nat.le_refl _)

/-- The extracted nodes are a copy of the tree. -/
theorem mid_copy {this base : Nat} {root : Kids} {es : List (Int × Fin 8)} {T : List Kids} {H0 H : Heap}
    (hF : Faithful root es T) (h : Mid this base es H0 es.length H) :
    ∀ (t : Oct) (c : Kids) (P : Nat), t = .node c → T[P]? = some c →
      Copy H (addr this base P) ⟨(H (addr this base P)).idx, c⟩ := by
  intro t
  induction t with
  | nil => intro c P h; simp at h
  | node c0 ih =>
    intro c P hc hT
    injection hc with hc
    subst hc
    have hP : P ≤ es.length := by
      have := (List.getElem?_eq_some_iff.1 hT).1
      have := hF.len; omega
    have hpick : ∀ j : Fin 8, ∃ b, ∀ c', c0 j = .node c' → ∃ k, b = base + k ∧ es[k]? = some ((P : Int) - 1, j) := by
      intro j
      cases hj : c0 j with
      | nil => exact ⟨0, fun c' h => by simp at h⟩
      | node c' =>
        obtain ⟨k, hk⟩ := hF.complete P j c0 c' hT hj
        exact ⟨base + k, fun _ _ => ⟨k, rfl, hk⟩⟩
    choose b hb using hpick
    refine Copy.mk _ _ b rfl ?_ ?_ ?_ ?_ ?_
    · intro j hj
      cases hv : (H (addr this base P)).child j with
      | none => rfl
      | some v =>
        exfalso
        obtain ⟨k, hk, _, i, hi, he⟩ := (h.child P hP j v).1 hv
        obtain ⟨P', c1, c2, h1, h2, h3, h4, h5⟩ := hF.sound k _ _ he
        have hPP : P' = P := by omega
        subst hPP
        rw [hT] at h3
        rw [← Option.some.inj h3, Fin.ext hi] at h5
        simp only at hj
        rw [hj] at h5
        simp at h5
    · intro j c' hj
      obtain ⟨k, h1, h2⟩ := hb j c' hj
      have hk := (List.getElem?_eq_some_iff.1 h2).1
      exact (h.child P hP j _).2 ⟨k, hk, h1, j, rfl, h2⟩
    · intro j c' hj
      obtain ⟨k, h1, h2⟩ := hb j c' hj
      rw [h1]
      exact (h.idx k P j (List.getElem?_eq_some_iff.1 h2).1 h2).2.2
    · intro j c' hj
      obtain ⟨k, h1, h2⟩ := hb j c' hj
      rw [h1]
      exact (h.idx k P j (List.getElem?_eq_some_iff.1 h2).1 h2).2.1
    · intro j c' hj
      obtain ⟨k, h1, h2⟩ := hb j c' hj
      have hi := (h.idx k P j (List.getElem?_eq_some_iff.1 h2).1 h2).1
      obtain ⟨P', c1, c2, e1, e2, e3, e4, e5⟩ := hF.sound k _ _ h2
      have hPP : P' = P := by omega
      subst hPP
      rw [hT] at e3
      rw [← Option.some.inj e3] at e5
      simp only at hj
      rw [hj] at e5
      injection e5 with e5
      subst e5
      have := ih j c' (k + 1) hj e4
      rw [addr_succ] at this
      rw [h1]
      simp only
      rw [← hi]
      exact this

/-! ### the message -/

theorem message_some {id : Nat} {c : Kids} {msg : List Int} (h : message id c = some msg) :
    ∃ es, compress c = some es ∧ nDescendants c = some (es.length + 1) ∧ msg.length = 2 + es.length * 2 ∧
      msg.getD 0 0 = id ∧ msg.getD 1 0 = es.length ∧
      ∀ k e, es[k]? = some e → msg.getD (2 + k) 0 = ((e.2 : Nat) : Int) ∧ msg.getD (2 + es.length + k) 0 = e.1 := by
  obtain ⟨es, h1, h2⟩ := compress_some c
  unfold message at h
  rw [h1, h2] at h
  simp only [Option.bind_eq_bind, Option.bind_some, Nat.add_sub_cancel] at h
  have h := Option.some.inj h
  refine ⟨es, h1, h2, ?_, ?_, ?_, ?_⟩
  · rw [← h]; simp
  · rw [← h]
    rw [List.getD_eq_getElem?_getD, List.getElem?_map, List.getElem?_range (by omega)]; simp
  · rw [← h]
    rw [List.getD_eq_getElem?_getD, List.getElem?_map, List.getElem?_range (by omega)]; simp
  · intro k e he
    have hk := (List.getElem?_eq_some_iff.1 he).1
    constructor
    · rw [← h, List.getD_eq_getElem?_getD, List.getElem?_map, List.getElem?_range (by omega)]
      simp only [Option.map_some, Option.getD_some]
      rw [if_neg (by omega), if_neg (by omega), if_pos (by omega)]
      have : 2 + k - 2 = k := by omega
      rw [this, he]; simp
    · rw [← h, List.getD_eq_getElem?_getD, List.getElem?_map, List.getElem?_range (by omega)]
      simp only [Option.map_some, Option.getD_some]
      rw [if_neg (by omega), if_neg (by omega), if_neg (by omega)]
      have : 2 + es.length + k - 2 - es.length = k := by omega
      rw [this, he]; simp

theorem message_total (id : Nat) (c : Kids) : ∃ msg, message id c = some msg := by
  obtain ⟨es, h1, h2⟩ := compress_some c
  unfold message
  rw [h1, h2]
  exact ⟨_, rfl⟩

end Branch
end Dashmm
