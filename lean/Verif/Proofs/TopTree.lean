import Verif.Model.TopTree
import Verif.Spec.Branch
import Verif.Proofs.Grid
namespace Dashmm
namespace Branch
open Grid (simpleKey simpleKey_inj simpleKey_lt)

/-- First position of a level. -/
def S (l : Nat) : Nat := ((List.range l).map fun i => 8 ^ i).sum

theorem S_zero : S 0 = 0 := rfl
theorem S_succ (l : Nat) : S (l + 1) = S l + 8 ^ l := by simp [S, List.range_succ]
theorem S_eight (l : Nat) : S (l + 1) = 8 * S l + 1 := by
  induction l with
  | zero => rfl
  | succ l ih => rw [S_succ (l + 1), S_succ l, pow_succ] at *; omega
theorem S_mono {a b : Nat} (h : a ≤ b) : S a ≤ S b := by
  induction h with
  | refl => exact Nat.le_refl _
  | step _ ih => rw [S_succ]; exact Nat.le_trans ih (Nat.le_add_right _ _)
theorem S_lt {a b : Nat} (h : S a < S b) : a < b := by
  by_contra hh
  have := S_mono (show b ≤ a by omega)
  omega

theorem nTop_eq {u : Nat} (hu : 1 ≤ u) : nTop u = S u := by
  obtain ⟨u, rfl⟩ : ∃ v, u = v + 1 := ⟨u - 1, by omega⟩
  unfold nTop
  simp only [Nat.add_sub_cancel]
  induction u with
  | zero => rfl
  | succ u ih => rw [List.range_succ, List.map_append, List.sum_append, ← Nat.add_assoc, ih (by omega), S_succ (u + 1)]; simp

/-- Index of the node at a position of the top. -/
def idxAt (o : Nat) : Index := if h : o = 0 then ⟨0, 0, 0, 0⟩ else (idxAt ((o - 1) / 8)).child ((o - 1) % 8)
termination_by o
decreasing_by omega

theorem idxAt_zero : idxAt 0 = ⟨0, 0, 0, 0⟩ := by unfold idxAt; simp
theorem idxAt_kid (o i : Nat) (hi : i < 8) : idxAt (8 * o + 1 + i) = (idxAt o).child i := by
  conv_lhs => unfold idxAt
  rw [dif_neg (by omega)]
  have h1 : (8 * o + 1 + i - 1) / 8 = o := by omega
  have h2 : (8 * o + 1 + i - 1) % 8 = i := by omega
  rw [h1, h2]

theorem kid_form {o : Nat} (h : o ≠ 0) : ∃ q i, i < 8 ∧ o = 8 * q + 1 + i ∧ q < o :=
  ⟨(o - 1) / 8, (o - 1) % 8, by omega, by omega, by omega⟩

theorem idxAt_level (o : Nat) : S (idxAt o).level ≤ o ∧ o < S ((idxAt o).level + 1) ∧ (idxAt o).InRange := by
  induction o using Nat.strong_induction_on with
  | _ o ih =>
    by_cases h : o = 0
    · subst h; rw [idxAt_zero]; exact ⟨Nat.le_refl _, by decide, Index.inRange_root⟩
    · obtain ⟨q, i, hi, he, hq⟩ := kid_form h
      obtain ⟨h1, h2, h3⟩ := ih q hq
      rw [he, idxAt_kid q i hi]
      have hl : ((idxAt q).child i).level = (idxAt q).level + 1 := rfl
      rw [hl]
      refine ⟨?_, ?_, Index.inRange_child h3 i hi⟩
      · rw [S_eight]; omega
      · rw [S_eight]; omega

theorem idxAt_inj : ∀ o o', idxAt o = idxAt o' → o = o' := by
  intro o
  induction o using Nat.strong_induction_on with
  | _ o ih =>
    intro o' he
    by_cases h : o = 0
    · subst h
      by_contra h'
      obtain ⟨q, i, hi, hq, _⟩ := kid_form (Ne.symm h')
      rw [hq, idxAt_kid q i hi, idxAt_zero] at he
      have := congrArg Index.level he
      have hl : ((idxAt q).child i).level = (idxAt q).level + 1 := rfl
      rw [hl] at this
      simp at this
    · by_cases h' : o' = 0
      · subst h'
        obtain ⟨q, i, hi, hq, _⟩ := kid_form h
        rw [hq, idxAt_kid q i hi, idxAt_zero] at he
        have := congrArg Index.level he
        have hl : ((idxAt q).child i).level = (idxAt q).level + 1 := rfl
        rw [hl] at this
        simp at this
      · obtain ⟨q, i, hi, hq, hlt⟩ := kid_form h
        obtain ⟨q', i', hi', hq', _⟩ := kid_form h'
        rw [hq, hq', idxAt_kid q i hi, idxAt_kid q' i' hi'] at he
        obtain ⟨a, b⟩ := Index.child_inj _ _ i i' hi hi' he
        have := ih q hlt q' a
        omega

theorem level_of {o l : Nat} (h1 : S l ≤ o) (h2 : o < S (l + 1)) : (idxAt o).level = l := by
  obtain ⟨a, b, _⟩ := idxAt_level o
  have c1 := S_lt (a := (idxAt o).level) (b := l + 1) (by omega)
  have c2 := S_lt (a := l) (b := (idxAt o).level + 1) (by omega)
  omega

/-- Address of child `i` of the node at position `o`. -/
def kid (r u o i : Nat) : Nat :=
  if o < S (u - 1) then r + (8 * o + 1 + i)
  else r + S u + simpleKey ((idxAt o).child i).x ((idxAt o).child i).y ((idxAt o).child i).z (2 ^ u)

theorem last_level {u o : Nat} (hu : 1 ≤ u) (h1 : S (u - 1) ≤ o) (h2 : o < S u) (i : Nat) (hi : i < 8) :
    ((idxAt o).child i).level = u ∧ ((idxAt o).child i).x < 2 ^ u ∧ ((idxAt o).child i).y < 2 ^ u ∧ ((idxAt o).child i).z < 2 ^ u := by
  have hl : (idxAt o).level = u - 1 := level_of h1 (by rw [show u - 1 + 1 = u by omega]; exact h2)
  have hr := Index.inRange_child (idxAt_level o).2.2 i hi
  have hcl : ((idxAt o).child i).level = (idxAt o).level + 1 := rfl
  rw [hl] at hcl
  unfold Index.InRange at hr
  rw [hcl] at hr
  have e : u - 1 + 1 = u := by omega
  rw [e] at hr hcl
  exact ⟨hcl, hr⟩

theorem kid_lt {r u o i : Nat} (hu : 1 ≤ u) (ho : o < S u) (hi : i < 8) :
    r < kid r u o i ∧ kid r u o i < r + S u + 8 ^ u := by
  have h0 : 0 < 8 ^ u := by positivity
  unfold kid
  by_cases h : o < S (u - 1)
  · rw [if_pos h]
    have := S_eight (u - 1)
    rw [show u - 1 + 1 = u by omega] at this
    omega
  · rw [if_neg h]
    obtain ⟨_, a, b, c⟩ := last_level hu (by omega) ho i hi
    have := simpleKey_lt a b c
    have e : (2 ^ u) ^ 3 = 8 ^ u := by rw [← pow_mul, mul_comm, pow_mul]; norm_num
    rw [e] at this
    omega

theorem kid_inj {r u o i o' i' : Nat} (hu : 1 ≤ u) (ho : o < S u) (hi : i < 8) (ho' : o' < S u) (hi' : i' < 8)
    (h : kid r u o i = kid r u o' i') : o = o' ∧ i = i' := by
  have h8 := S_eight (u - 1)
  rw [show u - 1 + 1 = u by omega] at h8
  unfold kid at h
  by_cases h1 : o < S (u - 1)
  · by_cases h2 : o' < S (u - 1)
    · rw [if_pos h1, if_pos h2] at h; omega
    · rw [if_pos h1, if_neg h2] at h; omega
  · by_cases h2 : o' < S (u - 1)
    · rw [if_neg h1, if_pos h2] at h; omega
    · rw [if_neg h1, if_neg h2] at h
      obtain ⟨l, a, b, c⟩ := last_level hu (by omega) ho i hi
      obtain ⟨l', a', b', c'⟩ := last_level hu (by omega) ho' i' hi'
      obtain ⟨e1, e2, e3⟩ := simpleKey_inj a b c a' b' c' (by omega)
      have : (idxAt o).child i = (idxAt o').child i' := by
        generalize (idxAt o).child i = A at *
        generalize (idxAt o').child i' = B at *
        cases A; cases B; simp only at *; rw [e1, e2, e3, l, l']
      obtain ⟨e4, e5⟩ := Index.child_inj _ _ i i' hi hi' this
      exact ⟨idxAt_inj _ _ e4, e5⟩

/-- All nodes before child `i` of position `nd` are linked. -/
structure Setup (H0 : Heap) (r u nd i : Nat) (H : Heap) : Prop where
  out : ∀ b, ¬ (r ≤ b ∧ b < r + S u + 8 ^ u) → H b = H0 b
  later : ∀ b, (r + nd < b ∨ (b = r + nd ∧ i = 0)) → b < r + S u + 8 ^ u → ∀ j, (H b).child j = none
  top : (H r).parent = none ∧ (H r).dagIdx = ⟨0, 0, 0, 0⟩
  root : (H r).idx = ⟨0, 0, 0, 0⟩
  link : ∀ o j, j < 8 → (o < nd ∨ (o = nd ∧ j < i)) →
    (H (r + o)).child j = some (kid r u o j) ∧ (H (kid r u o j)).idx = (idxAt o).child j ∧
      (H (kid r u o j)).dagIdx = (idxAt o).child j ∧ (H (kid r u o j)).parent = some (r + o)

theorem Setup.idx {r u nd i : Nat} {H0 H : Heap} (hu : 1 ≤ u) (h : Setup H0 r u nd i H) (hnd : nd < S u) :
    (H (r + nd)).idx = idxAt nd := by
  by_cases h0 : nd = 0
  · subst h0; rw [idxAt_zero]; exact h.root
  · obtain ⟨q, j, hj, he, hq⟩ := kid_form h0
    have h8 := S_eight (u - 1)
    rw [show u - 1 + 1 = u by omega] at h8
    have := (h.link q j hj (.inl hq)).2.1
    unfold kid at this
    rw [if_pos (by omega), ← he] at this
    rw [this, he, idxAt_kid q j hj]

/-- What one link does. -/
theorem setup_link {r u nd i : Nat} {H0 H H' : Heap} (hu : 1 ≤ u) (hnd : nd < S u) (hi : i < 8) (h : Setup H0 r u nd i H)
    (hs : ∀ b, H' b = if b = kid r u nd i then
        { H b with idx := (idxAt nd).child i, dagIdx := (idxAt nd).child i, parent := some (r + nd) }
      else if b = r + nd then { H b with child := fun j => if j = i then some (kid r u nd i) else (H b).child j }
      else H b) : Setup H0 r u nd (i + 1) H' := by
  have hk := kid_lt (r := r) hu hnd hi
  have hne : kid r u nd i ≠ r + nd := by
    unfold kid
    by_cases hh : nd < S (u - 1)
    · rw [if_pos hh]; omega
    · rw [if_neg hh]; omega
  have hchild : ∀ b j, (H' b).child j = if b = r + nd ∧ j = i then some (kid r u nd i) else (H b).child j := by
    intro b j
    rw [hs b]
    by_cases h1 : b = kid r u nd i
    · rw [if_pos h1, if_neg (by rintro ⟨h2, _⟩; exact hne (h1.symm.trans h2))]
    · rw [if_neg h1]
      by_cases h2 : b = r + nd
      · rw [if_pos h2]
        by_cases h3 : j = i
        · simp [h2, h3]
        · simp [h3]
      · simp [h2]
  have hkeep : ∀ b, b ≠ kid r u nd i → (H' b).idx = (H b).idx ∧ (H' b).dagIdx = (H b).dagIdx ∧ (H' b).parent = (H b).parent := by
    intro b hb
    rw [hs b, if_neg hb]
    by_cases h2 : b = r + nd
    · rw [if_pos h2]; exact ⟨rfl, rfl, rfl⟩
    · rw [if_neg h2]; exact ⟨rfl, rfl, rfl⟩
  constructor
  · intro b hb
    have h8 : 0 < 8 ^ u := by positivity
    rw [hs b, if_neg (by omega), if_neg (by omega)]
    exact h.out b hb
  · intro b hb hb' j
    rw [hchild, if_neg (by omega)]
    exact h.later b (by omega) hb' j
  · rw [(hkeep r (by omega)).2.1, (hkeep r (by omega)).2.2]; exact h.top
  · rw [(hkeep r (by omega)).1]; exact h.root
  · intro o j hj ho
    rw [hchild]
    by_cases he : o = nd ∧ j = i
    · obtain ⟨rfl, rfl⟩ := he
      rw [if_pos ⟨rfl, rfl⟩, hs, if_pos rfl]
      exact ⟨rfl, rfl, rfl, rfl⟩
    · have hold := h.link o j hj (by
        rcases ho with ho | ⟨ho, hji⟩
        · exact .inl ho
        · exact .inr ⟨ho, by by_contra hh; exact he ⟨ho, by omega⟩⟩)
      have hoS : o < S u := by omega
      have hkne : kid r u o j ≠ kid r u nd i := fun hh => he (kid_inj hu hoS hj hnd hi hh)
      rw [if_neg (by rintro ⟨h1, h2⟩; exact he ⟨by omega, h2⟩), (hkeep _ hkne).1, (hkeep _ hkne).2.1, (hkeep _ hkne).2.2]
      exact hold

theorem linkTop_setup {r u nd i : Nat} {H0 H : Heap} (hu : 1 ≤ u) (hnd : nd < S (u - 1)) (hi : i < 8) (h : Setup H0 r u nd i H) :
    Setup H0 r u nd (i + 1) (linkTop r nd H i) := by
  have hndu : nd < S u := Nat.lt_of_lt_of_le hnd (S_mono (by omega))
  have hidx := h.idx hu hndu
  apply setup_link hu hndu hi h
  intro b
  have hk : kid r u nd i = r + (8 * nd + 1 + i) := by unfold kid; rw [if_pos hnd]
  have e : r + (nd * 8 + 1) + i = r + (8 * nd + 1 + i) := by omega
  have hne : r + nd ≠ r + (8 * nd + 1 + i) := by omega
  unfold linkTop
  simp only [Heap.set, hk, e]
  generalize r + (8 * nd + 1 + i) = k at *
  generalize r + nd = q at *
  by_cases h1 : b = k
  · subst h1
    simp [hidx, hne, Ne.symm hne]
  · by_cases h2 : b = q
    · subst h2; simp [hne]
    · simp [h1, h2]

theorem linkGrid_setup {r u nd i : Nat} {H0 H : Heap} (hu : 1 ≤ u) (hnd : S (u - 1) ≤ nd) (hndu : nd < S u) (hi : i < 8)
    (h : Setup H0 r u nd i H) : Setup H0 r u nd (i + 1) (linkGrid r u nd H i) := by
  have hidx := h.idx hu hndu
  apply setup_link hu hndu hi h
  intro b
  have hk : kid r u nd i = r + S u + simpleKey ((idxAt nd).child i).x ((idxAt nd).child i).y ((idxAt nd).child i).z (2 ^ u) := by
    unfold kid; rw [if_neg (by omega)]
  have hne : r + nd ≠ kid r u nd i := by rw [hk]; omega
  unfold linkGrid
  simp only [Heap.set, hidx, nTop_eq hu, Nat.one_shiftLeft, ← hk]
  by_cases h1 : b = kid r u nd i
  · subst h1
    simp [Ne.symm hne]
  · by_cases h2 : b = r + nd
    · subst h2; simp [hne, hidx]
    · simp [h1, h2]

theorem setupNode_setup {r u level nd : Nat} {H0 H : Heap} (hu : 1 ≤ u) (hl : level < u) (h1 : S level ≤ nd) (h2 : nd < S (level + 1))
    (h : Setup H0 r u nd 0 H) : Setup H0 r u (nd + 1) 0 (setupNode r u level H nd) := by
  have hndu : nd < S u := Nat.lt_of_lt_of_le h2 (S_mono (by omega))
  have fin : Setup H0 r u nd 8 (setupNode r u level H nd) := by
    unfold setupNode
    have key : ∀ (f : Heap → Nat → Heap), (∀ i H, i < 8 → Setup H0 r u nd i H → Setup H0 r u nd (i + 1) (f H i)) →
        ∀ n, n ≤ 8 → Setup H0 r u nd n ((List.range n).foldl f H) := by
      intro f hf n
      induction n with
      | zero => intro _; exact h
      | succ n ih => intro hn; rw [List.range_succ, List.foldl_append]; exact hf n _ (by omega) (ih (by omega))
    by_cases hlev : level ≠ u - 1
    · rw [if_pos hlev]
      exact key _ (fun i H hi h => linkTop_setup hu (Nat.lt_of_lt_of_le h2 (S_mono (by omega))) hi h) 8 (Nat.le_refl _)
    · rw [if_neg hlev]
      have : level = u - 1 := by omega
      exact key _ (fun i H hi h => linkGrid_setup hu (by rw [← this]; exact h1) hndu hi h) 8 (Nat.le_refl _)
  exact ⟨fin.out, fun b hb => fin.later b (by omega), fin.top, fin.root, fun o j hj ho => fin.link o j hj (by omega)⟩

theorem setupLevel_setup {r u level : Nat} {H0 H : Heap} (hu : 1 ≤ u) (hl : level < u) (h : Setup H0 r u (S level) 0 H) :
    (setupLevel r u ⟨S level, S (level + 1), H⟩ level).start = S (level + 1) ∧
    (setupLevel r u ⟨S level, S (level + 1), H⟩ level).stop = S (level + 2) ∧
    Setup H0 r u (S (level + 1)) 0 (setupLevel r u ⟨S level, S (level + 1), H⟩ level).heap := by
  refine ⟨?_, ?_, ?_⟩
  · unfold setupLevel; simp [S_succ]
  · unfold setupLevel; simp only; rw [S_succ (level + 1)]
  · unfold setupLevel
    simp only
    have key : ∀ n, n ≤ S (level + 1) - S level → Setup H0 r u (S level + n) 0
        (((List.range n).map (S level + ·)).foldl (setupNode r u level) H) := by
      intro n
      induction n with
      | zero => intro _; exact h
      | succ n ih =>
        intro hn
        rw [List.range_succ, List.map_append, List.foldl_append]
        exact setupNode_setup hu hl (Nat.le_add_right _ _) (Nat.add_lt_of_lt_sub' (by omega)) (ih (by omega))
    have := key _ (Nat.le_refl _)
    have hm := S_mono (show level ≤ level + 1 by omega)
    rwa [show S level + (S (level + 1) - S level) = S (level + 1) by omega] at this

theorem setupBasics_setup {r u : Nat} (hu : 1 ≤ u) (H : Heap) : Setup H r u (S u) 0 (setupBasics r u H) := by
  unfold setupBasics
  simp only
  generalize hH : Heap.set (alloc H r (nTop u + 8 ^ u)) r _ = H1
  have h8 : 0 < 8 ^ u := by positivity
  have h0 : Setup H r u (S 0) 0 H1 := by
    refine ⟨?_, ?_, ?_, ?_, fun o j hj ho => by rw [S_zero] at ho; omega⟩
    · intro b hb
      rw [← hH]
      unfold Heap.set alloc
      rw [if_neg (by omega), if_neg (by rw [nTop_eq hu]; omega)]
    · intro b hb hb' j
      rw [S_zero] at hb
      rw [← hH]
      unfold Heap.set alloc
      by_cases hbr : b = r
      · rw [if_pos hbr, if_pos (by rw [nTop_eq hu]; omega)]; rfl
      · rw [if_neg hbr, if_pos (by rw [nTop_eq hu]; omega)]; rfl
    · rw [← hH]
      unfold Heap.set alloc
      rw [if_pos rfl, if_pos (by omega)]
      exact ⟨rfl, rfl⟩
    · rw [← hH]; simp [Heap.set]
  have key : ∀ n, n ≤ u → ((List.range n).foldl (setupLevel r u) ⟨0, 1, H1⟩).start = S n ∧
      ((List.range n).foldl (setupLevel r u) ⟨0, 1, H1⟩).stop = S (n + 1) ∧
      Setup H r u (S n) 0 ((List.range n).foldl (setupLevel r u) ⟨0, 1, H1⟩).heap := by
    intro n
    induction n with
    | zero => intro _; exact ⟨rfl, rfl, h0⟩
    | succ n ih =>
      intro hn
      obtain ⟨h1, h2, h3⟩ := ih (by omega)
      rw [List.range_succ, List.foldl_append]
      simp only [List.foldl_cons, List.foldl_nil]
      generalize (List.range n).foldl (setupLevel r u) ⟨0, 1, H1⟩ = s at *
      obtain ⟨a, b, c⟩ := s
      simp only at h1 h2 h3
      subst h1; subst h2
      exact setupLevel_setup hu (by omega) h3
  exact (key u (Nat.le_refl _)).2.2

/-! ### in terms of paths -/

/-- Position of the node reached through a path. -/
def posOf (p : List Nat) : Nat := p.foldl (fun o i => 8 * o + 1 + i) 0

theorem posOf_idx (p : List Nat) (hp : ∀ c ∈ p, c < 8) :
    idxAt (posOf p) = p.foldl Index.child ⟨0, 0, 0, 0⟩ ∧ (idxAt (posOf p)).level = p.length := by
  induction p using List.reverseRecOn with
  | nil => unfold posOf; simp [idxAt_zero]
  | append_singleton p c ih =>
    obtain ⟨h1, h2⟩ := ih (fun c hc => hp c (List.mem_append_left _ hc))
    have hc := hp c (by simp)
    have : posOf (p ++ [c]) = 8 * posOf p + 1 + c := by unfold posOf; rw [List.foldl_append]; rfl
    rw [this, idxAt_kid _ _ hc, List.foldl_append, ← h1]
    refine ⟨rfl, ?_⟩
    have hl : ((idxAt (posOf p)).child c).level = (idxAt (posOf p)).level + 1 := rfl
    rw [hl, h2]; simp

theorem posOf_lt {u : Nat} (p : List Nat) (hp : ∀ c ∈ p, c < 8) (hl : p.length < u) : posOf p < S u := by
  obtain ⟨_, h2⟩ := posOf_idx p hp
  have := (idxAt_level (posOf p)).2.1
  rw [h2] at this
  exact Nat.lt_of_lt_of_le this (S_mono (by omega))

/-- Where the node of a path is. -/
def topAddr (r u : Nat) (p : List Nat) : Nat :=
  if p.length = u then
    let i := p.foldl Index.child (⟨0, 0, 0, 0⟩ : Index)
    r + S u + simpleKey i.x i.y i.z (2 ^ u)
  else r + posOf p

theorem kid_topAddr {r u : Nat} (hu : 1 ≤ u) (p : List Nat) (c : Nat) (hp : ∀ c ∈ p, c < 8) (hc : c < 8) (hl : p.length < u) :
    kid r u (posOf p) c = topAddr r u (p ++ [c]) := by
  obtain ⟨h1, h2⟩ := posOf_idx p hp
  have ha := idxAt_level (posOf p)
  rw [h2] at ha
  unfold kid topAddr
  have hlen : (p ++ [c]).length = p.length + 1 := by simp
  rw [hlen]
  by_cases h : p.length + 1 = u
  · rw [if_pos h, if_neg (by have : u - 1 = p.length := by omega
                             rw [this]; omega)]
    simp only
    rw [List.foldl_append, ← h1]
    rfl
  · rw [if_neg h, if_pos (Nat.lt_of_lt_of_le ha.2.1 (S_mono (by omega)))]
    have : posOf (p ++ [c]) = 8 * posOf p + 1 + c := by unfold posOf; rw [List.foldl_append]; rfl
    rw [this]

theorem path_of (i : Index) : i.InRange → ∃ p : List Nat, (∀ c ∈ p, c < 8) ∧ p.length = i.level ∧ p.foldl Index.child ⟨0, 0, 0, 0⟩ = i := by
  generalize hl : i.level = l
  induction l generalizing i with
  | zero =>
    intro h
    obtain ⟨h1, h2, h3⟩ := h
    rw [hl] at h1 h2 h3
    refine ⟨[], by simp, rfl, ?_⟩
    cases i; simp only [List.foldl_nil, Index.mk.injEq, Nat.pow_zero] at *; omega
  | succ l ih =>
    intro h
    have hpl : i.parent.level = l := by rw [Index.parent_eq]; simp [hl]
    obtain ⟨p, h1, h2, h3⟩ := ih i.parent hpl (Index.inRange_parent h)
    refine ⟨p ++ [i.whichChild], ?_, by simp [h2], ?_⟩
    · intro c hc
      rcases List.mem_append.1 hc with hc | hc
      · exact h1 c hc
      · rw [List.mem_singleton.1 hc]; exact Index.whichChild_lt i
    · rw [List.foldl_append, h3]; exact Index.child_parent i (by omega)

theorem path_inj : ∀ (p q : List Nat), (∀ c ∈ p, c < 8) → (∀ c ∈ q, c < 8) → p.length = q.length →
    p.foldl Index.child ⟨0, 0, 0, 0⟩ = q.foldl Index.child ⟨0, 0, 0, 0⟩ → p = q := by
  intro p
  induction p using List.reverseRecOn with
  | nil => intro q _ _ hl _; exact (List.length_eq_zero_iff.1 hl.symm).symm
  | append_singleton p c ih =>
    intro q
    induction q using List.reverseRecOn with
    | nil => intro _ _ hl; simp at hl
    | append_singleton q d _ =>
      intro hp hq hl he
      rw [List.foldl_append, List.foldl_append] at he
      obtain ⟨e1, e2⟩ := Index.child_inj _ _ c d (hp c (by simp)) (hq d (by simp)) he
      rw [ih q (fun c hc => hp c (List.mem_append_left _ hc)) (fun c hc => hq c (List.mem_append_left _ hc)) (by simpa using hl) e1, e2]

theorem path_range {u : Nat} (p : List Nat) (hp : ∀ c ∈ p, c < 8) (hl : p.length = u) :
    (p.foldl Index.child ⟨0, 0, 0, 0⟩ : Index).level = u ∧ (p.foldl Index.child ⟨0, 0, 0, 0⟩ : Index).x < 2 ^ u ∧
    (p.foldl Index.child ⟨0, 0, 0, 0⟩ : Index).y < 2 ^ u ∧ (p.foldl Index.child ⟨0, 0, 0, 0⟩ : Index).z < 2 ^ u := by
  obtain ⟨h1, h2⟩ := posOf_idx p hp
  have h3 := (idxAt_level (posOf p)).2.2
  unfold Index.InRange at h3
  rw [h2, hl, h1] at h3
  rw [h1, hl] at h2
  exact ⟨h2, h3⟩

theorem topAddr_lt {r u : Nat} (p : List Nat) (hp : ∀ c ∈ p, c < 8) (hl : p.length ≤ u) :
    r ≤ topAddr r u p ∧ topAddr r u p < r + S u + 8 ^ u := by
  unfold topAddr
  by_cases h : p.length = u
  · rw [if_pos h]
    obtain ⟨_, a, b, c⟩ := path_range p hp h
    have := simpleKey_lt a b c
    have e : (2 ^ u) ^ 3 = 8 ^ u := by rw [← pow_mul, mul_comm, pow_mul]; norm_num
    rw [e] at this
    simp only
    omega
  · rw [if_neg h]
    have := posOf_lt p hp (show p.length < u by omega)
    have h8 : 0 < 8 ^ u := by positivity
    omega

theorem topAddr_inj {r u : Nat} (p q : List Nat) (hp : ∀ c ∈ p, c < 8) (hq : ∀ c ∈ q, c < 8) (hlp : p.length ≤ u)
    (hlq : q.length ≤ u) (h : topAddr r u p = topAddr r u q) : p = q := by
  unfold topAddr at h
  by_cases h1 : p.length = u
  · rw [if_pos h1] at h
    by_cases h2 : q.length = u
    · rw [if_pos h2] at h
      obtain ⟨l, a, b, c⟩ := path_range p hp h1
      obtain ⟨l', a', b', c'⟩ := path_range q hq h2
      simp only at h
      obtain ⟨e1, e2, e3⟩ := simpleKey_inj a b c a' b' c' (by omega)
      apply path_inj p q hp hq (by omega)
      generalize p.foldl Index.child (⟨0, 0, 0, 0⟩ : Index) = A at *
      generalize q.foldl Index.child (⟨0, 0, 0, 0⟩ : Index) = B at *
      cases A; cases B; simp only at *; rw [e1, e2, e3, l, l']
    · rw [if_neg h2] at h
      have := posOf_lt q hq (show q.length < u by omega)
      simp only at h; omega
  · rw [if_neg h1] at h
    by_cases h2 : q.length = u
    · rw [if_pos h2] at h
      have := posOf_lt p hp (show p.length < u by omega)
      simp only at h; omega
    · rw [if_neg h2] at h
      have he : posOf p = posOf q := by omega
      obtain ⟨a, b⟩ := posOf_idx p hp
      obtain ⟨a', b'⟩ := posOf_idx q hq
      apply path_inj p q hp hq
      · rw [← b, ← b', he]
      · rw [← a, ← a', he]

theorem topAddr_surj {r u : Nat} (b : Nat) (h1 : r ≤ b) (h2 : b < r + S u + 8 ^ u) :
    ∃ p : List Nat, (∀ c ∈ p, c < 8) ∧ p.length ≤ u ∧ topAddr r u p = b := by
  by_cases h : b < r + S u
  · have key : ∀ o, ∃ p : List Nat, (∀ c ∈ p, c < 8) ∧ posOf p = o := by
      intro o
      induction o using Nat.strong_induction_on with
      | _ o ih =>
        by_cases h0 : o = 0
        · exact ⟨[], by simp, h0.symm⟩
        · obtain ⟨q, i, hi, he, hq⟩ := kid_form h0
          obtain ⟨p, hp1, hp2⟩ := ih q hq
          refine ⟨p ++ [i], ?_, ?_⟩
          · intro c hc
            rcases List.mem_append.1 hc with hc | hc
            · exact hp1 c hc
            · rw [List.mem_singleton.1 hc]; exact hi
          · have : posOf (p ++ [i]) = 8 * posOf p + 1 + i := by unfold posOf; rw [List.foldl_append]; rfl
            rw [this, hp2, he]
    obtain ⟨p, hp1, hp2⟩ := key (b - r)
    have hl := (posOf_idx p hp1).2
    have := (idxAt_level (posOf p)).1
    rw [hl, hp2] at this
    have hlt := S_lt (show S p.length < S u by omega)
    refine ⟨p, hp1, by omega, ?_⟩
    unfold topAddr
    rw [if_neg (by omega), hp2]; omega
  · have e : (2 ^ u) ^ 3 = 8 ^ u := by rw [← pow_mul, mul_comm, pow_mul]; norm_num
    obtain ⟨x, y, z, hx, hy, hz, hk⟩ := Grid.simpleKey_surj (n := 2 ^ u) (v := b - (r + S u)) (by rw [e]; omega)
    obtain ⟨p, hp1, hp2, hp3⟩ := path_of ⟨x, y, z, u⟩ ⟨hx, hy, hz⟩
    refine ⟨p, hp1, Nat.le_of_eq hp2, ?_⟩
    unfold topAddr
    rw [if_pos hp2]
    simp only
    rw [hp3, hk]
    omega

theorem topAddr_nil {r u : Nat} (hu : 1 ≤ u) : topAddr r u [] = r := by
  unfold topAddr
  rw [if_neg (by simp; omega)]
  rfl

/-- The links of the top in terms of paths. -/
theorem setup_path {r u : Nat} (hu : 1 ≤ u) (H : Heap) (p : List Nat) (hp : ∀ c ∈ p, c < 8) (hl : p.length < u) (j : Nat) (hj : j < 8) :
    (setupBasics r u H (topAddr r u p)).child j = some (topAddr r u (p ++ [j])) ∧
    (setupBasics r u H (topAddr r u (p ++ [j]))).idx = (p ++ [j]).foldl Index.child ⟨0, 0, 0, 0⟩ ∧
    (setupBasics r u H (topAddr r u (p ++ [j]))).dagIdx = (p ++ [j]).foldl Index.child ⟨0, 0, 0, 0⟩ ∧
    (setupBasics r u H (topAddr r u (p ++ [j]))).parent = some (topAddr r u p) := by
  have h := (setupBasics_setup (r := r) hu H).link (posOf p) j hj (.inl (posOf_lt p hp hl))
  rw [kid_topAddr hu p j hp hj hl, (posOf_idx p hp).1] at h
  have ht : topAddr r u p = r + posOf p := by unfold topAddr; rw [if_neg (by omega)]
  rw [ht, List.foldl_append]
  exact h

end Branch
end Dashmm
