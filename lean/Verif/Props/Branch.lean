import Verif.Proofs.Extract
import Verif.Proofs.Prune
import Mathlib.Tactic.IntervalCases
/-!
Properties C24, C25, C26, C27 and C54: the uniform top of the tree, the copies of the branches of the
other ranks, and finding a node by its index.
-/
namespace Dashmm
open Branch

namespace Branch

/-! ### helper facts for C24 -/

theorem sum_flatMap {α β : Type} (f : β → Nat) (g : α → List β) (l : List α) :
    ((l.flatMap g).map f).sum = (l.map fun a => ((g a).map f).sum).sum := by
  induction l with
  | nil => rfl
  | cons a l ih => simp [List.flatMap_cons, List.sum_append, ih]

theorem sum_kids (c : Kids) (g : Fin 8 → Option Kids) (h0 : ∀ j, c j = .nil → g j = none) (h1 : ∀ j c', c j = .node c' → g j = some c')
    (l : List (Fin 8)) : ((l.filterMap g).map fun c => Oct.size (.node c)).sum = (l.map fun j => Oct.size (c j)).sum := by
  induction l with
  | nil => rfl
  | cons j l ih =>
    rw [List.filterMap_cons]
    cases hj : c j with
    | nil => rw [h0 j hj]; simp only; rw [ih]; simp [hj, Oct.size]
    | node c' => rw [h1 j c' hj]; simp only [List.map_cons, List.sum_cons]; rw [ih, hj]

theorem size_level (V : List Kids) : (V.map fun c => Oct.size (.node c)).sum =
    V.length + ((nextLevel V).map fun c => Oct.size (.node c)).sum := by
  unfold nextLevel
  rw [sum_flatMap]
  induction V with
  | nil => rfl
  | cons c V ih =>
    simp only [List.map_cons, List.sum_cons, List.length_cons]
    rw [sum_kids c _ (fun j hj => by rw [hj]) (fun j c' hj => by rw [hj]), ih, Oct.size]
    omega

theorem countLoop_size : ∀ (fuel count m : Nat) (V : List Kids), countLoop fuel count V = some m →
    m = count + (V.map fun c => Oct.size (.node c)).sum := by
  intro fuel
  induction fuel with
  | zero =>
    intro count m V h
    unfold countLoop at h
    cases V with
    | nil => simpa using h.symm
    | cons c V => simp at h
  | succ fuel ih =>
    intro count m V h
    unfold countLoop at h
    by_cases hV : V.isEmpty
    · rw [if_pos hV] at h
      rw [List.isEmpty_iff.1 hV]; simpa using h.symm
    · rw [if_neg hV] at h
      have := ih _ _ _ h
      have := size_level V
      omega

theorem size_count {c : Kids} {m : Nat} (h : nDescendants c = some m) : m = Oct.size (.node c) := by
  have := countLoop_size _ _ _ _ h
  simpa only [List.map_cons, List.map_nil, List.sum_cons, List.sum_nil, Nat.zero_add, Nat.add_zero] using this

theorem path_inj_from (i : Index) : ∀ (p q : List Nat), Oct8 p → Oct8 q →
    p.foldl Index.child i = q.foldl Index.child i → p = q := by
  intro p
  induction p using List.reverseRecOn with
  | nil =>
    intro q _ hq he
    have := (Grid.parent_of_path i q hq).2
    rw [← he] at this
    simp only [List.foldl_nil] at this
    exact (List.length_eq_zero_iff.1 (by omega)).symm
  | append_singleton p c ih =>
    intro q
    induction q using List.reverseRecOn with
    | nil =>
      intro hp _ he
      have := (Grid.parent_of_path i (p ++ [c]) hp).2
      rw [he] at this
      simp at this
    | append_singleton q d _ =>
      intro hp hq he
      rw [List.foldl_append, List.foldl_append] at he
      obtain ⟨e1, e2⟩ := Index.child_inj _ _ c d (hp c (by simp)) (hq d (by simp)) he
      rw [ih q (fun c hc => hp c (List.mem_append_left _ hc)) (fun c hc => hq c (List.mem_append_left _ hc)) e1, e2]

/-- A copy has the paths of the original, and the indices that belong to them. -/
theorem copy_path {H : Heap} {a : Nat} {n : TNode} (h : Copy H a n) : (H a).idx = n.ix ∧
    (∀ p m, TPath n p m → ∃ b, Linked H a p b ∧ Copy H b m) ∧
    (∀ p b, Linked H a p b → ∃ m, TPath n p m ∧ Copy H b m) := by
  induction h with
  | mk a n b idx null ptr parent dag copy ih =>
    refine ⟨idx, ?_, ?_⟩
    · intro p m hp
      cases hp with
      | refl => exact ⟨a, .refl a, .mk a n b idx null ptr parent dag copy⟩
      | @step _ _ _ c j hj h =>
        obtain ⟨i1, i2, _⟩ := ih j c hj
        obtain ⟨b', h1, h2⟩ := i2 _ _ h
        exact ⟨b', .step j.isLt (ptr j c hj) (by rw [i1, idx]) h1, h2⟩
    · intro p b' hp
      cases hp with
      | refl => exact ⟨n, .refl n, .mk a n b idx null ptr parent dag copy⟩
      | @step _ v _ j p hj hc hi h =>
        cases hcj : n.c ⟨j, hj⟩ with
        | nil =>
          have := null ⟨j, hj⟩ hcj
          simp only at this
          rw [this] at hc; simp at hc
        | node c =>
          have := ptr ⟨j, hj⟩ c hcj
          simp only at this
          rw [this] at hc
          obtain rfl := Option.some.inj hc
          obtain ⟨_, _, i3⟩ := ih ⟨j, hj⟩ c hcj
          obtain ⟨m, h1, h2⟩ := i3 _ _ h
          exact ⟨m, .step ⟨j, hj⟩ hcj h1, h2⟩

theorem receive_eq {id : Nat} {c : Kids} {msg : List Int} (h : message id c = some msg) (grid : Nat → Nat) (base : Nat) (H : Heap)
    (hnull : ∀ j, (H (grid id)).child j = none)
    (hfresh : ¬ (base ≤ grid id ∧ grid id + 1 < base + Oct.size (.node c))) :
    ∃ es T, Faithful c es T ∧ es.length + 1 = Oct.size (.node c) ∧ msg.length = 2 + es.length * 2 ∧
      Mid (grid id) base es H es.length (receive grid base msg H) := by
  obtain ⟨es, h1, h2, h3, h4, h5, h6⟩ := message_some h
  obtain ⟨T, hF⟩ := compress_faithful h1
  have hsz : es.length + 1 = Oct.size (.node c) := size_count h2
  refine ⟨es, T, hF, hsz, h3, ?_⟩
  unfold receive
  rw [h4, h5]
  simp only [Int.toNat_natCast]
  exact mid_end hF (by omega) h6 hnull

theorem mid_addr {this base : Nat} {es : List (Int × Fin 8)} {H0 H : Heap} (h : Mid this base es H0 es.length H) {b : Nat} :
    ∀ {p : List Nat} {P : Nat}, P ≤ es.length → Linked H (addr this base P) p b → ∃ Q, Q ≤ es.length ∧ b = addr this base Q := by
  intro p
  induction p with
  | nil => intro P hP hl; cases hl; exact ⟨P, hP, rfl⟩
  | cons j p ih =>
    intro P hP hl
    cases hl with
    | step hj hc hi h' =>
      obtain ⟨k, hk, rfl, _⟩ := (h.child P hP j _).1 hc
      rw [← addr_succ this base k] at h'
      exact ih (show k + 1 ≤ es.length by omega) h'

end Branch

/-! ### C24 -/

/-- C24: a message can be made of every branch; its node count is the number of nodes of the branch without the
cell itself, and the message has exactly room for them. -/
theorem C24_count (id : Nat) (c : Kids) : ∃ msg, message id c = some msg ∧ msg.length = 2 + 2 * (Oct.size (.node c) - 1) ∧
    nDescendants c = some (Oct.size (.node c)) ∧ msg.getD 0 0 = id ∧ msg.getD 1 0 = ((Oct.size (.node c) - 1 : Nat) : Int) := by
  obtain ⟨msg, hm⟩ := message_total id c
  obtain ⟨es, h1, h2, h3, h4, h5, _⟩ := message_some hm
  have hsz : es.length + 1 = Oct.size (.node c) := size_count h2
  refine ⟨msg, hm, by omega, by rw [h2, hsz], h4, ?_⟩
  rw [h5, show Oct.size (.node c) - 1 = es.length from by omega]

/-- C24: a cell that receives the message of a branch becomes the root of a copy of it; the new nodes fill
exactly the new block; all other memory is unchanged and the cell itself only gets its children. -/
theorem C24_copy {id : Nat} {c : Kids} {msg : List Int} (h : message id c = some msg) (grid : Nat → Nat) (base : Nat) (H : Heap)
    (hnull : ∀ j, (H (grid id)).child j = none)
    (hfresh : ¬ (base ≤ grid id ∧ grid id + 1 < base + Oct.size (.node c))) :
    Copy (receive grid base msg H) (grid id) ⟨(H (grid id)).idx, c⟩ ∧
    (∀ b, b ≠ grid id → ¬ (base ≤ b ∧ b + 1 < base + Oct.size (.node c)) → receive grid base msg H b = H b) ∧
    (receive grid base msg H (grid id)).dagIdx = (H (grid id)).dagIdx ∧
    (receive grid base msg H (grid id)).parent = (H (grid id)).parent ∧
    (∀ p b, Linked (receive grid base msg H) (grid id) p b → b = grid id ∨ (base ≤ b ∧ b + 1 < base + Oct.size (.node c))) := by
  obtain ⟨es, T, hF, hsz, _, hM⟩ := receive_eq h grid base H hnull hfresh
  have hcopy := mid_copy hF hM (.node c) c 0 rfl hF.head
  have ha : addr (grid id) base 0 = grid id := by unfold addr; simp
  rw [ha, hM.thisIdx] at hcopy
  refine ⟨hcopy, fun b h1 h2 => hM.out b h1 (by omega), hM.thisDag, hM.thisParent, ?_⟩
  intro p b hl
  rw [← ha] at hl
  obtain ⟨Q, hQ, hb⟩ := mid_addr hM (Nat.zero_le _) hl
  unfold addr at hb
  by_cases h0 : Q = 0
  · left; rw [hb, if_pos h0]
  · right; rw [hb, if_neg h0]; omega

/-- C24: exactly the paths of the original branch exist in the copy, each leading to a node with the index of the
original one, and different paths lead to different nodes. -/
theorem C24_paths {id : Nat} {c : Kids} {msg : List Int} (h : message id c = some msg) (grid : Nat → Nat) (base : Nat) (H : Heap)
    (hnull : ∀ j, (H (grid id)).child j = none)
    (hfresh : ¬ (base ≤ grid id ∧ grid id + 1 < base + Oct.size (.node c))) :
    (∀ p, (∃ b, Linked (receive grid base msg H) (grid id) p b) ↔ ∃ m, TPath ⟨(H (grid id)).idx, c⟩ p m) ∧
    (∀ p b m, Linked (receive grid base msg H) (grid id) p b → TPath ⟨(H (grid id)).idx, c⟩ p m →
      (receive grid base msg H b).idx = m.ix) ∧
    (∀ p q b, Linked (receive grid base msg H) (grid id) p b → Linked (receive grid base msg H) (grid id) q b → p = q) := by
  have hc := (C24_copy h grid base H hnull hfresh).1
  obtain ⟨h1, h2, h3⟩ := copy_path hc
  refine ⟨?_, ?_, ?_⟩
  · intro p
    constructor
    · rintro ⟨b, hb⟩; obtain ⟨m, hm, _⟩ := h3 p b hb; exact ⟨m, hm⟩
    · rintro ⟨m, hm⟩; obtain ⟨b, hb, _⟩ := h2 p m hm; exact ⟨b, hb⟩
  · intro p b m hb hm
    obtain ⟨b', hb', hcopy⟩ := h2 p m hm
    rw [linked_unique hb hb']
    exact (copy_path hcopy).1
  · intro p q b hp hq
    apply path_inj_from (receive grid base msg H (grid id)).idx p q (linked_oct8 hp) (linked_oct8 hq)
    rw [← linked_idx hp, ← linked_idx hq]

namespace Branch
/-- A branch of three levels: the cell has the children 2 and 5, the latter the child 1. -/
def exKids : Kids := fun j =>
  if j = 2 then Oct.tip else if j = 5 then .node (fun k => if k = 1 then Oct.tip else .nil) else .nil

/-- A memory with no links. -/
def exHeap : Heap := fun _ => HNode.fresh
end Branch

/-- The message of the branch `exKids` of cell 7 is `7, 3, [2, 5, 1], [-1, -1, 1]`. -/
example : message 7 exKids = some [7, 3, 2, 5, 1, -1, -1, 1] := by decide

/-- The hypotheses of `C24_copy` are met by the cell 7 at address 107 and a block from address 1000. -/
example : (∀ j, (exHeap (107)).child j = none) ∧ ¬ (1000 ≤ 107 ∧ 107 + 1 < 1000 + Oct.size (.node exKids)) :=
  ⟨fun _ => rfl, by omega⟩

/-! ### C25 -/

/-- C25: every path of at most as many steps as the uniform level leads from the root to a node that has the index of
the path, with the parent pointer to the node before. A path of full length leads to the cell which is found by
its number, and that one has no children. -/
theorem C25_paths {u : Nat} (hu : 1 ≤ u) (r : Nat) (H : Heap) (p : List Nat) (hp : Oct8 p) (hl : p.length ≤ u) :
    ∃ b, Linked (setupBasics r u H) r p b ∧ (setupBasics r u H b).idx = place p ∧ (setupBasics r u H b).dagIdx = place p ∧
      (p.length = u → b = r + nTop u + cellOf u p ∧ ∀ j, (setupBasics r u H b).child j = none) ∧
      (p.length < u → r ≤ b ∧ b < r + nTop u) ∧
      (∀ a q j, p = q ++ [j] → Linked (setupBasics r u H) r q a → (setupBasics r u H b).parent = some a) ∧
      (p = [] → (setupBasics r u H b).parent = none) := by
  obtain ⟨hS, hI⟩ := intact_shape hu (intact_refl (r := r) (u := u) H)
  have hL := shape_linked hu hS (fun p hp hl => (hI p hp hl).1) (fun _ _ _ _ _ => trivial)
  have hst := setupBasics_setup (r := r) hu H
  refine ⟨topAddr r u p, (hL p hp hl _).2 ⟨rfl, .inr trivial⟩, (hI p hp hl).1, (hI p hp hl).2.1, ?_, ?_, ?_, ?_⟩
  · intro he
    have hlt := topAddr_lt (r := r) p hp hl
    have hf := topAddr_full (r := r) he
    refine ⟨by rw [nTop_eq hu, hf], ?_⟩
    exact hst.later _ (by omega) hlt.2
  · intro hlt
    rw [nTop_eq hu]; exact topAddr_inner hp hlt
  · rintro a q j rfl hq
    have hq8 : Oct8 q := fun c hc => hp c (List.mem_append_left _ hc)
    have hql : q.length < u := by simp at hl; omega
    obtain ⟨rfl, _⟩ := (hL q hq8 (by omega) a).1 hq
    exact (hS.yes q j hq8 hql (hp j (by simp)) trivial).2
  · rintro rfl
    rw [topAddr_nil hu]; exact hst.top.1

/-- C25: there is exactly one node for each path, and every node of the block of `n_top_nodes + dim3` nodes is one of
them; nothing else is written. -/
theorem C25_once {u : Nat} (hu : 1 ≤ u) (r : Nat) (H : Heap) :
    (∀ p q b, p.length ≤ u → q.length ≤ u → Linked (setupBasics r u H) r p b → Linked (setupBasics r u H) r q b → p = q) ∧
    (∀ b, r ≤ b → b < r + nTop u + 8 ^ u → ∃ p, Oct8 p ∧ p.length ≤ u ∧ Linked (setupBasics r u H) r p b) ∧
    (∀ b, ¬ (r ≤ b ∧ b < r + nTop u + 8 ^ u) → setupBasics r u H b = H b) := by
  obtain ⟨hS, hI⟩ := intact_shape hu (intact_refl (r := r) (u := u) H)
  have hL := shape_linked hu hS (fun p hp hl => (hI p hp hl).1) (fun _ _ _ _ _ => trivial)
  refine ⟨?_, ?_, ?_⟩
  · intro p q b hp hq h1 h2
    have e1 := ((hL p (linked_oct8 h1) hp b).1 h1).1
    have e2 := ((hL q (linked_oct8 h2) hq b).1 h2).1
    exact topAddr_inj (r := r) p q (linked_oct8 h1) (linked_oct8 h2) hp hq (by rw [← e1, ← e2])
  · intro b h1 h2
    rw [nTop_eq hu] at h2
    obtain ⟨p, hp, hl, rfl⟩ := topAddr_surj (r := r) (u := u) b h1 h2
    exact ⟨p, hp, hl, (hL p hp hl _).2 ⟨rfl, .inr trivial⟩⟩
  · intro b hb
    rw [nTop_eq hu] at hb
    exact (setupBasics_setup (r := r) hu H).out b hb

/-- C25: cells and indices of the uniform level correspond: every index in range is the place of exactly one path, and the
number of its cell is below `dim3`; different indices have different numbers. -/
theorem C25_cells {u : Nat} (i : Index) (hi : i.InRange) (hl : i.level = u) :
    ∃ p, Oct8 p ∧ p.length = u ∧ place p = i ∧ cellOf u p < 8 ^ u ∧
      ∀ q, Oct8 q → q.length = u → cellOf u q = cellOf u p → q = p := by
  obtain ⟨p, hp, hpl, hpi⟩ := path_of i hi
  rw [hl] at hpl
  refine ⟨p, hp, hpl, hpi, ?_, ?_⟩
  · have := topAddr_lt (r := 0) p hp (Nat.le_of_eq hpl)
    rw [topAddr_full hpl] at this
    omega
  · intro q hq hql hc
    apply topAddr_inj (r := 0) (u := u) q p hq hp (by omega) (by omega)
    rw [topAddr_full hql, topAddr_full hpl, hc]

/-- Two levels: 9 nodes above 64 cells; the path 6, 3 leads to the cell of index (1, 3, 2). -/
example : nTop 2 = 9 ∧ place [6, 3] = ⟨1, 3, 2, 2⟩ ∧ cellOf 2 [6, 3] = 45 := by decide

/-! ### C26 -/

/-- C26: a node that can be reached from the root is found by its index alone: the walk of `lookup_lco_addx` ends at it, and
no assertion fails and no null pointer is followed on the way. -/
theorem C26_lookup {H : Heap} {r : Nat} {p : List Nat} {b : Nat} (h : Linked H r p b) :
    lookup H r (H b).idx = some b := by
  unfold lookup
  apply walk_linked h
  rw [linked_idx h, (Grid.parent_of_path (H r).idx p (linked_oct8 h)).2]
  omega

/-- C26: after the top was set up and a branch was received, every node of the branch is found by the index it has on the
rank that sent it. -/
theorem C26_received {u : Nat} (hu : 1 ≤ u) (r : Nat) (H : Heap) (q : List Nat) (hq : Oct8 q) (hql : q.length = u) (c : Kids)
    (base : Nat) (hbase : r + nTop u + 8 ^ u ≤ base) (msg : List Int) (hm : message (cellOf u q) c = some msg)
    (p : List Nat) (m : TNode) (hp : TPath ⟨place q, c⟩ p m) :
    ∃ b, lookup (receive (fun i => r + nTop u + i) base msg (setupBasics r u H)) r m.ix = some b ∧
      (receive (fun i => r + nTop u + i) base msg (setupBasics r u H) b).idx = m.ix ∧
      Copy (receive (fun i => r + nTop u + i) base msg (setupBasics r u H)) b m := by
  obtain ⟨g, g1, g2, g3, g4, _⟩ := C25_paths hu r H q hq (Nat.le_of_eq hql)
  obtain ⟨hg, hnull⟩ := g4 hql
  have hlt := topAddr_lt (r := r) q hq (Nat.le_of_eq hql)
  rw [topAddr_full hql] at hlt
  rw [nTop_eq hu] at hbase hg
  have hcopy := C24_copy hm (fun i => r + nTop u + i) base (setupBasics r u H)
    (by rw [nTop_eq hu, ← hg]; exact hnull) (by rw [nTop_eq hu]; omega)
  rw [nTop_eq hu, ← hg, g2] at hcopy
  rw [nTop_eq hu]
  generalize hR : receive (fun i => r + S u + i) base msg (setupBasics r u H) = R at *
  obtain ⟨c1, c2, c3, c4, c5⟩ := hcopy
  obtain ⟨k1, k2, _⟩ := copy_path c1
  obtain ⟨b, hb, hbc⟩ := k2 p m hp
  have hne : r ≠ g := by
    have := S_eight (u - 1)
    rw [show u - 1 + 1 = u by omega] at this
    omega
  -- the links of the top are still there
  have htop : ∀ e a, Linked (setupBasics r u H) r e a → e.length ≤ u → Linked R r e a ∧ (R a).idx = (setupBasics r u H a).idx := by
    have hidx : ∀ a, (a = g ∨ a < r + S u + 8 ^ u) → (R a).idx = (setupBasics r u H a).idx := by
      intro a ha
      by_cases hag : a = g
      · rw [hag, k1, g2]
      · rw [c2 a hag (by omega)]
    intro e
    induction e using List.reverseRecOn with
    | nil => intro a ha _; cases ha; exact ⟨.refl _, hidx r (.inr (by have : 0 < 8 ^ u := by positivity
                                                                      omega))⟩
    | append_singleton e j ih =>
      intro a ha hle
      obtain ⟨a', l1, l2, l3, l4⟩ := linked_snoc ha
      obtain ⟨i1, i2⟩ := ih a' l1 (by simp at hle; omega)
      have hel : e.length < u := by simp at hle; omega
      obtain ⟨x, x1, _, _, _, x5, _⟩ := C25_paths hu r H e (linked_oct8 l1) (by omega)
      have hxa := linked_unique x1 l1
      subst hxa
      have hx := x5 hel
      rw [nTop_eq hu] at hx
      have ha8 : a < r + S u + 8 ^ u := by
        obtain ⟨y, y1, _, _, y4, y5, _⟩ := C25_paths hu r H (e ++ [j]) (linked_oct8 ha) hle
        have := linked_unique y1 ha
        subst this
        rw [nTop_eq hu] at y4 y5
        by_cases hf : (e ++ [j]).length = u
        · have ht := topAddr_lt (r := r) (e ++ [j]) (linked_oct8 ha) hle
          rw [topAddr_full hf] at ht
          rw [(y4 hf).1]; exact ht.2
        · have := y5 (by omega)
          have h8 : 0 < 8 ^ u := by positivity
          omega
      have hidxa := hidx a (.inr ha8)
      refine ⟨linked_append i1 (.step l4 ?_ ?_ (.refl _)), hidxa⟩
      · rw [c2 x (by omega) (by omega)]; exact l2
      · rw [hidxa, i2, l3]
  obtain ⟨t1, _⟩ := htop q g g1 (Nat.le_of_eq hql)
  have hbi := (copy_path hbc).1
  refine ⟨b, ?_, hbi, hbc⟩
  rw [← hbi]
  exact C26_lookup (linked_append t1 hb)

/-- The hypotheses of `C26_received` are met: the node two steps below the cell of the path 6, 3 in the branch `exKids`. -/
example : ∃ m, TPath ⟨place [6, 3], exKids⟩ [5, 1] m ∧ m.ix = place [6, 3, 5, 1] :=
  ⟨⟨place [6, 3, 5, 1], fun _ => .nil⟩, .step 5 rfl (.step 1 rfl (.refl _)), rfl⟩

/-! ### C27 -/

/-- C27: pruning never follows a null pointer and no assertion fails; afterwards a path of at most `u` steps leads to a node iff
it is the root or some cell at or below it holds points; the node is the same as before, with the same index, still links
back to its parent; and the cells and all other memory are unchanged. -/
theorem C27_prune {u : Nat} (hu : 1 ≤ u) {r : Nat} {H0 H : Heap} {np counts : Nat → Nat} (h : TopIntact r u H0 H)
    (hnp : ∀ b, r ≤ b → b < r + nTop u → np b = 0) :
    ∃ H', pruneTopnodes r u np counts H = some H' ∧
      (∀ p, Oct8 p → p.length ≤ u → ∀ b, Linked H' r p b ↔ Linked H r p b ∧ (p = [] ∨ Alive u counts p)) ∧
      (∀ p b, p.length ≤ u → Linked H' r p b → (H' b).idx = place p ∧
        ∀ q j a, p = q ++ [j] → Linked H' r q a → (H' b).parent = some a) ∧
      (∀ b, ¬ (r ≤ b ∧ b < r + nTop u) → H' b = H b) := by
  obtain ⟨hS, hI⟩ := intact_shape hu h
  obtain ⟨H', h1, h2, h3, h4⟩ := prune_shape (np := np) (counts := counts) hu (fun q hq hl => by
    have := topAddr_inner (r := r) hq hl
    exact hnp _ this.1 (by rw [nTop_eq hu]; exact this.2)) hS
  have hL := shape_linked hu hS (fun p hp hl => (hI p hp hl).1) (fun _ _ _ _ _ => trivial)
  have hL' := shape_linked hu h2 (fun p hp hl => by rw [(h4 _).1]; exact (hI p hp hl).1) (fun p j hne hal hj => by
    by_cases hlt : p.length < u
    · exact (alive_inner hlt).2 ⟨j, hj, hal⟩
    · obtain ⟨e, _, h2, _⟩ := hal
      simp at h2; omega)
  refine ⟨H', h1, ?_, ?_, ?_⟩
  · intro p hp hl b
    rw [hL' p hp hl b, hL p hp hl b]
    constructor
    · rintro ⟨a, b⟩; exact ⟨⟨a, .inr trivial⟩, b⟩
    · rintro ⟨⟨a, _⟩, b⟩; exact ⟨a, b⟩
  · intro p b hl hb
    have hp := linked_oct8 hb
    obtain ⟨rfl, hal⟩ := (hL' p hp hl b).1 hb
    refine ⟨by rw [(h4 _).1]; exact (hI p hp hl).1, ?_⟩
    rintro q j a rfl hq
    have hql : q.length < u := by simp at hl; omega
    obtain ⟨rfl, _⟩ := (hL' q (linked_oct8 hq) (by omega) a).1 hq
    rcases hal with hal | hal
    · simp at hal
    · exact (h2.yes q j (linked_oct8 hq) hql (hp j (by simp)) hal).2
  · intro b hb
    apply h3
    rintro p hp hl rfl
    rw [nTop_eq hu] at hb
    exact hb (topAddr_inner hp hl)

/-- C27: no cell with points is disconnected. -/
theorem C27_connected {u : Nat} (hu : 1 ≤ u) {r : Nat} {H0 H H' : Heap} {np counts : Nat → Nat} (h : TopIntact r u H0 H)
    (hnp : ∀ b, r ≤ b → b < r + nTop u → np b = 0) (hp : pruneTopnodes r u np counts H = some H')
    (q : List Nat) (hq : Oct8 q) (hl : q.length = u) (hc : 0 < counts (cellOf u q)) :
    Linked H' r q (r + nTop u + cellOf u q) := by
  obtain ⟨H1, h1, h2, _⟩ := C27_prune (counts := counts) hu h hnp
  rw [hp] at h1
  obtain rfl := Option.some.inj h1
  have hL := shape_linked hu (intact_shape hu h).1 (fun p hp hl => ((intact_shape hu h).2 p hp hl).1) (fun _ _ _ _ _ => trivial)
  refine (h2 q hq (Nat.le_of_eq hl) _).2 ⟨(hL q hq (Nat.le_of_eq hl) _).2 ⟨?_, .inr trivial⟩, .inr ⟨[], by simp [Oct8], by simpa using hl, by simpa using hc⟩⟩
  rw [topAddr_full hl, nTop_eq hu]

/-- The hypotheses of `C27_prune` hold right after `setup_basics`, e.g. with points in cell 45 only, and then the path 6
remains and the path 5 does not. -/
example : TopIntact 100 2 exHeap (setupBasics 100 2 exHeap) ∧
    Alive 2 (fun i => if i = 45 then 3 else 0) [6] ∧ ¬ Alive 2 (fun i => if i = 45 then 3 else 0) [5] := by
  refine ⟨intact_refl _, ⟨[3], by simp [Oct8], rfl, by decide⟩, ?_⟩
  rintro ⟨e, h1, h2, h3⟩
  obtain ⟨j, rfl⟩ := List.length_eq_one_iff.1 (show e.length = 1 by simpa using h2)
  have hj := h1 j (by simp)
  have : ∀ j < 8, ¬ 0 < (fun i => if i = 45 then 3 else 0) (cellOf 2 ([5] ++ [j])) := by decide
  exact this j hj h3

/-! ### C54 -/

/-- C54: if the received branch has nodes besides the cell, what is passed to `delete []` is the address of the block that was
allocated for it. If it has none, nothing is passed to it. -/
theorem C54_freed {id : Nat} {c : Kids} {msg : List Int} (h : message id c = some msg) (grid : Nat → Nat) (base : Nat) (H : Heap)
    (hnull : ∀ j, (H (grid id)).child j = none)
    (hfresh : ¬ (base ≤ grid id ∧ grid id + 1 < base + Oct.size (.node c))) :
    freed (receive grid base msg H) (grid id) = if Oct.size (.node c) = 1 then none else some base := by
  obtain ⟨es, T, hF, hsz, _, hM⟩ := receive_eq h grid base H hnull hfresh
  generalize receive grid base msg H = R at *
  have ha : addr (grid id) base 0 = grid id := by unfold addr; simp
  have hch := hM.child 0 (Nat.zero_le _)
  rw [ha] at hch
  unfold freed
  by_cases h0 : es.length = 0
  · rw [if_pos (by omega), List.findSome?_eq_none_iff]
    intro j _
    cases hv : (R (grid id)).child j with
    | none => rfl
    | some v =>
      obtain ⟨k, hk, _⟩ := (hch j v).1 hv
      omega
  · rw [if_neg (by omega)]
    have hg : es[0]? = some es[0] := List.getElem?_eq_getElem (by omega)
    obtain ⟨P, _, _, hp, hP0, _⟩ := hF.sound 0 es[0].1 es[0].2 hg
    have hP : P = 0 := by omega
    subst hP
    have hfirst : (R (grid id)).child es[0].2 = some base :=
      (hch es[0].2 base).2 ⟨0, by omega, by omega, es[0].2, rfl, by rw [hg, ← hp]⟩
    have hlow : ∀ j, j < es[0].2.val → (R (grid id)).child j = none := by
      intro j hj
      cases hv : (R (grid id)).child j with
      | none => rfl
      | some v =>
        obtain ⟨k, hk, _, i, hi, he⟩ := (hch j v).1 hv
        exfalso
        by_cases hk0 : k = 0
        · subst hk0
          rw [hg] at he
          have := congrArg Prod.snd (Option.some.inj he)
          simp only at this
          rw [this] at hj; omega
        · have hs := List.pairwise_iff_getElem.1 hF.sorted 0 k (by omega) hk (by omega)
          have hek : es[k] = (((0 : Nat) : Int) - 1, i) := by
            rw [List.getElem?_eq_getElem hk] at he; exact Option.some.inj he
          rw [hek] at hs
          rcases hs with hs | ⟨_, hs⟩
          · rw [hp] at hs; simp at hs
          · simp only [Fin.lt_def] at hs; omega
    have hlt := es[0].2.isLt
    generalize es[0].2.val = m at *
    have hsplit : List.range 8 = List.range m ++ (m :: (List.range (7 - m)).map (· + (m + 1))) := by
      interval_cases m <;> rfl
    rw [hsplit, List.findSome?_append, List.findSome?_eq_none_iff.2 (fun j hj => hlow j (List.mem_range.1 hj)), List.findSome?_cons, hfirst]
    rfl

/-- For the branch `exKids` received by cell 7 this is the block at 1000. -/
example : freed (receive (· + 100) 1000 [7, 3, 2, 5, 1, -1, -1, 1] exHeap) 107 = some 1000 := by decide

end Dashmm
