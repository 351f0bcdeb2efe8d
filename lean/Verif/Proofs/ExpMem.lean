import Mathlib.Tactic.Abel
import Verif.Spec.ExpMem
/-
Reasoning about programs that allocate and free.
-/
namespace Dashmm.ExpMem

/-- Memory that `m` does not own but may read. -/
def Reads (U : Ptr → Prop) (F : Multiset ℕ) (L : Led) : Prop := ∀ p, U p → match p with | .own b => b ∈ F | .inside q => q ∈ L.parc

/-- From a ledger that has the blocks `A` (and any others), `m` does not get stuck, and afterwards has the blocks `B` instead. -/
def Tri {α : Type} (U : Ptr → Prop) (A : Multiset ℕ) (m : Prog α) (Q : α → Multiset ℕ → Prop) : Prop :=
  ∀ L F, L.Wf → L.heap = A + F → Reads U F L →
    ∃ a L' B, m L = some (a, L') ∧ Q a B ∧ L'.heap = B + F ∧ L'.parc = L.parc ∧ L.next ≤ L'.next ∧ L'.Wf

variable {α β : Type} {U : Ptr → Prop} {A : Multiset ℕ}

theorem Tri.pure {a : α} {Q : α → Multiset ℕ → Prop} (h : Q a A) : Tri U A (Pure.pure a : Prog α) Q := fun L F hw hL _ =>
  ⟨a, L, A, rfl, h, hL, rfl, le_rfl, hw⟩

theorem Tri.bind {m : Prog α} {f : α → Prog β} {Q : α → Multiset ℕ → Prop} {R : β → Multiset ℕ → Prop}
    (h : Tri U A m Q) (h' : ∀ a B, Q a B → Tri U B (f a) R) : Tri U A (m >>= f) R := by
  intro L F hw hL hu
  obtain ⟨a, L1, B, e1, q1, h1, p1, n1, w1⟩ := h L F hw hL hu
  obtain ⟨b, L2, C, e2, q2, h2, p2, n2, w2⟩ := h' a B q1 L1 F w1 h1 (by
    intro p hp
    have := hu p hp
    cases p with
    | own b => exact this
    | inside q => dsimp only at this ⊢; rwa [p1])
  refine ⟨b, L2, C, ?_, q2, h2, p2.trans p1, n1.trans n2, w2⟩
  change (m L).bind _ = _
  rw [e1]
  exact e2

theorem Tri.mono {m : Prog α} {Q R : α → Multiset ℕ → Prop} (h : Tri U A m Q) (hm : ∀ a B, Q a B → R a B) : Tri U A m R := by
  intro L F hw hL hu
  obtain ⟨a, L1, B, e1, q1, r⟩ := h L F hw hL hu
  exact ⟨a, L1, B, e1, hm _ _ q1, r⟩

theorem Tri.frame {m : Prog α} {Q : α → Multiset ℕ → Prop} (C : Multiset ℕ) (h : Tri U A m Q) :
    Tri U (A + C) m fun a B => ∃ B', Q a B' ∧ B = B' + C := by
  intro L F hw hL hu
  obtain ⟨a, L1, B, e1, q1, h1, r⟩ := h L (C + F) hw (by rw [hL, add_assoc]) (by
    intro p hp
    have := hu p hp
    cases p with
    | own b => exact Multiset.mem_add.2 (Or.inr this)
    | inside q => exact this)
  exact ⟨a, L1, B + C, e1, ⟨B, q1, rfl⟩, by rw [h1, add_assoc], r⟩

theorem tri_new : Tri U A new fun b B => B = {b} + A := by
  intro L F hw hL _
  refine ⟨L.next, _, {L.next} + A, rfl, rfl, ?_, rfl, Nat.le_succ _, ?_⟩
  · rw [← Multiset.singleton_add, hL, add_assoc]
  · have hn : L.next ∉ L.heap := fun h => absurd (hw.fresh _ (Or.inl h)) (lt_irrefl _)
    refine ⟨Multiset.nodup_cons.2 ⟨hn, hw.heap⟩, hw.parc, ?_⟩
    intro b hb
    dsimp only at hb ⊢
    rcases hb with hb | hb
    · rcases Multiset.mem_cons.1 hb with rfl | hb
      · exact Nat.lt_succ_self _
      · exact (hw.fresh b (Or.inl hb)).trans (Nat.lt_succ_self _)
    · exact (hw.fresh b (Or.inr hb)).trans (Nat.lt_succ_self _)

theorem tri_del {b : ℕ} {A' : Multiset ℕ} (h : A = {b} + A') : Tri U A (del b) fun _ B => B = A' := by
  intro L F hw hL _
  have hb : b ∈ L.heap := by rw [hL, h]; simp
  have he : L.heap.erase b = A' + F := by
    rw [hL, h, add_assoc, Multiset.singleton_add, Multiset.erase_cons_head]
  refine ⟨(), { L with heap := L.heap.erase b }, A', ?_, rfl, he, rfl, le_rfl, ⟨hw.heap.erase b, hw.parc, ?_⟩⟩
  · unfold del
    rw [if_pos hb]
  · intro c hc
    exact hw.fresh c (hc.imp_left Multiset.mem_of_mem_erase)

theorem tri_delIf {c : Bool} {b : ℕ} {A' : Multiset ℕ} (hc : c = true) (h : A = {b} + A') : Tri U A (delIf c b) fun _ B => B = A' := by
  unfold delIf
  rw [if_pos hc]
  exact tri_del h

theorem tri_keepIf {c : Bool} {b : ℕ} (hc : c = false) : Tri U A (delIf c b) fun _ B => B = A := by
  unfold delIf
  rw [if_neg (by simp [hc])]
  exact Tri.pure rfl

theorem tri_use_own {b : ℕ} (h : b ∈ A) : Tri U A (use (.own b)) fun _ B => B = A := by
  intro L F hw hL _
  exact ⟨(), L, A, if_pos (by rw [hL]; exact Multiset.mem_add.2 (Or.inl h)), rfl, hL, rfl, le_rfl, hw⟩

theorem tri_use {p : Ptr} (h : U p) : Tri U A (use p) fun _ B => B = A := by
  intro L F hw hL hu
  have := hu p h
  cases p with
  | own b => exact ⟨(), L, A, if_pos (by rw [hL]; exact Multiset.mem_add.2 (Or.inr this)), rfl, hL, rfl, le_rfl, hw⟩
  | inside q => exact ⟨(), L, A, if_pos this, rfl, hL, rfl, le_rfl, hw⟩

/-- `m` keeps what there is and loses `n` blocks. -/
def Loses (U : Ptr → Prop) (A : Multiset ℕ) (n : ℕ) (m : Prog Unit) : Prop :=
  ∀ X, Tri U (A + X) m fun _ B => ∃ Y, Y.card = n ∧ B = A + X + Y

theorem Loses.rep {n : ℕ} {m : Prog Unit} (h : Loses U A n m) : ∀ k, Loses U A (k * n) (rep k m)
  | 0, X => Tri.pure ⟨0, by simp⟩
  | k + 1, X => by
    refine Tri.bind (h X) ?_
    rintro _ B ⟨Y, hY, rfl⟩
    rw [add_assoc]
    refine Tri.mono (Loses.rep h k (X + Y)) ?_
    rintro _ B ⟨Z, hZ, rfl⟩
    exact ⟨Y + Z, by rw [Multiset.card_add, hY, hZ, Nat.succ_mul, add_comm], by abel⟩

theorem Loses.tri {n : ℕ} {m : Prog Unit} (h : Loses U A n m) : Tri U A m fun _ B => ∃ Y, Y.card = n ∧ B = A + Y := by
  have := h 0
  rwa [add_zero] at this

theorem Loses.mono {n : ℕ} {m : Prog Unit} {A' : Multiset ℕ} (h : Loses U A n m) (hA : ∃ C, A' = A + C) : Loses U A' n m := by
  obtain ⟨C, rfl⟩ := hA
  intro X
  rw [add_assoc]
  exact h (C + X)

theorem Loses.pure {n : ℕ} (hn : n = 0) : Loses U A n (Pure.pure ()) := fun _ => Tri.pure ⟨0, by simp [hn]⟩

/-- `m` needs nothing but what it reads and leaves everything as it is. -/
theorem tri_useView {vs : Views} {i : ℕ} (h : ∃ v, vs[i]? = some v ∧ U v.2) : Tri U A (useView vs i) fun _ B => B = A := by
  obtain ⟨v, e, hv⟩ := h
  unfold useView
  rw [e]
  exact tri_use hv

theorem tri_useView_own {vs : Views} {i : ℕ} (h : ∃ v b, vs[i]? = some v ∧ v.2 = .own b ∧ b ∈ A) : Tri U A (useView vs i) fun _ B => B = A := by
  obtain ⟨v, b, e, hv, hb⟩ := h
  unfold useView
  rw [e]
  simp only [hv]
  exact tri_use_own hb

theorem tri_useViews {A : Multiset ℕ} {vs : Views} : ∀ {n i : ℕ} (_ : ∀ j, i ≤ j → j < i + n → ∃ v, vs[j]? = some v ∧ U v.2),
    Tri U A (useViews vs n i) fun _ B => B = A
  | 0, _, _ => Tri.pure rfl
  | n + 1, i, h => by
    refine Tri.bind (tri_useView (h i le_rfl (by omega))) ?_
    intro _ B e
    rw [e]
    exact tri_useViews fun j h1 h2 => h j (by omega) (by omega)

theorem tri_useViews_own {A : Multiset ℕ} {vs : Views} : ∀ {n i : ℕ} (_ : ∀ j, i ≤ j → j < i + n → ∃ v b, vs[j]? = some v ∧ v.2 = .own b ∧ b ∈ A),
    Tri U A (useViews vs n i) fun _ B => B = A
  | 0, _, _ => Tri.pure rfl
  | n + 1, i, h => by
    refine Tri.bind (tri_useView_own (h i le_rfl (by omega))) ?_
    intro _ B e
    rw [e]
    exact tri_useViews_own fun j h1 h2 => h j (by omega) (by omega)

theorem tri_mkViews : ∀ (n i : ℕ) (A : Multiset ℕ), Tri U A (mkViews n i) fun vs B => OwnViews vs (List.range' i n) ∧ B = viewBlocks vs + A
  | 0, i, A => Tri.pure ⟨⟨rfl, by simp⟩, by simp [viewBlocks]⟩
  | n + 1, i, A => by
    refine Tri.bind tri_new ?_
    rintro b B rfl
    refine Tri.bind (tri_mkViews n (i + 1) _) ?_
    rintro vs B ⟨⟨h1, h2⟩, rfl⟩
    refine Tri.pure ⟨⟨by simp [h1, List.range'_succ], ?_⟩, ?_⟩
    · intro v hv
      rcases List.mem_cons.1 hv with rfl | hv
      · exact ⟨b, rfl⟩
      · exact h2 v hv
    · simp only [viewBlocks]
      abel

theorem tri_construct (k : Expansion) (r : Role) :
    Tri U A (construct k r) fun o B => OwnViews o.views (List.range (viewCount k r)) ∧ B = o.blocks + A := by
  refine Tri.bind tri_new ?_
  rintro b B rfl
  refine Tri.bind (tri_mkViews _ 0 _) ?_
  rintro vs B ⟨h1, rfl⟩
  refine Tri.pure ⟨by rw [List.range_eq_range']; exact h1, ?_⟩
  simp only [Obj.blocks]
  abel

theorem mem_viewBlocks {vs : Views} {v : ℕ × Ptr} {b : ℕ} (h : v ∈ vs) (hb : v.2 = .own b) : b ∈ viewBlocks vs := by
  induction vs with
  | nil => simp at h
  | cons w vs ih =>
    obtain ⟨i, p⟩ := w
    rcases List.mem_cons.1 h with rfl | h'
    · dsimp only at hb
      subst hb
      simp [viewBlocks]
    · cases p with
      | own c => simp [viewBlocks, ih h']
      | inside q => exact ih h'

theorem OwnViews.length {vs : Views} {idx : List ℕ} (h : OwnViews vs idx) : vs.length = idx.length := by rw [← h.1, List.length_map]

theorem own_at {vs : Views} {idx : List ℕ} (h : OwnViews vs idx) {i : ℕ} (hi : i < idx.length) :
    ∃ v b, vs[i]? = some v ∧ v.2 = .own b ∧ b ∈ viewBlocks vs := by
  have hl : i < vs.length := by rw [h.length]; exact hi
  obtain ⟨b, hb⟩ := h.2 _ (List.getElem_mem hl)
  exact ⟨vs[i], b, List.getElem?_eq_getElem hl, hb, mem_viewBlocks (List.getElem_mem hl) hb⟩

theorem own_at_obj {o : Obj} {idx : List ℕ} (h : OwnViews o.views idx) {i : ℕ} (hi : i < idx.length) {A : Multiset ℕ} :
    ∃ v b, o.views[i]? = some v ∧ v.2 = .own b ∧ b ∈ o.blocks + A := by
  obtain ⟨v, b, h1, h2, h3⟩ := own_at h hi
  exact ⟨v, b, h1, h2, by simp [Obj.blocks, h3]⟩

theorem tri_destruct : ∀ {vs : Views} (_ : ∀ v ∈ vs, ∃ b, v.2 = .own b) {A : Multiset ℕ}, Tri U (viewBlocks vs + A) (destruct vs) fun _ B => B = A
  | [], _, A => by
    unfold destruct
    exact Tri.pure (by simp [viewBlocks])
  | (i, p) :: vs, h, A => by
    obtain ⟨b, hb⟩ := h (i, p) (by simp)
    dsimp only at hb
    subst hb
    refine Tri.bind (tri_del (A' := viewBlocks vs + A) (by simp only [viewBlocks]; abel)) ?_
    rintro _ B rfl
    exact tri_destruct fun v hv => h v (by simp [hv])

theorem tri_delete {o : Obj} (h : ∀ v ∈ o.views, ∃ b, v.2 = .own b) {A : Multiset ℕ} : Tri U (o.blocks + A) (delete o) fun _ B => B = A := by
  have : o.blocks + A = viewBlocks o.views + ({o.self} + A) := by simp only [Obj.blocks]; abel
  rw [this]
  refine Tri.bind (tri_destruct h) ?_
  rintro _ B rfl
  exact tri_del rfl

/-- Pure scratch space in a loop: allocated, used, freed. -/
theorem loses_scratch1 : Loses U A 0 (do let z ← new; use (.own z); del z) := by
  intro X
  refine Tri.bind tri_new ?_
  rintro b B rfl
  refine Tri.bind (tri_use_own (by simp)) ?_
  rintro _ B rfl
  exact (tri_del rfl).mono fun _ B h => ⟨0, rfl, by rw [h, add_zero]⟩

theorem loses_scratch2 : Loses U A 0 (do let z ← new; let w ← new; del z; del w) := by
  intro X
  refine Tri.bind tri_new ?_
  rintro b B rfl
  refine Tri.bind tri_new ?_
  rintro c B rfl
  refine Tri.bind (tri_del (A' := {c} + (A + X)) (by abel)) ?_
  rintro _ B rfl
  exact (tri_del rfl).mono fun _ B h => ⟨0, rfl, by rw [h, add_zero]⟩

theorem loses_useView {vs : Views} {i : ℕ} (h : ∃ v b, vs[i]? = some v ∧ v.2 = .own b ∧ b ∈ A) : Loses U A 0 (useView vs i) := fun X =>
  (tri_useView_own (by obtain ⟨v, b, h1, h2, h3⟩ := h; exact ⟨v, b, h1, h2, Multiset.mem_add.2 (Or.inl h3)⟩)).mono fun _ B h => ⟨0, rfl, by rw [h, add_zero]⟩

theorem loses_readView {vs : Views} {i : ℕ} (h : ∃ v, vs[i]? = some v ∧ U v.2) : Loses U A 0 (useView vs i) := fun _ =>
  (tri_useView h).mono fun _ B h => ⟨0, rfl, by rw [h, add_zero]⟩

theorem Loses.seq {n n' : ℕ} {m m' : Prog Unit} (h : Loses U A n m) (h' : Loses U A n' m') : Loses U A (n + n') (do m; m') := by
  intro X
  refine Tri.bind (h X) ?_
  rintro _ B ⟨Y, hY, rfl⟩
  rw [add_assoc]
  refine (h' (X + Y)).mono ?_
  rintro _ B ⟨Z, hZ, rfl⟩
  exact ⟨Y + Z, by rw [Multiset.card_add, hY, hZ], by abel⟩

theorem loses_besselHn : Loses U A 2 besselHn := by
  intro X
  refine Tri.bind tri_new ?_
  rintro b B rfl
  refine Tri.bind tri_new ?_
  rintro c B rfl
  refine Tri.bind (tri_use_own (by simp)) ?_
  rintro _ B rfl
  refine (tri_use_own (by simp)).mono ?_
  rintro _ B rfl
  exact ⟨{c} + {b}, by simp, by abel⟩

theorem loses_rotateZ : Loses U A 0 rotateZ := loses_scratch1

end Dashmm.ExpMem
