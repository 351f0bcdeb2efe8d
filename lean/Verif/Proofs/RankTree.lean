import Verif.Model.RankTree
import Verif.Proofs.EndRecv

/-! Helper lemmas: the trees on all ranks. -/

namespace Dashmm
namespace RankTree
open Build Branch

section
variable {R : Type}

theorem upd_same {A B : Type} [DecidableEq A] (f : A → B) (a : A) (b : B) : upd f a b a = b := by simp [upd]
theorem upd_ne {A B : Type} [DecidableEq A] (f : A → B) {a x : A} (b : B) (h : x ≠ a) : upd f a b x = f x := by simp [upd, h]

/-- The branch of a cell on the rank it is assigned to. -/
structure LocalOk (H : Heap) (a0 : Nat) (i : Index) (st : State R) (adr : Index → Nat) (ow : List Nat) : Prop where
  root : adr i = a0
  low : ∀ v ∈ st.nodes, v.idx ≠ i → adr v.idx ∈ ow
  inj : ∀ u ∈ st.nodes, ∀ v ∈ st.nodes, adr u.idx = adr v.idx → u.idx = v.idx
  idx : ∀ v ∈ st.nodes, (H (adr v.idx)).idx = v.idx
  dag : ∀ v ∈ st.nodes, v.idx ≠ i → (H (adr v.idx)).dagIdx = v.idx
  null : ∀ v ∈ st.nodes, ∀ j < 8, (∀ u ∈ st.nodes, u.idx ≠ v.idx.child j) → (H (adr v.idx)).child j = none
  kid : ∀ v ∈ st.nodes, ∀ j < 8, ∀ u ∈ st.nodes, u.idx = v.idx.child j →
    (H (adr v.idx)).child j = some (adr u.idx) ∧ (H (adr u.idx)).parent = some (adr v.idx)

theorem LocalOk.at {H : Heap} {a0 : Nat} {i : Index} {st : State R} {adr : Index → Nat} {ow : List Nat} (h : LocalOk H a0 i st adr ow)
    {v : Cell} (hv : v ∈ st.nodes) : adr v.idx = a0 ∨ adr v.idx ∈ ow := by
  by_cases e : v.idx = i
  · left; rw [e, h.root]
  · exact .inr (h.low v hv e)

theorem LocalOk.congr {H H' : Heap} {a0 : Nat} {i : Index} {st : State R} {adr : Index → Nat} {ow : List Nat} (h : LocalOk H a0 i st adr ow)
    (hH : ∀ x, x = a0 ∨ x ∈ ow → H' x = H x) : LocalOk H' a0 i st adr ow := by
  have e : ∀ v ∈ st.nodes, H' (adr v.idx) = H (adr v.idx) := fun v hv => hH _ (h.at hv)
  refine ⟨h.root, h.low, h.inj, ?_, ?_, ?_, ?_⟩
  · intro v hv; rw [e v hv]; exact h.idx v hv
  · intro v hv; rw [e v hv]; exact h.dag v hv
  · intro v hv; rw [e v hv]; exact h.null v hv
  · intro v hv j hj u hu hui; rw [e v hv, e u hu]; exact h.kid v hv j hj u hu hui

theorem LocalOk.nodes {H : Heap} {a0 : Nat} {i : Index} {st st' : State R} {adr : Index → Nat} {ow : List Nat} (h : LocalOk H a0 i st adr ow)
    (hn : ∀ u, u ∈ st'.nodes ↔ u ∈ st.nodes) : LocalOk H a0 i st' adr ow := by
  refine ⟨h.root, ?_, ?_, ?_, ?_, ?_, ?_⟩
  · intro v hv; exact h.low v ((hn v).1 hv)
  · intro u hu v hv; exact h.inj u ((hn u).1 hu) v ((hn v).1 hv)
  · intro v hv; exact h.idx v ((hn v).1 hv)
  · intro v hv; exact h.dag v ((hn v).1 hv)
  · intro v hv j hj hu; exact h.null v ((hn v).1 hv) j hj fun u hu' => hu u ((hn u).2 hu')
  · intro v hv j hj u hu; exact h.kid v ((hn v).1 hv) j hj u ((hn u).1 hu)

/-- A copy of a branch. -/
structure RemoteOk (H : Heap) (a0 : Nat) (n : TNode) (ow : List Nat) : Prop where
  copy : Copy H a0 n
  inside : ∀ p b, Linked H a0 p b → b = a0 ∨ b ∈ ow

theorem RemoteOk.congr {H H' : Heap} {a0 : Nat} {n : TNode} {ow : List Nat} (h : RemoteOk H a0 n ow)
    (hH : ∀ x, x = a0 ∨ x ∈ ow → H' x = H x) : RemoteOk H' a0 n ow := by
  have hsame : ∀ p x, Linked H a0 p x → H' x = H x := fun p x hx => hH x (h.inside p x hx)
  refine ⟨Copy.congr h.copy hsame, fun p x hx => h.inside p x ?_⟩
  have : ∀ p a b, Linked H' a p b → ∀ p0, Linked H a0 p0 a → Linked H a p b := by
    intro p a b hab
    induction hab with
    | refl a => intro _ _; exact .refl _
    | @step a b c j p hj hch hi _ ih =>
      intro p0 h0
      have ea := hsame p0 a h0
      rw [ea] at hch hi
      have hstep : (H b).idx = (H a).idx.child j := by
        obtain ⟨m, -, hm2⟩ := (copy_path h.copy).2.2 p0 a h0
        cases hm2 with
        | mk _ _ b' idx null ptr parent dag copy =>
          cases hmc : m.c ⟨j, hj⟩ with
          | nil => rw [null _ hmc] at hch; cases hch
          | node c =>
            have e := ptr _ c hmc
            rw [hch] at e
            cases e
            rw [(copy_path (copy _ c hmc)).1, idx]
      exact .step hj hch hstep (ih (p0 ++ [j]) (linked_append h0 (.step hj hch hstep (.refl _))))
  exact this p _ x hx [] (.refl _)

/-- The nodes of the tree `b` are those that the tasks made. -/
def Shape (i : Index) (st : State R) (b : Fin 8 → Oct) : Prop :=
  ∀ p, Oct8 p → ((∃ m, TPath ⟨i, b⟩ p m) ↔ ∃ v ∈ st.nodes, v.idx = below i p)

theorem Shape.nodes {i : Index} {st st' : State R} {b : Fin 8 → Oct} (h : Shape i st b) (hn : ∀ u, u ∈ st'.nodes ↔ u ∈ st.nodes) :
    Shape i st' b := by
  intro p hp
  rw [h p hp]
  constructor <;> rintro ⟨v, hv, e⟩
  · exact ⟨v, (hn v).2 hv, e⟩
  · exact ⟨v, (hn v).1 hv, e⟩

/-- A path by one more step. -/
theorem tpath_append {n m k : TNode} {p q : List Nat} (h1 : TPath n p m) (h2 : TPath m q k) : TPath n (p ++ q) k := by
  induction h1 with
  | refl => exact h2
  | step j hj _ ih => exact .step j hj (ih h2)

/-- A branch in the memory has the nodes that the tasks made. -/
theorem LocalOk.copy {H : Heap} {a0 : Nat} {i : Index} {st : State R} {adr : Index → Nat} {ow : List Nat} (h : LocalOk H a0 i st adr ow)
    {b : Fin 8 → Oct} (hb : Shape i st b) : Copy H a0 ⟨i, b⟩ := by
  have key : ∀ (o : Oct) (m : TNode) (p : List Nat), o = .node m.c → TPath ⟨i, b⟩ p m → Copy H (adr m.ix) m := by
    intro o
    induction o with
    | nil => intro m p e; cases e
    | node f ih =>
      intro m p e hp
      obtain rfl : f = m.c := by simpa using e
      have h8 := (tpath_under hp).2.2
      have hix : m.ix = below i p := (tpath_under hp).2.1
      obtain ⟨v, hv, hvi⟩ := (hb p h8).1 ⟨m, hp⟩
      rw [← hix] at hvi
      have hkid : ∀ (j : Fin 8), ((∃ u ∈ st.nodes, u.idx = m.ix.child j) ↔ m.c j ≠ .nil) := by
        intro j
        rw [← tpath_snoc hp j, hb _ (fun c hc => by
          rcases List.mem_append.1 hc with hc | hc
          · exact h8 c hc
          · simp at hc; omega)]
        have : below i (p ++ [j.val]) = m.ix.child j := by rw [hix]; simp [below]
        rw [this]
      rw [← hvi]
      refine .mk _ m (fun j => adr (m.ix.child j)) ?_ ?_ ?_ ?_ ?_ ?_
      · rw [h.idx v hv, hvi]
      · intro j hj
        refine h.null v hv j j.isLt fun u hu hui => ?_
        rw [hvi] at hui
        exact (hkid j).1 ⟨u, hu, hui⟩ hj
      · intro j c hc
        obtain ⟨u, hu, hui⟩ := (hkid j).2 (by rw [hc]; simp)
        rw [← hui]
        exact (h.kid v hv j j.isLt u hu (by rw [hvi, hui])).1
      · intro j c hc
        obtain ⟨u, hu, hui⟩ := (hkid j).2 (by rw [hc]; simp)
        rw [← hui]
        exact (h.kid v hv j j.isLt u hu (by rw [hvi, hui])).2
      · intro j c hc
        obtain ⟨u, hu, hui⟩ := (hkid j).2 (by rw [hc]; simp)
        have := h.dag u hu (by
          intro e
          have hl : (below i (p ++ [j.val])).level = i.level + (p.length + 1) := by
            rw [below_level]
            · simp
            · intro c hc
              rcases List.mem_append.1 hc with hc | hc
              · exact h8 c hc
              · simp at hc; omega
          have : below i (p ++ [j.val]) = m.ix.child j := by rw [hix]; simp [below]
          rw [this, ← hui, e] at hl
          omega)
        rw [hui] at this
        exact this
      · intro j c hc
        refine ih j ⟨m.ix.child j, c⟩ (p ++ [j.val]) hc ?_
        exact tpath_append hp (.step j hc (.refl _))
  rw [← h.root]
  exact key _ ⟨i, b⟩ [] rfl (.refl _)

theorem LocalOk.inside {H : Heap} {a0 : Nat} {i : Index} {st : State R} {adr : Index → Nat} {ow : List Nat} (h : LocalOk H a0 i st adr ow)
    (hi : ∃ v ∈ st.nodes, v.idx = i) {p : List Nat} {x : Nat} (hl : Linked H a0 p x) : x = a0 ∨ x ∈ ow := by
  have key : ∀ p a x, Linked H a p x → (∃ v ∈ st.nodes, a = adr v.idx) → ∃ v ∈ st.nodes, x = adr v.idx := by
    intro p a x hl
    induction hl with
    | refl a => exact id
    | @step a b c j p hj hc _ _ ih =>
      rintro ⟨v, hv, rfl⟩
      by_cases hu : ∃ u ∈ st.nodes, u.idx = v.idx.child j
      · obtain ⟨u, hu, e⟩ := hu
        have := (h.kid v hv j hj u hu e).1
        rw [hc] at this
        exact ih ⟨u, hu, by simpa using this⟩
      · push Not at hu
        rw [h.null v hv j hj hu] at hc
        cases hc
  obtain ⟨v, hv, e⟩ := hi
  obtain ⟨u, hu, rfl⟩ := key p a0 x hl ⟨v, hv, by rw [e, h.root]⟩
  exact h.at hu

/-! ### making children -/

/-- What the loop that makes children does. -/
theorem addKids_spec (a : Nat) (c : Nat → List R) (new : Nat → Nat) (H : Heap) (hne : ∀ i ∈ made c, new i ≠ a)
    (hd : ((made c).map new).Nodup) :
    addKids a c new H a = { H a with child := fun j => if j ∈ made c then some (new j) else (H a).child j } ∧
    (∀ i ∈ made c, addKids a c new H (new i) = ⟨(H a).idx.child i, (H a).idx.child i, some a, fun _ => none⟩) ∧
    ∀ x, x ≠ a → x ∉ (made c).map new → addKids a c new H x = H x := by
  have hm : ∀ i, i ∈ made c ↔ i < 8 ∧ (c i).length ≠ 0 := by intro i; simp [made]
  have hinj : ∀ i j, i ∈ made c → j ∈ made c → new i = new j → i = j := fun i j hi hj e => List.inj_on_of_nodup_map hd hi hj e
  have key : ∀ n, n ≤ 8 → ∀ H' , H' = (List.range n).foldl (fun H i => if (c i).length = 0 then H else addKid a i (new i) H) H →
      H' a = { H a with child := fun j => if j ∈ made c ∧ j < n then some (new j) else (H a).child j } ∧
      (∀ i ∈ made c, i < n → H' (new i) = ⟨(H a).idx.child i, (H a).idx.child i, some a, fun _ => none⟩) ∧
      (∀ x, x ≠ a → (∀ i ∈ made c, i < n → x ≠ new i) → H' x = H x) := by
    intro n
    induction n with
    | zero => intro _ H' e; subst e; simp
    | succ n ih =>
      intro hn H' e
      rw [List.range_succ, List.foldl_append] at e
      simp only [List.foldl_cons, List.foldl_nil] at e
      generalize hG : (List.range n).foldl (fun H i => if (c i).length = 0 then H else addKid a i (new i) H) H = G at e
      obtain ⟨g1, g2, g3⟩ := ih (by omega) G hG.symm
      by_cases hz : (c n).length = 0
      · rw [if_pos hz] at e
        subst e
        have hnm : n ∉ made c := fun h => ((hm n).1 h).2 hz
        have hlt : ∀ j, j ∈ made c → (j < n + 1 ↔ j < n) := by
          intro j hj
          have : j ≠ n := fun h => hnm (h ▸ hj)
          omega
        refine ⟨?_, fun i hi hin => g2 i hi ((hlt i hi).1 hin), fun x hx hi => g3 x hx fun i h1 h2 => hi i h1 (by omega)⟩
        rw [g1]
        dsimp only
        congr 1
        funext j
        by_cases hj : j ∈ made c
        · simp [hj, hlt j hj]
        · simp [hj]
      · rw [if_neg hz] at e
        have hnm : n ∈ made c := (hm n).2 ⟨by omega, hz⟩
        have hna := hne n hnm
        subst e
        have ha : G.set (new n) ⟨(G a).idx.child n, (G a).idx.child n, some a, fun _ => none⟩ a = G a := by
          simp [Heap.set, Ne.symm hna]
        refine ⟨?_, ?_, ?_⟩
        · unfold addKid
          simp only [ha]
          simp only [Heap.set, if_true]
          rw [g1]
          congr 1
          funext j
          by_cases hj : j = n
          · subst hj; simp [hnm]
          · have : j < n + 1 ↔ j < n := by omega
            simp [hj, this]
        · intro i hi hin
          have hia := hne i hi
          unfold addKid
          simp only [Heap.set, hia, if_false]
          by_cases hi' : i = n
          · subst hi'
            simp [g1]
          · have : new i ≠ new n := fun h => hi' (hinj i n hi hnm h)
            rw [if_neg this]
            exact g2 i hi (by omega)
        · intro x hx hi
          have : x ≠ new n := hi n hnm (by omega)
          unfold addKid
          simp only [Heap.set, hx, this, if_false]
          exact g3 x hx fun i h1 h2 => hi i h1 (by omega)
  obtain ⟨k1, k2, k3⟩ := key 8 (le_refl _) _ rfl
  refine ⟨?_, ?_, ?_⟩
  · unfold addKids
    rw [k1]
    dsimp only
    congr 1
    funext j
    by_cases hj : j ∈ made c
    · simp [hj, ((hm j).1 hj).1]
    · simp [hj]
  · intro i hi
    exact k2 i hi ((hm i).1 hi).1
  · intro x hx hn
    refine k3 x hx fun i hi _ e => hn (List.mem_map.2 ⟨i, hi, e.symm⟩)

end

section
variable {K : Type} [Field K] [LinearOrder K] [IsStrictOrderedRing K] {R : Type}

theorem find_made (c : Nat → List R) (i : Index) {j : Nat} (hj : j ∈ made c) :
    (made c).find? (fun k => decide (i.child j = i.child k)) = some j := by
  have hm : ∀ i, i ∈ made c ↔ i < 8 ∧ (c i).length ≠ 0 := by intro i; simp [made]
  cases h : (made c).find? (fun k => decide (i.child j = i.child k)) with
  | none =>
    have := List.find?_eq_none.1 h j hj
    simp at this
  | some k =>
    have h1 := List.find?_some h
    have h2 := List.mem_of_find?_eq_some h
    simp only [decide_eq_true_eq] at h1
    rw [(Index.child_inj _ _ j k ((hm j).1 hj).1 ((hm k).1 h2).1 h1).2]

/-- Dividing a node. -/
theorem LocalOk.split {E : Env K R} {H : Heap} {a0 : Nat} {i : Index} {mem0 : List R} {st st' : State R} {adr : Index → Nat} {ow : List Nat}
    (h : LocalOk H a0 i st adr ow) {rt : Cell} (hrt : rt.idx = i) (hinv : Build.Inv E rt mem0 st) {v : Cell} (hv : v ∈ st.pending)
    {c : Nat → List R} (hp : st'.pending = kids v c ++ st.pending.erase v) (hlv : st'.leaves = st.leaves) (hin : st'.inner = v :: st.inner)
    {new : Nat → Nat} (hnew : ∀ i ∈ made c, new i ≠ a0 ∧ new i ∉ ow) (hd : ((made c).map new).Nodup) :
    LocalOk (addKids (adr v.idx) c new H) a0 i st'
      (fun j => match (made c).find? fun i => decide (j = v.idx.child i) with
          | some i => new i
          | none => adr j) ((made c).map new ++ ow) := by
  have hm : ∀ i, i ∈ made c ↔ i < 8 ∧ (c i).length ≠ 0 := by intro i; simp [made]
  have hvn : v ∈ st.nodes := by simp [State.nodes, hv]
  obtain ⟨s1, s2, s3⟩ := addKids_spec (adr v.idx) c new H (fun i hi e => by
    rcases h.at hvn with h' | h'
    · exact (hnew i hi).1 (e.trans h')
    · exact (hnew i hi).2 (e ▸ h')) hd
  generalize addKids (adr v.idx) c new H = H' at *
  set adr' : Index → Nat := fun j => match (made c).find? fun i => decide (j = v.idx.child i) with
          | some i => new i
          | none => adr j with hadr
  -- the nodes
  have hnodes : ∀ u, u ∈ st'.nodes ↔ u ∈ st.nodes ∨ u ∈ kids v c := by
    intro u
    have : u ∈ st.pending ↔ u = v ∨ u ∈ st.pending.erase v := by
      constructor
      · intro hu
        by_cases e : u = v
        · exact .inl e
        · exact .inr ((List.mem_erase_of_ne e).2 hu)
      · rintro (rfl | hu)
        · exact hv
        · exact List.mem_of_mem_erase hu
    simp only [State.nodes, hp, hlv, hin, List.mem_append, List.mem_cons, this]
    tauto
  -- nothing was a child of `v` before
  have hnokid : ∀ u ∈ st.nodes, ∀ j < 8, u.idx ≠ v.idx.child j := by
    intro u hu j hj e
    have hlev := child_level (i := v.idx) hj
    rcases hinv.up u hu with rfl | ⟨y, hy, k, hk, he⟩
    · have := hinv.level v hvn
      rw [e] at this
      omega
    · have hvy := (Index.child_inj _ _ j k hj hk (e.symm.trans he)).1
      have hnd := hinv.nodup
      simp only [State.nodes, List.map_append] at hnd
      rw [List.nodup_append] at hnd
      have := hnd.2.2 v.idx (List.mem_map.2 ⟨v, hv, rfl⟩) y.idx (by
        rw [List.mem_append]; right; exact List.mem_map.2 ⟨y, hy, rfl⟩)
      exact this hvy
  have hold : ∀ u ∈ st.nodes, adr' u.idx = adr u.idx := by
    intro u hu
    have : (made c).find? (fun i => decide (u.idx = v.idx.child i)) = none := by
      rw [List.find?_eq_none]
      intro k hk
      simp only [decide_eq_true_eq]
      exact hnokid u hu k ((hm k).1 hk).1
    simp only [hadr, this]
  have hkid : ∀ j ∈ made c, adr' (v.idx.child j) = new j := by
    intro j hj
    simp only [hadr, find_made c v.idx hj]
  have hroot : i = rt.idx := hrt.symm
  have hadri : adr' i = adr i := by
    have := hold rt hinv.hroot
    rwa [hrt] at this
  have hkids : ∀ u ∈ kids v c, ∃ j ∈ made c, u.idx = v.idx.child j := by
    intro u hu
    obtain ⟨j, hj, hz, rfl⟩ := Build.mem_kids.1 hu
    exact ⟨j, (hm j).2 ⟨hj, hz⟩, rfl⟩
  have hkids' : ∀ j ∈ made c, ∃ u ∈ kids v c, u.idx = v.idx.child j := by
    intro j hj
    exact ⟨_, Build.mem_kids.2 ⟨j, ((hm j).1 hj).1, ((hm j).1 hj).2, rfl⟩, rfl⟩
  have hchild_inj : ∀ (a b : Index) j k, j < 8 → k < 8 → a.child j = b.child k → a = b ∧ j = k :=
    fun a b j k hj hk e => Index.child_inj _ _ j k hj hk e
  have hnew' : ∀ u ∈ st.nodes, ∀ j ∈ made c, adr u.idx ≠ new j := by
    intro u hu j hj e
    rcases h.at hu with h' | h'
    · exact (hnew j hj).1 (e.symm.trans h')
    · exact (hnew j hj).2 (e ▸ h')
  -- old nodes other than `v` are unchanged
  have hsame : ∀ u ∈ st.nodes, u.idx ≠ v.idx → H' (adr u.idx) = H (adr u.idx) := by
    intro u hu hne
    refine s3 _ (fun e => hne (h.inj u hu v hvn e)) fun hmem => ?_
    obtain ⟨j, hj, e⟩ := List.mem_map.1 hmem
    exact hnew' u hu j hj e.symm
  have hidx : ∀ u ∈ st.nodes, (H' (adr u.idx)).idx = (H (adr u.idx)).idx ∧ (H' (adr u.idx)).dagIdx = (H (adr u.idx)).dagIdx ∧
      (H' (adr u.idx)).parent = (H (adr u.idx)).parent := by
    intro u hu
    by_cases e : u.idx = v.idx
    · rw [e, s1]; exact ⟨rfl, rfl, rfl⟩
    · rw [hsame u hu e]; exact ⟨rfl, rfl, rfl⟩
  have hlevel : ∀ j, j < 8 → v.idx.child j ≠ i := by
    intro j hj e
    have hlev := child_level (i := v.idx) hj
    have := hinv.level v hvn
    rw [hrt, ← e, hlev] at this
    omega
  refine ⟨hadri.trans h.root, ?_, ?_, ?_, ?_, ?_, ?_⟩
  · intro u hu hne
    rcases (hnodes u).1 hu with hu | hu
    · rw [hold u hu]
      exact List.mem_append_right _ (h.low u hu hne)
    · obtain ⟨j, hj, e⟩ := hkids u hu
      rw [e, hkid j hj]
      exact List.mem_append_left _ (List.mem_map.2 ⟨j, hj, rfl⟩)
  · intro u hu w hw e
    rcases (hnodes u).1 hu with hu | hu <;> rcases (hnodes w).1 hw with hw | hw
    · rw [hold u hu, hold w hw] at e
      exact h.inj u hu w hw e
    · obtain ⟨j, hj, ej⟩ := hkids w hw
      rw [hold u hu, ej, hkid j hj] at e
      exact absurd e (hnew' u hu j hj)
    · obtain ⟨j, hj, ej⟩ := hkids u hu
      rw [hold w hw, ej, hkid j hj] at e
      exact absurd e.symm (hnew' w hw j hj)
    · obtain ⟨j, hj, ej⟩ := hkids u hu
      obtain ⟨k, hk, ek⟩ := hkids w hw
      rw [ej, ek, hkid j hj, hkid k hk] at e
      rw [ej, ek, List.inj_on_of_nodup_map hd hj hk e]
  · intro u hu
    rcases (hnodes u).1 hu with hu | hu
    · rw [hold u hu, (hidx u hu).1, h.idx u hu]
    · obtain ⟨j, hj, e⟩ := hkids u hu
      rw [e, hkid j hj, s2 j hj, h.idx v hvn]
  · intro u hu hne
    rcases (hnodes u).1 hu with hu | hu
    · rw [hold u hu, (hidx u hu).2.1, h.dag u hu hne]
    · obtain ⟨j, hj, e⟩ := hkids u hu
      rw [e, hkid j hj, s2 j hj, h.idx v hvn]
  · intro u hu j hj hno
    rcases (hnodes u).1 hu with hu | hu
    · rw [hold u hu]
      by_cases e : u.idx = v.idx
      · rw [e, s1]
        have hjm : j ∉ made c := by
          intro hjm
          obtain ⟨y, hy, ey⟩ := hkids' j hjm
          exact hno y ((hnodes y).2 (.inr hy)) (by rw [ey, e])
        simp only [hjm, if_false]
        exact h.null v hvn j hj fun y hy => hnokid y hy j hj
      · rw [hsame u hu e]
        exact h.null u hu j hj fun y hy => hno y ((hnodes y).2 (.inl hy))
    · obtain ⟨k, hk, e⟩ := hkids u hu
      rw [e, hkid k hk, s2 k hk]
  · intro u hu j hj w hw ew
    rcases (hnodes u).1 hu with hu | hu
    · rcases (hnodes w).1 hw with hw | hw
      · have hne : u.idx ≠ v.idx := fun e => hnokid w hw j hj (by rw [ew, e])
        rw [hold u hu, hold w hw, hsame u hu hne, (hidx w hw).2.2]
        exact h.kid u hu j hj w hw ew
      · obtain ⟨k, hk, e⟩ := hkids w hw
        obtain ⟨e1, rfl⟩ := hchild_inj _ _ j k hj ((hm k).1 hk).1 (ew.symm.trans e)
        rw [hold u hu, e1, s1, e, hkid j hk, s2 j hk]
        simp [hk]
    · obtain ⟨k, hk, e⟩ := hkids u hu
      exfalso
      rcases (hnodes w).1 hw with hw | hw
      · -- the parent of an old node is an old node
        rcases hinv.up w hw with rfl | ⟨y, hy, l, hl, he⟩
        · have h1 := hinv.level v hvn
          have h2 := child_level (i := v.idx) ((hm k).1 hk).1
          have h3 := child_level (i := v.idx.child k) hj
          rw [ew, e] at h1
          omega
        · have e1 := (hchild_inj _ _ j l hj hl (ew.symm.trans he)).1
          exact hnokid y (by simp [State.nodes, hy]) k ((hm k).1 hk).1 (by rw [← e1, e])
      · obtain ⟨l, hl, e'⟩ := hkids w hw
        have := (hchild_inj _ _ j l hj ((hm l).1 hl).1 (ew.symm.trans e')).1
        have h2 := child_level (i := v.idx) ((hm k).1 hk).1
        rw [← e, this] at h2
        omega

end

end RankTree
end Dashmm
