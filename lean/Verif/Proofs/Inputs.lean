import Verif.Spec.Inputs
import Verif.Proofs.MergeShift
namespace Dashmm

theorem mem_edgesOf {e : Edge} {l : List Act} : e ∈ edgesOf l ↔ Act.link e ∈ l := by
  unfold edgesOf
  rw [List.mem_filterMap]
  constructor
  · rintro ⟨a, ha, h⟩
    cases a with
    | add r => simp at h
    | link e' => simp at h; subst h; exact ha
  · intro h; exact ⟨_, h, rfl⟩

theorem mem_tgtActs {m : Method} {unif : Nat} {same : Bool} {a n : TNode} {pa p : Bool}
    {ca c : List TNode} (h : Visit m unif same a pa ca n p c) {x : Act}
    (hx : x ∈ (theVisit m unif same n p c).1) : x ∈ tgtActs m unif same a pa ca := by
  induction h with
  | here => rw [tgtActs_eq]; exact List.mem_append_left _ hx
  | down hr hk _ ih =>
    rw [tgtActs_eq, hr]
    exact List.mem_append_right _ (List.mem_flatMap.2 ⟨_, hk, ih hx⟩)

section
variable {m : Method} {unif : Nat} {same : Bool} {s t : Fin 8 → Oct} {acts : List Act}

theorem src_mem_acts (hr : Runs (createProg m unif same s t) acts) {n : TNode}
    (hn : Under (rootNode s) n) {x : Act} (hx : x ∈ ownSrc m n) : x ∈ acts := by
  rw [(runs_perm hr).mem_iff, createDag_eq]
  exact List.mem_append_left _ (mem_srcActs hn hx)

theorem tgt_mem_acts (hr : Runs (createProg m unif same s t) acts) {n : TNode} {p : Bool}
    {c : List TNode} (hn : Visit m unif same (rootNode t) false [rootNode s] n p c) {x : Act}
    (hx : x ∈ (theVisit m unif same n p c).1) : x ∈ acts := by
  rw [(runs_perm hr).mem_iff, createDag_eq]
  exact List.mem_append_right _ (mem_tgtActs hn hx)

theorem acts_mem (hr : Runs (createProg m unif same s t) acts) {a : Act} (ha : a ∈ acts) :
    (∃ n, Under (rootNode s) n ∧ a ∈ ownSrc m n) ∨
    (∃ n p c, Visit m unif same (rootNode t) false [rootNode s] n p c ∧
      a ∈ (theVisit m unif same n p c).1) :=
  createDag_mem ((runs_perm hr).mem_iff.1 ha)
end

theorem leaves_ne_nil (n : TNode) : n.leaves ≠ [] := by
  induction n using tnode_induction with
  | h n ih =>
    cases hl : n.isLeaf with
    | true => rw [TNode.leaves_of_leaf hl]; simp
    | false =>
      rw [TNode.leaves_of_not_leaf hl]
      rw [← kids_isEmpty] at hl
      cases hk : n.kids with
      | nil => rw [hk] at hl; simp at hl
      | cons k ks =>
        intro h
        rw [List.flatMap_cons, List.append_eq_nil_iff] at h
        exact ih k (by rw [hk]; simp) h.1

theorem mem_leaves {n : TNode} {x : Index} :
    x ∈ n.leaves ↔ ∃ i, Under n i ∧ i.isLeaf = true ∧ i.ix = x := by
  induction n using tnode_induction with
  | h n ih =>
    cases hl : n.isLeaf with
    | true =>
      rw [TNode.leaves_of_leaf hl]
      constructor
      · intro h; simp at h; exact ⟨n, .refl _, hl, h.symm⟩
      · rintro ⟨i, hu, _, rfl⟩
        cases hu with
        | refl => simp
        | down hk _ => rw [Under.not_leaf hk] at hl; simp at hl
    | false =>
      rw [TNode.leaves_of_not_leaf hl, List.mem_flatMap]
      constructor
      · rintro ⟨k, hk, hx⟩
        obtain ⟨i, hu, h1, h2⟩ := (ih k hk).1 hx
        exact ⟨i, .down hk hu, h1, h2⟩
      · rintro ⟨i, hu, h1, h2⟩
        cases hu with
        | refl => rw [hl] at h1; simp at h1
        | @down _ k _ hk h => exact ⟨k, hk, (ih k hk).2 ⟨i, h, h1, h2⟩⟩

/-- Every node has a leaf below it. -/
theorem Under.exists_leaf {a n : TNode} (h : Under a n) :
    ∃ i, Under n i ∧ Under a i ∧ i.isLeaf = true := by
  obtain ⟨x, hx⟩ := List.exists_mem_of_ne_nil _ (leaves_ne_nil n)
  obtain ⟨i, h1, h2, _⟩ := mem_leaves.1 hx
  exact ⟨i, h1, h.trans h1, h2⟩

/-- The ancestor at a level. -/
theorem Under.ancestor {a b : TNode} (h : Under a b) {l : Nat} (h1 : a.ix.level ≤ l)
    (h2 : l ≤ b.ix.level) : ∃ j, Under a j ∧ Under j b ∧ j.ix.level = l := by
  induction h with
  | refl a => exact ⟨a, .refl _, .refl _, by omega⟩
  | @down a k b hk hkb ih =>
    rcases Nat.eq_or_lt_of_le h1 with h | h
    · exact ⟨a, .refl _, .down hk hkb, h⟩
    · obtain ⟨j, hj, hjb, hl⟩ := ih (by rw [kid_level hk]; omega) h2
      exact ⟨j, .down hk hj, hjb, hl⟩

theorem Under.last {a b : TNode} (h : Under a b) : a = b ∨ ∃ j, Under a j ∧ b ∈ j.kids := by
  induction h with
  | refl a => exact .inl rfl
  | @down a k b hk hkb ih =>
    rcases ih with rfl | ⟨j, hj, hb⟩
    · exact .inr ⟨a, .refl _, hk⟩
    · exact .inr ⟨j, .down hk hj, hb⟩

/-! ### Source nodes -/

theorem kids_exists {n : TNode} (h : n.isLeaf = false) : ∃ k, k ∈ n.kids := by
  rw [← kids_isEmpty] at h
  cases hk : n.kids with
  | nil => rw [hk] at h; simp at h
  | cons k _ => exact ⟨k, by simp⟩

/-- What a method makes in the source tree is fed on the spot. -/
def SrcFed (m : Method) : Prop :=
  ∀ n r, Act.add r ∈ ownSrc m n → r.kind ≠ .parts → ∃ e, Act.link e ∈ ownSrc m n ∧ e.dst = r

theorem Direct_srcFed : SrcFed Direct := by
  intro n r h hk
  cases Direct_src_act n _ h <;> simp_all [ownSrc, Direct, Act.addParts]

theorem BH_srcFed (mac : Index → Index → Bool) : SrcFed (BH mac) := by
  intro n r h hk
  unfold ownSrc at h ⊢
  split at h
  · rename_i hl
    rw [if_pos hl]
    simp [BH, Act.addParts, Act.addNormal, Act.StoM] at h
    rcases h with rfl | rfl
    · simp at hk
    · exact ⟨⟨.StoM, ⟨.src, n.ix, .parts⟩, ⟨.src, n.ix, .normal⟩⟩, by simp [BH, Act.StoM], rfl⟩
  · rename_i hl
    rw [if_neg hl]
    obtain ⟨k, hkk⟩ := kids_exists (n := n) (by simpa using hl)
    simp [BH, Act.addNormal, Act.MtoM] at h
    subst h
    exact ⟨⟨.MtoM, ⟨.src, k.ix, .normal⟩, ⟨.src, n.ix, .normal⟩⟩,
      List.mem_cons_of_mem _ (List.mem_map.2 ⟨k, hkk, rfl⟩), rfl⟩

theorem FMM_srcFed : SrcFed FMM := by
  intro n r h hk
  unfold ownSrc at h ⊢
  by_cases h2 : n.ix.level ≥ 2
  · split at h
    · rename_i hl
      rw [if_pos hl]
      simp [FMM, Act.addParts, Act.addNormal, Act.StoM, h2] at h
      rcases h with rfl | rfl
      · simp at hk
      · exact ⟨⟨.StoM, ⟨.src, n.ix, .parts⟩, ⟨.src, n.ix, .normal⟩⟩, by simp [FMM, Act.StoM, h2], rfl⟩
    · rename_i hl
      rw [if_neg hl]
      obtain ⟨k, hkk⟩ := kids_exists (n := n) (by simpa using hl)
      simp [FMM, Act.addNormal, Act.MtoM, h2] at h
      subst h
      refine ⟨⟨.MtoM, ⟨.src, k.ix, .normal⟩, ⟨.src, n.ix, .normal⟩⟩, ?_, rfl⟩
      simp only [FMM, if_pos h2]
      exact List.mem_cons_of_mem _ (List.mem_map.2 ⟨k, hkk, rfl⟩)
  · split at h
    · simp [FMM, Act.addParts, h2] at h
      subst h; simp at hk
    · simp [FMM, h2] at h

theorem FMM97_srcFed : SrcFed FMM97 := by
  intro n r h hk
  unfold ownSrc at h ⊢
  by_cases h2 : n.ix.level ≥ 2
  · split at h
    · rename_i hl
      rw [if_pos hl]
      simp [FMM97_generate, Act.addParts, Act.addNormal, Act.StoM, Act.addInterm, Act.MtoI, h2] at h
      rcases h with rfl | rfl | rfl
      · simp at hk
      · exact ⟨⟨.StoM, ⟨.src, n.ix, .parts⟩, ⟨.src, n.ix, .normal⟩⟩,
          by simp [FMM97_generate, Act.StoM, h2], rfl⟩
      · exact ⟨⟨.MtoI, ⟨.src, n.ix, .normal⟩, ⟨.src, n.ix, .interm⟩⟩,
          by simp [FMM97_generate, Act.MtoI, h2], rfl⟩
    · rename_i hl
      rw [if_neg hl]
      obtain ⟨k, hkk⟩ := kids_exists (n := n) (by simpa using hl)
      simp [FMM97_aggregate, Act.addNormal, Act.MtoM, Act.addInterm, Act.MtoI, h2] at h
      rcases h with rfl | rfl
      · refine ⟨⟨.MtoM, ⟨.src, k.ix, .normal⟩, ⟨.src, n.ix, .normal⟩⟩, ?_, rfl⟩
        simp only [FMM97_aggregate, if_pos h2]
        exact List.mem_append_left _ (List.mem_cons_of_mem _ (List.mem_map.2 ⟨k, hkk, rfl⟩))
      · exact ⟨⟨.MtoI, ⟨.src, n.ix, .normal⟩, ⟨.src, n.ix, .interm⟩⟩,
          by simp [FMM97_aggregate, Act.MtoI, h2], rfl⟩
  · split at h
    · simp [FMM97_generate, Act.addParts, h2] at h
      subst h; simp at hk
    · simp [FMM97_aggregate, h2] at h

/-! ### Target particle nodes -/

theorem tgt_parts_fed {m : Method} (hd : DeliversAllOnce m) {unif : Nat} {same : Bool}
    {s t : Fin 8 → Oct} {acts : List Act} (hr : Runs (createProg m unif same s t) acts)
    (ha : Acyclic (edgesOf acts)) {r : Ref} (h : r ∈ nodesOf acts) (h1 : r.side = .tgt)
    (h2 : r.kind = .parts) : ∃ e ∈ edgesOf acts, e.dst = r := by
  obtain ⟨val, hv, _⟩ := exists_unique_evaluation ha
  obtain ⟨x, hx⟩ := List.exists_mem_of_ne_nil _ (leaves_ne_nil (rootNode s))
  have := hd unif same s t acts val hr hv r h h1 h2 x
  rw [if_pos (show x ∈ leaves Index.root (.node s) from hx), hv] at this
  by_contra hn
  have h0 : inflow val (edgesOf acts) r 0 x = 0 := by
    unfold inflow
    apply List.sum_eq_zero
    intro y hy
    obtain ⟨e, he, rfl⟩ := List.mem_map.1 hy
    rw [if_neg]
    intro hd; exact hn ⟨e, he, hd⟩
  rw [h0] at this
  simp [base, h1] at this

end Dashmm
