import Verif.Proofs.Inputs
namespace Dashmm

/-- Source nodes seen from level `l`: those of that level and the leaves above. -/
def SeenFrom (l : Nat) (i : TNode) : Prop := i.ix.level = l ∨ (i.ix.level < l ∧ i.isLeaf = true)

/-- The list has all source nodes seen from the target's level. -/
def Covers (s : Fin 8 → Oct) (l : Nat) (c : List TNode) : Prop :=
  ∀ i, Under (rootNode s) i → SeenFrom l i → i ∈ c

theorem covers_root (s : Fin 8 → Oct) : Covers s 0 [rootNode s] := by
  intro i hu hs
  rcases hs with h | ⟨h, _⟩
  · cases hu with
    | refl => simp
    | down hk hu =>
      have := hu.isDesc.1
      rw [kid_level hk] at this
      omega
  · omega

theorem not_wellSep_low {a b : Index} (ha : a.InRange) (hb : b.InRange) (hl : a.level = b.level)
    (h : b.level < 2) : wellSep a b = false := by
  cases hw : wellSep a b with
  | false => rfl
  | true => have := wellSep_level ha hb hl hw; omega

theorem not_wellSepAsym_low {a b : Index} (ha : a.InRange) (hb : b.InRange) (hl : b.level ≤ a.level)
    (h : a.level < 2) : wellSepAsym a b = false := by
  cases hw : wellSepAsym a b with
  | false => rfl
  | true => have := wellSepAsym_level ha hb hl hw; omega

/-- Which nodes of the list are handed on at the levels 0 and 1. -/
theorem inner_low_mem {s : Fin 8 → Oct} {t : Index} (ht : t.InRange) (hl : t.level < 2) :
    ∀ c, ConsOk s t c → ∀ i ∈ c,
      (i.isLeaf = true → i ∈ (fmmInnerLoop t c).2 ∧ i ∈ (fmm97InnerLoop t c).2.1) ∧
      (i.isLeaf = false → ∀ k ∈ i.kids, k ∈ (fmmInnerLoop t c).2 ∧ k ∈ (fmm97InnerLoop t c).2.1) := by
  intro c
  induction c with
  | nil => intro _ i hi; simp at hi
  | cons j c ih =>
    intro hc i hi
    have hj : Under (rootNode s) j := hc.under j (by simp)
    have hjr := hj.inRange (root_inRange s)
    have hjl := hc.level j (by simp)
    have hkj := kids_isEmpty j
    have e1 : (fmmInnerLoop t (j :: c)).2 =
        (if j.isLeaf then [j] else j.kids) ++ (fmmInnerLoop t c).2 := by
      rw [fmmInnerLoop]
      by_cases h : j.ix.level < t.level
      · have hw := not_wellSepAsym_low ht hjr (by omega) hl
        simp [h, hw, hc.leaf j (by simp) h]
      · have hw := not_wellSep_low hjr ht (by omega) hl
        cases hlf : j.isLeaf <;> simp [h, hw, hkj, hlf]
    have e2 : (fmm97InnerLoop t (j :: c)).2.1 =
        (if j.isLeaf then [j] else j.kids) ++ (fmm97InnerLoop t c).2.1 := by
      rw [fmm97InnerLoop]
      by_cases h : j.ix.level < t.level
      · have hw := not_wellSepAsym_low ht hjr (by omega) hl
        simp [h, hw, hc.leaf j (by simp) h]
      · have hw := not_wellSep_low hjr ht (by omega) hl
        cases hlf : j.isLeaf <;> simp [h, hw, hkj, hlf]
    rw [e1, e2]
    rcases List.mem_cons.1 hi with rfl | hi
    · constructor
      · intro h; simp [h]
      · intro h k hk; simp [h, hk]
    · obtain ⟨h1, h2⟩ := ih hc.tail i hi
      exact ⟨fun h => ⟨List.mem_append_right _ (h1 h).1, List.mem_append_right _ (h1 h).2⟩,
        fun h k hk => ⟨List.mem_append_right _ (h2 h k hk).1, List.mem_append_right _ (h2 h k hk).2⟩⟩

theorem covers_next {s : Fin 8 → Oct} {l : Nat} {c c' : List TNode} (h : Covers s l c)
    (hc : ∀ i ∈ c, (i.isLeaf = true → i ∈ c') ∧ (i.isLeaf = false → ∀ k ∈ i.kids, k ∈ c')) :
    Covers s (l + 1) c' := by
  intro i hu hs
  have leafCase : i.ix.level ≤ l → i.isLeaf = true → i ∈ c' := by
    intro h1 h2
    exact (hc i (h i hu (by
      rcases Nat.eq_or_lt_of_le h1 with h | h
      · exact .inl h
      · exact .inr ⟨h, h2⟩))).1 h2
  rcases hs with h1 | ⟨h1, h2⟩
  · rcases hu.last with h2 | ⟨j, hj, hij⟩
    · have : i.ix.level = 0 := by rw [← h2]; rfl
      omega
    · have hl := kid_level hij
      exact (hc j (h j hj (.inl (by omega)))).2 (Under.not_leaf hij) i hij
  · exact leafCase (by omega) h2

section
variable {unif : Nat} {same : Bool} {s t : Fin 8 → Oct}

theorem FMM_visit_snd {n : TNode} {p : Bool} {c : List TNode}
    (hr : refine FMM unif same n c = true) :
    (theVisit FMM unif same n p c).2 = (fmmInnerLoop n.ix c).2 := by
  rw [theVisit, Dashmm.visit, hr]; simp [FMM_process]

theorem FMM97_visit_snd {n : TNode} {p : Bool} {c : List TNode}
    (hr : refine FMM97 unif same n c = true) :
    (theVisit FMM97 unif same n p c).2 = (fmm97InnerLoop n.ix c).2.1 := by
  rw [theVisit, Dashmm.visit, hr]; simp [FMM97_process]

theorem FMM_covers {n : TNode} {p : Bool} {c : List TNode} {n₀ : TNode} {p₀ : Bool}
    {c₀ : List TNode} (h : Visit FMM unif same n₀ p₀ c₀ n p c) :
    ConsOk s n₀.ix c₀ → n₀.ix.InRange → Covers s n₀.ix.level c₀ → n.ix.level ≤ 2 →
      Covers s n.ix.level c := by
  induction h with
  | here => exact fun _ _ h _ => h
  | @down n p c k n' p' c' hr hk hv ih =>
    intro hc hrng hcov hl
    have hkl := kid_level hk
    have hle := hv.under.isDesc.1
    obtain ⟨i, _, hki⟩ := mem_kids.1 hk
    refine ih ?_ ?_ ?_ hl
    · rw [FMM_visit_snd hr, hki]; exact fmmInnerLoop_consOk _ _ hc
    · rw [hki]; exact Index.inRange_child hrng _ i.isLt
    · rw [hkl]
      refine covers_next hcov ?_
      intro i hi
      have := inner_low_mem hrng (by omega) c hc i hi
      rw [FMM_visit_snd hr]
      exact ⟨fun h => (this.1 h).1, fun h k hk => (this.2 h k hk).1⟩

theorem FMM97_covers {n : TNode} {p : Bool} {c : List TNode} {n₀ : TNode} {p₀ : Bool}
    {c₀ : List TNode} (h : Visit FMM97 unif same n₀ p₀ c₀ n p c) :
    ConsOk s n₀.ix c₀ → n₀.ix.InRange → Covers s n₀.ix.level c₀ → n.ix.level ≤ 2 →
      Covers s n.ix.level c := by
  induction h with
  | here => exact fun _ _ h _ => h
  | @down n p c k n' p' c' hr hk hv ih =>
    intro hc hrng hcov hl
    have hkl := kid_level hk
    have hle := hv.under.isDesc.1
    obtain ⟨i, _, hki⟩ := mem_kids.1 hk
    refine ih ?_ ?_ ?_ hl
    · rw [FMM97_visit_snd hr, hki]; exact fmm97InnerLoop_consOk _ _ hc
    · rw [hki]; exact Index.inRange_child hrng _ i.isLt
    · rw [hkl]
      refine covers_next hcov ?_
      intro i hi
      have := inner_low_mem hrng (by omega) c hc i hi
      rw [FMM97_visit_snd hr]
      exact ⟨fun h => (this.1 h).2, fun h k hk => (this.2 h k hk).2⟩

/-- A visit below the root has a visit of the parent. -/
theorem Visit.parent {m : Method} {n : TNode} {p : Bool} {c : List TNode} {n₀ : TNode} {p₀ : Bool}
    {c₀ : List TNode} (h : Visit m unif same n₀ p₀ c₀ n p c) :
    (n = n₀ ∧ p = p₀ ∧ c = c₀) ∨ ∃ n' p' c', Visit m unif same n₀ p₀ c₀ n' p' c' ∧
      refine m unif same n' c' = true ∧ n ∈ n'.kids ∧ p = makesInterm m unif same n' p' c' ∧
      c = (theVisit m unif same n' p' c').2 := by
  induction h with
  | here => exact .inl ⟨rfl, rfl, rfl⟩
  | @down n p c k n' p' c' hr hk hv ih =>
    rcases ih with ⟨rfl, rfl, rfl⟩ | ⟨a, b, d, h1, h2, h3, h4, h5⟩
    · exact .inr ⟨n, p, c, .here _ _ _, hr, hk, rfl, rfl⟩
    · exact .inr ⟨a, b, d, .down hr hk h1, h2, h3, h4, h5⟩

/-! ### FMM -/

/-- Membership in the loops. -/
theorem fmm_loops_mem {s : Fin 8 → Oct} {t : Index} : ∀ c, ConsOk s t c → ∀ i ∈ c,
    (i.ix.level < t.level → wellSepAsym t i.ix = true →
      Act.StoL i.ix t ∈ fmmLeafLoop t c ∧ Act.StoL i.ix t ∈ (fmmInnerLoop t c).1 ∧
      Act.StoL i.ix t ∈ fmm97LeafLoop t c ∧ Act.StoL i.ix t ∈ (fmm97InnerLoop t c).1) ∧
    (i.ix.level = t.level → wellSep i.ix t = true →
      Act.MtoL i.ix t ∈ fmmLeafLoop t c ∧ Act.MtoL i.ix t ∈ (fmmInnerLoop t c).1) := by
  intro c
  induction c with
  | nil => intro _ i hi; simp at hi
  | cons j c ih =>
    intro hc i hi
    rcases List.mem_cons.1 hi with rfl | hi
    · constructor
      · intro h1 h2
        simp [fmmLeafLoop, fmmInnerLoop, fmm97LeafLoop, fmm97InnerLoop, h1, h2]
      · intro h1 h2
        simp [fmmLeafLoop, fmmInnerLoop, h1, h2]
    · obtain ⟨h1, h2⟩ := ih hc.tail i hi
      have mono : ∀ a, (a ∈ fmmLeafLoop t c → a ∈ fmmLeafLoop t (j :: c)) ∧
          (a ∈ (fmmInnerLoop t c).1 → a ∈ (fmmInnerLoop t (j :: c)).1) ∧
          (a ∈ fmm97LeafLoop t c → a ∈ fmm97LeafLoop t (j :: c)) ∧
          (a ∈ (fmm97InnerLoop t c).1 → a ∈ (fmm97InnerLoop t (j :: c)).1) := by
        intro a
        refine ⟨?_, ?_, ?_, ?_⟩
        · intro h; rw [fmmLeafLoop]; exact List.mem_append_right _ h
        · intro h; rw [fmmInnerLoop]; repeat' split
          all_goals first | exact h | simp [h]
        · intro h; rw [fmm97LeafLoop]; exact List.mem_append_right _ h
        · intro h; rw [fmm97InnerLoop]; repeat' split
          all_goals first | exact h | simp [h]
      refine ⟨fun a b => ?_, fun a b => ?_⟩
      · obtain ⟨x1, x2, x3, x4⟩ := h1 a b
        exact ⟨(mono _).1 x1, (mono _).2.1 x2, (mono _).2.2.1 x3, (mono _).2.2.2 x4⟩
      · obtain ⟨x1, x2⟩ := h2 a b
        exact ⟨(mono _).1 x1, (mono _).2.1 x2⟩

/-- The ancestor of a leaf at a level, or the leaf itself. -/
theorem ancestor_ix {x j : TNode} (h : Under j x) :
    j.ix = x.ix.parent (x.ix.level - j.ix.level) := h.isDesc.2.symm

theorem fmmFed_iff {t : Index} :
    FmmFed s t ↔ ∃ i, Under (rootNode s) i ∧ SeenFrom 2 i ∧ Separated i.ix t := by
  constructor
  · rintro ⟨x, hx, hsep⟩
    obtain ⟨i, hu, hl, rfl⟩ := mem_leaves.1 (show x ∈ (rootNode s).leaves from hx)
    by_cases h : 2 ≤ i.ix.level
    · obtain ⟨j, hj, hji, hjl⟩ := hu.ancestor (l := 2) (by simp [rootNode, Index.root]) h
      refine ⟨j, hj, .inl hjl, ?_⟩
      rw [ancestor_ix hji, hjl]; exact hsep
    · refine ⟨i, hu, .inr ⟨by omega, hl⟩, ?_⟩
      rwa [show i.ix.level - 2 = 0 by omega, Index.parent_zero] at hsep
  · rintro ⟨i, hu, hs, hsep⟩
    obtain ⟨x, hix, hx, hl⟩ := hu.exists_leaf
    refine ⟨x.ix, mem_leaves.2 ⟨x, hx, hl, rfl⟩, ?_⟩
    rcases hs with h | ⟨h, h'⟩
    · have := ancestor_ix hix
      rw [h] at this; rw [← this]; exact hsep
    · have : x = i := by
        cases hix with
        | refl => rfl
        | down hk _ => rw [Under.not_leaf hk] at h'; simp at h'
      subst this
      rw [show x.ix.level - 2 = 0 by omega, Index.parent_zero]; exact hsep

theorem FMM_level2 {acts : List Act} (hr : Runs (createProg FMM unif same s t) acts) {n : TNode}
    {p : Bool} {c : List TNode} (hv : Visit FMM unif same (rootNode t) false [rootNode s] n p c)
    (h2 : n.ix.level = 2) :
    (∃ e ∈ edgesOf acts, e.dst = ⟨.tgt, n.ix, .normal⟩) ↔ FmmFed s n.ix := by
  have hc := FMM_cons hv (consOk_root s)
  have hnr : n.ix.InRange := hv.under.inRange (root_inRange t)
  rw [fmmFed_iff]
  constructor
  · rintro ⟨e, he, hd⟩
    rcases acts_mem hr (mem_edgesOf.1 he) with ⟨n', _, ha⟩ | ⟨n', p', c', hv', ha⟩
    · have := ownSrc_local FMM_local n' e ha
      rw [hd] at this; simp at this
    · have hc' := FMM_cons hv' (consOk_root s)
      have hact := FMM_visit_act hc' _ ha
      have hloc := (visit_local FMM_local unif same n' p' c' e ha).2
      rw [hd] at hloc
      simp only at hloc
      cases hact with
      | loop h =>
        cases h with
        | @StoL i h hl hlt hw =>
          rw [← hloc] at hlt hw
          exact ⟨i, h, .inr ⟨by omega, hl⟩, separated_symm.1 ((wellSepAsym_iff (by omega)).1 hw)⟩
        | @MtoL i h he2 hw =>
          rw [← hloc] at he2 hw
          exact ⟨i, h, .inl (by omega), (wellSep_iff_separated (by omega)).1 hw⟩
        | StoTbig => simp at hd
        | StoTsmall => simp at hd
        | MtoT => simp at hd
      | LtoL h => rw [← hloc] at h; omega
      | LtoT h => simp at hd
  · rintro ⟨i, hu, hs, hsep⟩
    have hcov := FMM_covers hv (consOk_root s) (root_inRange t) (covers_root s) (by omega)
    rw [h2] at hcov
    have hi := hcov i hu hs
    have hmem := fmm_loops_mem c hc i hi
    have key : ∃ a : Act, (∃ e, a = .link e ∧ e.dst = ⟨.tgt, n.ix, .normal⟩) ∧
        a ∈ fmmLeafLoop n.ix c ∧ a ∈ (fmmInnerLoop n.ix c).1 := by
      rcases hs with h | ⟨h, _⟩
      · have := hmem.2 (by omega) ((wellSep_iff_separated (by omega)).2 hsep)
        exact ⟨_, ⟨_, rfl, rfl⟩, this⟩
      · have := hmem.1 (by omega) ((wellSepAsym_iff (by omega)).2 (separated_symm.1 hsep))
        exact ⟨_, ⟨_, rfl, rfl⟩, this.1, this.2.1⟩
    obtain ⟨a, ⟨e, rfl, hd⟩, ha1, ha2⟩ := key
    refine ⟨e, mem_edgesOf.2 (tgt_mem_acts hr hv ?_), hd⟩
    rw [theVisit, Dashmm.visit]
    refine List.mem_append_right _ ?_
    rw [FMM_process]
    split
    · exact List.mem_append_left _ ha1
    · exact ha2

/-- FMM: only normal target nodes of level 2 may be without input. -/
theorem FMM_starved {acts : List Act} (hr : Runs (createProg FMM unif same s t) acts) {r : Ref} :
    Starved acts r ↔ r ∈ nodesOf acts ∧ r.side = .tgt ∧ r.kind = .normal ∧ r.ix.level = 2 ∧
      ¬ FmmFed s r.ix := by
  constructor
  · rintro ⟨hn, hs, hin⟩
    refine ⟨hn, ?_⟩
    rcases acts_mem hr (mem_nodesOf.1 hn) with ⟨n, hu, ha⟩ | ⟨n, p, c, hv, ha⟩
    · exfalso
      have h1 := (FMM_src_act n _ ha).add_side r rfl
      obtain ⟨e, he, hd⟩ := FMM_srcFed n r ha (fun h => hs ⟨h1, h⟩)
      exact hin e (mem_edgesOf.2 (src_mem_acts hr hu he)) hd
    · have hadd := FMM_visit_add unif same n p c r ha
      have hc := FMM_cons hv (consOk_root s)
      have hact := FMM_visit_act hc _ ha
      generalize hx : Act.add r = x at hact
      cases hact with
      | loop h => cases h <;> simp [Act.StoL, Act.StoT, Act.MtoL, Act.MtoT] at hx
      | parts =>
        simp [Act.addParts] at hx
        exfalso
        obtain ⟨e, he, hd⟩ := tgt_parts_fed FMM_delivers hr (FMM_acyclic hr) hn hadd.1 (by rw [hx])
        exact hin e he hd
      | normal h =>
        simp [Act.addNormal] at hx
        have hl : n.ix.level = 2 := by
          by_contra hne
          have : Act.LtoL n.ix.parent n.ix ∈ (theVisit FMM unif same n p c).1 := by
            rw [theVisit, Dashmm.visit, FMM_inherit]
            refine List.mem_append_left _ (List.mem_append_right _ ?_)
            rw [if_pos h, if_pos (by omega)]; simp
          exact hin _ (mem_edgesOf.2 (tgt_mem_acts hr hv this)) (by rw [hx])
        subst hx
        refine ⟨rfl, rfl, hl, ?_⟩
        rw [← FMM_level2 hr hv hl]
        rintro ⟨e, he, hd⟩
        exact hin e he hd
      | LtoL => simp [Act.LtoL] at hx
      | LtoT => simp [Act.LtoT] at hx
  · rintro ⟨hn, h1, h2, h3, h4⟩
    refine ⟨hn, fun h => by have := h.1; rw [h1] at this; simp at this, ?_⟩
    intro e he hd
    rcases acts_mem hr (mem_nodesOf.1 hn) with ⟨n, hu, ha⟩ | ⟨n, p, c, hv, ha⟩
    · have := (FMM_src_act n _ ha).add_side r rfl
      rw [h1] at this; simp at this
    · have hadd := FMM_visit_add unif same n p c r ha
      apply h4
      rw [hadd.2] at h3 ⊢
      rw [← FMM_level2 hr hv h3]
      refine ⟨e, he, ?_⟩
      rw [hd]
      cases r; simp_all

/-! ### FMM97 -/

/-- What is in `merge`. -/
theorem fmm97_merge_mem {t : Index} : ∀ c k, k ∈ (fmm97InnerLoop t c).2.2 ↔
    ∃ i ∈ c, ¬ i.ix.level < t.level ∧ wellSep i.ix t = false ∧ 1 ≤ t.level ∧
      (i.ix.x ≠ t.x ∨ i.ix.y ≠ t.y ∨ i.ix.z ≠ t.z) ∧ k ∈ i.kids := by
  intro c
  induction c with
  | nil => simp [fmm97InnerLoop]
  | cons j c ih =>
    intro k
    simp only [List.mem_cons, exists_eq_or_imp]
    rw [← ih k, fmm97InnerLoop]
    by_cases h1 : j.ix.level < t.level
    · by_cases h2 : wellSepAsym t j.ix <;> simp [h1, h2]
    · by_cases h2 : wellSep j.ix t
      · simp [h1, h2]
      · simp only [Bool.not_eq_true] at h2
        by_cases h3 : j.kids.isEmpty
        · have : j.kids = [] := by simpa using h3
          simp [h1, h2, this]
        · simp only [h1, h2, h3, if_false, Bool.not_false, if_true, List.mem_append,
            Bool.false_eq_true, not_false_iff, true_and]
          by_cases h4 : 1 ≤ t.level ∧ (j.ix.x ≠ t.x ∨ j.ix.y ≠ t.y ∨ j.ix.z ≠ t.z)
          · rw [if_pos (by simpa [or_assoc] using h4)]
            simp [h4.1, h4.2]
          · rw [if_neg (by simpa [or_assoc] using h4)]
            simp only [List.not_mem_nil, false_or]
            constructor
            · exact Or.inr
            · rintro (h | h)
              · exact absurd ⟨h.1, h.2.1⟩ h4
              · exact h

theorem FMM97_hasI {n : TNode} {p : Bool} {c : List TNode}
    (hv : Visit FMM97 unif same (rootNode t) false [rootNode s] n p c) (h2 : n.ix.level = 2) :
    p = true ↔ ∃ x ∈ leaves Index.root (.node s),
      2 ≤ x.level ∧ x.parent (x.level - 1) ≠ n.ix.parent := by
  rcases hv.parent with ⟨rfl, _, _⟩ | ⟨n', p', c', hv', hr, hk, hp, hc⟩
  · simp [rootNode, Index.root] at h2
  · have hl := kid_level hk
    have hpar := kid_parent hk
    have hl1 : n'.ix.level = 1 := by omega
    have hok := FMM97_cons hv' (F97Ok_root s t)
    have hcov := FMM97_covers hv' (consOk_root s) (root_inRange t) (covers_root s) (by omega)
    have hnr : n'.ix.InRange := hv'.under.inRange (root_inRange t)
    rw [hl1] at hcov
    rw [hp, FMM97_makesInterm hr, hpar]
    have e1 : (!(fmm97InnerLoop n'.ix c').2.2.isEmpty) = true ↔
        ∃ k, k ∈ (fmm97InnerLoop n'.ix c').2.2 := by
      cases h : (fmm97InnerLoop n'.ix c').2.2 with
      | nil => simp
      | cons a l => simp
    rw [e1]
    constructor
    · rintro ⟨k, hk⟩
      obtain ⟨i, hi, h1, h3, h4, h5, h6⟩ := (fmm97_merge_mem _ _).1 hk
      have hu := hok.cons.under i hi
      have hil := hok.cons.level i hi
      have hle : i.ix.level = 1 := by omega
      obtain ⟨x, hx, hxu, hxl⟩ := (hu.kid h6).exists_leaf
      have hix : Under i x := .down h6 hx
      refine ⟨x.ix, mem_leaves.2 ⟨x, hxu, hxl, rfl⟩, ?_, ?_⟩
      · have := hx.isDesc.1
        have := kid_level h6
        omega
      · have := ancestor_ix hix
        rw [hle] at this
        rw [← this]
        intro h
        rw [h] at h5
        simp at h5
    · rintro ⟨x, hx, h3, h4⟩
      obtain ⟨y, hu, hyl, rfl⟩ := mem_leaves.1 (show x ∈ (rootNode s).leaves from hx)
      obtain ⟨i, hi, hiy, hil⟩ := hu.ancestor (l := 1) (by simp [rootNode, Index.root]) (by omega)
      have hic := hcov i hi (.inl hil)
      have hie := ancestor_ix hiy
      rw [hil] at hie
      cases hiy with
      | refl => omega
      | @down _ k _ hk' _ =>
        refine ⟨k, (fmm97_merge_mem _ _).2 ⟨i, hic, by omega, ?_, by omega, ?_, hk'⟩⟩
        · exact not_wellSep_low (hi.inRange (root_inRange s)) hnr (by omega) (by omega)
        · by_contra hcon
          push Not at hcon
          apply h4
          rw [← hie]
          have : i.ix.level = n'.ix.level := by omega
          cases hi' : i.ix; cases hn' : n'.ix
          rw [hi', hn'] at hcon this
          simp at hcon this
          simp [hcon, this]

theorem fmm97_loops_noMtoL {t : Index} : ∀ c, ∀ a, a ∈ fmm97LeafLoop t c ∨ a ∈ (fmm97InnerLoop t c).1 →
    ∀ e, a = .link e → e.dst.kind = .normal → e.op ≠ .MtoL := by
  intro c
  induction c with
  | nil => intro a ha; simp [fmm97LeafLoop, fmm97InnerLoop] at ha
  | cons i c ih =>
    intro a ha e hae hk
    subst hae
    rcases ha with ha | ha
    · rw [fmm97LeafLoop, List.mem_append] at ha
      rcases ha with ha | ha
      · repeat' split at ha
        all_goals first
          | (simp at ha; done)
          | (simp [Act.StoL, Act.StoT] at ha; subst ha; simp; done)
          | (obtain ⟨e', h1, h2⟩ := procColl_mem t i _ ha; injection h1 with h1; rw [h1, h2] at hk; simp at hk)
      · exact ih _ (.inl ha) e rfl hk
    · simp only [fmm97InnerLoop] at ha
      repeat' split at ha
      all_goals first
        | exact ih _ (.inr ha) e rfl hk
        | (rcases List.mem_cons.1 ha with h | ha
           · simp [Act.StoL] at h; subst h; simp
           · exact ih _ (.inr ha) e rfl hk)

theorem FMM97_level2 {acts : List Act} (hr : Runs (createProg FMM97 unif same s t) acts) {n : TNode}
    {p : Bool} {c : List TNode} (hv : Visit FMM97 unif same (rootNode t) false [rootNode s] n p c)
    (h2 : n.ix.level = 2) :
    (∃ e ∈ edgesOf acts, e.dst = ⟨.tgt, n.ix, .normal⟩) ↔ Fmm97Fed s n.ix := by
  have hc := (FMM97_cons hv (F97Ok_root s t)).cons
  have hnr : n.ix.InRange := hv.under.inRange (root_inRange t)
  constructor
  · rintro ⟨e, he, hd⟩
    rcases acts_mem hr (mem_edgesOf.1 he) with ⟨n', _, ha⟩ | ⟨n', p', c', hv', ha⟩
    · have := ownSrc_local FMM97_local n' e ha
      rw [hd] at this; simp at this
    · have hc' := (FMM97_cons hv' (F97Ok_root s t)).cons
      have hact := FMM97_visit_act hc' _ ha
      have hloc := (visit_local FMM97_local unif same n' p' c' e ha).2
      rw [hd] at hloc
      simp only at hloc
      cases hact with
      | fmm h =>
        cases h with
        | loop h =>
          cases h with
          | @StoL i h hl hlt hw =>
            rw [← hloc] at hlt hw
            have hpos : i.ix.level = 1 := by
              by_contra hne
              have h0 : i.ix.level = 0 := by omega
              have hir := h.inRange (root_inRange s)
              simp only [Index.InRange, h0] at hir
              have hix : i.ix = Index.root := by
                cases hi' : i.ix
                rw [hi'] at hir h0
                simp at hir h0
                simp [Index.root, hir, h0]
              rw [hix] at hw
              have hs := (wellSepAsym_iff (b := Index.root) (by simp [Index.root])).1 hw
              unfold Separated at hs
              simp only [Index.InRange, h2] at hnr
              simp [Index.root, h2, boxLo, boxHi] at hs
              omega
            exact ⟨i.ix, mem_leaves.2 ⟨i, h, hl, rfl⟩, .inr ⟨hpos,
              separated_symm.1 ((wellSepAsym_iff (by omega)).1 hw)⟩⟩
          | @MtoL i h he2 hw =>
            exfalso
            simp only [theVisit, Dashmm.visit, List.mem_append, FMM97_inherit, FMM97_process] at ha
            rcases ha with (ha | ha) | ha
            · split at ha <;> simp [Act.addParts] at ha
            · repeat' split at ha
              all_goals simp [Act.addNormal, Act.ItoL, Act.LtoL] at ha
            · split at ha
              · rcases List.mem_append.1 ha with ha | ha
                · exact fmm97_loops_noMtoL _ _ (.inl ha) _ rfl rfl rfl
                · split at ha <;> simp [Act.LtoT] at ha
              · rcases List.mem_append.1 ha with ha | ha
                · exact fmm97_loops_noMtoL _ _ (.inr ha) _ rfl rfl rfl
                · rcases mergeActs_mem ha with ha | ⟨k, _, ha⟩
                  · cases ha
                  · simp [Act.ItoI] at ha
          | StoTbig => simp at hd
          | StoTsmall => simp at hd
          | MtoT => simp at hd
        | LtoL h => rw [← hloc] at h; omega
        | LtoT h => simp at hd
      | ItoL _ hp =>
        obtain ⟨x, hx, h3, h4⟩ := (FMM97_hasI hv' (by rw [← hloc]; exact h2)).1 hp
        exact ⟨x, hx, .inl ⟨h3, by rw [hloc]; exact h4⟩⟩
      | ItoI => simp at hd
  · rintro ⟨x, hx, ⟨h3, h4⟩ | ⟨h3, h4⟩⟩
    · have hp := (FMM97_hasI hv h2).2 ⟨x, hx, h3, h4⟩
      refine ⟨_, mem_edgesOf.2 (tgt_mem_acts hr hv (x := Act.ItoL n.ix.parent n.ix) ?_), rfl⟩
      rw [theVisit, Dashmm.visit, FMM97_inherit, if_pos (show n.ix.level ≥ 2 by omega), if_pos hp]
      simp
    · obtain ⟨i, hu, hl, rfl⟩ := mem_leaves.1 (show x ∈ (rootNode s).leaves from hx)
      have hcov := FMM97_covers hv (consOk_root s) (root_inRange t) (covers_root s) (by omega)
      rw [h2] at hcov
      have hi := hcov i hu (.inr ⟨by omega, hl⟩)
      have hmem := (fmm_loops_mem c hc i hi).1 (by omega)
        ((wellSepAsym_iff (by omega)).2 (separated_symm.1 h4))
      refine ⟨_, mem_edgesOf.2 (tgt_mem_acts hr hv (x := Act.StoL i.ix n.ix) ?_), rfl⟩
      rw [theVisit, Dashmm.visit]
      refine List.mem_append_right _ ?_
      rw [FMM97_process]
      split
      · exact List.mem_append_left _ hmem.2.2.1
      · exact List.mem_append_left _ hmem.2.2.2

/-- FMM97: only normal target nodes of level 2 may be without input. -/
theorem FMM97_starved {acts : List Act} (hr : Runs (createProg FMM97 unif same s t) acts) {r : Ref} :
    Starved acts r ↔ r ∈ nodesOf acts ∧ r.side = .tgt ∧ r.kind = .normal ∧ r.ix.level = 2 ∧
      ¬ Fmm97Fed s r.ix := by
  constructor
  · rintro ⟨hn, hs, hin⟩
    refine ⟨hn, ?_⟩
    rcases acts_mem hr (mem_nodesOf.1 hn) with ⟨n, hu, ha⟩ | ⟨n, p, c, hv, ha⟩
    · exfalso
      have h1 := (FMM97_src_act n _ ha).add_side r rfl
      obtain ⟨e, he, hd⟩ := FMM97_srcFed n r ha (fun h => hs ⟨h1, h⟩)
      exact hin e (mem_edgesOf.2 (src_mem_acts hr hu he)) hd
    · have hadd := FMM97_visit_add unif same n p c r ha
      have hc := (FMM97_cons hv (F97Ok_root s t)).cons
      have hact := FMM97_visit_act hc _ ha
      generalize hx : Act.add r = x at hact
      cases hact with
      | ItoL => simp [Act.ItoL] at hx
      | ItoI => simp [Act.ItoI] at hx
      | interm =>
        exfalso
        simp [Act.addInterm] at hx
        have hm : ∃ k, Act.ItoI k n.ix ∈ (theVisit FMM97 unif same n p c).1 := by
          simp only [theVisit, Dashmm.visit, List.mem_append, FMM97_inherit, FMM97_process] at ha ⊢
          rcases ha with (ha | ha) | ha
          · split at ha <;> simp [Act.addParts] at ha
            simp [hx] at ha
          · repeat' split at ha
            all_goals simp [Act.addNormal, Act.ItoL, Act.LtoL] at ha
            all_goals simp [hx] at ha
          · split at ha
            · rcases List.mem_append.1 ha with ha | ha
              · obtain ⟨e', he', h'⟩ := fmm97LeafLoop_mem _ _ _ ha
                cases he'
              · split at ha <;> simp [Act.LtoT] at ha
            · rename_i hlf
              rcases List.mem_append.1 ha with ha | ha
              · obtain ⟨e', he', h'⟩ := fmm97InnerLoop_mem _ _ _ ha
                cases he'
              · have ha' := ha
                unfold mergeActs at ha
                split at ha
                · simp at ha
                · rename_i hne
                  cases hl : (fmm97InnerLoop n.ix c).2.2 with
                  | nil => rw [hl] at hne; simp at hne
                  | cons k l =>
                    refine ⟨k.ix, .inr ?_⟩
                    rw [if_neg hlf]
                    simp only [hl]
                    simp [mergeActs]
        obtain ⟨k, hk⟩ := hm
        exact hin _ (mem_edgesOf.2 (tgt_mem_acts hr hv hk)) (by rw [hx])
      | fmm h =>
        cases h with
        | loop h => cases h <;> simp [Act.StoL, Act.StoT, Act.MtoL, Act.MtoT] at hx
        | parts =>
          simp [Act.addParts] at hx
          exfalso
          obtain ⟨e, he, hd⟩ :=
            tgt_parts_fed FMM97_delivers hr (FMM97_acyclic hr) hn hadd.1 (by rw [hx])
          exact hin e he hd
        | normal h =>
          simp [Act.addNormal] at hx
          have hl : n.ix.level = 2 := by
            by_contra hne
            have : Act.LtoL n.ix.parent n.ix ∈ (theVisit FMM97 unif same n p c).1 := by
              rw [theVisit, Dashmm.visit, FMM97_inherit]
              refine List.mem_append_left _ (List.mem_append_right _ ?_)
              rw [if_pos h, if_pos (by omega : n.ix.level ≥ 3)]; simp
            exact hin _ (mem_edgesOf.2 (tgt_mem_acts hr hv this)) (by rw [hx])
          subst hx
          refine ⟨rfl, rfl, hl, ?_⟩
          rw [← FMM97_level2 hr hv hl]
          rintro ⟨e, he, hd⟩
          exact hin e he hd
        | LtoL => simp [Act.LtoL] at hx
        | LtoT => simp [Act.LtoT] at hx
  · rintro ⟨hn, h1, h2, h3, h4⟩
    refine ⟨hn, fun h => by have := h.1; rw [h1] at this; simp at this, ?_⟩
    intro e he hd
    rcases acts_mem hr (mem_nodesOf.1 hn) with ⟨n, hu, ha⟩ | ⟨n, p, c, hv, ha⟩
    · have := (FMM97_src_act n _ ha).add_side r rfl
      rw [h1] at this; simp at this
    · have hadd := FMM97_visit_add unif same n p c r ha
      apply h4
      rw [hadd.2] at h3 ⊢
      rw [← FMM97_level2 hr hv h3]
      refine ⟨e, he, ?_⟩
      rw [hd]
      cases r; simp_all

/-! ### Direct and BH -/

theorem Direct_not_starved {acts : List Act} (hr : Runs (createProg Direct unif same s t) acts)
    (r : Ref) : ¬ Starved acts r := by
  rintro ⟨hn, hs, hin⟩
  rcases acts_mem hr (mem_nodesOf.1 hn) with ⟨n, hu, ha⟩ | ⟨n, p, c, hv, ha⟩
  · have h1 := (Direct_src_act n _ ha).add_side r rfl
    obtain ⟨e, he, hd⟩ := Direct_srcFed n r ha (fun h => hs ⟨h1, h⟩)
    exact hin e (mem_edgesOf.2 (src_mem_acts hr hu he)) hd
  · obtain ⟨rfl, _⟩ := (Direct_visit_add unif same n p c r).1 ha
    obtain ⟨e, he, hd⟩ := tgt_parts_fed Direct_delivers hr (Direct_acyclic hr) hn rfl rfl
    exact hin e he hd

theorem BH_not_starved {mac : Index → Index → Bool} {acts : List Act}
    (hr : Runs (createProg (BH mac) unif same s t) acts) (r : Ref) : ¬ Starved acts r := by
  rintro ⟨hn, hs, hin⟩
  rcases acts_mem hr (mem_nodesOf.1 hn) with ⟨n, hu, ha⟩ | ⟨n, p, c, hv, ha⟩
  · have h1 := (BH_src_act mac n _ ha).add_side r rfl
    obtain ⟨e, he, hd⟩ := BH_srcFed mac n r ha (fun h => hs ⟨h1, h⟩)
    exact hin e (mem_edgesOf.2 (src_mem_acts hr hu he)) hd
  · obtain ⟨rfl, _⟩ := (BH_visit_add mac unif same n p c r).1 ha
    obtain ⟨e, he, hd⟩ := tgt_parts_fed (BH_delivers mac) hr (BH_acyclic hr) hn rfl rfl
    exact hin e he hd

end
end Dashmm
