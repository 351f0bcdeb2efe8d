import Verif.Proofs.FMM97
/-! Helper lemmas: which edges each method makes. -/
namespace Dashmm

/-- The links made by `process` of Direct and BH at target `t`. -/
inductive BhAct (mac : Index → Index → Bool) (s : Fin 8 → Oct) (t : Index) : Act → Prop
  | MtoT {i : TNode} (h : Under (rootNode s) i) (hm : mac i.ix t = true) :
      BhAct mac s t (Act.MtoT i.ix t)
  | StoT {i : TNode} (h : Under (rootNode s) i) (hl : i.isLeaf = true) (hm : mac i.ix t = false) :
      BhAct mac s t (Act.StoT i.ix t)

theorem bhPass_act (mac : Index → Index → Bool) (s : Fin 8 → Oct) (n : TNode) (leaf : Bool) :
    ∀ c, (∀ i ∈ c, Under (rootNode s) i) →
      (∀ a ∈ (bhPass mac n leaf c).1, BhAct mac s n.ix a) ∧
      (∀ i ∈ (bhPass mac n leaf c).2, Under (rootNode s) i) := by
  intro c
  induction c with
  | nil => intro _; simp [bhPass]
  | cons i c ih =>
    intro hc
    have hi := hc i (by simp)
    obtain ⟨ih1, ih2⟩ := ih (fun j hj => hc j (by simp [hj]))
    have hcons : ∀ j ∈ i :: (bhPass mac n leaf c).2, Under (rootNode s) j := by
      intro j hj
      rcases List.mem_cons.1 hj with rfl | hj
      · exact hi
      · exact ih2 j hj
    simp only [bhPass]
    split
    · rename_i hm
      split
      · exact ⟨ih1, hcons⟩
      · refine ⟨?_, ih2⟩
        intro a ha
        rcases List.mem_cons.1 ha with rfl | ha
        · exact .MtoT hi hm
        · exact ih1 a ha
    · rename_i hm
      split
      · rename_i hl
        split
        · refine ⟨?_, ih2⟩
          intro a ha
          rcases List.mem_cons.1 ha with rfl | ha
          · exact .StoT hi hl (by simpa using hm)
          · exact ih1 a ha
        · exact ⟨ih1, hcons⟩
      · refine ⟨ih1, ?_⟩
        intro j hj
        rcases List.mem_append.1 hj with hj | hj
        · exact hi.kid hj
        · exact ih2 j hj

theorem doWhile_act {R : TNode → Prop} {P : Act → Prop} {leaf : Bool}
    {pass : List TNode → List Act × List TNode}
    (hp : ∀ c, (∀ i ∈ c, R i) → (∀ a ∈ (pass c).1, P a) ∧ (∀ i ∈ (pass c).2, R i)) :
    ∀ fuel c, (∀ i ∈ c, R i) → (∀ a ∈ (doWhile pass leaf fuel c).1, P a) ∧
      (∀ i ∈ (doWhile pass leaf fuel c).2, R i) := by
  intro fuel
  induction fuel with
  | zero => intro c hc; exact ⟨by simp [doWhile], hc⟩
  | succ fuel ih =>
    intro c hc
    obtain ⟨h1, h2⟩ := hp c hc
    obtain ⟨i1, i2⟩ := ih _ h2
    simp only [doWhile]
    split
    · refine ⟨?_, i2⟩
      intro a ha
      rcases List.mem_append.1 ha with ha | ha
      · exact h1 a ha
      · exact i1 a ha
    · exact ⟨h1, h2⟩

/-- The links made by the loops over `consider` of FMM and FMM97 at target `t`. -/
inductive FmmAct (s : Fin 8 → Oct) (t : Index) : Act → Prop
  | StoL {i : TNode} (h : Under (rootNode s) i) (hl : i.isLeaf = true) (hlt : i.ix.level < t.level)
      (hw : wellSepAsym t i.ix = true) : FmmAct s t (Act.StoL i.ix t)
  | StoTbig {i : TNode} (h : Under (rootNode s) i) (hl : i.isLeaf = true)
      (hlt : i.ix.level < t.level) (hw : wellSepAsym t i.ix = false) : FmmAct s t (Act.StoT i.ix t)
  | StoTsmall {i : TNode} (h : Under (rootNode s) i) (hl : i.isLeaf = true)
      (hle : t.level ≤ i.ix.level) (hw : wellSepAsym i.ix t = false) : FmmAct s t (Act.StoT i.ix t)
  | MtoL {i : TNode} (h : Under (rootNode s) i) (he : i.ix.level = t.level)
      (hw : wellSep i.ix t = true) : FmmAct s t (Act.MtoL i.ix t)
  | MtoT {i : TNode} (h : Under (rootNode s) i) (hle : t.level ≤ i.ix.level)
      (hw : wellSepAsym i.ix t = true) : FmmAct s t (Act.MtoT i.ix t)

theorem procColl_act (s : Fin 8 → Oct) (t : Index) (n : TNode) : Under (rootNode s) n →
    t.level ≤ n.ix.level → ∀ a ∈ procColl t n.ix (.node n.c), FmmAct s t a := by
  induction n using tnode_induction with
  | h n ih =>
    intro hu hl a ha
    rw [procColl_node] at ha
    split at ha
    · rename_i hw
      simp at ha; subst ha; exact .MtoT hu hl hw
    · rename_i hw
      split at ha
      · rename_i hleaf
        simp at ha; subst ha; exact .StoTsmall hu hleaf hl (by simpa using hw)
      · obtain ⟨k, hk, ha⟩ := List.mem_flatMap.1 ha
        exact ih k hk (hu.kid hk) (by have := kid_level hk; omega) a ha

theorem fmmLeafLoop_act (s : Fin 8 → Oct) (t : Index) : ∀ c, ConsOk s t c →
    ∀ a ∈ fmmLeafLoop t c, FmmAct s t a := by
  intro c
  induction c with
  | nil => intro _ a ha; simp [fmmLeafLoop] at ha
  | cons i c ih =>
    intro hc a ha
    have hu := hc.under i (by simp)
    have hl := hc.level i (by simp)
    rw [fmmLeafLoop, List.mem_append] at ha
    rcases ha with ha | ha
    · split at ha
      · rename_i hlt
        have hleaf := hc.leaf i (by simp) hlt
        split at ha <;> rename_i hw <;> simp at ha <;> subst ha
        · exact .StoL hu hleaf hlt hw
        · exact .StoTbig hu hleaf hlt (by simpa using hw)
      · split at ha
        · rename_i hw
          simp at ha; subst ha
          exact .MtoL hu (by omega) hw
        · exact procColl_act s t i hu (by omega) a ha
    · exact ih hc.tail a ha

theorem fmmInnerLoop_act (s : Fin 8 → Oct) (t : Index) : ∀ c, ConsOk s t c →
    ∀ a ∈ (fmmInnerLoop t c).1, FmmAct s t a := by
  intro c
  induction c with
  | nil => intro _ a ha; simp [fmmInnerLoop] at ha
  | cons i c ih =>
    intro hc a ha
    have hu := hc.under i (by simp)
    have hl := hc.level i (by simp)
    simp only [fmmInnerLoop] at ha
    split at ha
    · rename_i hlt
      split at ha
      · rename_i hw
        rcases List.mem_cons.1 ha with rfl | ha
        · exact .StoL hu (hc.leaf i (by simp) hlt) hlt hw
        · exact ih hc.tail a ha
      · exact ih hc.tail a ha
    · split at ha
      · rename_i hw
        rcases List.mem_cons.1 ha with rfl | ha
        · exact .MtoL hu (by omega) hw
        · exact ih hc.tail a ha
      · split at ha <;> exact ih hc.tail a ha

theorem fmm97LeafLoop_act (s : Fin 8 → Oct) (t : Index) : ∀ c, ConsOk s t c →
    ∀ a ∈ fmm97LeafLoop t c, FmmAct s t a := by
  intro c
  induction c with
  | nil => intro _ a ha; simp [fmm97LeafLoop] at ha
  | cons i c ih =>
    intro hc a ha
    have hu := hc.under i (by simp)
    have hl := hc.level i (by simp)
    rw [fmm97LeafLoop, List.mem_append] at ha
    rcases ha with ha | ha
    · split at ha
      · rename_i hlt
        have hleaf := hc.leaf i (by simp) hlt
        split at ha <;> rename_i hw <;> simp at ha <;> subst ha
        · exact .StoL hu hleaf hlt hw
        · exact .StoTbig hu hleaf hlt (by simpa using hw)
      · split at ha
        · exact procColl_act s t i hu (by omega) a ha
        · simp at ha
    · exact ih hc.tail a ha

/-- A source node merged into the target's intermediate expansion. -/
structure Merged (s : Fin 8 → Oct) (t : Index) (k : TNode) : Prop where
  under : Under (rootNode s) k
  level : k.ix.level = t.level + 1
  pos : 1 ≤ t.level
  near : ∃ j : TNode, k ∈ j.kids ∧ j.ix.level = t.level ∧ wellSep j.ix t = false ∧ j.ix ≠ t

theorem fmm97InnerLoop_act (s : Fin 8 → Oct) (t : Index) : ∀ c, ConsOk s t c →
    (∀ a ∈ (fmm97InnerLoop t c).1, FmmAct s t a) ∧
    (∀ k ∈ (fmm97InnerLoop t c).2.2, Merged s t k) := by
  intro c
  induction c with
  | nil => intro _; simp [fmm97InnerLoop]
  | cons i c ih =>
    intro hc
    have hu := hc.under i (by simp)
    have hl := hc.level i (by simp)
    obtain ⟨ih1, ih2⟩ := ih hc.tail
    simp only [fmm97InnerLoop]
    split
    · rename_i hlt
      split
      · rename_i hw
        refine ⟨?_, ih2⟩
        intro a ha
        rcases List.mem_cons.1 ha with rfl | ha
        · exact .StoL hu (hc.leaf i (by simp) hlt) hlt hw
        · exact ih1 a ha
      · exact ⟨ih1, ih2⟩
    · rename_i hlt
      split
      · rename_i hw
        split
        · exact ⟨ih1, ih2⟩
        · refine ⟨ih1, ?_⟩
          intro k hk
          rcases List.mem_append.1 hk with hk | hk
          · split at hk
            · rename_i hdo
              simp only [Bool.and_eq_true, decide_eq_true_eq, Bool.or_eq_true] at hdo
              refine ⟨hu.kid hk, by have := kid_level hk; omega, hdo.1, i, hk, by omega,
                by simpa using hw, ?_⟩
              intro he
              rw [he] at hdo
              simp at hdo
            · simp at hk
          · exact ih2 k hk
      · exact ⟨ih1, ih2⟩

/-! ### Invariants that do not need an evaluation -/

theorem BH_cons {mac : Index → Index → Bool} {unif : Nat} {same : Bool} {s : Fin 8 → Oct}
    {n : TNode} {p : Bool} {c : List TNode} {n₀ : TNode} {p₀ : Bool} {c₀ : List TNode}
    (h : Visit (BH mac) unif same n₀ p₀ c₀ n p c) :
    (∀ i ∈ c₀, Under (rootNode s) i) → ∀ i ∈ c, Under (rootNode s) i := by
  induction h with
  | here => exact id
  | @down n p c k n' p' c' hr hk h ih =>
    intro hi
    apply ih
    exact (doWhile_act (bhPass_act mac s n _) _ _ hi).2

theorem Direct_cons {unif : Nat} {same : Bool} {s : Fin 8 → Oct}
    {n : TNode} {p : Bool} {c : List TNode} {n₀ : TNode} {p₀ : Bool} {c₀ : List TNode}
    (h : Visit Direct unif same n₀ p₀ c₀ n p c) :
    (∀ i ∈ c₀, Under (rootNode s) i) → ∀ i ∈ c, Under (rootNode s) i := by
  induction h with
  | here => exact id
  | @down n p c k n' p' c' hr hk h ih =>
    intro hi
    apply ih
    refine (doWhile_act (pass := directPass n _) (P := fun _ => True) ?_ _ _ hi).2
    intro c hc
    rw [directPass_eq]
    exact ⟨fun _ _ => trivial, (bhPass_act _ s n _ c hc).2⟩

theorem FMM_cons {unif : Nat} {same : Bool} {s : Fin 8 → Oct}
    {n : TNode} {p : Bool} {c : List TNode} {n₀ : TNode} {p₀ : Bool} {c₀ : List TNode}
    (h : Visit FMM unif same n₀ p₀ c₀ n p c) : ConsOk s n₀.ix c₀ → ConsOk s n.ix c := by
  induction h with
  | here => exact id
  | @down n p c k n' p' c' hr hk h ih =>
    intro hi
    apply ih
    have e : (theVisit FMM unif same n p c).2 = (fmmInnerLoop n.ix c).2 := by
      simp [theVisit, Dashmm.visit, hr, FMM_process]
    obtain ⟨i, _, h2⟩ := mem_kids.1 hk
    rw [e, h2]; exact fmmInnerLoop_consOk _ _ hi

/-- What a visit of FMM97 knows about its parent. -/
structure F97Ok (s : Fin 8 → Oct) (n : TNode) (p : Bool) (c : List TNode) : Prop where
  cons : ConsOk s n.ix c
  noI : n.ix.level < 2 → p = false

theorem FMM97_cons {unif : Nat} {same : Bool} {s : Fin 8 → Oct}
    {n : TNode} {p : Bool} {c : List TNode} {n₀ : TNode} {p₀ : Bool} {c₀ : List TNode}
    (h : Visit FMM97 unif same n₀ p₀ c₀ n p c) : F97Ok s n₀ p₀ c₀ → F97Ok s n p c := by
  induction h with
  | here => exact id
  | @down n p c k n' p' c' hr hk h ih =>
    intro hi
    apply ih
    have e : (theVisit FMM97 unif same n p c).2 = (fmm97InnerLoop n.ix c).2.1 := by
      simp [theVisit, Dashmm.visit, hr, FMM97_process]
    obtain ⟨i, _, h2⟩ := mem_kids.1 hk
    refine ⟨?_, ?_⟩
    · rw [e, h2]; exact fmm97InnerLoop_consOk _ _ hi.cons
    · intro hl
      have hkl := kid_level hk
      rw [FMM97_makesInterm hr]
      cases hm : (fmm97InnerLoop n.ix c).2.2 with
      | nil => rfl
      | cons a l =>
        have := ((fmm97InnerLoop_act s n.ix c hi.cons).2 a (by rw [hm]; simp)).pos
        omega

theorem F97Ok_root (s t : Fin 8 → Oct) : F97Ok s (rootNode t) false [rootNode s] :=
  ⟨consOk_root s, fun _ => rfl⟩

/-- All actions of a visit of FMM. -/
inductive FmmVisitAct (s : Fin 8 → Oct) (n : TNode) : Act → Prop
  | loop {a : Act} (h : FmmAct s n.ix a) : FmmVisitAct s n a
  | parts : FmmVisitAct s n (Act.addParts .tgt n.ix)
  | normal (h : 2 ≤ n.ix.level) : FmmVisitAct s n (Act.addNormal .tgt n.ix)
  | LtoL (h : 3 ≤ n.ix.level) : FmmVisitAct s n (Act.LtoL n.ix.parent n.ix)
  | LtoT (h : 2 ≤ n.ix.level) : FmmVisitAct s n (Act.LtoT n.ix n.ix)

theorem FMM_visit_act {unif : Nat} {same : Bool} {s : Fin 8 → Oct} {n : TNode} {p : Bool}
    {c : List TNode} (hc : ConsOk s n.ix c) : ∀ a ∈ (theVisit FMM unif same n p c).1,
    FmmVisitAct s n a := by
  intro a ha
  simp only [theVisit, Dashmm.visit, List.mem_append, FMM_inherit, FMM_process] at ha
  rcases ha with (ha | ha) | ha
  · split at ha <;> simp at ha
    subst ha; exact .parts
  · split at ha
    · rename_i h2
      rcases List.mem_cons.1 ha with rfl | ha
      · exact .normal h2
      · split at ha <;> simp at ha
        subst ha; exact .LtoL (by assumption)
    · simp at ha
  · split at ha
    · rcases List.mem_append.1 ha with ha | ha
      · exact .loop (fmmLeafLoop_act s _ _ hc a ha)
      · split at ha <;> simp at ha
        subst ha; exact .LtoT (by assumption)
    · exact .loop (fmmInnerLoop_act s _ _ hc a ha)

/-- All actions of a visit of FMM97. -/
inductive Fmm97VisitAct (s : Fin 8 → Oct) (n : TNode) (p : Bool) : Act → Prop
  | fmm {a : Act} (h : FmmVisitAct s n a) : Fmm97VisitAct s n p a
  | ItoL (h : 2 ≤ n.ix.level) (hp : p = true) : Fmm97VisitAct s n p (Act.ItoL n.ix.parent n.ix)
  | interm : Fmm97VisitAct s n p (Act.addInterm .tgt n.ix)
  | ItoI {k : TNode} (h : Merged s n.ix k) : Fmm97VisitAct s n p (Act.ItoI k.ix n.ix)

theorem FMM97_visit_act {unif : Nat} {same : Bool} {s : Fin 8 → Oct} {n : TNode} {p : Bool}
    {c : List TNode} (hc : ConsOk s n.ix c) : ∀ a ∈ (theVisit FMM97 unif same n p c).1,
    Fmm97VisitAct s n p a := by
  intro a ha
  simp only [theVisit, Dashmm.visit, List.mem_append, FMM97_inherit, FMM97_process] at ha
  rcases ha with (ha | ha) | ha
  · split at ha <;> simp at ha
    subst ha; exact .fmm .parts
  · split at ha
    · rename_i h2
      rcases List.mem_cons.1 ha with rfl | ha
      · exact .fmm (.normal h2)
      · rcases List.mem_append.1 ha with ha | ha
        · split at ha <;> simp at ha
          subst ha; exact .ItoL h2 (by assumption)
        · split at ha <;> simp at ha
          subst ha; exact .fmm (.LtoL (by assumption))
    · simp at ha
  · split at ha
    · rcases List.mem_append.1 ha with ha | ha
      · exact .fmm (.loop (fmm97LeafLoop_act s _ _ hc a ha))
      · split at ha <;> simp at ha
        subst ha; exact .fmm (.LtoT (by assumption))
    · rcases List.mem_append.1 ha with ha | ha
      · exact .fmm (.loop ((fmm97InnerLoop_act s _ _ hc).1 a ha))
      · rcases mergeActs_mem ha with h | ⟨k, hk, h⟩
        · subst h; exact .interm
        · subst h; exact .ItoI ((fmm97InnerLoop_act s _ _ hc).2 k hk)

/-- All actions on a source node, for any of the methods. -/
inductive SrcAct (lo : Nat) (n : TNode) : Act → Prop
  | parts (h : n.isLeaf = true) : SrcAct lo n (Act.addParts .src n.ix)
  | normal (h : lo ≤ n.ix.level) : SrcAct lo n (Act.addNormal .src n.ix)
  | StoM (hl : n.isLeaf = true) (h : lo ≤ n.ix.level) : SrcAct lo n (Act.StoM n.ix n.ix)
  | MtoM {k : TNode} (hk : k ∈ n.kids) (h : lo ≤ n.ix.level) : SrcAct lo n (Act.MtoM k.ix n.ix)
  | interm (h : lo ≤ n.ix.level) : SrcAct lo n (Act.addInterm .src n.ix)
  | MtoI (h : lo ≤ n.ix.level) : SrcAct lo n (Act.MtoI n.ix n.ix)

theorem Direct_src_act (n : TNode) : ∀ a ∈ ownSrc Direct n, SrcAct 0 n a := by
  intro a ha
  unfold ownSrc at ha
  split at ha <;> simp [Direct] at ha
  subst ha; exact .parts (by assumption)

theorem BH_src_act (mac : Index → Index → Bool) (n : TNode) : ∀ a ∈ ownSrc (BH mac) n, SrcAct 0 n a := by
  intro a ha
  unfold ownSrc at ha
  split at ha <;> rename_i hl <;> simp [BH] at ha
  · rcases ha with rfl | rfl | rfl
    · exact .parts hl
    · exact .normal (Nat.zero_le _)
    · exact .StoM hl (Nat.zero_le _)
  · rcases ha with rfl | ⟨k, hk, rfl⟩
    · exact .normal (Nat.zero_le _)
    · exact .MtoM hk (Nat.zero_le _)

theorem FMM_src_act (n : TNode) : ∀ a ∈ ownSrc FMM n, SrcAct 2 n a := by
  intro a ha
  unfold ownSrc at ha
  split at ha <;> rename_i hl <;> simp only [FMM] at ha
  · rcases List.mem_cons.1 ha with rfl | ha
    · exact .parts hl
    · split at ha <;> simp at ha
      rename_i h2
      rcases ha with rfl | rfl
      · exact .normal h2
      · exact .StoM hl h2
  · split at ha <;> simp at ha
    rename_i h2
    rcases ha with rfl | ⟨k, hk, rfl⟩
    · exact .normal h2
    · exact .MtoM hk h2

theorem FMM97_src_act (n : TNode) : ∀ a ∈ ownSrc FMM97 n, SrcAct 2 n a := by
  intro a ha
  unfold ownSrc at ha
  split at ha <;> rename_i hl <;> simp only [FMM97_generate, FMM97_aggregate] at ha
  · rcases List.mem_cons.1 ha with rfl | ha
    · exact .parts hl
    · split at ha <;> simp at ha
      rename_i h2
      rcases ha with rfl | rfl | rfl | rfl
      · exact .normal h2
      · exact .StoM hl h2
      · exact .interm h2
      · exact .MtoI h2
  · split at ha <;> simp at ha
    rename_i h2
    rcases ha with rfl | ⟨k, hk, rfl⟩ | rfl | rfl
    · exact .normal h2
    · exact .MtoM hk h2
    · exact .interm h2
    · exact .MtoI h2

end Dashmm
