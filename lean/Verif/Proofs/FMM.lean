import Verif.Proofs.BH
/-! Helper lemmas: FMM (most are shared with FMM97). -/
namespace Dashmm

theorem wellSep_iff (a b : Index) : wellSep a b = true ↔
    ((a.x : Int) - b.x).natAbs > 1 ∨ ((a.y : Int) - b.y).natAbs > 1 ∨
      ((a.z : Int) - b.z).natAbs > 1 := by
  unfold wellSep; repeat' split
  all_goals simp_all

theorem wellSep_level {a b : Index} (ha : a.InRange) (hb : b.InRange) (hl : a.level = b.level)
    (h : wellSep a b = true) : 2 ≤ a.level := by
  rw [wellSep_iff] at h
  obtain ⟨h1, h2, h3⟩ := ha
  obtain ⟨h4, h5, h6⟩ := hb
  rw [← hl] at h4 h5 h6
  by_contra hlt
  have : 2 ^ a.level ≤ 2 ^ 1 := Nat.pow_le_pow_right (by decide) (by omega)
  omega

theorem wellSepAsym_level {a b : Index} (ha : a.InRange) (hb : b.InRange) (hl : b.level ≤ a.level)
    (h : wellSepAsym a b = true) : 2 ≤ a.level := by
  obtain ⟨h1, h2, h3⟩ := ha
  obtain ⟨h4, h5, h6⟩ := hb
  by_contra hlt
  simp only [wellSepAsym, Nat.shiftLeft_eq, Bool.or_eq_true, decide_eq_true_eq] at h
  have e : a.level = 0 ∧ b.level = 0 ∨ a.level = 1 ∧ b.level = 0 ∨ a.level = 1 ∧ b.level = 1 := by
    omega
  rcases e with ⟨e1, e2⟩ | ⟨e1, e2⟩ | ⟨e1, e2⟩ <;> simp only [e1, e2] at * <;> simp at * <;> omega

/-- What is known about source values in FMM and FMM97. -/
structure SrcVals (s : Fin 8 → Oct) (val : Ref → Prov) : Prop where
  P : ∀ i, Under (rootNode s) i → i.isLeaf = true → ∀ x,
    val ⟨.src, i.ix, .parts⟩ 0 x = i.leaves.count x
  M : ∀ i, Under (rootNode s) i → 2 ≤ i.ix.level → ∀ x,
    val ⟨.src, i.ix, .normal⟩ 0 x = i.leaves.count x

theorem root_inRange (s : Fin 8 → Oct) : (rootNode s).ix.InRange := Index.inRange_root

/-- `procColl` on a node. -/
theorem procColl_node (t : Index) (n : TNode) : procColl t n.ix (.node n.c) =
    if wellSepAsym n.ix t then [Act.MtoT n.ix t]
    else if n.isLeaf then [Act.StoT n.ix t]
    else n.kids.flatMap fun k => procColl t k.ix (.node k.c) := by
  have := flatMap_kids (procColl t) (fun _ => by rw [procColl]) n
  rw [procColl, ← this]

theorem procColl_mem (t : Index) (n : TNode) : ∀ a ∈ procColl t n.ix (.node n.c),
    ∃ e, a = .link e ∧ e.dst = ⟨.tgt, t, .parts⟩ := by
  induction n using tnode_induction with
  | h n ih =>
    intro a ha
    rw [procColl_node] at ha
    split at ha
    · simp at ha; subst ha; exact ⟨_, rfl, rfl⟩
    · split at ha
      · simp at ha; subst ha; exact ⟨_, rfl, rfl⟩
      · obtain ⟨k, hk, ha⟩ := List.mem_flatMap.1 ha
        exact ih k hk a ha

theorem procColl_flow {s : Fin 8 → Oct} {val : Ref → Prov} (hs : SrcVals s val) {t : Index}
    (ht : t.InRange) (n : TNode) : Under (rootNode s) n → t.level ≤ n.ix.level → ∀ x,
    flow val ⟨.tgt, t, .parts⟩ 0 x (procColl t n.ix (.node n.c)) = n.leaves.count x := by
  induction n using tnode_induction with
  | h n ih =>
    intro hu hl x
    rw [procColl_node]
    split
    · rename_i hw
      have := wellSepAsym_level (hu.inRange (root_inRange s)) ht hl hw
      simp [actFlow, Act.MtoT, contrib, hs.M n hu this]
    · split
      · rename_i hleaf
        simp [actFlow, Act.StoT, contrib, hs.P n hu hleaf]
      · rename_i hleaf
        have hleaf : n.isLeaf = false := by simpa using hleaf
        rw [flow_flatMap, ← total_kids hleaf, total]
        congr 1
        apply List.map_congr_left
        intro k hk
        exact ih k hk (hu.kid hk) (by have := kid_level hk; omega) x

/-- The nodes a target node considers. -/
structure ConsOk (s : Fin 8 → Oct) (t : Index) (c : List TNode) : Prop where
  under : ∀ i ∈ c, Under (rootNode s) i
  level : ∀ i ∈ c, i.ix.level ≤ t.level
  leaf : ∀ i ∈ c, i.ix.level < t.level → i.isLeaf = true

theorem ConsOk.tail {s : Fin 8 → Oct} {t : Index} {i : TNode} {c : List TNode}
    (h : ConsOk s t (i :: c)) : ConsOk s t c :=
  ⟨fun j hj => h.under j (by simp [hj]), fun j hj => h.level j (by simp [hj]),
   fun j hj => h.leaf j (by simp [hj])⟩

theorem fmmLeafLoop_mem (t : Index) : ∀ c, ∀ a ∈ fmmLeafLoop t c,
    ∃ e, a = .link e ∧ e.dst.side = .tgt ∧ e.dst.ix = t := by
  intro c
  induction c with
  | nil => intro a ha; simp [fmmLeafLoop] at ha
  | cons i c ih =>
    intro a ha
    rw [fmmLeafLoop, List.mem_append] at ha
    rcases ha with ha | ha
    · repeat' split at ha
      all_goals first
        | (simp at ha; subst ha; exact ⟨_, rfl, rfl, rfl⟩)
        | (obtain ⟨e, h1, h2⟩ := procColl_mem t i a ha; exact ⟨e, h1, by simp [h2], by simp [h2]⟩)
    · exact ih a ha

theorem fmmInnerLoop_mem (t : Index) : ∀ c, ∀ a ∈ (fmmInnerLoop t c).1,
    ∃ e, a = .link e ∧ e.dst = ⟨.tgt, t, .normal⟩ := by
  intro c
  induction c with
  | nil => intro a ha; simp [fmmInnerLoop] at ha
  | cons i c ih =>
    intro a ha
    simp only [fmmInnerLoop] at ha
    repeat' split at ha
    all_goals first
      | exact ih a ha
      | (rcases List.mem_cons.1 ha with rfl | ha
         · exact ⟨_, rfl, rfl⟩
         · exact ih a ha)

theorem flow_other {val : Ref → Prov} {r : Ref} {v : Nat} {x : Index} {acts : List Act} {d : Ref}
    (h : ∀ a ∈ acts, ∃ e, a = .link e ∧ e.dst = d) (hd : d ≠ r) : flow val r v x acts = 0 := by
  apply flow_eq_zero
  intro e he
  obtain ⟨e', h1, h2⟩ := h _ he
  cases h1
  rw [h2]; exact hd

section
variable {s : Fin 8 → Oct} {val : Ref → Prov} (hs : SrcVals s val) {t : Index} (ht : t.InRange)
include hs ht

theorem fmmLeafLoop_flow (x : Index) : ∀ c, ConsOk s t c →
    flow val ⟨.tgt, t, .parts⟩ 0 x (fmmLeafLoop t c) +
      flow val ⟨.tgt, t, .normal⟩ 0 x (fmmLeafLoop t c) = total c x ∧
    (t.level < 2 → flow val ⟨.tgt, t, .normal⟩ 0 x (fmmLeafLoop t c) = 0) := by
  intro c
  induction c with
  | nil => intro _; simp [fmmLeafLoop]
  | cons i c ih =>
    intro hc
    obtain ⟨ih1, ih2⟩ := ih hc.tail
    have hu := hc.under i (by simp)
    have hr := hu.inRange (root_inRange s)
    have hl := hc.level i (by simp)
    simp only [fmmLeafLoop, flow_append, total_cons]
    split
    · rename_i hlt
      have hleaf := hc.leaf i (by simp) hlt
      have hp := hs.P i hu hleaf x
      split
      · rename_i hw
        have := wellSepAsym_level ht hr hl hw
        simp [actFlow, Act.StoL, contrib, hp]
        omega
      · simp [actFlow, Act.StoT, contrib, hp]
        omega
    · rename_i hlt
      have hle : i.ix.level = t.level := by omega
      split
      · rename_i hw
        have h2 := wellSep_level hr ht hle hw
        simp [actFlow, Act.MtoL, contrib, hs.M i hu h2]
        omega
      · have hpc := procColl_flow hs ht i hu (by omega) x
        have h0 : flow val ⟨.tgt, t, .normal⟩ 0 x (procColl t i.ix (.node i.c)) = 0 :=
          flow_other (procColl_mem t i) (by simp)
        rw [hpc, h0]
        omega

theorem fmmInnerLoop_flow (x : Index) : ∀ c, ConsOk s t c →
    flow val ⟨.tgt, t, .normal⟩ 0 x (fmmInnerLoop t c).1 + total (fmmInnerLoop t c).2 x = total c x ∧
    (t.level < 2 → flow val ⟨.tgt, t, .normal⟩ 0 x (fmmInnerLoop t c).1 = 0) := by
  intro c
  induction c with
  | nil => intro _; simp [fmmInnerLoop]
  | cons i c ih =>
    intro hc
    obtain ⟨ih1, ih2⟩ := ih hc.tail
    have hu := hc.under i (by simp)
    have hr := hu.inRange (root_inRange s)
    have hl := hc.level i (by simp)
    simp only [fmmInnerLoop, total_cons]
    split
    · rename_i hlt
      have hleaf := hc.leaf i (by simp) hlt
      have hp := hs.P i hu hleaf x
      split
      · rename_i hw
        have := wellSepAsym_level ht hr hl hw
        simp [actFlow, Act.StoL, contrib, hp]
        omega
      · simp only [total_cons]
        exact ⟨by omega, ih2⟩
    · rename_i hlt
      have hle : i.ix.level = t.level := by omega
      split
      · rename_i hw
        have h2 := wellSep_level hr ht hle hw
        simp [actFlow, Act.MtoL, contrib, hs.M i hu h2]
        omega
      · split
        · simp only [total_cons]
          exact ⟨by omega, ih2⟩
        · rename_i hk
          rw [kids_isEmpty] at hk
          have := total_kids (n := i) (by simpa using hk) x
          simp only [total_append]
          exact ⟨by omega, ih2⟩
end

theorem fmmInnerLoop_consOk {s : Fin 8 → Oct} {t : Index} (i : Nat) : ∀ c, ConsOk s t c →
    ConsOk s (t.child i) (fmmInnerLoop t c).2 := by
  intro c
  induction c with
  | nil => intro _; constructor <;> simp [fmmInnerLoop]
  | cons j c ih =>
    intro hc
    have ih := ih hc.tail
    have hlev : (t.child i).level = t.level + 1 := rfl
    have hjl := hc.level j (by simp)
    have hcons : j.isLeaf = true → ConsOk s (t.child i) (j :: (fmmInnerLoop t c).2) := by
      intro hleaf
      refine ⟨?_, ?_, ?_⟩
      · intro k hk
        rcases List.mem_cons.1 hk with rfl | hk
        · exact hc.under k (by simp)
        · exact ih.under k hk
      · intro k hk
        rcases List.mem_cons.1 hk with rfl | hk
        · omega
        · exact ih.level k hk
      · intro k hk hkl
        rcases List.mem_cons.1 hk with rfl | hk
        · exact hleaf
        · exact ih.leaf k hk hkl
    simp only [fmmInnerLoop]
    split
    · rename_i hlt
      split
      · exact ih
      · exact hcons (hc.leaf j (by simp) hlt)
    · split
      · exact ih
      · split
        · rename_i hk
          rw [kids_isEmpty] at hk
          exact hcons hk
        · refine ⟨?_, ?_, ?_⟩
          · intro k hk
            rcases List.mem_append.1 hk with hk | hk
            · exact (hc.under j (by simp)).kid hk
            · exact ih.under k hk
          · intro k hk
            rcases List.mem_append.1 hk with hk | hk
            · have := kid_level hk; omega
            · exact ih.level k hk
          · intro k hk hkl
            rcases List.mem_append.1 hk with hk | hk
            · have := kid_level hk; omega
            · exact ih.leaf k hk hkl

/-! ### FMM as a whole -/

theorem FMM_inherit (n : TNode) (p leaf : Bool) : FMM.inherit n p leaf =
    (if leaf then [Act.addParts .tgt n.ix] else []) ++
    (if n.ix.level ≥ 2 then
      Act.addNormal .tgt n.ix ::
        (if n.ix.level ≥ 3 then [Act.LtoL n.ix.parent n.ix] else [])
     else []) := rfl

theorem FMM_process (n : TNode) (c : List TNode) (leaf : Bool) : FMM.process n c leaf =
    if leaf then
      (fmmLeafLoop n.ix c ++ (if n.ix.level ≥ 2 then [Act.LtoT n.ix n.ix] else []), c)
    else fmmInnerLoop n.ix c := rfl

theorem FMM_local : FMM.Local where
  gen := by
    intro n e he
    simp only [FMM] at he
    split at he <;> simp [Act.addParts, Act.addNormal, Act.StoM] at he
    subst he; simp
  agg := by
    intro n e he
    simp only [FMM] at he
    split at he <;> simp [Act.addNormal, Act.MtoM] at he
    obtain ⟨k, _, rfl⟩ := he; simp
  inh := by
    intro n p l e he
    simp only [FMM] at he
    rcases List.mem_append.1 he with he | he
    · split at he <;> simp [Act.addParts] at he
    · split at he
      · split at he <;> simp [Act.addNormal, Act.LtoL] at he
        subst he; simp
      · simp at he
  proc := by
    intro n c l e he
    simp only [FMM] at he
    split at he
    · rcases List.mem_append.1 he with he | he
      · obtain ⟨e', h1, h2⟩ := fmmLeafLoop_mem _ _ _ he
        cases h1; exact h2
      · split at he <;> simp [Act.LtoT] at he
        subst he; simp
    · obtain ⟨e', h1, h2⟩ := fmmInnerLoop_mem _ _ _ he
      cases h1; simp [h2]

section
variable {unif : Nat} {same : Bool} {s t : Fin 8 → Oct} {val : Ref → Prov}

theorem FMM_srcVals (hv : IsEvaluation (createDag FMM unif same s t) val) : SrcVals s val := by
  have hP : ∀ i, Under (rootNode s) i → i.isLeaf = true → ∀ x,
      val ⟨.src, i.ix, .parts⟩ 0 x = i.leaves.count x := by
    intro n h hl x
    rw [val_src FMM_local hv h, ownSrc, hl, TNode.leaves_of_leaf hl]
    simp only [FMM, if_true]
    split <;> simp [actFlow, base, Act.addParts, Act.addNormal, Act.StoM, List.count_cons,
      beq_iff_eq, @eq_comm _ x]
  refine ⟨hP, ?_⟩
  intro n
  induction n using tnode_induction with
  | h n ih =>
    intro h h2 x
    rw [val_src FMM_local hv h, ownSrc]
    cases hl : n.isLeaf with
    | true =>
      have := hP n h hl x
      simp [FMM, h2, actFlow, base, Act.addParts, Act.addNormal, Act.StoM, contrib, this]
    | false =>
      have e : (flow val ⟨.src, n.ix, .normal⟩ 0 x (n.kids.map fun k => Act.MtoM k.ix n.ix)) =
          total n.kids x := by
        rw [flow_map, total]
        congr 1
        apply List.map_congr_left
        intro k hk
        have := kid_level hk
        simp [actFlow, Act.MtoM, contrib, ih k hk (h.kid hk) (by omega)]
      simp [FMM, h2, base, Act.addNormal, actFlow, e, total_kids hl]

/-- What has already been put into the parent's local expansion. -/
def fmmLin (val : Ref → Prov) (n : TNode) (x : Index) : Nat :=
  if 3 ≤ n.ix.level then val ⟨.tgt, n.ix.parent, .normal⟩ 0 x else 0

/-- Invariant of the target traversal of FMM. -/
structure FMMInv (unif : Nat) (same : Bool) (s t : Fin 8 → Oct) (val : Ref → Prov)
    (n : TNode) (p : Bool) (c : List TNode) : Prop where
  visit : Visit FMM unif same (rootNode t) false [rootNode s] n p c
  cons : ConsOk s n.ix c
  sum : ∀ x, fmmLin val n x + total c x = (rootNode s).leaves.count x

theorem kid_parent {n k : TNode} (hk : k ∈ n.kids) : k.ix.parent = n.ix := by
  obtain ⟨i, _, h⟩ := mem_kids.1 hk
  rw [h, Index.parent_child _ _ i.isLt]

/-- The inherited part and the processed part of a local expansion. -/
theorem FMM_normal (hv : IsEvaluation (createDag FMM unif same s t) val) {n : TNode} {p : Bool}
    {c : List TNode} (hi : Visit FMM unif same (rootNode t) false [rootNode s] n p c)
    (h2 : 2 ≤ n.ix.level) (x : Index) :
    val ⟨.tgt, n.ix, .normal⟩ 0 x = fmmLin val n x + flow val ⟨.tgt, n.ix, .normal⟩ 0 x
        (FMM.process n c (!refine FMM unif same n c)).1 := by
  rw [val_tgt FMM_local hv hi, theVisit, Dashmm.visit, flow_append]
  congr 1
  simp only [FMM, flow_append]
  have h0 : ∀ b : Bool, flow val ⟨.tgt, n.ix, .normal⟩ 0 x
      (if b = true then [Act.addParts .tgt n.ix] else []) = 0 := by
    intro b; split <;> simp [Act.addParts, actFlow]
  rw [h0, if_pos h2, fmmLin]
  split <;> simp [Act.addNormal, actFlow, Act.LtoL, contrib]

theorem FMM_step (hv : IsEvaluation (createDag FMM unif same s t) val) {n : TNode} {p : Bool}
    {c : List TNode} (hi : FMMInv unif same s t val n p c)
    (hr : refine FMM unif same n c = true) {k : TNode} (hk : k ∈ n.kids) :
    FMMInv unif same s t val k (makesInterm FMM unif same n p c) (theVisit FMM unif same n p c).2 := by
  have e : (theVisit FMM unif same n p c).2 = (fmmInnerLoop n.ix c).2 := by
    simp [theVisit, Dashmm.visit, hr, FMM_process]
  have hk' := hk
  obtain ⟨i, _, h2⟩ := mem_kids.1 hk'
  have hn : n.ix.InRange := hi.visit.under.inRange (root_inRange t)
  refine ⟨hi.visit.kid hr hk, ?_, ?_⟩
  · rw [e, h2]; exact fmmInnerLoop_consOk _ _ hi.cons
  · intro x
    rw [e]
    obtain ⟨f1, f2⟩ := fmmInnerLoop_flow (FMM_srcVals hv) hn x c hi.cons
    have hs := hi.sum x
    have hlev := kid_level hk
    by_cases h2 : 2 ≤ n.ix.level
    · have hval := FMM_normal hv hi.visit h2 x
      have : fmmLin val k x = val ⟨.tgt, n.ix, .normal⟩ 0 x := by
        rw [fmmLin, if_pos (by omega), kid_parent hk]
      rw [hr] at hval
      have e2 : (FMM.process n c (!true)).1 = (fmmInnerLoop n.ix c).1 := by simp [FMM]
      rw [e2] at hval
      omega
    · have : fmmLin val k x = 0 := by rw [fmmLin, if_neg (by omega)]
      have : fmmLin val n x = 0 := by rw [fmmLin, if_neg (by omega)]
      have := f2 (by omega)
      omega

theorem FMM_visit_inv (hv : IsEvaluation (createDag FMM unif same s t) val)
    {n : TNode} {p : Bool} {c : List TNode} {n₀ : TNode} {p₀ : Bool} {c₀ : List TNode}
    (h : Visit FMM unif same n₀ p₀ c₀ n p c) : FMMInv unif same s t val n₀ p₀ c₀ →
    FMMInv unif same s t val n p c := by
  induction h with
  | here => exact id
  | down hr hk h ih =>
    intro hi
    exact ih (FMM_step hv hi hr hk)

theorem consOk_root (s : Fin 8 → Oct) : ConsOk s Index.root [rootNode s] := by
  refine ⟨?_, ?_, ?_⟩
  · intro i hi; simp at hi; subst hi; exact .refl _
  · intro i hi; simp at hi; subst hi; exact Nat.le_refl _
  · intro i hi h; simp at hi; subst hi; exact absurd h (Nat.lt_irrefl _)

theorem FMM_inv (hv : IsEvaluation (createDag FMM unif same s t) val)
    {n : TNode} {p : Bool} {c : List TNode}
    (h : Visit FMM unif same (rootNode t) false [rootNode s] n p c) :
    FMMInv unif same s t val n p c := by
  apply FMM_visit_inv hv h
  refine ⟨.here _ _ _, consOk_root s, ?_⟩
  intro x
  simp [fmmLin, rootNode, Index.root]

end

theorem FMM_delivers : DeliversAllOnce FMM := by
  apply deliversAllOnce_of_canonical
  intro unif same s t val hv
  apply deliver_of_visits FMM_local hv
  · intro n p c hvis r hr
    simp only [theVisit, Dashmm.visit, List.mem_append] at hr
    rcases hr with hr | hr
    · simp only [FMM_inherit, List.mem_append] at hr
      rcases hr with hr | hr
      · split at hr
        · rename_i hl
          simp [Act.addParts] at hr
          subst hr
          simpa using hl
        · simp at hr
      · split at hr
        · split at hr <;> simp [Act.addNormal, Act.LtoL] at hr <;> subst hr <;> simp
        · simp at hr
    · simp only [FMM_process] at hr
      split at hr
      · rcases List.mem_append.1 hr with hr | hr
        · obtain ⟨e, h, _⟩ := fmmLeafLoop_mem _ _ _ hr
          cases h
        · split at hr <;> simp [Act.LtoT] at hr
      · obtain ⟨e, h, _⟩ := fmmInnerLoop_mem _ _ _ hr
        cases h
  · intro n r hr
    unfold ownSrc at hr
    split at hr <;> simp only [FMM] at hr <;> split at hr <;>
      simp [Act.addParts, Act.addNormal, Act.StoM, Act.MtoM] at hr
    · rcases hr with rfl | rfl <;> rfl
    · subst hr; rfl
    · subst hr; rfl
  · intro n p c hvis hr x
    have hi := FMM_inv hv hvis
    have hn : n.ix.InRange := hvis.under.inRange (root_inRange t)
    obtain ⟨f1, f2⟩ := fmmLeafLoop_flow (FMM_srcVals hv) hn x c hi.cons
    have hs := hi.sum x
    have hnormal := FMM_normal hv hvis (x := x)
    rw [hr] at hnormal
    have e1 : flow val ⟨.tgt, n.ix, .parts⟩ 0 x (theVisit FMM unif same n p c).1 =
        flow val ⟨.tgt, n.ix, .parts⟩ 0 x (fmmLeafLoop n.ix c) +
        if 2 ≤ n.ix.level then val ⟨.tgt, n.ix, .normal⟩ 0 x else 0 := by
      simp only [theVisit, Dashmm.visit, hr, FMM_process, FMM_inherit, flow_append, Bool.not_false, if_true]
      by_cases h2 : 2 ≤ n.ix.level
      · by_cases h3 : 3 ≤ n.ix.level <;>
          simp [h2, h3, Act.addParts, Act.addNormal, Act.LtoL, Act.LtoT, actFlow, contrib]
      · simp [h2, Act.addParts, actFlow]
    rw [e1]
    have e2 : flow val ⟨.tgt, n.ix, .normal⟩ 0 x (FMM.process n c (!false)).1 =
        flow val ⟨.tgt, n.ix, .normal⟩ 0 x (fmmLeafLoop n.ix c) := by
      simp only [FMM, flow_append, Bool.not_false, if_true]
      split <;> simp [Act.LtoT, actFlow]
    rw [e2] at hnormal
    split
    · rename_i h2
      have := hnormal h2
      omega
    · rename_i h2
      have : fmmLin val n x = 0 := by rw [fmmLin, if_neg (by omega)]
      have := f2 (by omega)
      omega

end Dashmm
