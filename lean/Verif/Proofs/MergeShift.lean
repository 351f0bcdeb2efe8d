import Verif.Spec.MergeShift
import Verif.Proofs.Acyclic
/-! The exhaustive check of the merge-and-shift tables (the domain of the tables is finite), and its
connection with the edges FMM97 makes. -/
namespace Dashmm

set_option maxRecDepth 100000 in
theorem paths_table : ∀ dx ∈ ([-2, -1, 0, 1, 2, 3] : List Int),
    ∀ dy ∈ ([-2, -1, 0, 1, 2, 3] : List Int), ∀ dz ∈ ([-2, -1, 0, 1, 2, 3] : List Int),
    ∀ c ∈ List.range 8,
      (mergeTags dx dy dz).isSome = true ∧
      (paths dx dy dz c).length = (if farOct dx dy dz c then 1 else 0) ∧
      ∀ p ∈ paths dx dy dz c, PathOk dx dy dz c p := by
  decide +kernel

theorem farOct_separated {k n : Index} (hl : k.level = n.level + 1) {b : Nat} (hb : b < 8) :
    farOct ((k.x : Int) - 2 * n.x) ((k.y : Int) - 2 * n.y) ((k.z : Int) - 2 * n.z) b = true ↔
      Separated k (n.child b) := by
  rw [← wellSep_iff_separated (show k.level = (n.child b).level from hl), wellSep_iff,
    Index.child_eq n b hb]
  simp only [farOct, Bool.or_eq_true, decide_eq_true_iff, or_assoc]
  have e1 : (k.x : Int) - ((2 * n.x + b % 2 : Nat) : Int) = (k.x : Int) - 2 * n.x - (b % 2 : Nat) := by
    omega
  have e2 : (k.y : Int) - ((2 * n.y + b / 2 % 2 : Nat) : Int) =
      (k.y : Int) - 2 * n.y - (b / 2 % 2 : Nat) := by omega
  have e3 : (k.z : Int) - ((2 * n.z + b / 4 % 2 : Nat) : Int) =
      (k.z : Int) - 2 * n.z - (b / 4 % 2 : Nat) := by omega
  simp only [octX, octY, octZ, e1, e2, e3]

theorem mem_edges_createDag {m : Method} {unif : Nat} {same : Bool} {s t : Fin 8 → Oct}
    {acts : List Act} (hr : Runs (createProg m unif same s t) acts) {e : Edge}
    (he : e ∈ edgesOf acts) : Act.link e ∈ createDag m unif same s t := by
  rw [← (runs_perm hr).mem_iff]
  obtain ⟨a, ha, hae⟩ := List.mem_filterMap.1 he
  cases a with
  | add r => simp at hae
  | link e' => simp at hae; subst hae; exact ha

theorem FMM_separation {unif : Nat} {same : Bool} {s t : Fin 8 → Oct} {acts : List Act}
    (hr : Runs (createProg FMM unif same s t) acts) {e : Edge} (he : e ∈ edgesOf acts) :
    (e.op = .MtoL ∨ e.op = .StoL ∨ e.op = .MtoT → Separated e.src.ix e.dst.ix) ∧
    (e.op = .StoT → ¬ Separated e.src.ix e.dst.ix) := by
  have h := mem_edges_createDag hr he
  rcases createDag_mem h with ⟨n, hu, ha⟩ | ⟨n, p, c, hv, ha⟩
  · have := FMM_src_act n _ ha
    generalize hx : Act.link e = x at this
    cases this <;> cases hx <;> simp
  · have := FMM_visit_act (FMM_cons hv (consOk_root s)) _ ha
    generalize hx : Act.link e = x at this
    cases this with
    | loop h =>
      have := h.separated e hx.symm
      refine ⟨fun ho => (this.2 ?_).1, this.1⟩
      rcases ho with ho | ho | ho <;> simp [ho]
    | parts => cases hx
    | normal => cases hx
    | LtoL => cases hx; simp
    | LtoT => cases hx; simp

theorem FMM97_separation {unif : Nat} {same : Bool} {s t : Fin 8 → Oct} {acts : List Act}
    (hr : Runs (createProg FMM97 unif same s t) acts) {e : Edge} (he : e ∈ edgesOf acts) :
    (e.op = .MtoL ∨ e.op = .StoL ∨ e.op = .MtoT → Separated e.src.ix e.dst.ix) ∧
    (e.op = .StoT → ¬ Separated e.src.ix e.dst.ix) ∧
    (e.op = .ItoI → e.src.ix.level = e.dst.ix.level + 1 ∧
      (-2 ≤ (e.src.ix.x : Int) - 2 * e.dst.ix.x ∧ (e.src.ix.x : Int) - 2 * e.dst.ix.x ≤ 3) ∧
      (-2 ≤ (e.src.ix.y : Int) - 2 * e.dst.ix.y ∧ (e.src.ix.y : Int) - 2 * e.dst.ix.y ≤ 3) ∧
      (-2 ≤ (e.src.ix.z : Int) - 2 * e.dst.ix.z ∧ (e.src.ix.z : Int) - 2 * e.dst.ix.z ≤ 3)) := by
  have h := mem_edges_createDag hr he
  rcases createDag_mem h with ⟨n, hu, ha⟩ | ⟨n, p, c, hv, ha⟩
  · have := FMM97_src_act n _ ha
    generalize hx : Act.link e = x at this
    cases this <;> cases hx <;> simp
  · have := FMM97_visit_act (FMM97_cons hv (F97Ok_root s t)).cons _ ha
    generalize hx : Act.link e = x at this
    cases this with
    | fmm h =>
      cases h with
      | loop h =>
        have := h.separated e hx.symm
        refine ⟨fun ho => (this.2 ?_).1, this.1, fun hi => ?_⟩
        · rcases ho with ho | ho | ho <;> simp [ho]
        · have := (this.2 (by simp [hi])).2
          simp [hi] at this
      | parts => cases hx
      | normal => cases hx
      | LtoL => cases hx; simp
      | LtoT => cases hx; simp
    | ItoL => cases hx; simp
    | interm => cases hx
    | @ItoI k hM =>
      cases hx
      refine ⟨by simp, by simp, fun _ => ?_⟩
      obtain ⟨j, hj, hjl, hjw, _⟩ := hM.near
      obtain ⟨a, _, ha⟩ := mem_kids.1 hj
      have hnear := near_child hjw (b := 0) a.isLt (by omega)
      simp only [← ha] at hnear
      exact ⟨hM.level, hnear.1, hnear.2.1, hnear.2.2.1⟩

/-- Where the children of a visited node are, `partition_targets` for the four methods. -/
theorem visit_add_ix {m : Method} (hadd : ∀ n p c r, Act.add r ∈ (theVisit m unif same n p c).1 →
    r.side = .tgt ∧ r.ix = n.ix)
    (hparts : ∀ n p c, Act.addParts .tgt n.ix ∈ (theVisit m unif same n p c).1 ↔
      refine m unif same n c = false)
    (hsrc : ∀ n r, Act.add r ∈ ownSrc m n → r.side = .src)
    {s t : Fin 8 → Oct} {acts : List Act}
    (hr : Runs (createProg m unif same s t) acts)
    {x : Index} (hx : x ∈ leaves Index.root (.node t)) (hu : unif ≤ x.level) :
    ∃ r, (r ∈ nodesOf acts ∧ r.side = .tgt ∧ r.kind = .parts ∧ InSubtree r.ix x) ∧
      ∀ r', r' ∈ nodesOf acts → r'.side = .tgt → r'.kind = .parts → InSubtree r'.ix x → r' = r := by
  have key := partition_targets (m := m) (unif := unif) (same := same) hadd hparts (rootNode t) false
    [rootNode s] x hx hu
  obtain ⟨⟨r, h1, h2, h3, h4⟩, huniq⟩ := key
  have hmem : ∀ r, r ∈ nodesOf acts ↔ Act.add r ∈ createDag m unif same s t := by
    intro r
    rw [← (runs_perm hr).mem_iff]
    unfold nodesOf
    rw [List.mem_filterMap]
    constructor
    · rintro ⟨a, ha, hae⟩
      cases a with
      | link e => simp at hae
      | add r' => simp at hae; subst hae; exact ha
    · intro h; exact ⟨_, h, rfl⟩
  have htgt : ∀ r, r ∈ nodesOf acts → r.side = .tgt →
      Act.add r ∈ tgtActs m unif same (rootNode t) false [rootNode s] := by
    intro r hr' hs
    rw [hmem, createDag_eq, List.mem_append] at hr'
    rcases hr' with h | h
    · obtain ⟨n, _, hn⟩ := srcActs_mem m _ _ h
      have := hsrc n r hn
      rw [hs] at this; cases this
    · exact h
  refine ⟨r, ⟨(hmem r).2 ?_, h2, h3, h4⟩, fun r' hr' hs hk hd => ?_⟩
  · rw [createDag_eq, List.mem_append]; exact .inr h1
  · exact huniq r' r (htgt r' hr' hs) h1 hk h3 hd h4

theorem SrcAct.add_side {lo : Nat} {n : TNode} {a : Act} (h : SrcAct lo n a) :
    ∀ r, a = .add r → r.side = .src := by
  intro r hr; cases h <;> cases hr <;> rfl

theorem bhPass_noadd (mac : Index → Index → Bool) (n : TNode) (leaf : Bool) :
    ∀ c, ∀ a ∈ (bhPass mac n leaf c).1, ∀ r, a ≠ .add r := by
  intro c
  induction c with
  | nil => simp [bhPass]
  | cons i c ih =>
    intro a ha r
    simp only [bhPass] at ha
    repeat' split at ha
    all_goals first
      | exact ih a ha r
      | (rcases List.mem_cons.1 ha with rfl | ha
         · simp [Act.MtoT, Act.StoT]
         · exact ih a ha r)

theorem directPass_noadd (n : TNode) (leaf : Bool) :
    ∀ c, ∀ a ∈ (directPass n leaf c).1, ∀ r, a ≠ .add r := by
  intro c
  induction c with
  | nil => simp [directPass]
  | cons i c ih =>
    intro a ha r
    simp only [directPass] at ha
    repeat' split at ha
    all_goals first
      | exact ih a ha r
      | (rcases List.mem_cons.1 ha with rfl | ha
         · simp [Act.MtoT, Act.StoT]
         · exact ih a ha r)

theorem doWhile_noadd {pass : List TNode → List Act × List TNode} {leaf : Bool}
    (hp : ∀ c, ∀ a ∈ (pass c).1, ∀ r, a ≠ Act.add r) :
    ∀ fuel c, ∀ a ∈ (doWhile pass leaf fuel c).1, ∀ r, a ≠ Act.add r := by
  intro fuel c
  exact (doWhile_act (R := fun _ => True) (P := fun a => ∀ r, a ≠ Act.add r)
    (fun c _ => ⟨hp c, fun _ _ => trivial⟩) fuel c (fun _ _ => trivial)).1

theorem BH_visit_add (mac : Index → Index → Bool) (unif : Nat) (same : Bool) (n : TNode) (p : Bool)
    (c : List TNode) (r : Ref) : Act.add r ∈ (theVisit (BH mac) unif same n p c).1 ↔
      r = ⟨.tgt, n.ix, .parts⟩ ∧ refine (BH mac) unif same n c = false := by
  have key : Act.add r ∈ ((BH mac).process n c (!refine (BH mac) unif same n c)).1 → False := fun h =>
    doWhile_noadd (bhPass_noadd mac n _) _ _ _ h r rfl
  simp only [theVisit, Dashmm.visit, List.mem_append]
  rw [or_iff_left key]
  cases refine (BH mac) unif same n c <;> simp [BH, Act.addParts]

theorem Direct_visit_add (unif : Nat) (same : Bool) (n : TNode) (p : Bool)
    (c : List TNode) (r : Ref) : Act.add r ∈ (theVisit Direct unif same n p c).1 ↔
      r = ⟨.tgt, n.ix, .parts⟩ ∧ refine Direct unif same n c = false := by
  have key : Act.add r ∈ (Direct.process n c (!refine Direct unif same n c)).1 → False := fun h =>
    doWhile_noadd (directPass_noadd n _) _ _ _ h r rfl
  simp only [theVisit, Dashmm.visit, List.mem_append]
  rw [or_iff_left key]
  cases refine Direct unif same n c <;> simp [Direct, Act.addParts]

theorem procColl_noadd (t : Index) (n : TNode) :
    ∀ a ∈ procColl t n.ix (.node n.c), ∀ r, a ≠ .add r := by
  induction n using tnode_induction with
  | h n ih =>
    intro a ha r
    rw [procColl_node] at ha
    repeat' split at ha
    · simp at ha; subst ha; simp [Act.MtoT]
    · simp at ha; subst ha; simp [Act.StoT]
    · obtain ⟨k, hk, ha⟩ := List.mem_flatMap.1 ha
      exact ih k hk a ha r

theorem fmmLeafLoop_noadd (t : Index) : ∀ c, ∀ a ∈ fmmLeafLoop t c, ∀ r, a ≠ .add r := by
  intro c
  induction c with
  | nil => simp [fmmLeafLoop]
  | cons i c ih =>
    intro a ha r
    simp only [fmmLeafLoop, List.mem_append] at ha
    rcases ha with ha | ha
    · repeat' split at ha
      · simp at ha; subst ha; simp [Act.StoL]
      · simp at ha; subst ha; simp [Act.StoT]
      · simp at ha; subst ha; simp [Act.MtoL]
      · exact procColl_noadd t i a ha r
    · exact ih a ha r

theorem fmm97LeafLoop_noadd (t : Index) : ∀ c, ∀ a ∈ fmm97LeafLoop t c, ∀ r, a ≠ .add r := by
  intro c
  induction c with
  | nil => simp [fmm97LeafLoop]
  | cons i c ih =>
    intro a ha r
    simp only [fmm97LeafLoop, List.mem_append] at ha
    rcases ha with ha | ha
    · repeat' split at ha
      · simp at ha; subst ha; simp [Act.StoL]
      · simp at ha; subst ha; simp [Act.StoT]
      · exact procColl_noadd t i a ha r
      · simp at ha
    · exact ih a ha r

theorem fmmInnerLoop_noadd (t : Index) : ∀ c, ∀ a ∈ (fmmInnerLoop t c).1, ∀ r, a ≠ .add r := by
  intro c
  induction c with
  | nil => simp [fmmInnerLoop]
  | cons i c ih =>
    intro a ha r
    simp only [fmmInnerLoop] at ha
    repeat' split at ha
    all_goals first
      | exact ih a ha r
      | (rcases List.mem_cons.1 ha with rfl | ha
         · simp [Act.StoL, Act.MtoL]
         · exact ih a ha r)

theorem fmm97InnerLoop_noadd (t : Index) : ∀ c, ∀ a ∈ (fmm97InnerLoop t c).1, ∀ r, a ≠ .add r := by
  intro c
  induction c with
  | nil => simp [fmm97InnerLoop]
  | cons i c ih =>
    intro a ha r
    simp only [fmm97InnerLoop] at ha
    repeat' split at ha
    all_goals first
      | exact ih a ha r
      | (rcases List.mem_cons.1 ha with rfl | ha
         · simp [Act.StoL, Act.MtoL]
         · exact ih a ha r)

theorem FMM_visit_add (unif : Nat) (same : Bool) (n : TNode) (p : Bool) (c : List TNode) (r : Ref)
    (h : Act.add r ∈ (theVisit FMM unif same n p c).1) : r.side = .tgt ∧ r.ix = n.ix := by
  simp only [theVisit, Dashmm.visit, List.mem_append, FMM_inherit, FMM_process] at h
  rcases h with (h | h) | h
  · split at h <;> simp [Act.addParts] at h
    simp [h]
  · repeat' split at h
    all_goals simp [Act.addNormal, Act.LtoL] at h
    all_goals simp [h]
  · exfalso
    split at h
    · simp only [List.mem_append] at h
      rcases h with h | h
      · exact fmmLeafLoop_noadd _ _ _ h r rfl
      · split at h <;> simp [Act.LtoT] at h
    · exact fmmInnerLoop_noadd _ _ _ h r rfl

theorem FMM_visit_parts (unif : Nat) (same : Bool) (n : TNode) (p : Bool) (c : List TNode) :
    Act.addParts .tgt n.ix ∈ (theVisit FMM unif same n p c).1 ↔ refine FMM unif same n c = false := by
  simp only [theVisit, Dashmm.visit, List.mem_append, FMM_inherit, FMM_process]
  constructor
  · rintro ((h | h) | h)
    · split at h
      · rename_i hh; simpa using hh
      · simp at h
    · repeat' split at h
      all_goals simp [Act.addNormal, Act.LtoL, Act.addParts] at h
    · exfalso
      split at h
      · simp only [List.mem_append] at h
        rcases h with h | h
        · exact fmmLeafLoop_noadd _ _ _ h _ rfl
        · split at h <;> simp [Act.LtoT, Act.addParts] at h
      · exact fmmInnerLoop_noadd _ _ _ h _ rfl
  · intro h; left; left; simp [h]

theorem FMM97_visit_add (unif : Nat) (same : Bool) (n : TNode) (p : Bool) (c : List TNode) (r : Ref)
    (h : Act.add r ∈ (theVisit FMM97 unif same n p c).1) : r.side = .tgt ∧ r.ix = n.ix := by
  simp only [theVisit, Dashmm.visit, List.mem_append, FMM97_inherit, FMM97_process] at h
  rcases h with (h | h) | h
  · split at h <;> simp [Act.addParts] at h
    simp [h]
  · repeat' split at h
    all_goals simp [Act.addNormal, Act.LtoL, Act.ItoL] at h
    all_goals simp [h]
  · split at h
    · exfalso
      simp only [List.mem_append] at h
      rcases h with h | h
      · exact fmm97LeafLoop_noadd _ _ _ h r rfl
      · split at h <;> simp [Act.LtoT] at h
    · simp only [List.mem_append] at h
      rcases h with h | h
      · exact absurd rfl (fmm97InnerLoop_noadd _ _ _ h r)
      · unfold mergeActs at h
        split at h <;> simp [Act.addInterm, Act.ItoI] at h
        simp [h]

theorem FMM97_visit_parts (unif : Nat) (same : Bool) (n : TNode) (p : Bool) (c : List TNode) :
    Act.addParts .tgt n.ix ∈ (theVisit FMM97 unif same n p c).1 ↔
      refine FMM97 unif same n c = false := by
  simp only [theVisit, Dashmm.visit, List.mem_append, FMM97_inherit, FMM97_process]
  constructor
  · rintro ((h | h) | h)
    · split at h
      · rename_i hh; simpa using hh
      · simp at h
    · repeat' split at h
      all_goals simp [Act.addNormal, Act.LtoL, Act.addParts, Act.ItoL] at h
    · exfalso
      split at h
      · simp only [List.mem_append] at h
        rcases h with h | h
        · exact fmm97LeafLoop_noadd _ _ _ h _ rfl
        · split at h <;> simp [Act.LtoT, Act.addParts] at h
      · simp only [List.mem_append] at h
        rcases h with h | h
        · exact absurd rfl (fmm97InnerLoop_noadd _ _ _ h _)
        · unfold mergeActs at h
          split at h <;> simp [Act.addInterm, Act.ItoI, Act.addParts] at h
  · intro h; left; left; simp [h]

end Dashmm
