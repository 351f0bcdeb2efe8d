import Verif.Proofs.DistroSet
import Verif.Proofs.MergeShift
/-! Helper lemmas: the distribution policies on the DAGs of the four methods. -/
namespace Dashmm
namespace Distro

/-- The kinds of edges there are. -/
inductive EdgeShape : Edge → Prop
  | cross {e : Edge} (hs : e.src.side = .src) (hd : e.dst.side = .tgt) (ho : e.op ≠ .StoM)
      (hk : (e.op, e.src.kind, e.dst.kind) ∈ [(Op.StoT, Kind.parts, Kind.parts), (.StoL, .parts, .normal), (.MtoL, .normal, .normal),
        (.MtoT, .normal, .parts), (.ItoI, .interm, .interm)]) : EdgeShape e
  | StoM (ix : Index) : EdgeShape ⟨.StoM, ⟨.src, ix, .parts⟩, ⟨.src, ix, .normal⟩⟩
  | MtoM {a b : Index} (h : a.level = b.level + 1) : EdgeShape ⟨.MtoM, ⟨.src, a, .normal⟩, ⟨.src, b, .normal⟩⟩
  | MtoI (ix : Index) : EdgeShape ⟨.MtoI, ⟨.src, ix, .normal⟩, ⟨.src, ix, .interm⟩⟩
  | LtoL {a b : Index} (h : b.level = a.level + 1) : EdgeShape ⟨.LtoL, ⟨.tgt, a, .normal⟩, ⟨.tgt, b, .normal⟩⟩
  | LtoT (ix : Index) : EdgeShape ⟨.LtoT, ⟨.tgt, ix, .normal⟩, ⟨.tgt, ix, .parts⟩⟩
  | ItoL {a b : Index} (h : b.level = a.level + 1) : EdgeShape ⟨.ItoL, ⟨.tgt, a, .interm⟩, ⟨.tgt, b, .normal⟩⟩

/-- What is known about the DAG of a method. -/
structure Shape (m : Method) (unif : Nat) (same : Bool) (s t : Fin 8 → Oct) (acts : List Act) : Prop where
  src : ∀ r ∈ nodesOf acts, r.side = .src → ∃ n, Under (rootNode s) n ∧ r.ix = n.ix ∧
    (r.kind = .parts → n.isLeaf = true)
  tgt : ∀ r ∈ nodesOf acts, r.side = .tgt → ∃ n p c,
    Visit m unif same (rootNode t) false [rootNode s] n p c ∧ r.ix = n.ix ∧
    (r.kind = .parts → refine m unif same n c = false) ∧
    (r.kind = .interm → refine m unif same n c = true)
  ends : ∀ e ∈ edgesOf acts, e.src ∈ nodesOf acts ∧ e.dst ∈ nodesOf acts
  edge : ∀ e ∈ edgesOf acts, EdgeShape e
  ranked : Ranked (edgesOf acts)
  perm : acts.Perm (createDag m unif same s t)

theorem SrcAct.shape {lo : Nat} {n : TNode} {e : Edge} (h : SrcAct lo n (.link e)) : EdgeShape e := by
  cases h with
  | StoM => exact .StoM _
  | MtoM hk _ => exact .MtoM (kid_level hk)
  | MtoI => exact .MtoI _

theorem FmmAct.shape {s : Fin 8 → Oct} {t : Index} {e : Edge} (h : FmmAct s t (.link e)) : EdgeShape e := by
  cases h <;> exact .cross rfl rfl (by simp) (by simp)

theorem BhAct.shape {mac : Index → Index → Bool} {s : Fin 8 → Oct} {t : Index} {e : Edge}
    (h : BhAct mac s t (.link e)) : EdgeShape e := by
  cases h <;> exact .cross rfl rfl (by simp) (by simp)

theorem Fmm97VisitAct.shape {s : Fin 8 → Oct} {n : TNode} {p : Bool} {e : Edge}
    (h : Fmm97VisitAct s n p (.link e)) : EdgeShape e := by
  cases h with
  | fmm h =>
    cases h with
    | loop h => exact FmmAct.shape h
    | LtoL h => exact .LtoL (by rw [parent_level]; omega)
    | LtoT h => exact .LtoT _
  | ItoL h _ => exact .ItoL (by rw [parent_level]; omega)
  | ItoI h => exact .cross rfl rfl (by simp) (by simp)

theorem mem_edgesOf {e : Edge} {acts : List Act} : e ∈ edgesOf acts ↔ Act.link e ∈ acts := by
  unfold edgesOf
  rw [List.mem_filterMap]
  constructor
  · rintro ⟨a, ha, h⟩
    cases a with
    | add r => simp at h
    | link e' => simp at h; subst h; exact ha
  · intro h; exact ⟨_, h, rfl⟩

theorem shape_of {m : Method} {unif : Nat} {same : Bool} {s t : Fin 8 → Oct} {acts : List Act} {lo : Nat}
    (hr : Runs (createProg m unif same s t) acts)
    (hsafe : NoAssertionFails acts) (hranked : Ranked (edgesOf acts))
    (hsrc : ∀ n, ∀ a ∈ ownSrc m n, SrcAct lo n a)
    (htgt : ∀ n p c, Visit m unif same (rootNode t) false [rootNode s] n p c →
      ∀ e, Act.link e ∈ (theVisit m unif same n p c).1 → EdgeShape e)
    (hadd : ∀ n p c r, Visit m unif same (rootNode t) false [rootNode s] n p c →
      Act.add r ∈ (theVisit m unif same n p c).1 → r.side = .tgt ∧ r.ix = n.ix ∧
      (r.kind = .parts → refine m unif same n c = false) ∧ (r.kind = .interm → refine m unif same n c = true)) :
    Shape m unif same s t acts := by
  have hp := runs_perm hr
  refine ⟨?_, ?_, ?_, ?_, hranked, hp⟩
  · intro r hr' hside
    rw [mem_nodesOf, hp.mem_iff] at hr'
    rcases createDag_mem hr' with ⟨n, hu, ha⟩ | ⟨n, p, c, hv, ha⟩
    · have h := hsrc n _ ha
      generalize hx : Act.add r = x at h
      cases h <;> simp only [Act.addParts, Act.addNormal, Act.addInterm, Act.StoM, Act.MtoM, Act.MtoI,
        Act.add.injEq, reduceCtorEq] at hx
      · subst hx; exact ⟨n, hu, rfl, fun _ => by assumption⟩
      · subst hx; exact ⟨n, hu, rfl, by simp⟩
      · subst hx; exact ⟨n, hu, rfl, by simp⟩
    · have := (hadd n p c r hv ha).1
      rw [hside] at this; cases this
  · intro r hr' hside
    rw [mem_nodesOf, hp.mem_iff] at hr'
    rcases createDag_mem hr' with ⟨n, hu, ha⟩ | ⟨n, p, c, hv, ha⟩
    · have := (hsrc n _ ha).add_side r rfl
      rw [hside] at this; cases this
    · obtain ⟨_, h2, h3, h4⟩ := hadd n p c r hv ha
      exact ⟨n, p, c, hv, h2, h3, h4⟩
  · intro e he
    rw [mem_edgesOf] at he
    obtain ⟨pre, post, hh⟩ := List.append_of_mem he
    obtain ⟨h1, h2⟩ := hsafe.2 pre e post hh
    rw [hh]
    simp only [mem_nodesOf, List.mem_append] at h1 h2 ⊢
    exact ⟨.inl h1, .inl h2⟩
  · intro e he
    rw [mem_edgesOf, hp.mem_iff] at he
    rcases createDag_mem he with ⟨n, hu, ha⟩ | ⟨n, p, c, hv, ha⟩
    · exact SrcAct.shape (hsrc n _ ha)
    · exact htgt n p c hv e ha

section
variable {unif : Nat} {same : Bool} {s t : Fin 8 → Oct} {acts : List Act}

theorem Direct_shape (hr : Runs (createProg Direct unif same s t) acts) : Shape Direct unif same s t acts := by
  refine shape_of hr (Direct_safe hr) (Direct_ranked hr) Direct_src_act ?_ ?_
  · intro n p c hv e ha
    simp only [theVisit, Dashmm.visit] at ha
    rcases List.mem_append.1 ha with ha | ha
    · simp [Direct, Act.addParts] at ha
    · have hc : ∀ i ∈ c, Under (rootNode s) i := Direct_cons hv (by
        intro i hi; simp at hi; subst hi; exact .refl _)
      have := (doWhile_act (leaf := !refine Direct unif same n c) (bhPass_act (fun _ _ => false) s n
        (!refine Direct unif same n c)) (loopFuel c) c hc).1
      have e1 : ∀ l, directPass n l = bhPass (fun _ _ => false) n l := fun l => funext (directPass_eq n l)
      have ha' : Act.link e ∈ (doWhile (bhPass (fun _ _ => false) n (!refine Direct unif same n c))
        (!refine Direct unif same n c) (loopFuel c) c).1 := by
        rw [← e1]; exact ha
      exact BhAct.shape (this _ ha')
  · intro n p c r hv h
    obtain ⟨rfl, h'⟩ := (Direct_visit_add unif same n p c r).1 h
    exact ⟨rfl, rfl, fun _ => h', by simp⟩

theorem BH_shape {mac : Index → Index → Bool} (hr : Runs (createProg (BH mac) unif same s t) acts) :
    Shape (BH mac) unif same s t acts := by
  refine shape_of hr (BH_safe mac hr) (BH_ranked hr) (BH_src_act mac) ?_ ?_
  · intro n p c hv e ha
    simp only [theVisit, Dashmm.visit] at ha
    rcases List.mem_append.1 ha with ha | ha
    · simp [BH, Act.addParts] at ha
    · have hc : ∀ i ∈ c, Under (rootNode s) i := BH_cons hv (by
        intro i hi; simp at hi; subst hi; exact .refl _)
      exact BhAct.shape ((doWhile_act (bhPass_act mac s n _) _ _ hc).1 _ ha)
  · intro n p c r hv h
    obtain ⟨rfl, h'⟩ := (BH_visit_add mac unif same n p c r).1 h
    exact ⟨rfl, rfl, fun _ => h', by simp⟩

theorem FMM_shape (hr : Runs (createProg FMM unif same s t) acts) : Shape FMM unif same s t acts := by
  refine shape_of hr (FMM_safe hr) (FMM_ranked hr) FMM_src_act ?_ ?_
  · intro n p c hv e ha
    exact Fmm97VisitAct.shape (Fmm97VisitAct.fmm (p := p) (FMM_visit_act (FMM_cons hv (consOk_root s)) _ ha))
  · intro n p c r hv h
    obtain ⟨h1, h2⟩ := FMM_visit_add unif same n p c r h
    refine ⟨h1, h2, ?_, ?_⟩
    · intro hk
      have : r = ⟨.tgt, n.ix, .parts⟩ := by cases r; simp_all
      subst this
      exact (FMM_visit_parts unif same n p c).1 h
    · intro hk
      exfalso
      have hc := FMM_visit_act (unif := unif) (same := same) (p := p) (FMM_cons hv (consOk_root s)) _ h
      have : r = ⟨.tgt, n.ix, .interm⟩ := by cases r; simp_all
      subst this
      generalize hx : Act.add ⟨Side.tgt, n.ix, Kind.interm⟩ = x at hc
      cases hc with
      | loop h => cases h <;> simp [Act.StoL, Act.StoT, Act.MtoL, Act.MtoT] at hx
      | parts => simp [Act.addParts] at hx
      | normal => simp [Act.addNormal] at hx
      | LtoL => simp [Act.LtoL] at hx
      | LtoT => simp [Act.LtoT] at hx

theorem FMM97_shape (hr : Runs (createProg FMM97 unif same s t) acts) : Shape FMM97 unif same s t acts := by
  refine shape_of hr (FMM97_safe hr) (FMM97_ranked hr) FMM97_src_act ?_ ?_
  · intro n p c hv e ha
    exact Fmm97VisitAct.shape (FMM97_visit_act (FMM97_cons hv (F97Ok_root s t)).cons _ ha)
  · intro n p c r hv h
    obtain ⟨h1, h2⟩ := FMM97_visit_add unif same n p c r h
    refine ⟨h1, h2, ?_, ?_⟩
    · intro hk
      have : r = ⟨.tgt, n.ix, .parts⟩ := by cases r; simp_all
      subst this
      exact (FMM97_visit_parts unif same n p c).1 h
    · intro hk
      have : r = ⟨.tgt, n.ix, .interm⟩ := by cases r; simp_all
      subst this
      by_contra hrf
      rw [Bool.not_eq_true] at hrf
      simp only [theVisit, Dashmm.visit, List.mem_append, FMM97_inherit, FMM97_process, hrf] at h
      rcases h with (h | h) | h
      · simp [Act.addParts] at h
      · repeat' split at h
        all_goals simp [Act.addNormal, Act.LtoL, Act.ItoL] at h
      · simp only [Bool.not_false, if_true, List.mem_append] at h
        rcases h with h | h
        · exact fmm97LeafLoop_noadd _ _ _ h _ rfl
        · split at h <;> simp [Act.LtoT] at h

end

/-! ### Collected nodes -/

theorem collect_mem (own : Index → List Ref) (n : TNode) : ∀ r, r ∈ collect own n.ix (.node n.c) ↔
    ∃ n', Under n n' ∧ r ∈ own n'.ix := by
  induction n using tnode_induction with
  | h n ih =>
    intro r
    have := flatMap_kids (collect own) (fun _ => by rw [collect]) n
    rw [collect, this, List.mem_append]
    constructor
    · rintro (h | h)
      · obtain ⟨k, hk, ha⟩ := List.mem_flatMap.1 h
        obtain ⟨n', hv, h⟩ := (ih k hk r).1 ha
        exact ⟨n', .down hk hv, h⟩
      · exact ⟨n, .refl _, h⟩
    · rintro ⟨n', hu, h⟩
      cases hu with
      | refl => exact .inr h
      | down hk hu => exact .inl (List.mem_flatMap.2 ⟨_, hk, (ih _ hk r).2 ⟨n', hu, h⟩⟩)

theorem ownInternals_mem {nodes : List Ref} {sd : Side} {ix : Index} {r : Ref} :
    r ∈ ownInternals nodes sd ix ↔ r ∈ nodes ∧ r.side = sd ∧ r.ix = ix ∧ r.kind ≠ .parts := by
  obtain ⟨a, b, k⟩ := r
  unfold ownInternals
  rw [List.mem_append]
  constructor
  · rintro (h | h) <;> split at h <;> simp at h <;> obtain ⟨rfl, rfl, rfl⟩ := h <;> simp_all
  · rintro ⟨h1, rfl, rfl, h2⟩
    simp only at h1 h2 ⊢
    cases k with
    | parts => exact absurd rfl h2
    | normal => left; simp [h1]
    | interm => right; simp [h1]

theorem ownTerminals_mem {nodes : List Ref} {sd : Side} {ix : Index} {r : Ref} :
    r ∈ ownTerminals nodes sd ix ↔ r ∈ nodes ∧ r.side = sd ∧ r.ix = ix ∧ r.kind = .parts := by
  obtain ⟨a, b, k⟩ := r
  unfold ownTerminals
  constructor
  · intro h
    split at h <;> simp at h
    obtain ⟨rfl, rfl, rfl⟩ := h; simp_all
  · rintro ⟨h1, rfl, rfl, h2⟩
    simp only at h1 h2 ⊢
    subst h2; simp [h1]

section
variable {m : Method} {unif : Nat} {same : Bool} {s t : Fin 8 → Oct} {acts : List Act}
  (sh : Shape m unif same s t acts)
include sh

theorem Shape.mem_src {r : Ref} : r ∈ (collectDag acts s t).sourceNodes ↔
    r ∈ nodesOf acts ∧ r.side = .src ∧ r.kind ≠ .parts := by
  have := collect_mem (ownInternals (nodesOf acts) .src) (rootNode s) r
  rw [show (collectDag acts s t).sourceNodes = collect (ownInternals (nodesOf acts) .src) (rootNode s).ix
    (.node (rootNode s).c) from rfl, this]
  constructor
  · rintro ⟨n, _, h⟩
    obtain ⟨h1, h2, _, h3⟩ := ownInternals_mem.1 h
    exact ⟨h1, h2, h3⟩
  · rintro ⟨h1, h2, h3⟩
    obtain ⟨n, hu, hx, _⟩ := sh.src r h1 h2
    exact ⟨n, hu, ownInternals_mem.2 ⟨h1, h2, hx, h3⟩⟩

theorem Shape.mem_tgt {r : Ref} : r ∈ (collectDag acts s t).targetNodes ↔
    r ∈ nodesOf acts ∧ r.side = .tgt ∧ r.kind ≠ .parts := by
  have := collect_mem (ownInternals (nodesOf acts) .tgt) (rootNode t) r
  rw [show (collectDag acts s t).targetNodes = collect (ownInternals (nodesOf acts) .tgt) (rootNode t).ix
    (.node (rootNode t).c) from rfl, this]
  constructor
  · rintro ⟨n, _, h⟩
    obtain ⟨h1, h2, _, h3⟩ := ownInternals_mem.1 h
    exact ⟨h1, h2, h3⟩
  · rintro ⟨h1, h2, h3⟩
    obtain ⟨n, p, c, hu, hx, _⟩ := sh.tgt r h1 h2
    exact ⟨n, hu.under, ownInternals_mem.2 ⟨h1, h2, hx, h3⟩⟩

variable {ranks : Nat} {P : Policy} {rankOf : Nat → Nat} {G : Ref → Int} {L : Labels}
  (hL : LabelsOk ranks m unif same P rankOf s t G L)
include hL

/-- The terminal nodes have their place. -/
theorem Shape.parts {r : Ref} (hr : r ∈ nodesOf acts) (hk : r.kind = .parts) :
    gridRank unif rankOf r.ix = some (L.loc r) ∧ 0 ≤ L.loc r := by
  obtain ⟨sd, ix, k⟩ := r
  simp only at hk; subst hk
  cases sd with
  | src =>
    obtain ⟨n, hu, hx, hl⟩ := sh.src _ hr rfl
    simp only at hx; subst hx
    exact hL.srcLeaf n hu (hl rfl) .parts (by simp)
  | tgt =>
    obtain ⟨n, p, c, hv, hx, hl, _⟩ := sh.tgt _ hr rfl
    simp only at hx; subst hx
    exact hL.tgtLeaf n p c hv (hl rfl) .parts (by simp)

/-- Both ends of an `S->M` edge have the same place. -/
theorem Shape.stom {e : Edge} (he : e ∈ edgesOf acts) (ho : e.op = .StoM) :
    L.loc e.src = L.loc e.dst ∧ 0 ≤ L.loc e.src := by
  have hsrc := (sh.ends e he).1
  have h := sh.edge e he
  cases h with
  | cross _ _ h => exact absurd ho h
  | StoM ix =>
    obtain ⟨n, hu, hx, hl⟩ := sh.src _ hsrc rfl
    simp only at hx; subst hx
    have h1 := hL.srcLeaf n hu (hl rfl) .parts (by simp)
    have h2 := hL.srcLeaf n hu (hl rfl) .normal (by simp)
    refine ⟨?_, h1.2⟩
    have := h1.1.symm.trans h2.1
    simpa using this
  | MtoM h => simp at ho
  | MtoI => simp at ho
  | LtoL h => simp at ho
  | LtoT => simp at ho
  | ItoL h => simp at ho

omit sh in
theorem LabelsOk.range (r : Ref) (h : 0 ≤ L.loc r) : L.loc r < ranks := by
  rcases hL.loc r with h' | h'
  · omega
  · exact h'.2.2

theorem Shape.good {loc : Ref → Int} (hk : ∀ r, 0 ≤ L.loc r → loc r = L.loc r)
    (hex : ∀ r ∈ nodesOf acts, r.kind ≠ .parts → 0 ≤ loc r) (hlt : ∀ r, 0 ≤ loc r → loc r < ranks) :
    GoodPlacement ranks (nodesOf acts) (edgesOf acts) (gridRank unif rankOf) L.loc loc := by
  have hp : ∀ r ∈ nodesOf acts, r.kind = .parts → loc r = L.loc r ∧ 0 ≤ loc r := by
    intro r hr hk'
    have := (sh.parts hL hr hk').2
    rw [hk r this]; exact ⟨rfl, this⟩
  refine ⟨?_, hk, ?_, ?_⟩
  · intro r hr
    have h0 : 0 ≤ loc r := by
      by_cases h : r.kind = .parts
      · exact (hp r hr h).2
      · exact hex r hr h
    exact ⟨h0, hlt r h0⟩
  · intro r hr h
    rw [(hp r hr h).1]
    exact (sh.parts hL hr h).1
  · intro e he ho
    obtain ⟨h1, h2⟩ := sh.stom hL he ho
    rw [hk _ h2, hk _ (h1 ▸ h2), h1]
end

end Distro
end Dashmm
