import Verif.Model.Kernels
import Verif.Proofs.Inputs
import Verif.Proofs.DistroDag
/-! Which operations occur in the DAG of each method. -/
namespace Dashmm
open Distro

/-- The operation of an action, if it is a link, is one of the list. -/
def OpIn (ops : List Op) (a : Act) : Prop := ∀ e, a = .link e → e.op ∈ ops

theorem serveAll_eq (k : Expansion) (u : ℤ) {es : List Edge} (h : ∀ e ∈ es, k.serve u e = some true) :
    k.serveAll u es = some es.length := by
  induction es with
  | nil => rfl
  | cons e es ih =>
    have h1 := h e (by simp)
    rw [Expansion.serveAll, ih fun e' he => h e' (by simp [he]), h1]
    rfl

theorem serveAll_none (k : Expansion) (u : ℤ) {es : List Edge} {e : Edge} (he : e ∈ es)
    (h : k.serve u e = none) : k.serveAll u es = none := by
  induction es with
  | nil => simp at he
  | cons e' es ih =>
    rw [Expansion.serveAll]
    rcases List.mem_cons.1 he with rfl | he
    · simp [h]
    · rw [ih he]; split <;> simp_all

theorem opIn_mono {A B : List Op} (h : ∀ o ∈ A, o ∈ B) {a : Act} (ha : OpIn A a) : OpIn B a :=
  fun e he => h _ (ha e he)

theorem directPass_ops (n : TNode) (leaf : Bool) : ∀ c, ∀ a ∈ (directPass n leaf c).1, OpIn [.StoT] a
  | [] => by simp [directPass]
  | i :: c => by
    have ih := directPass_ops n leaf c
    intro a ha
    rw [directPass] at ha
    split at ha
    · split at ha
      · rcases List.mem_cons.1 ha with rfl | ha
        · intro e he; cases he; simp
        · exact ih a ha
      · exact ih a ha
    · exact ih a ha

theorem bhPass_ops (mac : Index → Index → Bool) (n : TNode) (leaf : Bool) : ∀ c, ∀ a ∈ (bhPass mac n leaf c).1,
    OpIn [.MtoT, .StoT] a
  | [] => by simp [bhPass]
  | i :: c => by
    have ih := bhPass_ops mac n leaf c
    intro a ha
    rw [bhPass] at ha
    repeat' split at ha
    all_goals first
      | exact ih a ha
      | (rcases List.mem_cons.1 ha with rfl | ha
         · intro e he; cases he; simp
         · exact ih a ha)

theorem doWhile_ops {pass : List TNode → List Act × List TNode} {leaf : Bool} {ops : List Op}
    (h : ∀ c, ∀ a ∈ (pass c).1, OpIn ops a) : ∀ f c, ∀ a ∈ (doWhile pass leaf f c).1, OpIn ops a
  | 0, c => by simp [doWhile]
  | f + 1, c => by
    intro a ha
    rw [doWhile] at ha
    dsimp only at ha
    split at ha
    · rcases List.mem_append.1 ha with ha | ha
      · exact h c a ha
      · exact doWhile_ops h f _ a ha
    · exact h c a ha

theorem procColl_ops (t : Index) (n : TNode) : ∀ a ∈ procColl t n.ix (.node n.c), OpIn [.MtoT, .StoT] a := by
  suffices h : ∀ (o : Oct) (s : Index), ∀ a ∈ procColl t s o, OpIn [.MtoT, .StoT] a from h _ _
  intro o
  induction o with
  | nil => intro s; simp [procColl]
  | node c ih =>
    intro s a ha
    rw [procColl] at ha
    split at ha
    · simp at ha; subst ha; intro e he; cases he; simp
    · split at ha
      · simp at ha; subst ha; intro e he; cases he; simp
      · obtain ⟨i, _, ha⟩ := List.mem_flatMap.1 ha
        exact ih i _ a ha

theorem fmmLeafLoop_ops (t : Index) : ∀ c, ∀ a ∈ fmmLeafLoop t c, OpIn [.StoL, .MtoL, .MtoT, .StoT] a
  | [] => by simp [fmmLeafLoop]
  | i :: c => by
    have ih := fmmLeafLoop_ops t c
    intro a ha
    rw [fmmLeafLoop] at ha
    rcases List.mem_append.1 ha with ha | ha
    · repeat' split at ha
      all_goals first
        | exact opIn_mono (by simp) (procColl_ops t i a ha)
        | (simp at ha; subst ha; intro e he; cases he; simp)
    · exact ih a ha

theorem fmmInnerLoop_ops (t : Index) : ∀ c, ∀ a ∈ (fmmInnerLoop t c).1, OpIn [.StoL, .MtoL] a
  | [] => by simp [fmmInnerLoop]
  | i :: c => by
    have ih := fmmInnerLoop_ops t c
    intro a ha
    rw [fmmInnerLoop] at ha
    repeat' split at ha
    all_goals first
      | exact ih a ha
      | (rcases List.mem_cons.1 ha with rfl | ha
         · intro e he; cases he; simp
         · exact ih a ha)

theorem fmm97LeafLoop_ops (t : Index) : ∀ c, ∀ a ∈ fmm97LeafLoop t c, OpIn [.StoL, .MtoT, .StoT] a
  | [] => by simp [fmm97LeafLoop]
  | i :: c => by
    have ih := fmm97LeafLoop_ops t c
    intro a ha
    rw [fmm97LeafLoop] at ha
    rcases List.mem_append.1 ha with ha | ha
    · repeat' split at ha
      all_goals first
        | exact opIn_mono (by simp) (procColl_ops t i a ha)
        | (simp at ha; subst ha; intro e he; cases he; simp)
        | simp at ha
    · exact ih a ha

theorem fmm97InnerLoop_ops (t : Index) : ∀ c, ∀ a ∈ (fmm97InnerLoop t c).1, OpIn [.StoL] a
  | [] => by simp [fmm97InnerLoop]
  | i :: c => by
    have ih := fmm97InnerLoop_ops t c
    intro a ha
    rw [fmm97InnerLoop] at ha
    dsimp only at ha
    repeat' split at ha
    all_goals first
      | exact ih a ha
      | (rcases List.mem_cons.1 ha with rfl | ha
         · intro e he; cases he; simp
         · exact ih a ha)

/-- From the methods' own actions to the DAG. -/
theorem edges_of {m : Method} {unif : Nat} {same : Bool} {s t : Fin 8 → Oct} {P : Edge → Prop}
    (h1 : ∀ n, ∀ a ∈ m.generate n, ∀ e, a = .link e → P e) (h2 : ∀ n, ∀ a ∈ m.aggregate n, ∀ e, a = .link e → P e)
    (h3 : ∀ n p l, ∀ a ∈ m.inherit n p l, ∀ e, a = .link e → P e)
    (h4 : ∀ n c l, ∀ a ∈ (m.process n c l).1, ∀ e, a = .link e → P e)
    {acts : List Act} (hr : Runs (createProg m unif same s t) acts) : ∀ e ∈ edgesOf acts, P e := by
  intro e he
  have he' : Act.link e ∈ createDag m unif same s t := by
    rw [← (runs_perm hr).mem_iff]
    unfold edgesOf at he
    obtain ⟨a, ha, h⟩ := List.mem_filterMap.1 he
    cases a with
    | add r => simp at h
    | link e' => simp at h; subst h; exact ha
  rcases createDag_mem he' with ⟨n, -, ha⟩ | ⟨n, p, c, -, ha⟩
  · unfold ownSrc at ha
    split at ha
    · exact h1 n _ ha e rfl
    · exact h2 n _ ha e rfl
  · simp only [theVisit, Dashmm.visit] at ha
    rcases List.mem_append.1 ha with ha | ha
    · exact h3 _ _ _ _ ha e rfl
    · exact h4 _ _ _ _ ha e rfl

theorem ops_of {m : Method} {unif : Nat} {same : Bool} {s t : Fin 8 → Oct} {ops : List Op}
    (h1 : ∀ n, ∀ a ∈ m.generate n, OpIn ops a) (h2 : ∀ n, ∀ a ∈ m.aggregate n, OpIn ops a)
    (h3 : ∀ n p l, ∀ a ∈ m.inherit n p l, OpIn ops a) (h4 : ∀ n c l, ∀ a ∈ (m.process n c l).1, OpIn ops a)
    {acts : List Act} (hr : Runs (createProg m unif same s t) acts) : ∀ e ∈ edgesOf acts, e.op ∈ ops :=
  edges_of (P := fun e => e.op ∈ ops) h1 h2 h3 h4 hr

theorem Direct_ops {unif : Nat} {same : Bool} {s t : Fin 8 → Oct} {acts : List Act}
    (hr : Runs (createProg Direct unif same s t) acts) : ∀ e ∈ edgesOf acts, e.op ∈ [Op.StoT] := by
  refine ops_of ?_ ?_ ?_ ?_ hr
  · intro n a ha e he; subst he; simp [Direct, Act.addParts] at ha
  · intro n a ha; simp [Direct] at ha
  · intro n p l a ha e he; subst he; simp [Direct, Act.addParts] at ha
  · intro n c l a ha; exact doWhile_ops (directPass_ops n l) _ _ a ha

theorem BH_ops {mac : Index → Index → Bool} {unif : Nat} {same : Bool} {s t : Fin 8 → Oct} {acts : List Act}
    (hr : Runs (createProg (BH mac) unif same s t) acts) :
    ∀ e ∈ edgesOf acts, e.op ∈ [Op.StoM, .MtoM, .MtoT, .StoT] := by
  refine ops_of ?_ ?_ ?_ ?_ hr
  · intro n a ha e he; subst he
    simp [BH, Act.addParts, Act.addNormal, Act.StoM] at ha; subst ha; simp
  · intro n a ha e he; subst he
    simp [BH, Act.addNormal, Act.MtoM] at ha
    obtain ⟨k, _, rfl⟩ := ha; simp
  · intro n p l a ha e he; subst he; simp [BH, Act.addParts] at ha
  · intro n c l a ha; exact opIn_mono (by simp) (doWhile_ops (bhPass_ops mac n l) _ _ a ha)

theorem FMM_ops {unif : Nat} {same : Bool} {s t : Fin 8 → Oct} {acts : List Act}
    (hr : Runs (createProg FMM unif same s t) acts) :
    ∀ e ∈ edgesOf acts, e.op ∈ [Op.StoM, .MtoM, .StoL, .MtoL, .MtoT, .LtoL, .LtoT, .StoT] := by
  refine ops_of ?_ ?_ ?_ ?_ hr
  · intro n a ha e he; subst he
    simp only [FMM] at ha
    split at ha <;> simp [Act.addParts, Act.addNormal, Act.StoM] at ha
    subst ha; simp
  · intro n a ha e he; subst he
    simp only [FMM] at ha
    split at ha <;> simp [Act.addNormal, Act.MtoM] at ha
    obtain ⟨k, _, rfl⟩ := ha; simp
  · intro n p l a ha e he; subst he
    simp only [FMM] at ha
    repeat' split at ha
    all_goals simp [Act.addParts, Act.addNormal, Act.LtoL] at ha
    all_goals (subst ha; simp)
  · intro n c l a ha
    simp only [FMM] at ha
    split at ha
    · rcases List.mem_append.1 ha with ha | ha
      · exact opIn_mono (by simp) (fmmLeafLoop_ops _ _ a ha)
      · split at ha <;> simp at ha
        subst ha; intro e he; cases he; simp
    · exact opIn_mono (by simp) (fmmInnerLoop_ops _ _ a ha)

theorem FMM97_ops {unif : Nat} {same : Bool} {s t : Fin 8 → Oct} {acts : List Act}
    (hr : Runs (createProg FMM97 unif same s t) acts) :
    ∀ e ∈ edgesOf acts, e.op ∈ [Op.StoM, .MtoM, .StoL, .MtoT, .LtoL, .LtoT, .StoT, .MtoI, .ItoI, .ItoL] := by
  refine ops_of ?_ ?_ ?_ ?_ hr
  · intro n a ha e he; subst he
    simp only [FMM97] at ha
    split at ha <;> simp [Act.addParts, Act.addNormal, Act.addInterm, Act.StoM, Act.MtoI] at ha
    rcases ha with rfl | rfl <;> simp
  · intro n a ha e he; subst he
    simp only [FMM97] at ha
    split at ha <;> simp [Act.addNormal, Act.addInterm, Act.MtoM, Act.MtoI] at ha
    rcases ha with ⟨k, _, rfl⟩ | rfl <;> simp
  · intro n p l a ha e he; subst he
    simp only [FMM97] at ha
    repeat' split at ha
    all_goals simp [Act.addParts, Act.addNormal, Act.LtoL, Act.ItoL] at ha
    all_goals first
      | (subst ha; simp)
      | (rcases ha with rfl | rfl <;> simp)
  · intro n c l a ha
    simp only [FMM97] at ha
    split at ha
    · rcases List.mem_append.1 ha with ha | ha
      · exact opIn_mono (by simp) (fmm97LeafLoop_ops _ _ a ha)
      · split at ha <;> simp at ha
        subst ha; intro e he; cases he; simp
    · rcases List.mem_append.1 ha with ha | ha
      · exact opIn_mono (by simp) (fmm97InnerLoop_ops _ _ a ha)
      · split at ha
        · simp at ha
        · intro e he; subst he
          simp [Act.addInterm, Act.ItoI] at ha
          obtain ⟨k, _, rfl⟩ := ha; simp

/-- FMM97 translates between levels below the first two only. -/
theorem FMM97_levels {unif : Nat} {same : Bool} {s t : Fin 8 → Oct} {acts : List Act}
    (hr : Runs (createProg FMM97 unif same s t) acts) :
    ∀ e ∈ edgesOf acts, (e.op = .MtoM → 2 ≤ e.dst.ix.level ∧ e.dst.side = .src) ∧
      (e.op = .LtoL → 3 ≤ e.dst.ix.level ∧ e.src.side = .tgt) ∧ (e.op = .ItoL → e.src.side = .tgt) := by
  refine edges_of (P := fun e => (e.op = .MtoM → 2 ≤ e.dst.ix.level ∧ e.dst.side = .src) ∧
      (e.op = .LtoL → 3 ≤ e.dst.ix.level ∧ e.src.side = .tgt) ∧ (e.op = .ItoL → e.src.side = .tgt))
    ?_ ?_ ?_ ?_ hr
  · intro n a ha e he; subst he
    simp only [FMM97] at ha
    split at ha <;> simp [Act.addParts, Act.addNormal, Act.addInterm, Act.StoM, Act.MtoI] at ha
    rcases ha with rfl | rfl <;> simp
  · intro n a ha e he; subst he
    simp only [FMM97] at ha
    split at ha <;> simp [Act.addNormal, Act.addInterm, Act.MtoM, Act.MtoI] at ha
    rcases ha with ⟨k, _, rfl⟩ | rfl <;> simp
    assumption
  · intro n p l a ha e he; subst he
    simp only [FMM97] at ha
    repeat' split at ha
    all_goals simp [Act.addParts, Act.addNormal, Act.LtoL, Act.ItoL] at ha
    all_goals first
      | (subst ha; simp; try assumption)
      | (rcases ha with rfl | rfl <;> simp; try assumption)
  · intro n c l a ha e he
    have key : e.op ∈ [Op.StoL, .MtoT, .StoT, .LtoT, .ItoI] := by
      simp only [FMM97] at ha
      split at ha
      · rcases List.mem_append.1 ha with ha | ha
        · exact opIn_mono (B := [Op.StoL, .MtoT, .StoT, .LtoT, .ItoI]) (by simp) (fmm97LeafLoop_ops _ _ a ha) e he
        · subst he; split at ha <;> simp at ha
          cases ha; simp
      · rcases List.mem_append.1 ha with ha | ha
        · exact opIn_mono (B := [Op.StoL, .MtoT, .StoT, .LtoT, .ItoI]) (by simp) (fmm97InnerLoop_ops _ _ a ha) e he
        · split at ha
          · simp at ha
          · subst he
            simp [Act.addInterm, Act.ItoI] at ha
            obtain ⟨k, _, rfl⟩ := ha; simp
    simp at key
    rcases key with h | h | h | h | h <;> simp [h]

theorem ownSrc_mem {m : Method} {a n : TNode} (h : Under a n) {x : Act} (hx : x ∈ ownSrc m n) : x ∈ srcActs m a := by
  induction h with
  | refl a => rw [srcActs_eq]; exact List.mem_append_right _ hx
  | down hk _ ih =>
    rw [srcActs_eq, Under.not_leaf hk]
    refine List.mem_append_left _ ?_
    simp only [Bool.false_eq_true, if_false]
    exact List.mem_flatMap.2 ⟨_, hk, ih hx⟩

theorem FMM97_MtoM {unif : Nat} {same : Bool} {s t : Fin 8 → Oct} {acts : List Act}
    (hr : Runs (createProg FMM97 unif same s t) acts) {n k : TNode} (hn : Under (rootNode s) n)
    (hl : 2 ≤ n.ix.level) (hk : k ∈ n.kids) :
    (⟨.MtoM, ⟨.src, k.ix, .normal⟩, ⟨.src, n.ix, .normal⟩⟩ : Edge) ∈ edgesOf acts := by
  refine List.mem_filterMap.2 ⟨Act.MtoM k.ix n.ix, (runs_perm hr).mem_iff.2 ?_, rfl⟩
  rw [createDag_eq]
  refine List.mem_append_left _ (ownSrc_mem hn ?_)
  rw [ownSrc, Under.not_leaf hk]
  simp only [FMM97, if_pos hl, Bool.false_eq_true, if_false]
  exact List.mem_append_left _ (List.mem_cons_of_mem _ (List.mem_map.2 ⟨k, hk, rfl⟩))

theorem BH_MtoM {mac : Index → Index → Bool} {unif : Nat} {same : Bool} {s t : Fin 8 → Oct} {acts : List Act}
    (hr : Runs (createProg (BH mac) unif same s t) acts) {n k : TNode} (hn : Under (rootNode s) n)
    (hk : k ∈ n.kids) :
    (⟨.MtoM, ⟨.src, k.ix, .normal⟩, ⟨.src, n.ix, .normal⟩⟩ : Edge) ∈ edgesOf acts := by
  refine List.mem_filterMap.2 ⟨Act.MtoM k.ix n.ix, (runs_perm hr).mem_iff.2 ?_, rfl⟩
  rw [createDag_eq]
  refine List.mem_append_left _ (ownSrc_mem hn ?_)
  rw [ownSrc, Under.not_leaf hk]
  simp only [BH, Bool.false_eq_true, if_false]
  exact List.mem_cons_of_mem _ (List.mem_map.2 ⟨k, hk, rfl⟩)

/-- The ends of an edge are at the levels of nodes of the trees. -/
theorem Distro.Shape.level {m : Method} {unif : Nat} {same : Bool} {s t : Fin 8 → Oct} {acts : List Act}
    (S : Shape m unif same s t acts) {H : Nat} (hs : ∀ n, Under (rootNode s) n → n.ix.level ≤ H)
    (ht : ∀ n, Under (rootNode t) n → n.ix.level ≤ H) {e : Edge} (he : e ∈ edgesOf acts) :
    e.src.ix.level ≤ H ∧ e.dst.ix.level ≤ H := by
  have key : ∀ r ∈ nodesOf acts, r.ix.level ≤ H := by
    intro r hr
    cases hsd : r.side with
    | src => obtain ⟨n, hn, h, -⟩ := S.src r hr hsd; rw [h]; exact hs n hn
    | tgt => obtain ⟨n, p, c, hv, h, -⟩ := S.tgt r hr hsd; rw [h]; exact ht n hv.under
  exact ⟨key _ (S.ends e he).1, key _ (S.ends e he).2⟩

/-- The levels of the two ends of a translation in FMM97. -/
theorem FMM97_edge_levels {unif : Nat} {same : Bool} {s t : Fin 8 → Oct} {acts : List Act}
    (hr : Runs (createProg FMM97 unif same s t) acts) (S : Shape FMM97 unif same s t acts)
    {e : Edge} (he : e ∈ edgesOf acts) :
    (e.op = .MtoM → 3 ≤ e.src.ix.level) ∧ (e.op = .LtoL → 2 ≤ e.src.ix.level ∧ e.dst.ix.level = e.src.ix.level + 1) ∧
    (e.op = .ItoL → e.dst.ix.level = e.src.ix.level + 1) := by
  obtain ⟨h1, h2, h3⟩ := FMM97_levels hr e he
  have := S.edge e he
  refine ⟨fun h => ?_, fun h => ?_, fun h => ?_⟩
  · have := h1 h; cases S.edge e he <;> simp_all <;> omega
  · have := h2 h; cases S.edge e he <;> simp_all <;> omega
  · have := h3 h; cases S.edge e he <;> simp_all

theorem inTable_nat {n : ℕ} (h : n ≤ 21) : inTable n = true := by
  simp [inTable, maxlev]; omega

theorem serve_laplace (u : ℤ) (e : Edge) : Expansion.laplace.serve u e = some true := by
  have hr : Expansion.laplace.receive e = true := by
    simp only [Expansion.receive, Expansion.construct]; cases e.dst.kind <;> rfl
  simp only [Expansion.serve, Expansion.answer, hr, if_true]

theorem serve_com {k : Expansion} (hk : k = .laplaceCOM ∨ k = .laplaceCOMAcc) (u : ℤ) {e : Edge}
    (h : e.op ∈ [Op.StoM, .MtoM, .MtoT, .StoT]) : k.serve u e = some true := by
  have hr : k.receive e = true := by
    rcases hk with rfl | rfl <;> simp only [Expansion.receive, Expansion.construct] <;> cases e.dst.kind <;> rfl
  have ha : k.answer u e = .value := by
    simp at h
    rcases hk with rfl | rfl <;> rcases h with h | h | h | h <;> simp [Expansion.answer, comAnswer, h]
  rw [Expansion.serve, ha]; simp [hr]

theorem serve_tables {k : Expansion} (hk : k = .yukawa ∨ k = .helmholtz) {u : ℤ} (hu : k = .helmholtz → inTable u = true)
    {e : Edge} (hs : e.src.ix.level ≤ 21) (hd : e.dst.ix.level ≤ 21) (h0 : e.op ≠ .MtoL)
    (h1 : k = .helmholtz → e.op = .MtoM → 3 ≤ e.src.ix.level)
    (h2 : k = .helmholtz → e.op = .LtoL → 2 ≤ e.src.ix.level ∧ e.src.ix.level ≤ 20)
    (h3 : e.op = .ItoL → e.src.ix.level ≤ 20) : k.serve u e = some true := by
  have ts := inTable_nat hs
  have td := inTable_nat hd
  have hr : k.receive e = true := by
    rcases hk with rfl | rfl <;> simp only [Expansion.receive, Expansion.construct, td] <;> cases e.dst.kind <;> rfl
  have ti : e.op = .ItoL → inTable ((e.src.ix.level : ℤ) + 1) = true := fun h => by
    have := inTable_nat (n := e.src.ix.level + 1) (by have := h3 h; omega)
    simpa using this
  have ha : k.answer u e = .value := by
    rcases hk with rfl | rfl
    · simp only [Expansion.answer, yukawaAnswer]
      cases ho : e.op <;> simp_all [guarded, Expansion.construct]
    · have hu := hu rfl
      have h1 := h1 rfl
      have h2 := h2 rfl
      simp only [Expansion.answer, helmholtzAnswer]
      cases ho : e.op <;> simp_all [guarded, Expansion.construct, maxlev]
  rw [Expansion.serve, ha]; simp [hr]

theorem unitLevel_one {x : ℝ} (h : 1 / 2 < x) (h1 : x ≤ 1) : unitLevel x = 0 := by
  have hx : 0 < x := by linarith
  have hl : Real.logb 2 x ≤ 0 := Real.logb_nonpos one_lt_two hx.le h1
  have hg : -1 < Real.logb 2 x := by
    rw [Real.lt_logb_iff_rpow_lt one_lt_two hx, Real.rpow_neg_one]
    linarith
  unfold unitLevel
  split
  · have : Real.logb 2 x = 0 := le_antisymm hl (by assumption)
    rw [this]; simp
  · rw [Int.ceil_eq_iff]; push_cast; constructor <;> linarith

theorem unitLevel_neg {x : ℝ} (h0 : 0 < x) (h : x ≤ 1 / 2) : unitLevel x < 0 := by
  have hg : Real.logb 2 x ≤ -1 := by
    rw [Real.logb_le_iff_le_rpow one_lt_two h0, Real.rpow_neg_one]
    linarith
  unfold unitLevel
  rw [if_neg (by linarith)]
  have : ⌈Real.logb 2 x⌉ ≤ -1 := Int.ceil_le.2 (by push_cast; exact hg)
  omega

end Dashmm
