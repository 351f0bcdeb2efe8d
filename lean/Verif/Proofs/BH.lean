import Verif.Proofs.Flow
/-! Helper lemmas: Direct and Barnes-Hut. -/
namespace Dashmm

/-- Total multiplicity of `x` below the nodes of a list. -/
def total (c : List TNode) (x : Index) : Nat := (c.map fun n => n.leaves.count x).sum

@[simp] theorem total_nil (x : Index) : total [] x = 0 := rfl
@[simp] theorem total_cons (n : TNode) (c : List TNode) (x : Index) :
    total (n :: c) x = n.leaves.count x + total c x := by simp [total]
@[simp] theorem total_append (c d : List TNode) (x : Index) :
    total (c ++ d) x = total c x + total d x := by simp [total]

theorem total_kids {n : TNode} (h : n.isLeaf = false) (x : Index) :
    total n.kids x = n.leaves.count x := by
  rw [TNode.leaves_of_not_leaf h, List.count_flatMap]
  rfl

theorem foldl_max_mono (l : List Nat) : ∀ a, a ≤ l.foldl max a ∧ ∀ b ∈ l, b ≤ l.foldl max a := by
  induction l with
  | nil => intro a; simp
  | cons c l ih =>
    intro a
    obtain ⟨h1, h2⟩ := ih (max a c)
    refine ⟨by simp only [List.foldl_cons]; omega, ?_⟩
    intro b hb
    simp only [List.foldl_cons]
    rcases List.mem_cons.1 hb with rfl | hb
    · omega
    · exact h2 b hb

/-- Height of a node. -/
def TNode.height (n : TNode) : Nat := (Oct.node n.c).height

theorem height_pos (n : TNode) : 1 ≤ n.height := by
  simp [TNode.height, Oct.height]

theorem height_kid {n k : TNode} (hk : k ∈ n.kids) : k.height + 1 ≤ n.height := by
  obtain ⟨i, h1, _⟩ := mem_kids.1 hk
  have := (foldl_max_mono ((List.finRange 8).map fun i => (n.c i).height) 0).2 ((n.c i).height)
    (List.mem_map_of_mem (List.mem_finRange i))
  have e : n.height = 1 + ((List.finRange 8).map fun i => (n.c i).height).foldl max 0 := by
    simp [TNode.height, Oct.height]
  rw [h1] at this
  rw [e]
  simp only [TNode.height]
  omega

theorem loopFuel_spec (c : List TNode) : ∀ n ∈ c, n.height ≤ loopFuel c := by
  intro n hn
  have h := (foldl_max_mono (c.map TNode.height) 0).2 n.height (List.mem_map_of_mem hn)
  have e : loopFuel c = 1 + (c.map TNode.height).foldl max 0 := rfl
  rw [e]
  exact Nat.le_trans h (Nat.le_add_left _ _)

/-- What the proofs need to know about one pass of the loop. -/
structure PassSpec (R : TNode → Prop) (leaf : Bool) (w : List Act → Index → Nat)
    (pass : List TNode → List Act × List TNode) : Prop where
  sum : ∀ c, (∀ i ∈ c, R i) → ∀ x, w (pass c).1 x + total (pass c).2 x = total c x
  keep : ∀ c, (∀ i ∈ c, R i) → ∀ i ∈ (pass c).2, R i
  height : leaf = true → ∀ c h, (∀ i ∈ c, i.height ≤ h + 1) → ∀ i ∈ (pass c).2, i.height ≤ h

theorem doWhile_spec {R : TNode → Prop} {leaf : Bool} {w : List Act → Index → Nat}
    (w0 : ∀ x, w [] x = 0) (wa : ∀ a b x, w (a ++ b) x = w a x + w b x)
    {pass : List TNode → List Act × List TNode} (hp : PassSpec R leaf w pass) :
    ∀ fuel c, (∀ i ∈ c, R i) →
      (∀ x, w (doWhile pass leaf fuel c).1 x + total (doWhile pass leaf fuel c).2 x = total c x) ∧
      (∀ i ∈ (doWhile pass leaf fuel c).2, R i) ∧
      (leaf = true → (∀ i ∈ c, i.height ≤ fuel) → (doWhile pass leaf fuel c).2 = []) := by
  intro fuel
  induction fuel with
  | zero =>
    intro c hc
    refine ⟨by intro x; simp [doWhile, w0], hc, ?_⟩
    intro _ hh
    cases c with
    | nil => rfl
    | cons i c => have := hh i (by simp); have := height_pos i; omega
  | succ fuel ih =>
    intro c hc
    simp only [doWhile]
    split
    · rename_i hcond
      obtain ⟨i1, i2, i3⟩ := ih (pass c).2 (hp.keep c hc)
      refine ⟨?_, i2, ?_⟩
      · intro x
        have := hp.sum c hc x
        have := i1 x
        simp only [wa]; omega
      · intro hl hh
        exact i3 hl (hp.height hl c fuel hh)
    · rename_i hcond
      refine ⟨hp.sum c hc, hp.keep c hc, ?_⟩
      intro hl _
      rw [hl] at hcond
      simpa using hcond

theorem doWhile_false (pass : List TNode → List Act × List TNode) (fuel : Nat) (c : List TNode) :
    doWhile pass false (fuel + 1) c = pass c := by simp [doWhile]

/-- Anything that holds of all actions of every pass holds of all actions of the loop. -/
theorem doWhile_mem {P : Act → Prop} {pass : List TNode → List Act × List TNode} {leaf : Bool}
    (hp : ∀ c, ∀ a ∈ (pass c).1, P a) : ∀ fuel c, ∀ a ∈ (doWhile pass leaf fuel c).1, P a := by
  intro fuel
  induction fuel with
  | zero => intro c a ha; simp [doWhile] at ha
  | succ fuel ih =>
    intro c a ha
    simp only [doWhile] at ha
    split at ha
    · rcases List.mem_append.1 ha with ha | ha
      · exact hp c a ha
      · exact ih _ a ha
    · exact hp c a ha

/-- `Direct` is `BH` that never accepts. -/
theorem directPass_eq (n : TNode) (leaf : Bool) (c : List TNode) :
    directPass n leaf c = bhPass (fun _ _ => false) n leaf c := by
  induction c with
  | nil => rfl
  | cons i c ih => simp [directPass, bhPass, ih]

theorem bhPass_mem (mac : Index → Index → Bool) (n : TNode) (leaf : Bool) : ∀ (c : List TNode),
    ∀ a ∈ (bhPass mac n leaf c).1, ∃ e, a = .link e ∧ e.dst = ⟨.tgt, n.ix, .parts⟩ := by
  intro c
  induction c with
  | nil => intro a ha; simp [bhPass] at ha
  | cons i c ih =>
    intro a ha
    simp only [bhPass] at ha
    repeat' split at ha
    all_goals first
      | exact ih a ha
      | rcases List.mem_cons.1 ha with rfl | ha
        · exact ⟨_, rfl, rfl⟩
        · exact ih a ha

theorem bhPass_spec (mac : Index → Index → Bool) (n : TNode) (leaf : Bool) (val : Ref → Prov)
    (R : TNode → Prop) (hkid : ∀ i k, R i → k ∈ i.kids → R k)
    (hP : ∀ i x, R i → i.isLeaf = true → val ⟨.src, i.ix, .parts⟩ 0 x = i.leaves.count x)
    (hM : ∀ i x, R i → mac i.ix n.ix = true → val ⟨.src, i.ix, .normal⟩ 0 x = i.leaves.count x) :
    PassSpec R leaf (fun as x => flow val ⟨.tgt, n.ix, .parts⟩ 0 x as) (bhPass mac n leaf) where
  sum := by
    intro c
    induction c with
    | nil => intro _ x; simp [bhPass]
    | cons i c ih =>
      intro hc x
      have hi := hc i (by simp)
      have := ih (fun j hj => hc j (by simp [hj])) x
      simp only [bhPass]
      split
      · rename_i hmac
        split
        · simp only [total_cons]; omega
        · have := hM i x hi hmac
          simp only [flow_cons, actFlow, Act.MtoT, contrib, if_true, total_cons]; omega
      · split
        · rename_i hleaf
          split
          · have := hP i x hi hleaf
            simp only [flow_cons, actFlow, Act.StoT, contrib, if_true, total_cons]; omega
          · simp only [total_cons]; omega
        · rename_i hleaf
          have := total_kids (n := i) (by simpa using hleaf) x
          simp only [total_append, total_cons]; omega
  keep := by
    intro c
    induction c with
    | nil => intro _ i hi; simp [bhPass] at hi
    | cons i c ih =>
      intro hc j hj
      have hi := hc i (by simp)
      have ih := ih (fun j hj => hc j (by simp [hj]))
      simp only [bhPass] at hj
      repeat' split at hj
      all_goals first
        | exact ih j hj
        | (rcases List.mem_cons.1 hj with rfl | hj
           · exact hi
           · exact ih j hj)
        | (rcases List.mem_append.1 hj with hj | hj
           · exact hkid i j hi hj
           · exact ih j hj)
  height := by
    intro hl c h
    subst hl
    induction c with
    | nil => intro _ i hi; simp [bhPass] at hi
    | cons i c ih =>
      intro hc j hj
      have hi := hc i (by simp)
      have ih := ih (fun j hj => hc j (by simp [hj]))
      simp only [bhPass, Bool.not_true, Bool.false_eq_true, if_false, if_true] at hj
      repeat' split at hj
      all_goals first
        | exact ih j hj
        | (rcases List.mem_append.1 hj with hj | hj
           · have := height_kid hj; omega
           · exact ih j hj)

/-! ### Barnes-Hut as a whole -/

theorem BH_local (mac : Index → Index → Bool) : (BH mac).Local where
  gen := by
    intro n e he
    simp [BH, Act.addParts, Act.addNormal, Act.StoM] at he
    subst he; simp
  agg := by
    intro n e he
    simp [BH, Act.addNormal, Act.MtoM] at he
    obtain ⟨k, _, rfl⟩ := he; simp
  inh := by
    intro n p l e he
    simp [BH, Act.addParts] at he
  proc := by
    intro n c l e he
    obtain ⟨e', h1, h2⟩ := doWhile_mem (bhPass_mem mac n l) _ _ _ he
    cases h1
    simp [h2]

theorem Direct_local : Direct.Local where
  gen := by
    intro n e he
    simp [Direct, Act.addParts] at he
  agg := by
    intro n e he
    simp [Direct] at he
  inh := by
    intro n p l e he
    simp [Direct, Act.addParts] at he
  proc := by
    intro n c l e he
    have : directPass n l = bhPass (fun _ _ => false) n l := funext (directPass_eq n l)
    simp only [Direct, this] at he
    obtain ⟨e', h1, h2⟩ := doWhile_mem (bhPass_mem _ n l) _ _ _ he
    cases h1
    simp [h2]

section
variable {mac : Index → Index → Bool} {unif : Nat} {same : Bool} {s t : Fin 8 → Oct}
  {val : Ref → Prov}

theorem BH_valP (hv : IsEvaluation (createDag (BH mac) unif same s t) val) {n : TNode}
    (h : Under (rootNode s) n) (hl : n.isLeaf = true) (x : Index) :
    val ⟨.src, n.ix, .parts⟩ 0 x = n.leaves.count x := by
  rw [val_src (BH_local mac) hv h, ownSrc, hl, TNode.leaves_of_leaf hl]
  simp [BH, actFlow, base, Act.addParts, Act.addNormal, Act.StoM, List.count_cons, beq_iff_eq,
    @eq_comm _ x]

theorem BH_valM (hv : IsEvaluation (createDag (BH mac) unif same s t) val) (n : TNode) :
    Under (rootNode s) n → ∀ x, val ⟨.src, n.ix, .normal⟩ 0 x = n.leaves.count x := by
  induction n using tnode_induction with
  | h n ih =>
    intro h x
    rw [val_src (BH_local mac) hv h, ownSrc]
    cases hl : n.isLeaf with
    | true =>
      have := BH_valP hv h hl x
      simp [BH, actFlow, base, Act.addParts, Act.addNormal, Act.StoM, contrib, this]
    | false =>
      have e : (flow val ⟨.src, n.ix, .normal⟩ 0 x (n.kids.map fun k => Act.MtoM k.ix n.ix)) =
          total n.kids x := by
        rw [flow_map, total]
        congr 1
        apply List.map_congr_left
        intro k hk
        simp [actFlow, Act.MtoM, contrib, ih k hk (h.kid hk)]
      simp [BH, base, Act.addNormal, actFlow, e, total_kids hl]

theorem Direct_valP (hv : IsEvaluation (createDag Direct unif same s t) val) {n : TNode}
    (h : Under (rootNode s) n) (hl : n.isLeaf = true) (x : Index) :
    val ⟨.src, n.ix, .parts⟩ 0 x = n.leaves.count x := by
  rw [val_src Direct_local hv h, ownSrc, hl, TNode.leaves_of_leaf hl]
  simp [Direct, actFlow, base, Act.addParts, List.count_cons, beq_iff_eq, @eq_comm _ x]

/-- The invariant of the target traversal. -/
def BHInv (s : Fin 8 → Oct) (c : List TNode) : Prop :=
  (∀ i ∈ c, Under (rootNode s) i) ∧ ∀ x, total c x = (rootNode s).leaves.count x

theorem BHInv_root (s : Fin 8 → Oct) : BHInv s [rootNode s] := by
  refine ⟨?_, ?_⟩
  · intro i hi; simp at hi; subst hi; exact .refl _
  · intro x; simp

/-- Both methods process with a pass that satisfies the specification. -/
theorem bhLike_visit {m : Method} {pass : TNode → Bool → List TNode → List Act × List TNode}
    (hproc : ∀ n c l, m.process n c l = doWhile (pass n l) l (loopFuel c) c)
    (hlink : ∀ n l c, ∀ a ∈ (pass n l c).1, ∃ e, a = .link e ∧ e.dst = ⟨.tgt, n.ix, .parts⟩)
    (hspec : ∀ n l, PassSpec (Under (rootNode s)) l
      (fun as x => flow val ⟨.tgt, n.ix, .parts⟩ 0 x as) (pass n l))
    (hfalse : ∀ n c, (pass n false c).1 = [])
    {n : TNode} {p : Bool} {c : List TNode} {n₀ : TNode} {p₀ : Bool} {c₀ : List TNode}
    (h : Visit m unif same n₀ p₀ c₀ n p c) : BHInv s c₀ → BHInv s c := by
  induction h with
  | here => exact id
  | @down n p c k n' p' c' hr hk h ih =>
    intro hi
    apply ih
    have e : (theVisit m unif same n p c).2 = (m.process n c false).2 := by
      simp [theVisit, visit, hr]
    rw [e, hproc, loopFuel, Nat.add_comm, doWhile_false]
    refine ⟨(hspec n false).keep c hi.1, ?_⟩
    intro x
    have := (hspec n false).sum c hi.1 x
    rw [hfalse] at this
    simp at this
    rw [this, hi.2]

theorem bhPass_false (mac : Index → Index → Bool) (n : TNode) (c : List TNode) :
    (bhPass mac n false c).1 = [] := by
  induction c with
  | nil => rfl
  | cons i c ih => simp only [bhPass]; repeat' split
                   all_goals simp_all

theorem BH_spec (hv : IsEvaluation (createDag (BH mac) unif same s t) val) (n : TNode) (l : Bool) :
    PassSpec (Under (rootNode s)) l (fun as x => flow val ⟨.tgt, n.ix, .parts⟩ 0 x as)
      (bhPass mac n l) :=
  bhPass_spec mac n l val _ (fun _ _ h hk => h.kid hk) (fun _ x h hl => BH_valP hv h hl x)
    (fun i x h _ => BH_valM hv i h x)

theorem Direct_spec (hv : IsEvaluation (createDag Direct unif same s t) val) (n : TNode) (l : Bool) :
    PassSpec (Under (rootNode s)) l (fun as x => flow val ⟨.tgt, n.ix, .parts⟩ 0 x as)
      (directPass n l) := by
  have : directPass n l = bhPass (fun _ _ => false) n l := funext (directPass_eq n l)
  rw [this]
  exact bhPass_spec _ n l val _ (fun _ _ h hk => h.kid hk) (fun _ x h hl => Direct_valP hv h hl x)
    (fun i x h hf => by simp at hf)

/-- Delivery for a method of this shape. -/
theorem bhLike_delivers {m : Method} (hm : m.Local)
    (hv : IsEvaluation (createDag m unif same s t) val)
    {pass : TNode → Bool → List TNode → List Act × List TNode}
    (hproc : ∀ n c l, m.process n c l = doWhile (pass n l) l (loopFuel c) c)
    (hinh : ∀ n p l, m.inherit n p l = if l then [Act.addParts .tgt n.ix] else [])
    (hsrc : ∀ n r, Act.add r ∈ ownSrc m n → r.side = .src)
    (hlink : ∀ n l c, ∀ a ∈ (pass n l c).1, ∃ e, a = .link e ∧ e.dst = ⟨.tgt, n.ix, .parts⟩)
    (hspec : ∀ n l, PassSpec (Under (rootNode s)) l
      (fun as x => flow val ⟨.tgt, n.ix, .parts⟩ 0 x as) (pass n l))
    (hfalse : ∀ n c, (pass n false c).1 = []) :
    ∀ r ∈ nodesOf (createDag m unif same s t), r.side = .tgt → r.kind = .parts →
      ∀ x, val r 0 x = if x ∈ leaves Index.root (.node s) then 1 else 0 := by
  apply deliver_of_visits hm hv
  · intro n p c hvis r hr
    simp only [theVisit, visit, hinh, hproc, List.mem_append] at hr
    rcases hr with hr | hr
    · split at hr
      · rename_i hl
        simp [Act.addParts] at hr
        subst hr
        simpa using hl
      · simp at hr
    · obtain ⟨e, h, _⟩ := doWhile_mem (hlink n _) _ _ _ hr
      cases h
  · exact hsrc
  · intro n p c hvis hr x
    have hi := bhLike_visit hproc hlink hspec hfalse hvis (BHInv_root s)
    have := doWhile_spec (R := Under (rootNode s)) (leaf := true)
      (w := fun as x => flow val ⟨.tgt, n.ix, .parts⟩ 0 x as) (by simp) (by simp)
      (hspec n true) (loopFuel c) c hi.1
    obtain ⟨h1, _, h3⟩ := this
    have h1 := h1 x
    rw [h3 rfl (loopFuel_spec c), total_nil, Nat.add_zero] at h1
    simp only [theVisit, visit, hr, Bool.not_false, hinh, if_true, hproc, flow_append, h1, hi.2]
    simp [Act.addParts, actFlow]

end

theorem BH_delivers (mac : Index → Index → Bool) : DeliversAllOnce (BH mac) := by
  apply deliversAllOnce_of_canonical
  intro unif same s t val hv
  apply bhLike_delivers (BH_local mac) hv (pass := fun n l => bhPass mac n l)
  · intros; rfl
  · intros; rfl
  · intro n r hr
    unfold ownSrc at hr
    split at hr <;> simp [BH, Act.addParts, Act.addNormal, Act.StoM, Act.MtoM] at hr
    · rcases hr with rfl | rfl <;> rfl
    · subst hr; rfl
  · exact fun n l c => bhPass_mem mac n l c
  · exact fun n l => BH_spec hv n l
  · exact fun n c => bhPass_false mac n c

theorem Direct_delivers : DeliversAllOnce Direct := by
  apply deliversAllOnce_of_canonical
  intro unif same s t val hv
  apply bhLike_delivers Direct_local hv (pass := fun n l => directPass n l)
  · intros; rfl
  · intros; rfl
  · intro n r hr
    unfold ownSrc at hr
    split at hr <;> simp [Direct, Act.addParts] at hr
    subst hr; rfl
  · intro n l c; rw [directPass_eq]; exact bhPass_mem _ n l c
  · exact fun n l => Direct_spec hv n l
  · intro n c; rw [directPass_eq]; exact bhPass_false _ n c

end Dashmm
