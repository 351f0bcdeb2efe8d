import Verif.Proofs.Octree
/-! Helper lemmas: what arrives at a DAG node depends only on the visit of its owner. -/
namespace Dashmm

/-- Contribution of one action to the inflow of `r`. -/
def actFlow (val : Ref → Prov) (r : Ref) (v : Nat) (x : Index) : Act → Nat
  | .add _ => 0
  | .link e => if e.dst = r then contrib e (val e.src) v x else 0

/-- Inflow of a list of actions. -/
def flow (val : Ref → Prov) (r : Ref) (v : Nat) (x : Index) (acts : List Act) : Nat :=
  (acts.map (actFlow val r v x)).sum

theorem inflow_edgesOf (val : Ref → Prov) (acts : List Act) (r : Ref) (v : Nat) (x : Index) :
    inflow val (edgesOf acts) r v x = flow val r v x acts := by
  induction acts with
  | nil => rfl
  | cons a as ih =>
    cases a with
    | add r' =>
      rw [show edgesOf (Act.add r' :: as) = edgesOf as from rfl, ih]
      simp [flow, actFlow]
    | link e =>
      rw [show edgesOf (Act.link e :: as) = e :: edgesOf as from rfl]
      have : inflow val (e :: edgesOf as) r v x =
        (if e.dst = r then contrib e (val e.src) v x else 0) + inflow val (edgesOf as) r v x := by
        simp [inflow]
      rw [this, ih]
      simp [flow, actFlow]

section
variable (val : Ref → Prov) (r : Ref) (v : Nat) (x : Index)

@[simp] theorem flow_nil : flow val r v x [] = 0 := rfl
@[simp] theorem flow_cons (a : Act) (as : List Act) :
    flow val r v x (a :: as) = actFlow val r v x a + flow val r v x as := by simp [flow]
@[simp] theorem flow_append (as bs : List Act) :
    flow val r v x (as ++ bs) = flow val r v x as + flow val r v x bs := by simp [flow]
theorem flow_flatMap {α : Type*} (l : List α) (f : α → List Act) :
    flow val r v x (l.flatMap f) = (l.map fun a => flow val r v x (f a)).sum := by
  induction l with
  | nil => rfl
  | cons a l ih => simp [ih]
theorem flow_map {α : Type*} (l : List α) (f : α → Act) :
    flow val r v x (l.map f) = (l.map fun a => actFlow val r v x (f a)).sum := by
  simp [flow, List.map_map, Function.comp_def]

variable {val r v x} in
theorem flow_eq_zero {acts : List Act} (h : ∀ e, Act.link e ∈ acts → e.dst ≠ r) :
    flow val r v x acts = 0 := by
  induction acts with
  | nil => rfl
  | cons a as ih =>
    rw [flow_cons, ih (fun e he => h e (by simp [he]))]
    cases a with
    | add _ => rfl
    | link e => simp [actFlow, h e (by simp)]
end

/-- The five entry points only link into the node they are called on. -/
structure Method.Local (m : Method) : Prop where
  gen : ∀ n e, Act.link e ∈ m.generate n → e.dst.side = .src ∧ e.dst.ix = n.ix
  agg : ∀ n e, Act.link e ∈ m.aggregate n → e.dst.side = .src ∧ e.dst.ix = n.ix
  inh : ∀ n p l e, Act.link e ∈ m.inherit n p l → e.dst.side = .tgt ∧ e.dst.ix = n.ix
  proc : ∀ n c l e, Act.link e ∈ (m.process n c l).1 → e.dst.side = .tgt ∧ e.dst.ix = n.ix

/-- The actions of the visit of one source node. -/
def ownSrc (m : Method) (n : TNode) : List Act :=
  if n.isLeaf then m.generate n else m.aggregate n

/-- `sourceApply` on a node. -/
def srcActs (m : Method) (n : TNode) : List Act := sourceApply m n.ix (.node n.c)

theorem srcActs_eq (m : Method) (n : TNode) :
    srcActs m n = (if n.isLeaf then [] else n.kids.flatMap (srcActs m)) ++ ownSrc m n := by
  have := flatMap_kids (sourceApply m) (fun _ => by rw [sourceApply]) n
  rw [srcActs, sourceApply, ownSrc]
  cases h : n.isLeaf with
  | true => simp [h]
  | false => simp only [h, this]; rfl

theorem kids_nodup_ix (n : TNode) : n.kids.Pairwise fun a b => a.ix ≠ b.ix := by
  unfold TNode.kids
  rw [List.pairwise_filterMap]
  refine (List.nodup_finRange 8).imp ?_
  intro i j hij k hk k' hk'
  have g : ∀ (i : Fin 8) (k : TNode), (match n.c i with
      | .nil => none
      | .node c => some ⟨n.ix.child i, c⟩) = some k → k.ix = n.ix.child i := by
    intro i k h
    cases hc : n.c i with
    | nil => simp [hc] at h
    | node c => simp [hc] at h; rw [← h]
  rw [g i k hk, g j k' hk']
  intro h
  exact hij (Fin.ext (Index.child_inj _ _ _ _ i.isLt j.isLt h).2)

theorem sum_eq_single {l : List TNode} {f : TNode → Nat} (hp : l.Pairwise fun a b => a.ix ≠ b.ix)
    {k : TNode} (hk : k ∈ l) (h0 : ∀ a ∈ l, a.ix ≠ k.ix → f a = 0) : (l.map f).sum = f k := by
  induction l with
  | nil => simp at hk
  | cons a l ih =>
    rw [List.pairwise_cons] at hp
    rw [List.map_cons, List.sum_cons]
    rcases List.mem_cons.1 hk with rfl | hk
    · have : (l.map f).sum = 0 := by
        apply List.sum_eq_zero
        intro y hy
        obtain ⟨b, hb, rfl⟩ := List.mem_map.1 hy
        exact h0 b (by simp [hb]) (fun h => hp.1 b hb h.symm)
      omega
    · rw [h0 a (by simp) (hp.1 k hk), ih hp.2 hk (fun b hb => h0 b (by simp [hb]))]
      omega

theorem sum_eq_zero' {l : List TNode} {f : TNode → Nat} (h0 : ∀ a ∈ l, f a = 0) :
    (l.map f).sum = 0 := by
  apply List.sum_eq_zero
  intro y hy
  obtain ⟨b, hb, rfl⟩ := List.mem_map.1 hy
  exact h0 b hb

theorem kid_not_desc {n k : TNode} (hk : k ∈ n.kids) : ¬ IsDesc k.ix n.ix := by
  obtain ⟨i, _, h2⟩ := mem_kids.1 hk
  rw [h2]; exact not_isDesc_child_self _ _

theorem kid_desc_unique {n k k' : TNode} (hk : k ∈ n.kids) (hk' : k' ∈ n.kids) {b : Index}
    (h : IsDesc k.ix b) (h' : IsDesc k'.ix b) : k.ix = k'.ix := by
  obtain ⟨i, _, h2⟩ := mem_kids.1 hk
  obtain ⟨j, _, h2'⟩ := mem_kids.1 hk'
  rw [h2] at h ⊢; rw [h2'] at h' ⊢
  rw [isDesc_child_unique i.isLt j.isLt h h']

theorem Under.not_leaf {a k : TNode} (hk : k ∈ a.kids) : a.isLeaf = false := by
  rw [← kids_isEmpty]
  cases h : a.kids with
  | nil => rw [h] at hk; simp at hk
  | cons _ _ => rfl

section source
variable {m : Method} (hm : m.Local)
include hm

theorem ownSrc_local (n : TNode) (e : Edge) (he : Act.link e ∈ ownSrc m n) :
    e.dst.side = .src ∧ e.dst.ix = n.ix := by
  unfold ownSrc at he
  split at he
  · exact hm.gen n e he
  · exact hm.agg n e he

theorem srcActs_local (n : TNode) : ∀ e, Act.link e ∈ srcActs m n →
    e.dst.side = .src ∧ IsDesc n.ix e.dst.ix := by
  induction n using tnode_induction with
  | h n ih =>
    intro e he
    rw [srcActs_eq] at he
    rcases List.mem_append.1 he with he | he
    · split at he
      · simp at he
      · obtain ⟨k, hk, he⟩ := List.mem_flatMap.1 he
        obtain ⟨h1, h2⟩ := ih k hk e he
        obtain ⟨i, _, h3⟩ := mem_kids.1 hk
        rw [h3] at h2
        exact ⟨h1, isDesc_of_child i.isLt h2⟩
    · obtain ⟨h1, h2⟩ := ownSrc_local hm n e he
      exact ⟨h1, h2 ▸ isDesc_refl _⟩

theorem src_flow (val : Ref → Prov) {a n : TNode} (h : Under a n) (k : Kind) (v : Nat) (x : Index) :
    flow val ⟨.src, n.ix, k⟩ v x (srcActs m a) = flow val ⟨.src, n.ix, k⟩ v x (ownSrc m n) := by
  induction h with
  | refl a =>
    rw [srcActs_eq, flow_append]
    have : flow val ⟨.src, a.ix, k⟩ v x
        (if a.isLeaf then [] else a.kids.flatMap (srcActs m)) = 0 := by
      split
      · rfl
      · apply flow_eq_zero
        intro e he hd
        obtain ⟨k', hk', he⟩ := List.mem_flatMap.1 he
        have := (srcActs_local hm k' e he).2
        rw [hd] at this
        exact kid_not_desc hk' this
    omega
  | @down a k' b hk' hb ih =>
    rw [srcActs_eq, flow_append, Under.not_leaf hk']
    have h0 : flow val ⟨.src, b.ix, k⟩ v x (ownSrc m a) = 0 := by
      apply flow_eq_zero
      intro e he hd
      have := (ownSrc_local hm a e he).2
      rw [hd] at this
      have h2 := hb.isDesc
      simp only at this
      rw [this] at h2
      exact kid_not_desc hk' h2
    have h1 : flow val ⟨.src, b.ix, k⟩ v x (a.kids.flatMap (srcActs m)) =
        flow val ⟨.src, b.ix, k⟩ v x (srcActs m k') := by
      rw [flow_flatMap]
      apply sum_eq_single (kids_nodup_ix a) hk'
      intro c hc hne
      apply flow_eq_zero
      intro e he hd
      have := (srcActs_local hm c e he).2
      rw [hd] at this
      exact hne (kid_desc_unique hc hk' this hb.isDesc)
    simp only [Bool.false_eq_true, if_false]
    omega

end source

/-! ### The target tree -/

/-- The visit of a node. -/
def theVisit (m : Method) (unif : Nat) (same : Bool) (n : TNode) (p : Bool) (c : List TNode) :=
  visit m n p (!refine m unif same n c) c

/-- Whether the node owns an intermediate DAG node after its visit. -/
def makesInterm (m : Method) (unif : Nat) (same : Bool) (n : TNode) (p : Bool) (c : List TNode) :
    Bool := decide (Act.addInterm .tgt n.ix ∈ (theVisit m unif same n p c).1)

/-- The visits made below `(n₀, p₀, c₀)`. -/
inductive Visit (m : Method) (unif : Nat) (same : Bool) :
    TNode → Bool → List TNode → TNode → Bool → List TNode → Prop
  | here (n : TNode) (p : Bool) (c : List TNode) : Visit m unif same n p c n p c
  | down {n : TNode} {p : Bool} {c : List TNode} {k n' : TNode} {p' : Bool} {c' : List TNode}
      (hr : refine m unif same n c = true) (hk : k ∈ n.kids)
      (h : Visit m unif same k (makesInterm m unif same n p c) (theVisit m unif same n p c).2 n' p' c') :
      Visit m unif same n p c n' p' c'

theorem Visit.kid {m : Method} {unif : Nat} {same : Bool} {n : TNode} {p : Bool} {c : List TNode}
    {n' : TNode} {p' : Bool} {c' : List TNode} {k : TNode}
    (h : Visit m unif same n p c n' p' c') (hr : refine m unif same n' c' = true)
    (hk : k ∈ n'.kids) :
    Visit m unif same n p c k (makesInterm m unif same n' p' c') (theVisit m unif same n' p' c').2 := by
  induction h with
  | here n p c => exact .down hr hk (.here _ _ _)
  | down hr' hk' _ ih => exact .down hr' hk' (ih hr hk)

theorem Visit.under {m : Method} {unif : Nat} {same : Bool} {n : TNode} {p : Bool} {c : List TNode}
    {n' : TNode} {p' : Bool} {c' : List TNode} (h : Visit m unif same n p c n' p' c') :
    Under n n' := by
  induction h with
  | here n p c => exact .refl _
  | down _ hk _ ih => exact .down hk ih

/-- `targetApply` on a node. -/
def tgtActs (m : Method) (unif : Nat) (same : Bool) (n : TNode) (p : Bool) (c : List TNode) :
    List Act := targetApply m unif same n.ix (.node n.c) p c

theorem tgtActs_eq (m : Method) (unif : Nat) (same : Bool) (n : TNode) (p : Bool) (c : List TNode) :
    tgtActs m unif same n p c = (theVisit m unif same n p c).1 ++
      if refine m unif same n c then
        n.kids.flatMap fun k => tgtActs m unif same k (makesInterm m unif same n p c)
          (theVisit m unif same n p c).2
      else [] := by
  have := flatMap_kids (fun ix o => targetApply m unif same ix o (makesInterm m unif same n p c)
          (theVisit m unif same n p c).2) (fun _ => by rw [targetApply]) n
  rw [tgtActs, targetApply]
  simp only [tgtActs, ← this]
  rfl

section target
variable {m : Method} (hm : m.Local) (unif : Nat) (same : Bool)
include hm

theorem visit_local (n : TNode) (p : Bool) (c : List TNode) (e : Edge)
    (he : Act.link e ∈ (theVisit m unif same n p c).1) :
    e.dst.side = .tgt ∧ e.dst.ix = n.ix := by
  unfold theVisit visit at he
  rcases List.mem_append.1 he with he | he
  · exact hm.inh _ _ _ e he
  · exact hm.proc _ _ _ e he

theorem tgtActs_local (n : TNode) : ∀ p c e, Act.link e ∈ tgtActs m unif same n p c →
    e.dst.side = .tgt ∧ IsDesc n.ix e.dst.ix := by
  induction n using tnode_induction with
  | h n ih =>
    intro p c e he
    rw [tgtActs_eq] at he
    rcases List.mem_append.1 he with he | he
    · obtain ⟨h1, h2⟩ := visit_local hm unif same n p c e he
      exact ⟨h1, h2 ▸ isDesc_refl _⟩
    · split at he
      · obtain ⟨k, hk, he⟩ := List.mem_flatMap.1 he
        obtain ⟨h1, h2⟩ := ih k hk _ _ e he
        obtain ⟨i, _, h3⟩ := mem_kids.1 hk
        rw [h3] at h2
        exact ⟨h1, isDesc_of_child i.isLt h2⟩
      · simp at he

theorem tgt_flow (val : Ref → Prov) {a n : TNode} {pa p : Bool} {ca c : List TNode}
    (h : Visit m unif same a pa ca n p c) (k : Kind) (v : Nat) (x : Index) :
    flow val ⟨.tgt, n.ix, k⟩ v x (tgtActs m unif same a pa ca) =
      flow val ⟨.tgt, n.ix, k⟩ v x (theVisit m unif same n p c).1 := by
  induction h with
  | here n p c =>
    rw [tgtActs_eq, flow_append]
    have : flow val ⟨.tgt, n.ix, k⟩ v x
        (if refine m unif same n c then
        n.kids.flatMap fun k => tgtActs m unif same k (makesInterm m unif same n p c)
          (theVisit m unif same n p c).2
      else []) = 0 := by
      split
      · apply flow_eq_zero
        intro e he hd
        obtain ⟨k', hk', he⟩ := List.mem_flatMap.1 he
        have := (tgtActs_local hm unif same k' _ _ e he).2
        rw [hd] at this
        exact kid_not_desc hk' this
      · rfl
    omega
  | @down n p c k' n' p' c' hr hk' hb ih =>
    rw [tgtActs_eq, flow_append, if_pos hr]
    have h0 : flow val ⟨.tgt, n'.ix, k⟩ v x (theVisit m unif same n p c).1 = 0 := by
      apply flow_eq_zero
      intro e he hd
      have := (visit_local hm unif same n p c e he).2
      rw [hd] at this
      have h2 := hb.under.isDesc
      simp only at this
      rw [this] at h2
      exact kid_not_desc hk' h2
    have h1 : flow val ⟨.tgt, n'.ix, k⟩ v x (n.kids.flatMap fun k => tgtActs m unif same k
          (makesInterm m unif same n p c) (theVisit m unif same n p c).2) =
        flow val ⟨.tgt, n'.ix, k⟩ v x (tgtActs m unif same k'
          (makesInterm m unif same n p c) (theVisit m unif same n p c).2) := by
      rw [flow_flatMap]
      apply sum_eq_single (kids_nodup_ix n) hk'
      intro d hd hne
      apply flow_eq_zero
      intro e he hde
      have := (tgtActs_local hm unif same d _ _ e he).2
      rw [hde] at this
      exact hne (kid_desc_unique hd hk' this hb.under.isDesc)
    omega

end target

/-- Every target action belongs to some visit. -/
theorem tgtActs_mem (m : Method) (unif : Nat) (same : Bool) (n : TNode) : ∀ p c a,
    a ∈ tgtActs m unif same n p c →
    ∃ n' p' c', Visit m unif same n p c n' p' c' ∧ a ∈ (theVisit m unif same n' p' c').1 := by
  induction n using tnode_induction with
  | h n ih =>
    intro p c a ha
    rw [tgtActs_eq] at ha
    rcases List.mem_append.1 ha with ha | ha
    · exact ⟨n, p, c, .here _ _ _, ha⟩
    · split at ha
      · rename_i hr
        obtain ⟨k, hk, ha⟩ := List.mem_flatMap.1 ha
        obtain ⟨n', p', c', hv, h⟩ := ih k hk _ _ a ha
        exact ⟨n', p', c', .down hr hk hv, h⟩
      · simp at ha

theorem srcActs_mem (m : Method) (n : TNode) : ∀ a, a ∈ srcActs m n →
    ∃ n', Under n n' ∧ a ∈ ownSrc m n' := by
  induction n using tnode_induction with
  | h n ih =>
    intro a ha
    rw [srcActs_eq] at ha
    rcases List.mem_append.1 ha with ha | ha
    · split at ha
      · simp at ha
      · obtain ⟨k, hk, ha⟩ := List.mem_flatMap.1 ha
        obtain ⟨n', hv, h⟩ := ih k hk a ha
        exact ⟨n', .down hk hv, h⟩
    · exact ⟨n, .refl _, ha⟩

/-- The root of a tree. -/
def rootNode (c : Fin 8 → Oct) : TNode := ⟨Index.root, c⟩

theorem createDag_eq (m : Method) (unif : Nat) (same : Bool) (s t : Fin 8 → Oct) :
    createDag m unif same s t =
      srcActs m (rootNode s) ++ tgtActs m unif same (rootNode t) false [rootNode s] := rfl

section eval
variable {m : Method} (hm : m.Local) {unif : Nat} {same : Bool} {s t : Fin 8 → Oct}
  {val : Ref → Prov} (hv : IsEvaluation (createDag m unif same s t) val)
include hm hv

/-- Value of a source DAG node. -/
theorem val_src {n : TNode} (h : Under (rootNode s) n) (k : Kind) (v : Nat) (x : Index) :
    val ⟨.src, n.ix, k⟩ v x = base ⟨.src, n.ix, k⟩ v x +
      flow val ⟨.src, n.ix, k⟩ v x (ownSrc m n) := by
  rw [hv, inflow_edgesOf, createDag_eq, flow_append, src_flow hm val h]
  have : flow val ⟨.src, n.ix, k⟩ v x (tgtActs m unif same (rootNode t) false [rootNode s]) = 0 := by
    apply flow_eq_zero
    intro e he hd
    have := (tgtActs_local hm unif same _ _ _ e he).1
    rw [hd] at this; cases this
  omega

/-- Value of a target DAG node. -/
theorem val_tgt {n : TNode} {p : Bool} {c : List TNode}
    (h : Visit m unif same (rootNode t) false [rootNode s] n p c) (k : Kind) (v : Nat) (x : Index) :
    val ⟨.tgt, n.ix, k⟩ v x = flow val ⟨.tgt, n.ix, k⟩ v x (theVisit m unif same n p c).1 := by
  rw [hv, inflow_edgesOf, createDag_eq, flow_append, tgt_flow hm unif same val h]
  have : flow val ⟨.tgt, n.ix, k⟩ v x (srcActs m (rootNode s)) = 0 := by
    apply flow_eq_zero
    intro e he hd
    have := (srcActs_local hm _ e he).1
    rw [hd] at this; cases this
  have hb : base ⟨.tgt, n.ix, k⟩ v x = 0 := by simp [base]
  omega

/-- If every visit that creates the target particle node receives everything, the method delivers. -/
theorem deliver_of_visits
    (hadd : ∀ n p c, Visit m unif same (rootNode t) false [rootNode s] n p c →
      ∀ r, Act.add r ∈ (theVisit m unif same n p c).1 → r.side = .tgt ∧ r.ix = n.ix ∧
        (r.kind = .parts → refine m unif same n c = false))
    (hsrc : ∀ n r, Act.add r ∈ ownSrc m n → r.side = .src)
    (H : ∀ n p c, Visit m unif same (rootNode t) false [rootNode s] n p c →
      refine m unif same n c = false → ∀ x,
        flow val ⟨.tgt, n.ix, .parts⟩ 0 x (theVisit m unif same n p c).1 =
          (rootNode s).leaves.count x) :
    ∀ r ∈ nodesOf (createDag m unif same s t), r.side = .tgt → r.kind = .parts →
      ∀ x, val r 0 x = if x ∈ leaves Index.root (.node s) then 1 else 0 := by
  intro r hr hside hkind x
  have hr' : Act.add r ∈ createDag m unif same s t := by
    unfold nodesOf at hr
    obtain ⟨a, ha, h⟩ := List.mem_filterMap.1 hr
    cases a with
    | add r' => simp at h; subst h; exact ha
    | link e => simp at h
  rw [createDag_eq, List.mem_append] at hr'
  rcases hr' with hr' | hr'
  · obtain ⟨n, _, h⟩ := srcActs_mem m _ _ hr'
    rw [hsrc n r h] at hside; cases hside
  · obtain ⟨n, p, c, hvis, h⟩ := tgtActs_mem m unif same _ _ _ _ hr'
    obtain ⟨_, h2, h3⟩ := hadd n p c hvis r h
    have e : r = ⟨.tgt, n.ix, .parts⟩ := by
      cases r; simp_all
    rw [e, val_tgt hm hv hvis, H n p c hvis (h3 hkind) x, count_leaves]
    rfl
end eval

/-! ### Every schedule is a permutation of the depth-first one -/

theorem Interleaves.perm {α : Type} {ls : List (List α)} {r : List α} (h : Interleaves ls r) :
    r.Perm ls.flatten := by
  induction h with
  | done h => rw [List.flatten_eq_nil_iff.2 h]
  | @step pre post a l r _ ih =>
    simp only [List.flatten_append, List.flatten_cons, List.cons_append] at *
    exact (List.Perm.cons a ih).trans List.perm_middle.symm

/-- The actions of a task in depth-first order. -/
def Prog.canon : Prog → List Act
  | .acts l => l
  | .seq p q => p.canon ++ q.canon
  | .par ps => (List.finRange 8).flatMap fun i => (ps i).canon

theorem Runs.perm {p : Prog} {r : List Act} (h : Runs p r) : r.Perm p.canon := by
  induction h with
  | acts l => exact List.Perm.refl _
  | seq _ _ ih1 ih2 => exact ih1.append ih2
  | @par ps rs r _ hr ih =>
    refine hr.perm.trans ?_
    rw [Prog.canon, ← List.flatMap_def]
    induction List.finRange 8 with
    | nil => exact List.Perm.refl _
    | cons i l ihl => exact (ih i).append ihl

theorem sourceProg_canon (m : Method) (o : Oct) : ∀ ix, (sourceProg m ix o).canon = sourceApply m ix o := by
  induction o with
  | nil => intro ix; rw [sourceProg, sourceApply, Prog.canon]
  | node c ih =>
    intro ix
    rw [sourceProg, sourceApply]
    split
    · rw [Prog.canon]
    · simp only [Prog.canon, ih]

theorem targetProg_canon (m : Method) (unif : Nat) (same : Bool) (o : Oct) : ∀ ix p c,
    (targetProg m unif same ix o p c).canon = targetApply m unif same ix o p c := by
  induction o with
  | nil => intro ix p c; rw [targetProg, targetApply, Prog.canon]
  | node ch ih =>
    intro ix p c
    rw [targetProg, targetApply]
    split
    · simp only [Prog.canon, ih]
    · simp only [Prog.canon, List.append_nil]

theorem createProg_canon (m : Method) (unif : Nat) (same : Bool) (s t : Fin 8 → Oct) :
    (createProg m unif same s t).canon = createDag m unif same s t := by
  rw [createProg, createDag, Prog.canon, sourceProg_canon, targetProg_canon]

theorem runs_perm {m : Method} {unif : Nat} {same : Bool} {s t : Fin 8 → Oct} {acts : List Act}
    (h : Runs (createProg m unif same s t) acts) : acts.Perm (createDag m unif same s t) := by
  rw [← createProg_canon]; exact h.perm

theorem isEvaluation_perm {a b : List Act} (h : a.Perm b) {val : Ref → Prov}
    (hv : IsEvaluation a val) : IsEvaluation b val := by
  intro r v x
  rw [hv r v x, inflow_edgesOf, inflow_edgesOf]
  unfold flow
  rw [(h.map _).sum_eq]

theorem nodesOf_perm {a b : List Act} (h : a.Perm b) : (nodesOf a).Perm (nodesOf b) :=
  h.filterMap _

theorem deliversAllOnce_of_canonical {m : Method}
    (h : ∀ (unif : Nat) (same : Bool) (s t : Fin 8 → Oct) (val : Ref → Prov),
      IsEvaluation (createDag m unif same s t) val →
      ∀ r ∈ nodesOf (createDag m unif same s t), r.side = .tgt → r.kind = .parts →
        ∀ x, val r 0 x = if x ∈ leaves Index.root (.node s) then 1 else 0) :
    DeliversAllOnce m := by
  intro unif same s t acts val hr hv r hmem
  have hp := runs_perm hr
  exact h unif same s t val (isEvaluation_perm hp hv) r ((nodesOf_perm hp).mem_iff.1 hmem)

end Dashmm
