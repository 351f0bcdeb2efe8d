import Verif.Proofs.Edges
import Verif.Spec.DagBuild
/-! Helper lemmas: no assertion fails in any schedule of the construction. -/
namespace Dashmm

/-- All links of the list have both ends available, starting with the nodes in `A`. -/
def SafeR : (Ref → Prop) → List Act → Prop
  | _, [] => True
  | A, .add r :: l => SafeR (fun x => A x ∨ x = r) l
  | A, .link e :: l => A e.src ∧ A e.dst ∧ SafeR A l

theorem SafeR.mono {l : List Act} : ∀ {A B : Ref → Prop}, (∀ r, A r → B r) → SafeR A l → SafeR B l := by
  induction l with
  | nil => intros; trivial
  | cons a l ih =>
    intro A B h hs
    cases a with
    | add r => exact ih (fun x hx => hx.elim (fun y => .inl (h x y)) .inr) hs
    | link e => exact ⟨h _ hs.1, h _ hs.2.1, ih h hs.2.2⟩

theorem SafeR.append {a b : List Act} : ∀ {A : Ref → Prop},
    SafeR A a → SafeR (fun r => A r ∨ r ∈ nodesOf a) b → SafeR A (a ++ b) := by
  induction a with
  | nil => intro A _ h; exact h.mono (fun r hr => hr.elim id (by simp [nodesOf]))
  | cons x a ih =>
    intro A h1 h2
    cases x with
    | add r =>
      refine ih h1 (h2.mono ?_)
      intro y hy
      rw [show nodesOf (Act.add r :: a) = r :: nodesOf a from rfl, List.mem_cons] at hy
      tauto
    | link e =>
      refine ⟨h1.1, h1.2.1, ih h1.2.2 (h2.mono ?_)⟩
      intro y hy
      exact hy

theorem SafeR.interleave {ls : List (List Act)} {r : List Act} (h : Interleaves ls r) :
    ∀ {A : Ref → Prop}, (∀ l ∈ ls, SafeR A l) → SafeR A r := by
  induction h with
  | done _ => intros; trivial
  | @step pre post a l r _ ih =>
    intro A hs
    have hal := hs (a :: l) (by simp)
    cases a with
    | add x =>
      apply ih
      intro l' hl'
      simp only [List.mem_append, List.mem_cons] at hl'
      rcases hl' with h | rfl | h
      · exact (hs l' (by simp [h])).mono (fun _ => .inl)
      · exact hal
      · exact (hs l' (by simp [h])).mono (fun _ => .inl)
    | link e =>
      refine ⟨hal.1, hal.2.1, ih ?_⟩
      intro l' hl'
      simp only [List.mem_append, List.mem_cons] at hl'
      rcases hl' with h | rfl | h
      · exact hs l' (by simp [h])
      · exact hal.2.2
      · exact hs l' (by simp [h])

theorem SafeR.links {A : Ref → Prop} {l : List Act}
    (h : ∀ a ∈ l, ∃ e, a = .link e ∧ A e.src ∧ A e.dst) : SafeR A l := by
  induction l with
  | nil => trivial
  | cons a l ih =>
    obtain ⟨e, rfl, h1, h2⟩ := h a (by simp)
    exact ⟨h1, h2, ih (fun b hb => h b (by simp [hb]))⟩

theorem SafeR.spec {l : List Act} : ∀ {A : Ref → Prop}, SafeR A l → ∀ pre e post,
    l = pre ++ Act.link e :: post → (A e.src ∨ e.src ∈ nodesOf pre) ∧ (A e.dst ∨ e.dst ∈ nodesOf pre) := by
  induction l with
  | nil => intro A _ pre e post h; simp at h
  | cons a l ih =>
    intro A hs pre e post h
    cases pre with
    | nil =>
      simp at h
      obtain ⟨rfl, rfl⟩ := h
      exact ⟨.inl hs.1, .inl hs.2.1⟩
    | cons b pre =>
      simp at h
      obtain ⟨rfl, rfl⟩ := h
      cases a with
      | add r =>
        have := ih hs pre e post rfl
        rw [show nodesOf (Act.add r :: pre) = r :: nodesOf pre from rfl]
        simp only [List.mem_cons]
        tauto
      | link e' =>
        exact ih hs.2.2 pre e post rfl

theorem mem_nodesOf {r : Ref} {l : List Act} : r ∈ nodesOf l ↔ Act.add r ∈ l := by
  unfold nodesOf
  rw [List.mem_filterMap]
  constructor
  · rintro ⟨a, ha, h⟩
    cases a with
    | add r' => simp at h; subst h; exact ha
    | link e => simp at h
  · intro h; exact ⟨_, h, rfl⟩

theorem mem_srcActs {m : Method} {a n : TNode} (h : Under a n) {x : Act} (hx : x ∈ ownSrc m n) :
    x ∈ srcActs m a := by
  induction h with
  | refl => rw [srcActs_eq]; simp [hx]
  | down hk _ ih =>
    rw [srcActs_eq, Under.not_leaf hk, List.mem_append]
    left
    exact List.mem_flatMap.2 ⟨_, hk, ih hx⟩

/-! ### Source phase -/

theorem runs_acts {l r : List Act} (h : Runs (.acts l) r) : r = l := by cases h; rfl
theorem runs_seq {p q : Prog} {r : List Act} (h : Runs (.seq p q) r) :
    ∃ a b, r = a ++ b ∧ Runs p a ∧ Runs q b := by
  cases h with
  | seq h1 h2 => exact ⟨_, _, rfl, h1, h2⟩
theorem runs_par {ps : Fin 8 → Prog} {r : List Act} (h : Runs (.par ps) r) :
    ∃ rs : Fin 8 → List Act, (∀ i, Runs (ps i) (rs i)) ∧
      Interleaves ((List.finRange 8).map rs) r := by
  cases h with
  | par h1 h2 => exact ⟨_, h1, h2⟩

theorem src_safe {m : Method}
    (hgen : ∀ n, SafeR (fun _ => False) (m.generate n))
    (hagg : ∀ n : TNode, n.isLeaf = false →
      SafeR (fun r => ∃ k ∈ n.kids, r ∈ nodesOf (ownSrc m k)) (m.aggregate n)) (o : Oct) :
    ∀ ix A r, Runs (sourceProg m ix o) r → SafeR A r := by
  induction o with
  | nil =>
    intro ix A r h
    rw [sourceProg] at h
    rw [runs_acts h]; trivial
  | node c ih =>
    intro ix A r h
    rw [sourceProg] at h
    split at h
    · rw [runs_acts h]
      exact (hgen _).mono (fun _ => False.elim)
    · rename_i hl
      obtain ⟨a, b, rfl, ha, hb⟩ := runs_seq h
      rw [runs_acts hb]
      obtain ⟨rs, hrs, hint⟩ := runs_par ha
      apply SafeR.append
      · apply SafeR.interleave hint
        intro l hl
        obtain ⟨i, _, rfl⟩ := List.mem_map.1 hl
        exact ih i _ _ _ (hrs i)
      · refine (hagg ⟨ix, c⟩ (by simpa using hl)).mono ?_
        rintro r ⟨k, hk, hr⟩
        right
        obtain ⟨i, h1, h2⟩ := mem_kids.1 hk
        rw [mem_nodesOf] at hr ⊢
        rw [hint.perm.mem_iff, List.mem_flatten]
        refine ⟨rs i, List.mem_map_of_mem (List.mem_finRange i), ?_⟩
        simp only at h1 h2
        rw [(hrs i).perm.mem_iff, sourceProg_canon, h1, ← h2]
        exact mem_srcActs (Under.refl k) hr

/-! ### Target phase -/

/-- `Pre n p c A`: with the nodes `A` available, the visit is safe, and so are those below. -/
theorem tgt_safe {m : Method} {unif : Nat} {same : Bool}
    {Pre : TNode → Bool → List TNode → (Ref → Prop) → Prop}
    (h1 : ∀ n p c A, Pre n p c A → SafeR A (theVisit m unif same n p c).1)
    (h2 : ∀ n p c A, Pre n p c A → refine m unif same n c = true → ∀ k ∈ n.kids,
      Pre k (makesInterm m unif same n p c) (theVisit m unif same n p c).2
        (fun r => A r ∨ r ∈ nodesOf (theVisit m unif same n p c).1)) (n : TNode) :
    ∀ p c A r, Pre n p c A → Runs (targetProg m unif same n.ix (.node n.c) p c) r → SafeR A r := by
  induction n using tnode_induction with
  | h n ih =>
    intro p c A r hpre h
    rw [targetProg] at h
    split at h
    · rename_i hr
      obtain ⟨a, b, rfl, ha, hb⟩ := runs_seq h
      have ha := runs_acts ha
      subst ha
      refine SafeR.append (h1 n p c A hpre) ?_
      obtain ⟨rs, hrs, hint⟩ := runs_par hb
      apply SafeR.interleave hint
      intro l hl
      obtain ⟨i, _, rfl⟩ := List.mem_map.1 hl
      have hri := hrs i
      cases hc : n.c i with
      | nil =>
        rw [hc, targetProg] at hri
        rw [runs_acts hri]; trivial
      | node c' =>
        rw [hc] at hri
        have hk : (⟨n.ix.child i, c'⟩ : TNode) ∈ n.kids := mem_kids.2 ⟨i, hc, rfl⟩
        exact ih _ hk _ _ _ _ (h2 n p c A hpre hr _ hk) hri
    · rw [runs_acts h]
      exact h1 n p c A hpre

/-! ### No node is created twice -/

theorem nodesOf_append (a b : List Act) : nodesOf (a ++ b) = nodesOf a ++ nodesOf b := by
  simp [nodesOf]

theorem nodesOf_flatMap {α : Type*} (l : List α) (f : α → List Act) :
    nodesOf (l.flatMap f) = l.flatMap fun a => nodesOf (f a) := by
  induction l with
  | nil => rfl
  | cons a l ih => simp [nodesOf_append, ih]

theorem src_nodup {m : Method}
    (hown : ∀ n, (nodesOf (ownSrc m n)).Nodup ∧ ∀ r ∈ nodesOf (ownSrc m n), r.side = .src ∧ r.ix = n.ix)
    (n : TNode) : (nodesOf (srcActs m n)).Nodup ∧
      ∀ r ∈ nodesOf (srcActs m n), r.side = .src ∧ IsDesc n.ix r.ix := by
  induction n using tnode_induction with
  | h n ih =>
    rw [srcActs_eq, nodesOf_append]
    have hkd : ∀ k ∈ n.kids, ∀ r, IsDesc k.ix r → IsDesc n.ix r := by
      intro k hk r hr
      obtain ⟨i, _, h2⟩ := mem_kids.1 hk
      rw [h2] at hr; exact isDesc_of_child i.isLt hr
    constructor
    · rw [List.nodup_append']
      refine ⟨?_, (hown n).1, ?_⟩
      · split
        · exact List.nodup_nil
        · rw [nodesOf_flatMap, List.nodup_flatMap]
          refine ⟨fun k hk => (ih k hk).1, ?_⟩
          refine List.Pairwise.imp_of_mem ?_ (kids_nodup_ix n)
          intro k k' hk hk' hne
          intro r h1 h2
          exact hne (kid_desc_unique hk hk' ((ih k hk).2 r h1).2 ((ih k' hk').2 r h2).2)
      · intro r h1 h2
        split at h1
        · simp [nodesOf] at h1
        · rw [nodesOf_flatMap] at h1
          obtain ⟨k, hk, h1⟩ := List.mem_flatMap.1 h1
          have := ((ih k hk).2 r h1).2
          rw [((hown n).2 r h2).2] at this
          exact kid_not_desc hk this
    · intro r hr
      rcases List.mem_append.1 hr with hr | hr
      · split at hr
        · simp [nodesOf] at hr
        · rw [nodesOf_flatMap] at hr
          obtain ⟨k, hk, h1⟩ := List.mem_flatMap.1 hr
          have := (ih k hk).2 r h1
          exact ⟨this.1, hkd k hk _ this.2⟩
      · have := (hown n).2 r hr
        exact ⟨this.1, this.2 ▸ isDesc_refl _⟩

theorem tgt_nodup {m : Method} {unif : Nat} {same : Bool}
    (hown : ∀ n p c, (nodesOf (theVisit m unif same n p c).1).Nodup ∧
      ∀ r ∈ nodesOf (theVisit m unif same n p c).1, r.side = .tgt ∧ r.ix = n.ix)
    (n : TNode) : ∀ p c, (nodesOf (tgtActs m unif same n p c)).Nodup ∧
      ∀ r ∈ nodesOf (tgtActs m unif same n p c), r.side = .tgt ∧ IsDesc n.ix r.ix := by
  induction n using tnode_induction with
  | h n ih =>
    intro p c
    rw [tgtActs_eq, nodesOf_append]
    have hkd : ∀ k ∈ n.kids, ∀ r, IsDesc k.ix r → IsDesc n.ix r := by
      intro k hk r hr
      obtain ⟨i, _, h2⟩ := mem_kids.1 hk
      rw [h2] at hr; exact isDesc_of_child i.isLt hr
    constructor
    · rw [List.nodup_append']
      refine ⟨(hown n p c).1, ?_, ?_⟩
      · split
        · rw [nodesOf_flatMap, List.nodup_flatMap]
          refine ⟨fun k hk => (ih k hk _ _).1, ?_⟩
          refine List.Pairwise.imp_of_mem ?_ (kids_nodup_ix n)
          intro k k' hk hk' hne
          intro r h1 h2
          exact hne (kid_desc_unique hk hk' ((ih k hk _ _).2 r h1).2 ((ih k' hk' _ _).2 r h2).2)
        · exact List.nodup_nil
      · intro r h2 h1
        split at h1
        · rw [nodesOf_flatMap] at h1
          obtain ⟨k, hk, h1⟩ := List.mem_flatMap.1 h1
          have := ((ih k hk _ _).2 r h1).2
          rw [((hown n p c).2 r h2).2] at this
          exact kid_not_desc hk this
        · simp [nodesOf] at h1
    · intro r hr
      rcases List.mem_append.1 hr with hr | hr
      · have := (hown n p c).2 r hr
        exact ⟨this.1, this.2 ▸ isDesc_refl _⟩
      · split at hr
        · rw [nodesOf_flatMap] at hr
          obtain ⟨k, hk, h1⟩ := List.mem_flatMap.1 hr
          have := (ih k hk _ _).2 r h1
          exact ⟨this.1, hkd k hk _ this.2⟩
        · simp [nodesOf] at hr

/-- Putting the pieces together. -/
theorem noAssertionFails_of {m : Method} {unif : Nat} {same : Bool} {s t : Fin 8 → Oct}
    (hgen : ∀ n, SafeR (fun _ => False) (m.generate n))
    (hagg : ∀ n : TNode, n.isLeaf = false →
      SafeR (fun r => ∃ k ∈ n.kids, r ∈ nodesOf (ownSrc m k)) (m.aggregate n))
    {Pre : TNode → Bool → List TNode → (Ref → Prop) → Prop}
    (h0 : Pre (rootNode t) false [rootNode s] (fun r => r ∈ nodesOf (srcActs m (rootNode s))))
    (h1 : ∀ n p c A, Pre n p c A → SafeR A (theVisit m unif same n p c).1)
    (h2 : ∀ n p c A, Pre n p c A → refine m unif same n c = true → ∀ k ∈ n.kids,
      Pre k (makesInterm m unif same n p c) (theVisit m unif same n p c).2
        (fun r => A r ∨ r ∈ nodesOf (theVisit m unif same n p c).1))
    (hsrc : ∀ n, (nodesOf (ownSrc m n)).Nodup ∧ ∀ r ∈ nodesOf (ownSrc m n), r.side = .src ∧ r.ix = n.ix)
    (htgt : ∀ n p c, (nodesOf (theVisit m unif same n p c).1).Nodup ∧
      ∀ r ∈ nodesOf (theVisit m unif same n p c).1, r.side = .tgt ∧ r.ix = n.ix)
    {acts : List Act} (hr : Runs (createProg m unif same s t) acts) : NoAssertionFails acts := by
  constructor
  · rw [(nodesOf_perm (runs_perm hr)).nodup_iff, createDag_eq, nodesOf_append, List.nodup_append']
    refine ⟨(src_nodup hsrc _).1, (tgt_nodup htgt _ _ _).1, ?_⟩
    intro r h1 h2
    have e1 := ((src_nodup hsrc _).2 r h1).1
    have e2 := ((tgt_nodup htgt _ _ _).2 r h2).1
    rw [e1] at e2; cases e2
  · have hs : SafeR (fun _ => False) acts := by
      obtain ⟨a, b, rfl, ha, hb⟩ := runs_seq hr
      refine SafeR.append (src_safe hgen hagg _ _ _ _ ha) ?_
      refine (tgt_safe h1 h2 (rootNode t) false [rootNode s] _ b h0 hb).mono ?_
      intro r hr
      right
      have := ha.perm
      rw [sourceProg_canon] at this
      exact ((nodesOf_perm this).mem_iff).2 hr
    intro pre e post h
    have := hs.spec pre e post h
    tauto

/-! ### The four methods -/

theorem nodesOf_links {l : List Act} (h : ∀ a ∈ l, ∃ e, a = .link e) : nodesOf l = [] := by
  rw [List.eq_nil_iff_forall_not_mem]
  intro r hr
  rw [mem_nodesOf] at hr
  obtain ⟨e, he⟩ := h _ hr
  cases he

/-- Both Direct and BH. -/
theorem bhLike_safe {m : Method} {unif : Nat} {same : Bool} {s t : Fin 8 → Oct}
    (mac : Index → Index → Bool)
    (hproc : ∀ n c l, m.process n c l = doWhile (bhPass mac n l) l (loopFuel c) c)
    (hinh : ∀ n p l, m.inherit n p l = if l then [Act.addParts .tgt n.ix] else [])
    (hgen : ∀ n, SafeR (fun _ => False) (m.generate n))
    (hagg : ∀ n : TNode, n.isLeaf = false →
      SafeR (fun r => ∃ k ∈ n.kids, r ∈ nodesOf (ownSrc m k)) (m.aggregate n))
    (hsrc : ∀ n, (nodesOf (ownSrc m n)).Nodup ∧ ∀ r ∈ nodesOf (ownSrc m n), r.side = .src ∧ r.ix = n.ix)
    (hP : ∀ i : TNode, i.isLeaf = true → ⟨.src, i.ix, .parts⟩ ∈ nodesOf (ownSrc m i))
    (hM : ∀ (i : TNode) t, mac i.ix t = true → ⟨.src, i.ix, .normal⟩ ∈ nodesOf (ownSrc m i))
    {acts : List Act} (hr : Runs (createProg m unif same s t) acts) : NoAssertionFails acts := by
  have hlink : ∀ n l c, ∀ a ∈ (m.process n c l).1, ∃ e, a = .link e ∧ e.dst = ⟨.tgt, n.ix, .parts⟩ := by
    intro n l c a ha
    rw [hproc] at ha
    exact doWhile_mem (bhPass_mem mac n l) _ _ _ ha
  refine noAssertionFails_of (s := s) (t := t) hgen hagg
    (Pre := fun n p c A => (∀ i ∈ c, Under (rootNode s) i) ∧
      ∀ r ∈ nodesOf (srcActs m (rootNode s)), A r) ?_ ?_ ?_ hsrc ?_ hr
  · refine ⟨?_, fun _ h => h⟩
    intro i hi; simp at hi; subst hi; exact .refl _
  · rintro n p c A ⟨hc, hA⟩
    simp only [theVisit, Dashmm.visit]
    have hact := (doWhile_act (leaf := !refine m unif same n c)
      (bhPass_act mac s n (!refine m unif same n c)) (loopFuel c) c hc).1
    rw [← hproc] at hact
    cases hrf : refine m unif same n c with
    | true =>
      rw [hrf] at hact
      -- an inner node makes no link
      have : (m.process n c (!true)).1 = [] := by
        rw [hproc, loopFuel, Nat.add_comm, Bool.not_true, doWhile_false, bhPass_false]
      rw [this, hinh]; trivial
    | false =>
      rw [hrf] at hact
      simp only [Bool.not_false, hinh, if_true] at hact ⊢
      apply SafeR.append
      · exact trivial
      · apply SafeR.links
        intro a ha
        obtain ⟨e, rfl, hd⟩ := hlink n true c a ha
        refine ⟨e, rfl, ?_, ?_⟩
        · left
          apply hA
          rw [mem_nodesOf]
          have := hact _ ha
          generalize hx : Act.link e = x at this
          cases this with
          | @MtoT i h hm =>
            cases hx
            exact mem_srcActs h (mem_nodesOf.1 (hM i n.ix hm))
          | @StoT i h hl hm =>
            cases hx
            exact mem_srcActs h (mem_nodesOf.1 (hP i hl))
        · right; rw [hd]; simp [nodesOf, Act.addParts]
  · rintro n p c A ⟨hc, hA⟩ hrf k hk
    refine ⟨?_, fun r hr => .inl (hA r hr)⟩
    have := (doWhile_act (leaf := !refine m unif same n c)
      (bhPass_act mac s n (!refine m unif same n c)) (loopFuel c) c hc).2
    rw [← hproc] at this
    exact this
  · intro n p c
    simp only [theVisit, Dashmm.visit, hinh, nodesOf_append]
    rw [nodesOf_links (l := (m.process n c _).1) (fun a ha => by
      obtain ⟨e, h, _⟩ := hlink n _ c a ha; exact ⟨e, h⟩)]
    split <;> simp [nodesOf, Act.addParts]

theorem BH_safe (mac : Index → Index → Bool) {unif : Nat} {same : Bool} {s t : Fin 8 → Oct}
    {acts : List Act} (hr : Runs (createProg (BH mac) unif same s t) acts) :
    NoAssertionFails acts := by
  have hM : ∀ i : TNode, ⟨.src, i.ix, .normal⟩ ∈ nodesOf (ownSrc (BH mac) i) := by
    intro i
    rw [mem_nodesOf, ownSrc]
    split <;> simp [BH, Act.addNormal, Act.addParts]
  refine bhLike_safe mac (fun _ _ _ => rfl) (fun _ _ _ => rfl) ?_ ?_ ?_ ?_ (fun i _ _ => hM i) hr
  · intro n
    simp [BH, SafeR, Act.addParts, Act.addNormal, Act.StoM]
  · intro n hl
    apply SafeR.append (a := [Act.addNormal .src n.ix])
    · trivial
    · apply SafeR.links
      intro a ha
      obtain ⟨k, hk, rfl⟩ := List.mem_map.1 ha
      exact ⟨_, rfl, .inl ⟨k, hk, hM k⟩, .inr (by simp [nodesOf, Act.addNormal])⟩
  · intro n
    unfold ownSrc
    split
    · simp [BH, nodesOf, Act.addParts, Act.addNormal, Act.StoM]
    · have : nodesOf (n.kids.map fun k => Act.MtoM k.ix n.ix) = [] :=
        nodesOf_links (fun a ha => by obtain ⟨k, _, rfl⟩ := List.mem_map.1 ha; exact ⟨_, rfl⟩)
      have e : nodesOf ((BH mac).aggregate n) =
          ⟨.src, n.ix, .normal⟩ :: nodesOf (n.kids.map fun k => Act.MtoM k.ix n.ix) := rfl
      rw [e, this]; simp
  · intro i hl
    rw [mem_nodesOf, ownSrc, hl]
    simp [BH, Act.addParts]

theorem Direct_safe {unif : Nat} {same : Bool} {s t : Fin 8 → Oct}
    {acts : List Act} (hr : Runs (createProg Direct unif same s t) acts) :
    NoAssertionFails acts := by
  refine bhLike_safe (fun _ _ => false) ?_ (fun _ _ _ => rfl) ?_ ?_ ?_ ?_ ?_ hr
  · intro n c l
    have : directPass n l = bhPass (fun _ _ => false) n l := funext (directPass_eq n l)
    simp only [Direct, this]
  · intro n
    simp [Direct, SafeR, Act.addParts]
  · intro n hl; simp [Direct, SafeR]
  · intro n
    unfold ownSrc
    split <;> simp [Direct, nodesOf, Act.addParts]
  · intro i hl
    rw [mem_nodesOf, ownSrc, hl]
    simp [Direct, Act.addParts]
  · intro i _ h; simp at h

/-- Source nodes available in FMM and FMM97. -/
theorem FMM_src_avail {i : TNode} :
    (i.isLeaf = true → ⟨.src, i.ix, .parts⟩ ∈ nodesOf (ownSrc FMM i)) ∧
    (2 ≤ i.ix.level → ⟨.src, i.ix, .normal⟩ ∈ nodesOf (ownSrc FMM i)) := by
  constructor
  · intro h; rw [mem_nodesOf, ownSrc, h]; simp [FMM, Act.addParts]
  · intro h2; rw [mem_nodesOf, ownSrc]; split <;> simp [FMM, Act.addNormal, h2]

theorem FMM97_src_avail {i : TNode} :
    (i.isLeaf = true → ⟨.src, i.ix, .parts⟩ ∈ nodesOf (ownSrc FMM97 i)) ∧
    (2 ≤ i.ix.level → ⟨.src, i.ix, .normal⟩ ∈ nodesOf (ownSrc FMM97 i)) ∧
    (2 ≤ i.ix.level → ⟨.src, i.ix, .interm⟩ ∈ nodesOf (ownSrc FMM97 i)) := by
  refine ⟨?_, ?_, ?_⟩
  · intro h; rw [mem_nodesOf, ownSrc, h]; simp [FMM97_generate, Act.addParts]
  · intro h2; rw [mem_nodesOf, ownSrc]
    split <;> simp [FMM97_generate, FMM97_aggregate, Act.addNormal, h2]
  · intro h2; rw [mem_nodesOf, ownSrc]
    split <;> simp [FMM97_generate, FMM97_aggregate, Act.addInterm, h2]

/-- Ends of the links made in the loops. -/
theorem FmmAct.ends {s : Fin 8 → Oct} {t : Index} (ht : t.InRange) {a : Act} (h : FmmAct s t a)
    {m : Method} (hP : ∀ i : TNode, i.isLeaf = true → ⟨.src, i.ix, .parts⟩ ∈ nodesOf (ownSrc m i))
    (hM : ∀ i : TNode, 2 ≤ i.ix.level → ⟨.src, i.ix, .normal⟩ ∈ nodesOf (ownSrc m i)) :
    ∃ e, a = .link e ∧ e.src ∈ nodesOf (srcActs m (rootNode s)) ∧
      (e.dst = ⟨.tgt, t, .parts⟩ ∨ e.dst = ⟨.tgt, t, .normal⟩ ∧ 2 ≤ t.level) := by
  cases h with
  | @StoL i h hl hlt hw =>
    exact ⟨_, rfl, mem_nodesOf.2 (mem_srcActs h (mem_nodesOf.1 (hP i hl))),
      .inr ⟨rfl, wellSepAsym_level ht (h.inRange (root_inRange s)) (by omega) hw⟩⟩
  | @StoTbig i h hl hlt hw =>
    exact ⟨_, rfl, mem_nodesOf.2 (mem_srcActs h (mem_nodesOf.1 (hP i hl))), .inl rfl⟩
  | @StoTsmall i h hl hlt hw =>
    exact ⟨_, rfl, mem_nodesOf.2 (mem_srcActs h (mem_nodesOf.1 (hP i hl))), .inl rfl⟩
  | @MtoL i h he hw =>
    have := wellSep_level (h.inRange (root_inRange s)) ht he hw
    exact ⟨_, rfl, mem_nodesOf.2 (mem_srcActs h (mem_nodesOf.1 (hM i this))),
      .inr ⟨rfl, by omega⟩⟩
  | @MtoT i h hle hw =>
    have := wellSepAsym_level (h.inRange (root_inRange s)) ht hle hw
    exact ⟨_, rfl, mem_nodesOf.2 (mem_srcActs h (mem_nodesOf.1 (hM i this))), .inl rfl⟩

theorem FMM_safe {unif : Nat} {same : Bool} {s t : Fin 8 → Oct}
    {acts : List Act} (hr : Runs (createProg FMM unif same s t) acts) : NoAssertionFails acts := by
  refine noAssertionFails_of (s := s) (t := t) (m := FMM) ?_ ?_
    (Pre := fun n p c A => ConsOk s n.ix c ∧ n.ix.InRange ∧
      (∀ r ∈ nodesOf (srcActs FMM (rootNode s)), A r) ∧
      (3 ≤ n.ix.level → A ⟨.tgt, n.ix.parent, .normal⟩)) ?_ ?_ ?_ ?_ ?_ hr
  · intro n
    simp only [FMM]
    split <;> simp [SafeR, Act.addParts, Act.addNormal, Act.StoM]
  · intro n hl
    simp only [FMM]
    split
    · rename_i h2
      apply SafeR.append (a := [Act.addNormal .src n.ix])
      · trivial
      · apply SafeR.links
        intro a ha
        obtain ⟨k, hk, rfl⟩ := List.mem_map.1 ha
        have := kid_level hk
        exact ⟨_, rfl, .inl ⟨k, hk, FMM_src_avail.2 (by omega)⟩,
          .inr (by simp [nodesOf, Act.addNormal])⟩
    · trivial
  · refine ⟨consOk_root s, root_inRange t, fun _ h => h, ?_⟩
    intro h; simp [rootNode, Index.root] at h
  · rintro n p c A ⟨hc, hin, hA, hL⟩
    simp only [theVisit, Dashmm.visit, FMM_inherit, FMM_process]
    have hact : ∀ a, FmmAct s n.ix a → _ := fun a ha =>
      ha.ends (m := FMM) hin (fun i => FMM_src_avail.1) (fun i => FMM_src_avail.2)
    cases hrf : refine FMM unif same n c with
    | true =>
      simp only [Bool.not_true, Bool.false_eq_true, if_false, List.nil_append]
      apply SafeR.append
      · by_cases h2 : 2 ≤ n.ix.level <;> by_cases h3 : 3 ≤ n.ix.level <;>
          simp [h2, h3, SafeR, Act.addNormal, Act.LtoL, hL]
      · apply SafeR.links
        intro a ha
        obtain ⟨e, rfl, h1, h2⟩ := hact a (fmmInnerLoop_act s _ _ hc a ha)
        obtain ⟨e', he', hd⟩ := fmmInnerLoop_mem _ _ _ ha
        cases he'
        refine ⟨e, rfl, .inl (hA _ h1), .inr ?_⟩
        rcases h2 with h2 | ⟨_, h2⟩
        · rw [hd] at h2; cases h2
        · rw [hd]; simp [h2, nodesOf, Act.addNormal]
    | false =>
      simp only [Bool.not_false, if_true]
      apply SafeR.append
      · apply SafeR.append
        · trivial
        · by_cases h2 : 2 ≤ n.ix.level <;> by_cases h3 : 3 ≤ n.ix.level <;>
            simp [h2, h3, SafeR, Act.addNormal, Act.LtoL, hL]
      · apply SafeR.links
        intro a ha
        rcases List.mem_append.1 ha with ha | ha
        · obtain ⟨e, rfl, h1, h2⟩ := hact a (fmmLeafLoop_act s _ _ hc a ha)
          refine ⟨e, rfl, .inl (hA _ h1), .inr ?_⟩
          rcases h2 with h2 | ⟨h3, h2⟩
          · rw [h2]; simp [nodesOf, Act.addParts]
          · rw [h3]; simp [h2, nodesOf, Act.addNormal]
        · split at ha <;> simp at ha
          rename_i h2
          subst ha
          exact ⟨_, rfl, .inr (by simp [h2, nodesOf, Act.addNormal]),
            .inr (by simp [nodesOf, Act.addParts])⟩
  · rintro n p c A ⟨hc, hin, hA, hL⟩ hrf k hk
    have e : (theVisit FMM unif same n p c).2 = (fmmInnerLoop n.ix c).2 := by
      simp [theVisit, Dashmm.visit, hrf, FMM_process]
    obtain ⟨i, _, h2⟩ := mem_kids.1 hk
    refine ⟨?_, ?_, fun r hr => .inl (hA r hr), ?_⟩
    · rw [e, h2]; exact fmmInnerLoop_consOk _ _ hc
    · rw [h2]; exact Index.inRange_child hin i i.isLt
    · intro h3
      right
      have := kid_level hk
      rw [kid_parent hk, mem_nodesOf]
      simp [theVisit, Dashmm.visit, FMM_inherit, Act.addNormal, show 2 ≤ n.ix.level by omega]
  · intro n
    unfold ownSrc
    have : nodesOf (n.kids.map fun k => Act.MtoM k.ix n.ix) = [] :=
        nodesOf_links (fun a ha => by obtain ⟨k, _, rfl⟩ := List.mem_map.1 ha; exact ⟨_, rfl⟩)
    split <;> simp only [FMM] <;> split
    · simp [nodesOf, Act.addParts, Act.addNormal, Act.StoM]
    · simp [nodesOf, Act.addParts]
    · rw [show nodesOf (Act.addNormal .src n.ix :: n.kids.map fun k => Act.MtoM k.ix n.ix) =
        ⟨.src, n.ix, .normal⟩ :: nodesOf (n.kids.map fun k => Act.MtoM k.ix n.ix) from rfl, this]
      simp
    · simp [nodesOf]
  · intro n p c
    simp only [theVisit, Dashmm.visit, FMM_inherit, nodesOf_append]
    rw [nodesOf_links (l := (FMM.process n c _).1)]
    · generalize (!refine FMM unif same n c) = b
      by_cases h2 : 2 ≤ n.ix.level <;> by_cases h3 : 3 ≤ n.ix.level <;> cases b <;>
        simp [h2, h3, nodesOf, Act.addParts, Act.addNormal, Act.LtoL]
    · intro a ha
      rw [FMM_process] at ha
      split at ha
      · rcases List.mem_append.1 ha with ha | ha
        · obtain ⟨e, h, _⟩ := fmmLeafLoop_mem _ _ _ ha; exact ⟨e, h⟩
        · split at ha <;> simp at ha
          subst ha; exact ⟨_, rfl⟩
      · obtain ⟨e, h, _⟩ := fmmInnerLoop_mem _ _ _ ha; exact ⟨e, h⟩

theorem FMM97_safe {unif : Nat} {same : Bool} {s t : Fin 8 → Oct}
    {acts : List Act} (hr : Runs (createProg FMM97 unif same s t) acts) : NoAssertionFails acts := by
  refine noAssertionFails_of (s := s) (t := t) (m := FMM97) ?_ ?_
    (Pre := fun n p c A => F97Ok s n p c ∧ n.ix.InRange ∧
      (∀ r ∈ nodesOf (srcActs FMM97 (rootNode s)), A r) ∧
      (3 ≤ n.ix.level → A ⟨.tgt, n.ix.parent, .normal⟩) ∧
      (p = true → A ⟨.tgt, n.ix.parent, .interm⟩)) ?_ ?_ ?_ ?_ ?_ hr
  · intro n
    simp only [FMM97_generate]
    split <;> simp [SafeR, Act.addParts, Act.addNormal, Act.StoM, Act.addInterm, Act.MtoI]
  · intro n hl
    simp only [FMM97_aggregate]
    split
    · rename_i h2
      apply SafeR.append
      · apply SafeR.append (a := [Act.addNormal .src n.ix])
        · trivial
        · apply SafeR.links
          intro a ha
          obtain ⟨k, hk, rfl⟩ := List.mem_map.1 ha
          have := kid_level hk
          exact ⟨_, rfl, .inl ⟨k, hk, FMM97_src_avail.2.1 (by omega)⟩,
            .inr (by simp [nodesOf, Act.addNormal])⟩
      · refine ⟨?_, ?_, trivial⟩
        · left; right; simp [nodesOf, Act.addNormal]
        · right; rfl
    · trivial
  · refine ⟨F97Ok_root s t, root_inRange t, fun _ h => h, ?_, ?_⟩
    · intro h; simp [rootNode, Index.root] at h
    · intro h; cases h
  · rintro n p c A ⟨hok, hin, hA, hL, hI⟩
    have hc := hok.cons
    simp only [theVisit, Dashmm.visit, FMM97_inherit, FMM97_process]
    have hact : ∀ a, FmmAct s n.ix a → _ := fun a ha =>
      ha.ends (m := FMM97) hin (fun i => FMM97_src_avail.1) (fun i => FMM97_src_avail.2.1)
    have hinh : ∀ B : Ref → Prop, (∀ r, A r → B r) → SafeR B (if n.ix.level ≥ 2 then
      Act.addNormal .tgt n.ix ::
        ((if p = true then [Act.ItoL n.ix.parent n.ix] else []) ++
         (if n.ix.level ≥ 3 then [Act.LtoL n.ix.parent n.ix] else []))
        else []) := by
      intro B hB
      have hI' := fun h => hB _ (hI h)
      have hL' := fun h => hB _ (hL h)
      by_cases h2 : 2 ≤ n.ix.level <;> by_cases h3 : 3 ≤ n.ix.level <;> cases p <;>
        simp [h2, h3, SafeR, Act.addNormal, Act.LtoL, Act.ItoL, hL', hI']
    cases hrf : refine FMM97 unif same n c with
    | true =>
      simp only [Bool.not_true, Bool.false_eq_true, if_false, List.nil_append]
      apply SafeR.append
      · exact hinh A (fun _ h => h)
      · apply SafeR.append
        · apply SafeR.links
          intro a ha
          obtain ⟨e, rfl, h1, h2⟩ := hact a ((fmm97InnerLoop_act s _ _ hc).1 a ha)
          obtain ⟨e', he', hd⟩ := fmm97InnerLoop_mem _ _ _ ha
          cases he'
          refine ⟨e, rfl, .inl (hA _ h1), .inr ?_⟩
          rcases h2 with h2 | ⟨_, h2⟩
          · rw [hd] at h2; cases h2
          · rw [hd]; simp [h2, nodesOf, Act.addNormal]
        · rw [mergeActs]
          by_cases hemp : (fmm97InnerLoop n.ix c).2.2.isEmpty = true
          · rw [if_pos hemp]; trivial
          · rw [if_neg hemp]
            apply SafeR.append (a := [Act.addInterm .tgt n.ix])
            · trivial
            · apply SafeR.links
              intro a ha
              obtain ⟨k, hk, rfl⟩ := List.mem_map.1 ha
              have hm := (fmm97InnerLoop_act s _ _ hc).2 k hk
              have h1 := hm.level
              have h2 := hm.pos
              refine ⟨_, rfl, .inl (.inl (.inl (hA _ ?_))), .inr (by simp [nodesOf, Act.addInterm])⟩
              exact mem_nodesOf.2 (mem_srcActs hm.under (mem_nodesOf.1
                (FMM97_src_avail.2.2 (by omega))))
    | false =>
      simp only [Bool.not_false, if_true]
      apply SafeR.append
      · apply SafeR.append
        · trivial
        · exact hinh _ (fun _ h => .inl h)
      · apply SafeR.links
        intro a ha
        rcases List.mem_append.1 ha with ha | ha
        · obtain ⟨e, rfl, h1, h2⟩ := hact a (fmm97LeafLoop_act s _ _ hc a ha)
          refine ⟨e, rfl, .inl (hA _ h1), .inr ?_⟩
          rcases h2 with h2 | ⟨h3, h2⟩
          · rw [h2]; simp [nodesOf, Act.addParts]
          · rw [h3]; simp [h2, nodesOf, Act.addNormal]
        · split at ha <;> simp at ha
          rename_i h2
          subst ha
          exact ⟨_, rfl, .inr (by simp [h2, nodesOf, Act.addNormal]),
            .inr (by simp [nodesOf, Act.addParts])⟩
  · rintro n p c A ⟨hok, hin, hA, hL, hI⟩ hrf k hk
    have e : (theVisit FMM97 unif same n p c).2 = (fmm97InnerLoop n.ix c).2.1 := by
      simp [theVisit, Dashmm.visit, hrf, FMM97_process]
    obtain ⟨i, _, h2⟩ := mem_kids.1 hk
    refine ⟨?_, ?_, fun r hr => .inl (hA r hr), ?_, ?_⟩
    · exact FMM97_cons (.down hrf hk (.here _ _ _)) hok
    · rw [h2]; exact Index.inRange_child hin i i.isLt
    · intro h3
      right
      have := kid_level hk
      rw [kid_parent hk, mem_nodesOf]
      simp [theVisit, Dashmm.visit, FMM97_inherit, Act.addNormal, show 2 ≤ n.ix.level by omega]
    · intro hp
      right
      rw [kid_parent hk, mem_nodesOf]
      exact of_decide_eq_true hp
  · intro n
    unfold ownSrc
    have : nodesOf (n.kids.map fun k => Act.MtoM k.ix n.ix) = [] :=
        nodesOf_links (fun a ha => by obtain ⟨k, _, rfl⟩ := List.mem_map.1 ha; exact ⟨_, rfl⟩)
    split <;> simp only [FMM97_generate, FMM97_aggregate] <;> split
    · simp [nodesOf, Act.addParts, Act.addNormal, Act.StoM, Act.addInterm, Act.MtoI]
    · simp [nodesOf, Act.addParts]
    · rw [nodesOf_append,
        show nodesOf (Act.addNormal .src n.ix :: n.kids.map fun k => Act.MtoM k.ix n.ix) =
        ⟨.src, n.ix, .normal⟩ :: nodesOf (n.kids.map fun k => Act.MtoM k.ix n.ix) from rfl, this]
      simp [nodesOf, Act.addInterm, Act.MtoI]
    · simp [nodesOf]
  · intro n p c
    simp only [theVisit, Dashmm.visit, FMM97_inherit, nodesOf_append]
    have hproc : nodesOf (FMM97.process n c (!refine FMM97 unif same n c)).1 = [] ∨
        nodesOf (FMM97.process n c (!refine FMM97 unif same n c)).1 = [⟨.tgt, n.ix, .interm⟩] := by
      rw [FMM97_process]
      split
      · left
        apply nodesOf_links
        intro a ha
        rcases List.mem_append.1 ha with ha | ha
        · obtain ⟨e, h, _⟩ := fmm97LeafLoop_mem _ _ _ ha; exact ⟨e, h⟩
        · split at ha <;> simp at ha
          subst ha; exact ⟨_, rfl⟩
      · rw [nodesOf_append, nodesOf_links (l := (fmm97InnerLoop n.ix c).1) (fun a ha => by
          obtain ⟨e, h, _⟩ := fmm97InnerLoop_mem _ _ _ ha; exact ⟨e, h⟩)]
        unfold mergeActs
        split
        · left; rfl
        · right
          rw [show nodesOf (Act.addInterm .tgt n.ix ::
              (fmm97InnerLoop n.ix c).2.2.map fun s => Act.ItoI s.ix n.ix) =
            ⟨.tgt, n.ix, .interm⟩ :: nodesOf ((fmm97InnerLoop n.ix c).2.2.map fun s => Act.ItoI s.ix n.ix)
            from rfl, nodesOf_links (fun a ha => by obtain ⟨k, _, rfl⟩ := List.mem_map.1 ha; exact ⟨_, rfl⟩)]
          rfl
    generalize (!refine FMM97 unif same n c) = b at *
    by_cases h2 : 2 ≤ n.ix.level <;> by_cases h3 : 3 ≤ n.ix.level <;> cases b <;> cases p <;>
      rcases hproc with h | h <;> rw [h] <;>
        simp [h2, h3, nodesOf, Act.addParts, Act.addNormal, Act.LtoL, Act.ItoL]

end Dashmm
