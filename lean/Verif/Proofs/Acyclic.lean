import Verif.Proofs.Safe
/-! Helper lemmas: separation, partition of the targets, acyclicity, existence of evaluations. -/
namespace Dashmm

/-! ### Separation -/

theorem wellSepAsym_iff {a b : Index} (h : b.level ≤ a.level) :
    wellSepAsym a b = true ↔ Separated a b := by
  have hmax : max a.level b.level = a.level := by omega
  have hpos : 0 < 2 ^ (a.level - b.level) := Nat.pow_pos (by decide)
  simp only [wellSepAsym, Separated, boxHi, boxLo, hmax, Nat.sub_self, Nat.pow_zero, Nat.mul_one,
    Nat.shiftLeft_eq, Bool.or_eq_true, decide_eq_true_eq, Nat.one_mul, Nat.add_mul]
  generalize b.x * 2 ^ (a.level - b.level) = bx
  generalize b.y * 2 ^ (a.level - b.level) = bY
  generalize b.z * 2 ^ (a.level - b.level) = bz
  generalize 2 ^ (a.level - b.level) = d at *
  omega

theorem separated_symm {a b : Index} : Separated a b ↔ Separated b a := by
  unfold Separated
  rw [Nat.max_comm]
  simp only
  tauto

theorem wellSep_iff_separated {a b : Index} (h : a.level = b.level) :
    wellSep a b = true ↔ Separated a b := by
  rw [wellSep_iff]
  simp only [Separated, boxHi, boxLo, h, Nat.max_self, Nat.sub_self, Nat.pow_zero, Nat.mul_one]
  omega

/-- Separation of the links made in the loops. -/
theorem FmmAct.separated {s : Fin 8 → Oct} {t : Index} {a : Act} (h : FmmAct s t a) :
    ∀ e, a = .link e → (e.op = .StoT → ¬ Separated e.src.ix e.dst.ix) ∧
      (e.op ≠ .StoT → Separated e.src.ix e.dst.ix ∧ (e.op = .MtoL ∨ e.op = .StoL ∨ e.op = .MtoT)) := by
  intro e he
  cases h with
  | @StoL i h hl hlt hw =>
    cases he
    have := (wellSepAsym_iff (Nat.le_of_lt hlt)).1 hw
    exact ⟨by simp, fun _ => ⟨separated_symm.1 this, by simp⟩⟩
  | @StoTbig i h hl hlt hw =>
    cases he
    refine ⟨fun _ hs => ?_, by simp⟩
    have := (wellSepAsym_iff (a := t) (b := i.ix) (by omega)).2 (separated_symm.1 hs)
    simp [hw] at this
  | @StoTsmall i h hl hle hw =>
    cases he
    refine ⟨fun _ hs => ?_, by simp⟩
    have := (wellSepAsym_iff hle).2 hs
    simp [hw] at this
  | @MtoL i h he' hw =>
    cases he
    exact ⟨by simp, fun _ => ⟨(wellSep_iff_separated he').1 hw, by simp⟩⟩
  | @MtoT i h hle hw =>
    cases he
    exact ⟨by simp, fun _ => ⟨(wellSepAsym_iff hle).1 hw, by simp⟩⟩

/-- The links of a DAG are those of the visits. -/
theorem createDag_mem {m : Method} {unif : Nat} {same : Bool} {s t : Fin 8 → Oct} {a : Act}
    (h : a ∈ createDag m unif same s t) :
    (∃ n, Under (rootNode s) n ∧ a ∈ ownSrc m n) ∨
    (∃ n p c, Visit m unif same (rootNode t) false [rootNode s] n p c ∧
      a ∈ (theVisit m unif same n p c).1) := by
  rw [createDag_eq, List.mem_append] at h
  rcases h with h | h
  · exact .inl (srcActs_mem m _ _ h)
  · exact .inr (tgtActs_mem m unif same _ _ _ _ h)

/-! ### Partition of the targets -/

theorem kid_eq_of_ix {n k k' : TNode} (hk : k ∈ n.kids) (hk' : k' ∈ n.kids) (h : k.ix = k'.ix) :
    k = k' := by
  obtain ⟨i, h1, h2⟩ := mem_kids.1 hk
  obtain ⟨j, h1', h2'⟩ := mem_kids.1 hk'
  rw [h2, h2'] at h
  have hij : i = j := Fin.ext (Index.child_inj _ _ _ _ i.isLt j.isLt h).2
  subst hij
  rw [h1] at h1'
  cases k; cases k'
  simp_all

theorem nChildren_zero {n : TNode} : n.isLeaf = true ↔ n.nChildren = 0 := by
  simp [TNode.isLeaf]

theorem partition_targets {m : Method} {unif : Nat} {same : Bool}
    (hadd : ∀ n p c r, Act.add r ∈ (theVisit m unif same n p c).1 → r.side = .tgt ∧ r.ix = n.ix)
    (hparts : ∀ n p c, Act.addParts .tgt n.ix ∈ (theVisit m unif same n p c).1 ↔
      refine m unif same n c = false) (n : TNode) :
    ∀ p c x, x ∈ n.leaves → unif ≤ x.level →
      (∃ r, Act.add r ∈ tgtActs m unif same n p c ∧ r.side = .tgt ∧ r.kind = .parts ∧ IsDesc r.ix x) ∧
      (∀ r r', Act.add r ∈ tgtActs m unif same n p c → Act.add r' ∈ tgtActs m unif same n p c →
        r.kind = .parts → r'.kind = .parts → IsDesc r.ix x → IsDesc r'.ix x → r = r') := by
  have hdesc : ∀ (n : TNode) p c r, Act.add r ∈ tgtActs m unif same n p c → IsDesc n.ix r.ix := by
    intro n
    induction n using tnode_induction with
    | h n ih =>
      intro p c r hr
      rw [tgtActs_eq, List.mem_append] at hr
      rcases hr with hr | hr
      · rw [(hadd n p c r hr).2]; exact isDesc_refl _
      · split at hr
        · obtain ⟨k, hk, hr⟩ := List.mem_flatMap.1 hr
          have := ih k hk _ _ r hr
          obtain ⟨i, _, h2⟩ := mem_kids.1 hk
          rw [h2] at this
          exact isDesc_of_child i.isLt this
        · simp at hr
  induction n using tnode_induction with
  | h n ih =>
    intro p c x hx hlev
    rw [tgtActs_eq]
    have hown : ∀ r, Act.add r ∈ (theVisit m unif same n p c).1 → r.kind = .parts →
        r = ⟨.tgt, n.ix, .parts⟩ := by
      intro r hr hk
      obtain ⟨h1, h2⟩ := hadd n p c r hr
      cases r; simp_all
    cases hrf : refine m unif same n c with
    | false =>
      simp only [Bool.false_eq_true, if_false, List.append_nil]
      refine ⟨⟨⟨.tgt, n.ix, .parts⟩, (hparts n p c).2 hrf, rfl, rfl, mem_leaves_desc n x hx⟩, ?_⟩
      intro r r' h1 h2 k1 k2 _ _
      rw [hown r h1 k1, hown r' h2 k2]
    | true =>
      have hnl : n.isLeaf = false := by
        cases hl : n.isLeaf with
        | false => rfl
        | true =>
          rw [TNode.leaves_of_leaf hl] at hx
          simp at hx; subst hx
          unfold refine at hrf
          rw [if_neg (by omega), nChildren_zero.1 hl] at hrf
          simp at hrf
      rw [TNode.leaves_of_not_leaf hnl] at hx
      obtain ⟨k, hk, hxk⟩ := List.mem_flatMap.1 hx
      obtain ⟨⟨r, hr, h1, h2, h3⟩, huniq⟩ := ih k hk (makesInterm m unif same n p c)
        (theVisit m unif same n p c).2 x hxk hlev
      simp only [if_true]
      refine ⟨⟨r, List.mem_append.2 (.inr (List.mem_flatMap.2 ⟨k, hk, hr⟩)), h1, h2, h3⟩, ?_⟩
      have key : ∀ r, Act.add r ∈ (theVisit m unif same n p c).1 ++ n.kids.flatMap (fun k =>
          tgtActs m unif same k (makesInterm m unif same n p c) (theVisit m unif same n p c).2) →
          r.kind = .parts → IsDesc r.ix x →
          Act.add r ∈ tgtActs m unif same k (makesInterm m unif same n p c)
            (theVisit m unif same n p c).2 := by
        intro r hr hkind hd
        rcases List.mem_append.1 hr with hr | hr
        · have := hown r hr hkind
          subst this
          have := (hparts n p c).1 hr
          rw [hrf] at this; cases this
        · obtain ⟨k', hk', hr'⟩ := List.mem_flatMap.1 hr
          have d1 := isDesc_trans (hdesc k' _ _ r hr') hd
          have d2 := mem_leaves_desc k x hxk
          have := kid_eq_of_ix hk' hk (kid_desc_unique hk' hk d1 d2)
          rw [this] at hr'; exact hr'
      intro r r' ha hb ka kb da db
      exact huniq r r' (key r ha ka da) (key r' hb kb db) ka kb da db

/-! ### Acyclicity -/

theorem Under.level_height {a b : TNode} (h : Under a b) : b.ix.level + 1 ≤ a.ix.level + a.height := by
  induction h with
  | refl a => have := height_pos a; omega
  | down hk _ ih => have := kid_level hk; have := height_kid hk; omega

/-- A numbering of the DAG nodes. -/
def dagRank (H : Nat) (r : Ref) : Nat :=
  match r.side, r.kind with
  | .src, .parts => 0
  | .src, .normal => 2 * (H - r.ix.level) + 1
  | .src, .interm => 2 * (H - r.ix.level) + 2
  | .tgt, .normal => 2 * H + 4 + 2 * r.ix.level
  | .tgt, .interm => 2 * H + 5 + 2 * r.ix.level
  | .tgt, .parts => 2 * H + 6 + 2 * r.ix.level

/-- Every link goes up. -/
def Up (H : Nat) (a : Act) : Prop := ∀ e, a = .link e → dagRank H e.src < dagRank H e.dst

theorem up_cross {H : Nat} {e : Edge} (h1 : e.src.side = .src) (h2 : e.dst.side = .tgt) :
    dagRank H e.src < dagRank H e.dst := by
  obtain ⟨op, ⟨sd, si, sk⟩, ⟨dd, di, dk⟩⟩ := e
  simp only at h1 h2
  subst h1; subst h2
  cases sk <;> cases dk <;> simp [dagRank] <;> omega

theorem SrcAct.up {H lo : Nat} {n : TNode} {a : Act} (h : SrcAct lo n a)
    (hH : ∀ k ∈ n.kids, k.ix.level ≤ H) : Up H a := by
  intro e he
  cases h with
  | MtoM hk _ =>
    cases he
    have := kid_level hk
    have := hH _ hk
    simp [dagRank]; omega
  | _ => cases he <;> simp [dagRank]

theorem FmmAct.up {H : Nat} {s : Fin 8 → Oct} {t : Index} {a : Act} (h : FmmAct s t a) : Up H a := by
  intro e he
  cases h <;> cases he <;> exact up_cross rfl rfl

theorem BhAct.up {H : Nat} {mac : Index → Index → Bool} {s : Fin 8 → Oct} {t : Index} {a : Act}
    (h : BhAct mac s t a) : Up H a := by
  intro e he
  cases h <;> cases he <;> exact up_cross rfl rfl

theorem parent_level (i : Index) : i.parent.level = i.level - 1 := by rw [Index.parent_eq]

theorem Fmm97VisitAct.up {H : Nat} {s : Fin 8 → Oct} {n : TNode} {p : Bool} {a : Act}
    (h : Fmm97VisitAct s n p a) : Up H a := by
  have hpl := parent_level n.ix
  cases h with
  | fmm h =>
    cases h with
    | loop h => exact h.up
    | LtoL h => intro e he; cases he; simp [dagRank]; omega
    | LtoT h => intro e he; cases he; simp [dagRank]
    | parts => intro e he; cases he
    | normal _ => intro e he; cases he
  | ItoL h _ => intro e he; cases he; simp [dagRank]; omega
  | interm => intro e he; cases he
  | ItoI h => intro e he; cases he; exact up_cross rfl rfl

/-- The edges go up in the numbering. -/
def Ranked (es : List Edge) : Prop := ∃ H, ∀ e ∈ es, dagRank H e.src < dagRank H e.dst

theorem Ranked.acyclic {es : List Edge} (h : Ranked es) : Acyclic es := by
  obtain ⟨H, h⟩ := h; exact ⟨_, h⟩

theorem ranked_of {m : Method} {unif : Nat} {same : Bool} {s t : Fin 8 → Oct} {lo : Nat}
    (hsrc : ∀ n, ∀ a ∈ ownSrc m n, SrcAct lo n a)
    (htgt : ∀ n p c, Visit m unif same (rootNode t) false [rootNode s] n p c →
      ∀ a ∈ (theVisit m unif same n p c).1, Up (rootNode s).height a)
    {acts : List Act} (hr : Runs (createProg m unif same s t) acts) :
    Ranked (edgesOf acts) := by
  refine ⟨(rootNode s).height, ?_⟩
  intro e he
  have he' : Act.link e ∈ createDag m unif same s t := by
    rw [← (runs_perm hr).mem_iff]
    unfold edgesOf at he
    obtain ⟨a, ha, h⟩ := List.mem_filterMap.1 he
    cases a with
    | add r => simp at h
    | link e' => simp at h; subst h; exact ha
  rcases createDag_mem he' with ⟨n, hn, ha⟩ | ⟨n, p, c, hv, ha⟩
  · refine (hsrc n _ ha).up ?_ e rfl
    intro k hk
    have := (hn.kid hk).level_height
    simp only [rootNode, Index.root] at this ⊢
    omega
  · exact htgt n p c hv _ ha e rfl

theorem Direct_ranked {unif : Nat} {same : Bool} {s t : Fin 8 → Oct} {acts : List Act}
    (hr : Runs (createProg Direct unif same s t) acts) : Ranked (edgesOf acts) := by
  refine ranked_of Direct_src_act ?_ hr
  intro n p c hv a ha e he
  subst he
  obtain ⟨h1, h2⟩ := visit_local Direct_local unif same n p c e ha
  simp only [theVisit, Dashmm.visit] at ha
  rcases List.mem_append.1 ha with ha | ha
  · simp [Direct, Act.addParts] at ha
  · have hc : ∀ i ∈ c, Under (rootNode s) i := Direct_cons hv (by
      intro i hi; simp at hi; subst hi; exact .refl _)
    have := (doWhile_act (leaf := !refine Direct unif same n c) (bhPass_act (fun _ _ => false) s n
      (!refine Direct unif same n c)) (loopFuel c) c hc).1
    have e1 : ∀ l, directPass n l = bhPass (fun _ _ => false) n l := fun l => funext (directPass_eq n l)
    have ha' : Act.link e ∈ (doWhile (bhPass (fun _ _ => false) n (!refine Direct unif same n c))
      (!refine Direct unif same n c) (loopFuel c) c).1 := by
      rw [← e1]; exact ha
    exact (this _ ha').up e rfl

theorem Direct_acyclic {unif : Nat} {same : Bool} {s t : Fin 8 → Oct} {acts : List Act}
    (hr : Runs (createProg Direct unif same s t) acts) : Acyclic (edgesOf acts) :=
  (Direct_ranked hr).acyclic

theorem BH_ranked {mac : Index → Index → Bool} {unif : Nat} {same : Bool} {s t : Fin 8 → Oct}
    {acts : List Act} (hr : Runs (createProg (BH mac) unif same s t) acts) :
    Ranked (edgesOf acts) := by
  refine ranked_of (BH_src_act mac) ?_ hr
  intro n p c hv a ha e he
  subst he
  simp only [theVisit, Dashmm.visit] at ha
  rcases List.mem_append.1 ha with ha | ha
  · simp [BH, Act.addParts] at ha
  · have hc : ∀ i ∈ c, Under (rootNode s) i := BH_cons hv (by
      intro i hi; simp at hi; subst hi; exact .refl _)
    exact ((doWhile_act (bhPass_act mac s n _) _ _ hc).1 _ ha).up e rfl

theorem BH_acyclic {mac : Index → Index → Bool} {unif : Nat} {same : Bool} {s t : Fin 8 → Oct}
    {acts : List Act} (hr : Runs (createProg (BH mac) unif same s t) acts) :
    Acyclic (edgesOf acts) :=
  (BH_ranked hr).acyclic

theorem FMM_ranked {unif : Nat} {same : Bool} {s t : Fin 8 → Oct} {acts : List Act}
    (hr : Runs (createProg FMM unif same s t) acts) : Ranked (edgesOf acts) := by
  refine ranked_of FMM_src_act ?_ hr
  intro n p c hv a ha
  exact (Fmm97VisitAct.fmm (p := p)
    (FMM_visit_act (FMM_cons hv (consOk_root s)) a ha)).up

theorem FMM_acyclic {unif : Nat} {same : Bool} {s t : Fin 8 → Oct} {acts : List Act}
    (hr : Runs (createProg FMM unif same s t) acts) : Acyclic (edgesOf acts) :=
  (FMM_ranked hr).acyclic

theorem FMM97_ranked {unif : Nat} {same : Bool} {s t : Fin 8 → Oct} {acts : List Act}
    (hr : Runs (createProg FMM97 unif same s t) acts) : Ranked (edgesOf acts) := by
  refine ranked_of FMM97_src_act ?_ hr
  intro n p c hv a ha
  exact (FMM97_visit_act (FMM97_cons hv (F97Ok_root s t)).cons a ha).up

theorem FMM97_acyclic {unif : Nat} {same : Bool} {s t : Fin 8 → Oct} {acts : List Act}
    (hr : Runs (createProg FMM97 unif same s t) acts) : Acyclic (edgesOf acts) :=
  (FMM97_ranked hr).acyclic

/-! ### Evaluations -/

/-- Evaluation by rounds. -/
def evalRounds (es : List Edge) : Nat → Ref → Prov
  | 0, r => base r
  | k + 1, r => fun v x => base r v x + inflow (evalRounds es k) es r v x

theorem contrib_congr {e : Edge} {x y : Prov} (h : ∀ v s, x v s = y v s) (v : Nat) (s : Index) :
    contrib e x v s = contrib e y v s := by
  have : x = y := funext fun v => funext fun s => h v s
  rw [this]

theorem inflow_congr {es : List Edge} {f g : Ref → Prov} {r : Ref}
    (h : ∀ e ∈ es, e.dst = r → ∀ v x, f e.src v x = g e.src v x) (v : Nat) (x : Index) :
    inflow f es r v x = inflow g es r v x := by
  unfold inflow
  congr 1
  apply List.map_congr_left
  intro e he
  split
  · rename_i hd; exact contrib_congr (h e he hd) v x
  · rfl

theorem evalRounds_stable {es : List Edge} {rank : Ref → Nat}
    (h : ∀ e ∈ es, rank e.src < rank e.dst) :
    ∀ k r, rank r < k → ∀ v x, evalRounds es k r v x = evalRounds es (rank r + 1) r v x := by
  intro k
  induction k using Nat.strongRecOn with
  | ind k ih =>
    intro r hr v x
    cases k with
    | zero => omega
    | succ k =>
      simp only [evalRounds]
      congr 1
      apply inflow_congr
      intro e he hd v x
      have hlt := h e he
      rw [hd] at hlt
      rw [ih k (by omega) e.src (by omega) v x]
      by_cases hk : rank r < k + 1
      · rcases Nat.lt_or_ge (rank r) k with hk' | hk'
        · exact (ih (rank r) (by omega) e.src hlt v x).symm
        · have : rank r = k := by omega
          rw [this]
          exact (ih k (by omega) e.src (by omega) v x).symm
      · omega

/-- The evaluation of an acyclic DAG exists and is unique. -/
theorem exists_unique_evaluation {acts : List Act} (h : Acyclic (edgesOf acts)) :
    ∃ val, IsEvaluation acts val ∧ ∀ val', IsEvaluation acts val' → val' = val := by
  obtain ⟨rank, h⟩ := h
  refine ⟨fun r => evalRounds (edgesOf acts) (rank r + 1) r, ?_, ?_⟩
  · intro r v x
    show base r v x + inflow (evalRounds (edgesOf acts) (rank r)) _ r v x = _
    congr 1
    apply inflow_congr
    intro e he hd v x
    have hlt := h e he
    rw [hd] at hlt
    exact evalRounds_stable h (rank r) e.src hlt v x
  · intro val' hv
    have : ∀ k r, rank r < k → ∀ v x, val' r v x = evalRounds (edgesOf acts) (rank r + 1) r v x := by
      intro k
      induction k with
      | zero => intro r hr; omega
      | succ k ih =>
        intro r hr v x
        rw [hv r v x]
        show _ = base r v x + inflow (evalRounds (edgesOf acts) (rank r)) _ r v x
        congr 1
        apply inflow_congr
        intro e he hd v x
        have hlt := h e he
        rw [hd] at hlt
        rw [ih e.src (by omega) v x, evalRounds_stable h (rank r) e.src hlt v x]
    funext r v x
    exact this _ r (Nat.lt_succ_self _) v x

end Dashmm
