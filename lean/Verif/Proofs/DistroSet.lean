import Verif.Proofs.Distro
import Verif.Proofs.Grid
import Verif.Proofs.Acyclic
import Verif.Proofs.Safe
/-! Helper lemmas: the localities and colours set while the DAG is made. -/
namespace Dashmm
namespace Distro

/-! ### Final labels -/

theorem applyAll_go {F G : Ref → Int} : ∀ (l : List (Option Setting)) (L : Labels), none ∉ l →
    (∀ r v, some (.loc r v) ∈ l → v = F r) → (∀ r v, some (.color r v) ∈ l → v = G r) →
    ∃ L', l.foldlM (fun L s => s.map (Setting.apply L)) L = some L' ∧
      (∀ r, (∃ v, some (.loc r v) ∈ l) → L'.loc r = F r) ∧
      (∀ r, (¬ ∃ v, some (.loc r v) ∈ l) → L'.loc r = L.loc r) ∧
      (∀ r, (∃ v, some (.color r v) ∈ l) → L'.color r = G r) ∧
      (∀ r, (¬ ∃ v, some (.color r v) ∈ l) → L'.color r = L.color r) := by
  intro l
  induction l with
  | nil => intro L _ _ _; exact ⟨L, rfl, by simp, by simp, by simp, by simp⟩
  | cons o l ih =>
    intro L hn hF hG
    cases o with
    | none => simp at hn
    | some x =>
      obtain ⟨L', h1, h2, h3, h4, h5⟩ := ih (x.apply L) (by simpa using hn)
        (fun r v h => hF r v (by simp [h])) (fun r v h => hG r v (by simp [h]))
      refine ⟨L', by rw [List.foldlM_cons]; exact h1, ?_, ?_, ?_, ?_⟩
      · intro r hr
        by_cases hl : ∃ v, some (Setting.loc r v) ∈ l
        · exact h2 r hl
        · rw [h3 r hl]
          obtain ⟨v, hv⟩ := hr
          rcases List.mem_cons.1 hv with hv | hv
          · have : x = .loc r v := by simpa using hv.symm
            subst this
            simp [Setting.apply, hF r v (by simp)]
          · exact absurd ⟨v, hv⟩ hl
      · intro r hr
        rw [h3 r (fun ⟨v, hv⟩ => hr ⟨v, by simp [hv]⟩)]
        cases x with
        | color r' v => rfl
        | loc r' v =>
          have : r ≠ r' := by rintro rfl; exact hr ⟨v, by simp⟩
          simp [Setting.apply, this]
      · intro r hr
        by_cases hl : ∃ v, some (Setting.color r v) ∈ l
        · exact h4 r hl
        · rw [h5 r hl]
          obtain ⟨v, hv⟩ := hr
          rcases List.mem_cons.1 hv with hv | hv
          · have : x = .color r v := by simpa using hv.symm
            subst this
            simp [Setting.apply, hG r v (by simp)]
          · exact absurd ⟨v, hv⟩ hl
      · intro r hr
        rw [h5 r (fun ⟨v, hv⟩ => hr ⟨v, by simp [hv]⟩)]
        cases x with
        | loc r' v => rfl
        | color r' v =>
          have : r ≠ r' := by rintro rfl; exact hr ⟨v, by simp⟩
          simp [Setting.apply, this]

/-! ### Which settings there are -/

section
variable {m : Method} {unif : Nat} {same : Bool} {P : Policy} {rankOf : Nat → Nat} {s t : Fin 8 → Oct}

/-- `sourceSettings` on a node. -/
def srcSet (P : Policy) (unif : Nat) (rankOf : Nat → Nat) (n : TNode) : List (Option Setting) :=
  sourceSettings P unif rankOf n.ix (.node n.c)

theorem srcSet_eq (n : TNode) : srcSet P unif rankOf n =
    (if n.isLeaf then [] else n.kids.flatMap (srcSet P unif rankOf)) ++ sourceOwn P unif rankOf n := by
  have := flatMap_kids (sourceSettings P unif rankOf) (fun _ => by rw [sourceSettings]) n
  rw [srcSet, sourceSettings, this]; rfl

theorem srcSet_mem (n : TNode) : ∀ a, a ∈ srcSet P unif rankOf n ↔
    ∃ n', Under n n' ∧ a ∈ sourceOwn P unif rankOf n' := by
  induction n using tnode_induction with
  | h n ih =>
    intro a
    rw [srcSet_eq, List.mem_append]
    constructor
    · rintro (h | h)
      · split at h
        · simp at h
        · obtain ⟨k, hk, ha⟩ := List.mem_flatMap.1 h
          obtain ⟨n', hv, h⟩ := (ih k hk a).1 ha
          exact ⟨n', .down hk hv, h⟩
      · exact ⟨n, .refl _, h⟩
    · rintro ⟨n', hu, h⟩
      cases hu with
      | refl => exact .inr h
      | down hk hu =>
        left
        rw [Under.not_leaf hk]
        exact List.mem_flatMap.2 ⟨_, hk, (ih _ hk a).2 ⟨n', hu, h⟩⟩

/-- `targetSettings` on a node. -/
def tgtSet (m : Method) (unif : Nat) (same : Bool) (P : Policy) (rankOf : Nat → Nat) (n : TNode) (p : Bool)
    (c : List TNode) : List (Option Setting) :=
  targetSettings m unif same P rankOf n.ix (.node n.c) p c

theorem tgtSet_eq (n : TNode) (p : Bool) (c : List TNode) : tgtSet m unif same P rankOf n p c =
    targetOwn P unif rankOf n (refine m unif same n c) ++
      if refine m unif same n c then
        n.kids.flatMap fun k => tgtSet m unif same P rankOf k (makesInterm m unif same n p c)
          (theVisit m unif same n p c).2
      else [] := by
  have := flatMap_kids (fun ix o => targetSettings m unif same P rankOf ix o (makesInterm m unif same n p c)
          (theVisit m unif same n p c).2) (fun _ => by rw [targetSettings]) n
  rw [tgtSet, targetSettings]
  simp only [tgtSet, ← this]
  rfl

theorem tgtSet_mem (n : TNode) : ∀ p c a, a ∈ tgtSet m unif same P rankOf n p c ↔
    ∃ n' p' c', Visit m unif same n p c n' p' c' ∧
      a ∈ targetOwn P unif rankOf n' (refine m unif same n' c') := by
  induction n using tnode_induction with
  | h n ih =>
    intro p c a
    rw [tgtSet_eq, List.mem_append]
    constructor
    · rintro (h | h)
      · exact ⟨n, p, c, .here _ _ _, h⟩
      · split at h
        · rename_i hr
          obtain ⟨k, hk, ha⟩ := List.mem_flatMap.1 h
          obtain ⟨n', p', c', hv, h⟩ := (ih k hk _ _ a).1 ha
          exact ⟨n', p', c', .down hr hk hv, h⟩
        · simp at h
    · rintro ⟨n', p', c', hu, h⟩
      cases hu with
      | here => exact .inl h
      | down hr hk hu =>
        right
        rw [if_pos hr]
        exact List.mem_flatMap.2 ⟨_, hk, (ih _ hk _ _ a).2 ⟨n', p', c', hu, h⟩⟩

theorem allSettings_mem (a : Option Setting) : a ∈ allSettings m unif same P rankOf s t ↔
    (∃ n, Under (rootNode s) n ∧ a ∈ sourceOwn P unif rankOf n) ∨
    (∃ n p c, Visit m unif same (rootNode t) false [rootNode s] n p c ∧
      a ∈ targetOwn P unif rankOf n (refine m unif same n c)) := by
  rw [allSettings, List.mem_append]
  exact or_congr (srcSet_mem (rootNode s) a) (tgtSet_mem (rootNode t) false [rootNode s] a)

/-- The rank given to the nodes of a box. -/
def place (unif : Nat) (rankOf : Nat → Nat) (ix : Index) : Int := (innerRank unif rankOf ix).getD 0

theorem gridRank_ge {ix : Index} (h : unif ≤ ix.level) :
    gridRank unif rankOf ix = some (place unif rankOf ix) ∧
    innerRank unif rankOf ix = some (place unif rankOf ix) := by
  unfold place innerRank gridRank
  rw [Grid.unifGridIndex_ge h, if_pos h]
  simp

theorem innerRank_eq (ix : Index) : innerRank unif rankOf ix = some (place unif rankOf ix) := by
  by_cases h : unif ≤ ix.level
  · exact (gridRank_ge h).2
  · unfold place innerRank
    rw [if_neg h]; rfl

theorem place_range {ranks : Nat} (hr : 1 ≤ ranks) (hro : ∀ i < 8 ^ unif, rankOf i < ranks) {ix : Index}
    (hix : ix.InRange) : 0 ≤ place unif rankOf ix ∧ place unif rankOf ix < ranks := by
  by_cases h : unif ≤ ix.level
  · unfold place innerRank gridRank
    rw [Grid.unifGridIndex_ge h, if_pos h]
    simp only [Option.map_some, Option.getD_some]
    refine ⟨by omega, ?_⟩
    obtain ⟨h1, h2, h3⟩ := hix
    have key : ∀ a, a < 2 ^ ix.level → a / 2 ^ (ix.level - unif) < 2 ^ unif := by
      intro a ha
      rw [Nat.div_lt_iff_lt_mul (by positivity), ← pow_add, Nat.add_sub_cancel' h]
      exact ha
    have := Grid.simpleKey_lt (key _ h1) (key _ h2) (key _ h3)
    rw [Index.parent_eq]
    have h8 : (2 ^ unif) ^ 3 = 8 ^ unif := by rw [← pow_mul, Nat.mul_comm, pow_mul]; norm_num
    exact_mod_cast hro _ (h8 ▸ this)
  · unfold place innerRank
    rw [if_neg h]; simp; omega


/-- What a policy may do: localities are those it is given, colours depend on the node only. -/
structure PolicyOk (P : Policy) (G : Ref → Int) : Prop where
  sloc : ∀ ix v r x, Setting.loc r x ∈ P.source ix v → r.ix = ix ∧ x = v
  tloc : ∀ ix v r x, Setting.loc r x ∈ P.target ix v → r.ix = ix ∧ x = v
  scol : ∀ ix v r x, Setting.color r x ∈ P.source ix v → x = G r
  tcol : ∀ ix v r x, Setting.color r x ∈ P.target ix v → x = G r

/-- What the labels are after the DAG is made. -/
structure LabelsOk (ranks : Nat) (m : Method) (unif : Nat) (same : Bool) (P : Policy) (rankOf : Nat → Nat)
    (s t : Fin 8 → Oct) (G : Ref → Int) (L : Labels) : Prop where
  loc : ∀ r, L.loc r = -1 ∨ (L.loc r = place unif rankOf r.ix ∧ 0 ≤ L.loc r ∧ L.loc r < ranks)
  set : ∀ r, 0 ≤ L.loc r ↔ ∃ v, some (Setting.loc r v) ∈ allSettings m unif same P rankOf s t
  srcLeaf : ∀ n, Under (rootNode s) n → n.isLeaf = true → ∀ k, k ≠ Kind.interm →
    gridRank unif rankOf n.ix = some (L.loc ⟨.src, n.ix, k⟩) ∧ 0 ≤ L.loc ⟨.src, n.ix, k⟩
  tgtLeaf : ∀ n p c, Visit m unif same (rootNode t) false [rootNode s] n p c →
    refine m unif same n c = false → ∀ k, k ≠ Kind.interm →
    gridRank unif rankOf n.ix = some (L.loc ⟨.tgt, n.ix, k⟩) ∧ 0 ≤ L.loc ⟨.tgt, n.ix, k⟩
  srcLoc : ∀ n, Under (rootNode s) n → ∀ r x, Setting.loc r x ∈ P.source n.ix (place unif rankOf n.ix) →
    0 ≤ L.loc r
  srcCol : ∀ n, Under (rootNode s) n → ∀ r x, Setting.color r x ∈ P.source n.ix (place unif rankOf n.ix) →
    L.color r = G r
  tgtLoc : ∀ n p c, Visit m unif same (rootNode t) false [rootNode s] n p c →
    refine m unif same n c = true → ∀ r x, Setting.loc r x ∈ P.target n.ix (place unif rankOf n.ix) →
    0 ≤ L.loc r
  tgtCol : ∀ n p c, Visit m unif same (rootNode t) false [rootNode s] n p c →
    refine m unif same n c = true → ∀ r x, Setting.color r x ∈ P.target n.ix (place unif rankOf n.ix) →
    L.color r = G r

theorem refine_false_level {n : TNode} {c : List TNode} (h : refine m unif same n c = false) :
    unif ≤ n.ix.level := by
  unfold refine at h
  split at h
  · simp at h
  · omega

theorem under_leaf_mem {a n : TNode} (h : Under a n) (hl : n.isLeaf = true) : n.ix ∈ a.leaves := by
  induction h with
  | refl a => rw [TNode.leaves_of_leaf hl]; simp
  | down hk _ ih =>
    rw [TNode.leaves_of_not_leaf (Under.not_leaf hk)]
    exact List.mem_flatMap.2 ⟨_, hk, ih hl⟩

theorem sourceOwn_eq (hs : ∀ x ∈ leaves Index.root (.node s), unif ≤ x.level) {n : TNode}
    (hu : Under (rootNode s) n) : sourceOwn P unif rankOf n =
    ((if n.isLeaf then [Setting.loc ⟨.src, n.ix, .parts⟩ (place unif rankOf n.ix),
        .loc ⟨.src, n.ix, .normal⟩ (place unif rankOf n.ix)] else []) ++
      P.source n.ix (place unif rankOf n.ix)).map some := by
  unfold sourceOwn
  cases hl : n.isLeaf with
  | true =>
    have := hs _ (under_leaf_mem hu hl)
    rw [(gridRank_ge this).1]; simp
  | false => rw [innerRank_eq]; simp

theorem targetOwn_false {n : TNode} {c : List TNode} (h : refine m unif same n c = false) :
    targetOwn P unif rankOf n (refine m unif same n c) =
      [some (.loc ⟨.tgt, n.ix, .parts⟩ (place unif rankOf n.ix)),
       some (.loc ⟨.tgt, n.ix, .normal⟩ (place unif rankOf n.ix))] := by
  rw [h, targetOwn, (gridRank_ge (refine_false_level h)).1]; rfl

theorem targetOwn_true {n : TNode} {c : List TNode} (h : refine m unif same n c = true) :
    targetOwn P unif rankOf n (refine m unif same n c) =
      (P.target n.ix (place unif rankOf n.ix)).map some := by
  rw [h, targetOwn, innerRank_eq]; rfl

theorem labels_ok {ranks : Nat} {G : Ref → Int} (hr : 1 ≤ ranks) (hro : ∀ i < 8 ^ unif, rankOf i < ranks)
    (hs : ∀ x ∈ leaves Index.root (.node s), unif ≤ x.level) (hP : PolicyOk P G)
    {l : List (Option Setting)} (hl : l.Perm (allSettings m unif same P rankOf s t)) :
    ∃ L, applyAll l = some L ∧ LabelsOk ranks m unif same P rankOf s t G L := by
  have hmem : ∀ a, a ∈ l ↔ _ := fun a => hl.mem_iff.trans (allSettings_mem a)
  have hvis : ∀ n p c, Visit m unif same (rootNode t) false [rootNode s] n p c → n.ix.InRange :=
    fun n p c hv => hv.under.inRange (by exact Index.inRange_root)
  have hund : ∀ n, Under (rootNode s) n → n.ix.InRange :=
    fun n hu => hu.inRange (by exact Index.inRange_root)
  have hloc : ∀ r v, some (Setting.loc r v) ∈ l → v = place unif rankOf r.ix ∧ r.ix.InRange := by
    intro r v h
    rcases (hmem _).1 h with ⟨n, hu, ha⟩ | ⟨n, p, c, hv, ha⟩
    · rw [sourceOwn_eq hs hu] at ha
      simp only [List.mem_map, Option.some.injEq, exists_eq_right, List.mem_append] at ha
      rcases ha with ha | ha
      · split at ha
        · simp only [List.mem_cons, Setting.loc.injEq, List.not_mem_nil, or_false] at ha
          rcases ha with ⟨rfl, rfl⟩ | ⟨rfl, rfl⟩ <;> exact ⟨rfl, hund n hu⟩
        · simp at ha
      · obtain ⟨h1, h2⟩ := hP.sloc _ _ _ _ ha
        exact ⟨by rw [h1, h2], by rw [h1]; exact hund n hu⟩
    · cases hrf : refine m unif same n c with
      | false =>
        rw [targetOwn_false hrf] at ha
        simp only [List.mem_cons, Option.some.injEq, Setting.loc.injEq, List.not_mem_nil, or_false] at ha
        rcases ha with ⟨rfl, rfl⟩ | ⟨rfl, rfl⟩ <;> exact ⟨rfl, hvis _ _ _ hv⟩
      | true =>
        rw [targetOwn_true hrf] at ha
        simp only [List.mem_map, Option.some.injEq, exists_eq_right] at ha
        obtain ⟨h1, h2⟩ := hP.tloc _ _ _ _ ha
        exact ⟨by rw [h1, h2], by rw [h1]; exact hvis _ _ _ hv⟩
  have hcol : ∀ r v, some (Setting.color r v) ∈ l → v = G r := by
    intro r v h
    rcases (hmem _).1 h with ⟨n, hu, ha⟩ | ⟨n, p, c, hv, ha⟩
    · rw [sourceOwn_eq hs hu] at ha
      simp only [List.mem_map, Option.some.injEq, exists_eq_right, List.mem_append] at ha
      rcases ha with ha | ha
      · split at ha <;> simp at ha
      · exact hP.scol _ _ _ _ ha
    · cases hrf : refine m unif same n c with
      | false => rw [targetOwn_false hrf] at ha; simp at ha
      | true =>
        rw [targetOwn_true hrf] at ha
        simp only [List.mem_map, Option.some.injEq, exists_eq_right] at ha
        exact hP.tcol _ _ _ _ ha
  have hnone : none ∉ l := by
    intro h
    rcases (hmem _).1 h with ⟨n, hu, ha⟩ | ⟨n, p, c, hv, ha⟩
    · rw [sourceOwn_eq hs hu] at ha; simp at ha
    · cases hrf : refine m unif same n c with
      | false => rw [targetOwn_false hrf] at ha; simp at ha
      | true => rw [targetOwn_true hrf] at ha; simp at ha
  obtain ⟨L, h1, h2, h3, h4, _⟩ := applyAll_go (F := fun r => place unif rankOf r.ix) l Labels.init hnone
    (fun r v h => (hloc r v h).1) hcol
  have hset : ∀ r v, some (Setting.loc r v) ∈ l → L.loc r = place unif rankOf r.ix ∧ 0 ≤ L.loc r ∧
      L.loc r < ranks := by
    intro r v h
    have e := h2 r ⟨v, h⟩
    have := place_range hr hro (hloc r v h).2
    rw [e]; exact ⟨rfl, this⟩
  refine ⟨L, h1, ?_, ?_, ?_, ?_, ?_, ?_, ?_, ?_⟩
  · intro r
    by_cases h : ∃ v, some (Setting.loc r v) ∈ l
    · obtain ⟨v, h⟩ := h
      exact .inr (hset r v h)
    · exact .inl (h3 r h)
  · intro r
    constructor
    · intro h0
      by_contra h
      have e := h3 r (fun ⟨v, hv⟩ => h ⟨v, hl.mem_iff.1 hv⟩)
      rw [e] at h0
      simp [Labels.init] at h0
    · rintro ⟨v, hv⟩
      exact (hset r v (hl.mem_iff.2 hv)).2.1
  · intro n hu hlf k hk
    have hm : some (Setting.loc ⟨.src, n.ix, k⟩ (place unif rankOf n.ix)) ∈ l := by
      rw [hmem]
      refine .inl ⟨n, hu, ?_⟩
      rw [sourceOwn_eq hs hu, hlf]
      cases k <;> simp at hk ⊢
    have := hset _ _ hm
    refine ⟨?_, this.2.1⟩
    rw [this.1]
    exact (gridRank_ge (hs _ (under_leaf_mem hu hlf))).1
  · intro n p c hv hrf k hk
    have hm : some (Setting.loc ⟨.tgt, n.ix, k⟩ (place unif rankOf n.ix)) ∈ l := by
      rw [hmem]
      refine .inr ⟨n, p, c, hv, ?_⟩
      rw [targetOwn_false hrf]
      cases k <;> simp at hk ⊢
    have := hset _ _ hm
    refine ⟨?_, this.2.1⟩
    rw [this.1]
    exact (gridRank_ge (refine_false_level hrf)).1
  · intro n hu r x hx
    refine (hset r x ?_).2.1
    rw [hmem]
    refine .inl ⟨n, hu, ?_⟩
    rw [sourceOwn_eq hs hu]; simp [hx]
  · intro n hu r x hx
    apply h4 r ⟨x, ?_⟩
    rw [hmem]
    refine .inl ⟨n, hu, ?_⟩
    rw [sourceOwn_eq hs hu]; simp [hx]
  · intro n p c hv hrf r x hx
    refine (hset r x ?_).2.1
    rw [hmem]
    refine .inr ⟨n, p, c, hv, ?_⟩
    rw [targetOwn_true hrf]; simp [hx]
  · intro n p c hv hrf r x hx
    apply h4 r ⟨x, ?_⟩
    rw [hmem]
    refine .inr ⟨n, p, c, hv, ?_⟩
    rw [targetOwn_true hrf]; simp [hx]

end
end Distro
end Dashmm
