import Verif.Proofs.DistroDag
/-! Helper lemmas: the four distribution policies. -/
namespace Dashmm
namespace Distro

/-- The colours of `BHDistro`. -/
def bhColor (r : Ref) : Int :=
  match r.side, r.kind with
  | .src, .normal => -2 * r.ix.level
  | .src, .interm => -2 * r.ix.level + 1
  | .tgt, .normal => 2 * (r.ix.level + 1)
  | .tgt, .interm => 2 * (r.ix.level + 1) - 1
  | _, .parts => 0

theorem bhPolicy_ok : PolicyOk bhPolicy bhColor := by
  refine ⟨?_, ?_, ?_, ?_⟩
  · intro ix v r x h; simp [bhPolicy] at h
  · intro ix v r x h; simp [bhPolicy] at h
  · intro ix v r x h
    simp only [bhPolicy, List.mem_cons, Setting.color.injEq, List.not_mem_nil, or_false] at h
    rcases h with ⟨rfl, rfl⟩ | ⟨rfl, rfl⟩ <;> rfl
  · intro ix v r x h
    simp only [bhPolicy, List.mem_cons, Setting.color.injEq, List.not_mem_nil, or_false] at h
    rcases h with ⟨rfl, rfl⟩ | ⟨rfl, rfl⟩ <;> rfl

/-- The colours of `FMM97Distro`. -/
def fmm97Color (r : Ref) : Int :=
  match r.kind with
  | .normal => 2 * r.ix.level
  | .interm => 2 * r.ix.level + 1
  | .parts => 0

theorem fmm97Policy_ok : PolicyOk fmm97Policy fmm97Color := by
  refine ⟨?_, ?_, ?_, ?_⟩
  · intro ix v r x h
    simp only [fmm97Policy, List.mem_cons, Setting.loc.injEq, List.not_mem_nil, or_false] at h
    rcases h with ⟨rfl, rfl⟩ | ⟨rfl, rfl⟩ <;> simp
  · intro ix v r x h
    simp only [fmm97Policy, List.mem_cons, Setting.loc.injEq, List.not_mem_nil, or_false, reduceCtorEq] at h
    obtain ⟨rfl, rfl⟩ := h; simp
  · intro ix v r x h; simp [fmm97Policy] at h
  · intro ix v r x h
    simp only [fmm97Policy, List.mem_cons, Setting.color.injEq, List.not_mem_nil, or_false, reduceCtorEq,
      false_or] at h
    rcases h with ⟨rfl, rfl⟩ | ⟨rfl, rfl⟩ <;> rfl

theorem noPolicy_ok : PolicyOk noPolicy fun _ => 0 := by
  refine ⟨?_, ?_, ?_, ?_⟩ <;> intro ix v r x h <;> simp [noPolicy] at h

section
variable {m : Method} {unif : Nat} {same : Bool} {s t : Fin 8 → Oct} {acts : List Act} {ranks : Nat}
  {rankOf : Nat → Nat} {L : Labels} {w : Edge → Int}

theorem foldlM_pass (ord : List Ref) (loc : Ref → Int) (es : List Edge) :
    ord.foldlM (computeLocality ranks w es) loc = pass ranks w es (fun _ => true) ord loc := by
  unfold pass; simp

theorem bh_place (sh : Shape m unif same s t acts) (hr : 1 ≤ ranks)
    (hL : LabelsOk ranks m unif same bhPolicy rankOf s t bhColor L) {ordT ordS : List Ref}
    (hT : SortedByColor L.color (collectDag acts s t).targetNodes ordT)
    (hS : SortedByColor L.color (collectDag acts s t).sourceNodes ordS) :
    ∃ loc, bhCompute ranks w (collectDag acts s t).edges ordT ordS L.loc = some loc ∧
      GoodPlacement ranks (nodesOf acts) (edgesOf acts) (gridRank unif rankOf) L.loc loc ∧
      FollowsWork ranks (nodesOf acts) (edgesOf acts) w L.loc loc := by
  have memT : ∀ r, r ∈ ordT ↔ r ∈ nodesOf acts ∧ r.side = .tgt ∧ r.kind ≠ .parts :=
    fun r => hT.1.mem_iff.trans sh.mem_tgt
  have memS : ∀ r, r ∈ ordS ↔ r ∈ nodesOf acts ∧ r.side = .src ∧ r.kind ≠ .parts :=
    fun r => hS.1.mem_iff.trans sh.mem_src
  -- targets: placed or coloured
  have hTc : ∀ r ∈ nodesOf acts, r.side = .tgt → r.kind ≠ .parts → 0 ≤ L.loc r ∨ L.color r = bhColor r := by
    intro r hr' hside hk
    obtain ⟨sd, ix, k⟩ := r
    simp only at hside hk; subst hside
    obtain ⟨n, p, c, hv, hx, h1, h2⟩ := sh.tgt _ hr' rfl
    simp only at hx; subst hx
    cases hrf : refine m unif same n c with
    | true =>
      right
      cases k with
      | parts => exact absurd rfl hk
      | normal => exact hL.tgtCol n p c hv hrf _ _ (by simp [bhPolicy]; rfl)
      | interm => exact hL.tgtCol n p c hv hrf _ (2 * (n.ix.level + 1) - 1) (by simp [bhPolicy])
    | false =>
      cases k with
      | parts => exact absurd rfl hk
      | normal => exact .inl (hL.tgtLeaf n p c hv hrf .normal (by simp)).2
      | interm => rw [h2 rfl] at hrf; cases hrf
  have hSc : ∀ r ∈ nodesOf acts, r.side = .src → r.kind ≠ .parts → L.color r = bhColor r := by
    intro r hr' hside hk
    obtain ⟨sd, ix, k⟩ := r
    simp only at hside hk; subst hside
    obtain ⟨n, hu, hx, h1⟩ := sh.src _ hr' rfl
    simp only at hx; subst hx
    cases k with
    | parts => exact absurd rfl hk
    | normal => exact hL.srcCol n hu _ (-2 * n.ix.level) (by simp [bhPolicy])
    | interm => exact hL.srcCol n hu _ (-2 * n.ix.level + 1) (by simp [bhPolicy])
  obtain ⟨loc1, e1, p1⟩ := pass_ok (w := w) (es := edgesOf acts) (p := fun _ => true) hr ordT L.loc hT.2
    (hL.range) (by
      intro r hr' _ hneg e he hs
      obtain ⟨hn, hside, hk⟩ := (memT r).1 hr'
      have hd := (sh.ends e he).2
      rcases Classical.em (0 ≤ L.loc e.dst) with h | h
      · exact .inl h
      right
      have hcr : L.color r = bhColor r := by
        rcases hTc r hn hside hk with h | h
        · omega
        · exact h
      have hsh := sh.edge e he
      subst hs
      cases hsh with
      | cross h1 _ _ => rw [h1] at hside; cases hside
      | StoM => cases hside
      | MtoM => cases hside
      | MtoI => cases hside
      | LtoT ix => exact absurd (sh.parts hL hd rfl).2 h
      | @LtoL a b hlev =>
        refine ⟨(memT _).2 ⟨hd, rfl, by simp⟩, rfl, ?_⟩
        rcases hTc _ hd rfl (by simp) with h' | h'
        · exact absurd h' h
        · rw [hcr, h']
          simp only [bhColor, hlev]; push_cast; omega
      | @ItoL a b hlev =>
        refine ⟨(memT _).2 ⟨hd, rfl, by simp⟩, rfl, ?_⟩
        rcases hTc _ hd rfl (by simp) with h' | h'
        · exact absurd h' h
        · rw [hcr, h']
          simp only [bhColor, hlev]; push_cast; omega)
  have placedT : ∀ q ∈ nodesOf acts, q.side = .tgt → 0 ≤ loc1 q := by
    intro q hq hside
    by_cases hk : q.kind = .parts
    · have := (sh.parts hL hq hk).2
      rw [p1.kept q this]; exact this
    · exact p1.placed q ((memT q).2 ⟨hq, hside, hk⟩) rfl
  obtain ⟨loc2, e2, p2⟩ := pass_ok (w := w) (es := edgesOf acts) (p := fun _ => true) hr ordS loc1 hS.2
    p1.range (by
      intro r hr' _ hneg e he hs
      obtain ⟨hn, hside, hk⟩ := (memS r).1 hr'
      have hd := (sh.ends e he).2
      have hcr := hSc r hn hside hk
      have hsh := sh.edge e he
      subst hs
      cases hsh with
      | cross _ h2 _ => exact .inl (placedT _ hd h2)
      | StoM => exact absurd rfl hk
      | @MtoM a b hlev =>
        refine .inr ⟨(memS _).2 ⟨hd, rfl, by simp⟩, rfl, ?_⟩
        rw [hcr, hSc _ hd rfl (by simp)]
        simp only [bhColor, hlev]; push_cast; omega
      | MtoI ix =>
        refine .inr ⟨(memS _).2 ⟨hd, rfl, by simp⟩, rfl, ?_⟩
        rw [hcr, hSc _ hd rfl (by simp)]
        simp only [bhColor]; omega
      | LtoT ix => cases hside
      | LtoL => cases hside
      | ItoL => cases hside)
  refine ⟨loc2, ?_, ?_, ?_⟩
  · unfold bhCompute
    rw [show (collectDag acts s t).edges = edgesOf acts from rfl]
    simp only [foldlM_pass, e1, e2, Option.bind_eq_bind, Option.bind_some]
  · apply sh.good hL
    · intro r h
      have := p1.kept r h
      rw [p2.kept r (by omega), this]
    · intro r hr' hk
      cases hside : r.side with
      | src => exact p2.placed r ((memS r).2 ⟨hr', hside, hk⟩) rfl
      | tgt =>
        have := placedT r hr' hside
        rw [p2.kept r this]; exact this
    · exact p2.range
  · intro r hr' hneg
    have hk : r.kind ≠ .parts := fun h => by have := (sh.parts hL hr' h).2; omega
    cases hside : r.side with
    | src =>
      refine p2.heavy r ((memS r).2 ⟨hr', hside, hk⟩) rfl ?_
      have : r ∉ ordT := fun h => by have := ((memT r).1 h).2.1; rw [hside] at this; cases this
      rw [p1.other r (fun h => this h.1)]; exact hneg
    | tgt =>
      have h1 := p1.heavy r ((memT r).2 ⟨hr', hside, hk⟩) rfl hneg
      rw [p2.kept r (placedT r hr' hside)]
      have : weightTo w (edgesOf acts) loc2 r = weightTo w (edgesOf acts) loc1 r := by
        funext v
        apply weightTo_congr
        intro e he hs
        apply p2.kept
        apply placedT _ (sh.ends e he).2
        have hsh := sh.edge e he
        subst hs
        cases hsh with
        | cross h1 _ _ => rw [h1] at hside; cases hside
        | StoM => cases hside
        | MtoM => cases hside
        | MtoI => cases hside
        | LtoT => rfl
        | LtoL => rfl
        | ItoL => rfl
      rw [this]; exact h1

theorem fmm97_place (sh : Shape m unif same s t acts) (hr : 1 ≤ ranks)
    (hL : LabelsOk ranks m unif same fmm97Policy rankOf s t fmm97Color L) {ordT : List Ref}
    (hT : SortedByColor L.color (collectDag acts s t).targetNodes ordT) :
    ∃ loc, fmm97Compute ranks w (collectDag acts s t).edges ordT L.loc = some loc ∧
      GoodPlacement ranks (nodesOf acts) (edgesOf acts) (gridRank unif rankOf) L.loc loc ∧
      FollowsWork ranks (nodesOf acts) (edgesOf acts) w L.loc loc := by
  have memT : ∀ r, r ∈ ordT ↔ r ∈ nodesOf acts ∧ r.side = .tgt ∧ r.kind ≠ .parts :=
    fun r => hT.1.mem_iff.trans sh.mem_tgt
  have hpl : ∀ r ∈ nodesOf acts, (r.side = .src ∨ r.kind ≠ .interm) → 0 ≤ L.loc r := by
    intro r hr' h
    by_cases hk : r.kind = .parts
    · exact (sh.parts hL hr' hk).2
    obtain ⟨sd, ix, k⟩ := r
    simp only at h hk
    cases sd with
    | src =>
      obtain ⟨n, hu, hx, h1⟩ := sh.src _ hr' rfl
      simp only at hx; subst hx
      cases k with
      | parts => exact absurd rfl hk
      | normal => exact hL.srcLoc n hu _ (place unif rankOf n.ix) (by simp [fmm97Policy])
      | interm => exact hL.srcLoc n hu _ (place unif rankOf n.ix) (by simp [fmm97Policy])
    | tgt =>
      obtain ⟨n, p, c, hv, hx, h1, h2⟩ := sh.tgt _ hr' rfl
      simp only at hx; subst hx
      cases k with
      | parts => exact absurd rfl hk
      | interm => simp at h
      | normal =>
        cases hrf : refine m unif same n c with
        | true => exact hL.tgtLoc n p c hv hrf _ (place unif rankOf n.ix) (by simp [fmm97Policy])
        | false => exact (hL.tgtLeaf n p c hv hrf .normal (by simp)).2
  obtain ⟨loc1, e1, p1⟩ := pass_ok (w := w) (es := edgesOf acts) (p := fun r => decide (r.kind = .interm)) hr
    ordT L.loc hT.2 (hL.range) (by
      intro r hr' hpr hneg e he hs
      obtain ⟨hn, hside, hk⟩ := (memT r).1 hr'
      have hd := (sh.ends e he).2
      have hsh := sh.edge e he
      subst hs
      left
      cases hsh with
      | cross h1 _ _ => rw [h1] at hside; cases hside
      | StoM => cases hside
      | MtoM => cases hside
      | MtoI => cases hside
      | LtoT ix => exact hpl _ hd (by simp)
      | LtoL hlev => exact hpl _ hd (by simp)
      | ItoL hlev => exact hpl _ hd (by simp))
  refine ⟨loc1, ?_, ?_, ?_⟩
  · unfold fmm97Compute
    rw [show (collectDag acts s t).edges = edgesOf acts from rfl, ← e1]
    unfold pass
    simp
  · apply sh.good hL p1.kept
    · intro r hr' hk
      by_cases h : r.side = .src ∨ r.kind ≠ .interm
      · have := hpl r hr' h
        rw [p1.kept r this]; exact this
      · push Not at h
        have hside : r.side = .tgt := by
          cases hh : r.side with
          | src => exact absurd hh h.1
          | tgt => rfl
        exact p1.placed r ((memT r).2 ⟨hr', hside, hk⟩) (by simp [h.2])
    · exact p1.range
  · intro r hr' hneg
    by_cases h : r.side = .src ∨ r.kind ≠ .interm
    · have := hpl r hr' h; omega
    · push Not at h
      have hside : r.side = .tgt := by
        cases hh : r.side with
        | src => exact absurd hh h.1
        | tgt => rfl
      exact p1.heavy r ((memT r).2 ⟨hr', hside, by simp [h.2]⟩) (by simp [h.2]) hneg

theorem single_go (v : Int) (hv : 0 ≤ v) : ∀ (l : List Ref) (loc : Ref → Int) (r : Ref),
    l.foldl (fun loc r => if loc r < 0 then fun q => if q = r then v else loc q else loc) loc r =
      if loc r < 0 ∧ r ∈ l then v else loc r := by
  intro l
  induction l with
  | nil => intro loc r; simp
  | cons a l ih =>
    intro loc r
    rw [List.foldl_cons, ih]
    by_cases ha : loc a < 0
    · rw [if_pos ha]
      by_cases hra : r = a
      · subst hra; simp [ha]
      · simp [hra]
    · rw [if_neg ha]
      by_cases hra : r = a
      · subst hra; simp [ha]
      · simp [hra]

theorem single_place (sh : Shape m unif same s t acts) {v : Int} (hv : 0 ≤ v) (hvr : v < ranks)
    (hL : LabelsOk ranks m unif same noPolicy rankOf s t (fun _ => 0) L) :
    GoodPlacement ranks (nodesOf acts) (edgesOf acts) (gridRank unif rankOf) L.loc
      (singleCompute v (collectDag acts s t) L.loc) := by
  have key := single_go v hv ((collectDag acts s t).sourceNodes ++ (collectDag acts s t).targetNodes) L.loc
  unfold singleCompute
  apply sh.good hL
  · intro r h; rw [key, if_neg (by omega)]
  · intro r hr hk
    rw [key]
    split
    · exact hv
    · rename_i hc
      by_contra hneg
      apply hc
      refine ⟨by omega, ?_⟩
      rw [List.mem_append]
      cases hside : r.side with
      | src => exact .inl (sh.mem_src.2 ⟨hr, hside, hk⟩)
      | tgt => exact .inr (sh.mem_tgt.2 ⟨hr, hside, hk⟩)
  · intro r h
    rw [key] at h ⊢
    split
    · exact hvr
    · rename_i hc
      rw [if_neg hc] at h
      exact hL.range r h

theorem random_go (rng : Nat → Int) (hv : ∀ i, 0 ≤ rng i ∧ rng i < ranks) :
    ∀ (l : List Ref) (a : (Ref → Int) × Nat) (r : Ref),
    let b := (l.foldl (fun (a : (Ref → Int) × Nat) r =>
        if a.1 r ≠ -1 then a else (fun q => if q = r then rng a.2 else a.1 q, a.2 + 1)) a).1 r
    (a.1 r ≠ -1 → b = a.1 r) ∧ (r ∈ l → a.1 r = -1 → 0 ≤ b ∧ b < ranks) ∧ (r ∉ l → b = a.1 r) := by
  intro l
  induction l with
  | nil => intro a r; simp
  | cons x l ih =>
    intro a r
    simp only [List.foldl_cons]
    by_cases hx : a.1 x ≠ -1
    · rw [if_pos hx]
      obtain ⟨h1, h2, h3⟩ := ih a r
      refine ⟨h1, ?_, ?_⟩
      · intro hr ha
        rcases List.mem_cons.1 hr with rfl | hr
        · exact absurd ha hx
        · exact h2 hr ha
      · intro hr
        exact h3 (fun h => hr (by simp [h]))
    · rw [if_neg hx]
      obtain ⟨h1, h2, h3⟩ := ih (fun q => if q = x then rng a.2 else a.1 q, a.2 + 1) r
      simp only at h1 h2 h3
      push Not at hx
      by_cases hrx : r = x
      · subst hrx
        simp only [if_true] at h1
        have hne : rng a.2 ≠ -1 := by have := (hv a.2).1; omega
        refine ⟨fun h => absurd hx h, ?_, ?_⟩
        · intro _ _
          rw [h1 hne]; exact hv _
        · intro h; exact absurd (List.mem_cons_self ..) h
      · simp only [hrx, if_false] at h1 h2 h3
        refine ⟨h1, ?_, ?_⟩
        · intro hr ha
          rcases List.mem_cons.1 hr with h | hr
          · exact absurd h hrx
          · exact h2 hr ha
        · intro hr
          exact h3 (fun h => hr (by simp [h]))

theorem terminals_mem (sh : Shape m unif same s t acts) {r : Ref}
    (h : r ∈ (collectDag acts s t).sourceLeaves ++ (collectDag acts s t).targetLeaves) :
    r ∈ nodesOf acts ∧ r.kind = .parts := by
  rcases List.mem_append.1 h with h | h
  · obtain ⟨n, _, h⟩ := (collect_mem (ownTerminals (nodesOf acts) .src) (rootNode s) r).1 h
    obtain ⟨h1, _, _, h2⟩ := ownTerminals_mem.1 h
    exact ⟨h1, h2⟩
  · obtain ⟨n, _, h⟩ := (collect_mem (ownTerminals (nodesOf acts) .tgt) (rootNode t) r).1 h
    obtain ⟨h1, _, _, h2⟩ := ownTerminals_mem.1 h
    exact ⟨h1, h2⟩

theorem random_place (sh : Shape m unif same s t acts) {rng : Nat → Int}
    (hv : ∀ i, 0 ≤ rng i ∧ rng i < ranks)
    (hL : LabelsOk ranks m unif same noPolicy rankOf s t (fun _ => 0) L) :
    ∃ loc, randomCompute rng (collectDag acts s t) L.loc = some loc ∧
    GoodPlacement ranks (nodesOf acts) (edgesOf acts) (gridRank unif rankOf) L.loc loc := by
  have key := random_go rng hv ((collectDag acts s t).sourceNodes ++ (collectDag acts s t).targetNodes)
    (L.loc, 0)
  refine ⟨_, by
    unfold randomCompute
    rw [if_pos]
    rw [List.all_eq_true]
    intro r hr
    obtain ⟨h1, h2⟩ := terminals_mem sh hr
    have := (sh.parts hL h1 h2).2
    simp; omega, ?_⟩
  apply sh.good hL
  · intro r h; exact (key r).1 (by simp only; omega)
  · intro r hr hk
    have hm : r ∈ (collectDag acts s t).sourceNodes ++ (collectDag acts s t).targetNodes := by
      rw [List.mem_append]
      cases hside : r.side with
      | src => exact .inl (sh.mem_src.2 ⟨hr, hside, hk⟩)
      | tgt => exact .inr (sh.mem_tgt.2 ⟨hr, hside, hk⟩)
    rcases hL.loc r with h | h
    · exact ((key r).2.1 hm h).1
    · rw [(key r).1 (by simp only; omega)]; exact h.2.1
  · intro r h
    by_cases hm : r ∈ (collectDag acts s t).sourceNodes ++ (collectDag acts s t).targetNodes
    · rcases hL.loc r with h' | h'
      · exact ((key r).2.1 hm h').2
      · rw [(key r).1 (by simp only; omega)]; exact h'.2.2
    · rw [(key r).2.2 hm] at h ⊢
      exact hL.range r h

/-! ### All ranks agree -/

theorem follows_unique {es es' : List Edge} {nodes : List Ref} (hp : es.Perm es')
    (hends : ∀ e ∈ es, e.dst ∈ nodes) {rank : Ref → Nat} (hrk : ∀ e ∈ es, rank e.src < rank e.dst)
    {before loc loc' : Ref → Int}
    (hk : ∀ r, 0 ≤ before r → loc r = before r) (hk' : ∀ r, 0 ≤ before r → loc' r = before r)
    (hf : FollowsWork ranks nodes es w before loc) (hf' : FollowsWork ranks nodes es' w before loc') :
    ∀ r ∈ nodes, loc r = loc' r := by
  obtain ⟨B, hB⟩ : ∃ B, ∀ e ∈ es, rank e.dst < B := by
    clear hp hends hrk hf
    induction es with
    | nil => exact ⟨0, by simp⟩
    | cons e es ih =>
      obtain ⟨B, hB⟩ := ih
      refine ⟨B + rank e.dst + 1, ?_⟩
      intro e' he'
      rcases List.mem_cons.1 he' with rfl | he'
      · omega
      · have := hB e' he'; omega
  have key : ∀ k r, B ≤ rank r + k → r ∈ nodes → loc r = loc' r := by
    intro k
    induction k with
    | zero =>
      intro r hr hn
      by_cases h0 : 0 ≤ before r
      · rw [hk r h0, hk' r h0]
      · have h1 := hf r hn (by omega)
        have h2 := hf' r hn (by omega)
        have hno : ∀ e ∈ es, e.src ≠ r := by
          rintro e he rfl
          have := hrk e he; have := hB e he; omega
        have : weightTo w es' loc' r = weightTo w es loc r := by
          funext v
          rw [← weightTo_perm hp]
          apply weightTo_congr
          intro e he hs
          exact absurd hs (hno e he)
        rw [this] at h2
        exact firstHeaviest_unique h1 h2
    | succ k ih =>
      intro r hr hn
      by_cases h0 : 0 ≤ before r
      · rw [hk r h0, hk' r h0]
      · have h1 := hf r hn (by omega)
        have h2 := hf' r hn (by omega)
        have : weightTo w es' loc' r = weightTo w es loc r := by
          funext v
          rw [← weightTo_perm hp]
          apply weightTo_congr
          rintro e he rfl
          have := hrk e he
          exact (ih e.dst (by omega) (hends e he)).symm
        rw [this] at h2
        exact firstHeaviest_unique h1 h2
  intro r hr
  exact key B r (by omega) hr

theorem labels_unique {P : Policy} {G : Ref → Int} {L L' : Labels}
    (hL : LabelsOk ranks m unif same P rankOf s t G L)
    (hL' : LabelsOk ranks m unif same P rankOf s t G L') : L.loc = L'.loc := by
  funext r
  rcases hL.loc r with h | h <;> rcases hL'.loc r with h' | h'
  · rw [h, h']
  · have := (hL.set r).2 ((hL'.set r).1 h'.2.1); omega
  · have := (hL'.set r).2 ((hL.set r).1 h.2.1); omega
  · rw [h.1, h'.1]
end

end Distro
end Dashmm
