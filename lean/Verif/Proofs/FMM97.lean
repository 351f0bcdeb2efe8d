import Verif.Proofs.FMM
/-! Helper lemmas: FMM97. -/
namespace Dashmm

/-! ### The merge-and-shift table -/

/-- Octant coordinates of a child. -/
def octX (c : Nat) : Int := (c % 2 : Nat)
def octY (c : Nat) : Int := (c / 2 % 2 : Nat)
def octZ (c : Nat) : Int := (c / 4 % 2 : Nat)

/-- How many times the source at an offset is consumed by a child. -/
def takeCount (dx dy dz : Int) (c : Nat) : Nat :=
  ((childTakes c).map fun k =>
    (((mergeTags dx dy dz).getD []).map fun tag => if k.tag = tag then 1 else 0).sum).sum

/-- The displacement is more than one box. -/
def farOct (dx dy dz : Int) (c : Nat) : Bool :=
  decide ((dx - octX c).natAbs > 1) || decide ((dy - octY c).natAbs > 1) ||
    decide ((dz - octZ c).natAbs > 1)

set_option maxRecDepth 100000 in
theorem takeCount_table : ∀ dx ∈ ([-2, -1, 0, 1, 2, 3] : List Int), ∀ dy ∈ ([-2, -1, 0, 1, 2, 3] : List Int),
    ∀ dz ∈ ([-2, -1, 0, 1, 2, 3] : List Int), ∀ c ∈ List.range 8,
      takeCount dx dy dz c = if farOct dx dy dz c then 1 else 0 := by
  decide +kernel

theorem mem_range6 {d : Int} (h1 : -2 ≤ d) (h2 : d ≤ 3) : d ∈ ([-2, -1, 0, 1, 2, 3] : List Int) := by
  simp; omega

theorem tagView_lt (tag : Nat) : tagView tag < 6 := by
  unfold tagView; repeat' split
  all_goals decide

/-! ### Loops -/

/-- Already delivered through the parent's intermediate expansions. -/
def skips (t : Index) (i : TNode) : Bool := decide (i.ix.level = t.level) && wellSep i.ix t

theorem fmm97LeafLoop_mem (t : Index) : ∀ c, ∀ a ∈ fmm97LeafLoop t c,
    ∃ e, a = .link e ∧ e.dst.side = .tgt ∧ e.dst.ix = t := by
  intro c
  induction c with
  | nil => intro a ha; simp [fmm97LeafLoop] at ha
  | cons i c ih =>
    intro a ha
    rw [fmm97LeafLoop, List.mem_append] at ha
    rcases ha with ha | ha
    · repeat' split at ha
      all_goals first
        | (simp at ha; done)
        | (simp at ha; subst ha; exact ⟨_, rfl, rfl, rfl⟩)
        | (obtain ⟨e, h1, h2⟩ := procColl_mem t i a ha; exact ⟨e, h1, by simp [h2], by simp [h2]⟩)
    · exact ih a ha

theorem fmm97InnerLoop_mem (t : Index) : ∀ c, ∀ a ∈ (fmm97InnerLoop t c).1,
    ∃ e, a = .link e ∧ e.dst = ⟨.tgt, t, .normal⟩ := by
  intro c
  induction c with
  | nil => intro a ha; simp [fmm97InnerLoop] at ha
  | cons i c ih =>
    intro a ha
    simp only [fmm97InnerLoop] at ha
    repeat' split at ha
    all_goals first
      | exact ih a ha
      | (rcases List.mem_cons.1 ha with rfl | ha
         · exact ⟨_, rfl, rfl⟩
         · exact ih a ha)

section
variable {s : Fin 8 → Oct} {val : Ref → Prov} (hs : SrcVals s val) {t : Index} (ht : t.InRange)
include hs ht

theorem fmm97LeafLoop_flow (x : Index) : ∀ c, ConsOk s t c →
    flow val ⟨.tgt, t, .parts⟩ 0 x (fmm97LeafLoop t c) +
      flow val ⟨.tgt, t, .normal⟩ 0 x (fmm97LeafLoop t c) + total (c.filter (skips t)) x
        = total c x ∧
    (t.level < 2 → flow val ⟨.tgt, t, .normal⟩ 0 x (fmm97LeafLoop t c) = 0) := by
  intro c
  induction c with
  | nil => intro _; simp [fmm97LeafLoop]
  | cons i c ih =>
    intro hc
    obtain ⟨ih1, ih2⟩ := ih hc.tail
    have hu := hc.under i (by simp)
    have hr := hu.inRange (root_inRange s)
    have hl := hc.level i (by simp)
    simp only [fmm97LeafLoop, flow_append, total_cons]
    split
    · rename_i hlt
      have hleaf := hc.leaf i (by simp) hlt
      have hp := hs.P i hu hleaf x
      have hsk : skips t i = false := by
        simp only [skips, Bool.and_eq_false_iff, decide_eq_false_iff_not]; left; omega
      rw [List.filter_cons, hsk]
      split
      · rename_i hw
        have := wellSepAsym_level ht hr hl hw
        simp [actFlow, Act.StoL, contrib, hp]
        omega
      · simp [actFlow, Act.StoT, contrib, hp]
        omega
    · rename_i hlt
      have hle : i.ix.level = t.level := by omega
      have hsk : skips t i = wellSep i.ix t := by simp [skips, hle]
      rw [List.filter_cons, hsk]
      cases hw : wellSep i.ix t with
      | true =>
        simp
        omega
      | false =>
        have hpc := procColl_flow hs ht i hu (by omega) x
        have h0 : flow val ⟨.tgt, t, .normal⟩ 0 x (procColl t i.ix (.node i.c)) = 0 :=
          flow_other (procColl_mem t i) (by simp)
        simp only [Bool.not_false, if_true, hpc, h0, Bool.false_eq_true, if_false]
        omega

theorem fmm97InnerLoop_flow (x : Index) : ∀ c, ConsOk s t c →
    flow val ⟨.tgt, t, .normal⟩ 0 x (fmm97InnerLoop t c).1 + total (fmm97InnerLoop t c).2.1 x
      + total (c.filter (skips t)) x = total c x ∧
    (t.level < 2 → flow val ⟨.tgt, t, .normal⟩ 0 x (fmm97InnerLoop t c).1 = 0) := by
  intro c
  induction c with
  | nil => intro _; simp [fmm97InnerLoop]
  | cons i c ih =>
    intro hc
    obtain ⟨ih1, ih2⟩ := ih hc.tail
    have hu := hc.under i (by simp)
    have hr := hu.inRange (root_inRange s)
    have hl := hc.level i (by simp)
    simp only [fmm97InnerLoop, total_cons]
    split
    · rename_i hlt
      have hleaf := hc.leaf i (by simp) hlt
      have hp := hs.P i hu hleaf x
      have hsk : skips t i = false := by
        simp only [skips, Bool.and_eq_false_iff, decide_eq_false_iff_not]; left; omega
      rw [List.filter_cons, hsk]
      split
      · rename_i hw
        have := wellSepAsym_level ht hr hl hw
        simp [actFlow, Act.StoL, contrib, hp]
        omega
      · simp only [total_cons, Bool.false_eq_true, if_false]
        exact ⟨by omega, ih2⟩
    · rename_i hlt
      have hle : i.ix.level = t.level := by omega
      have hsk : skips t i = wellSep i.ix t := by simp [skips, hle]
      rw [List.filter_cons, hsk]
      cases hw : wellSep i.ix t with
      | true =>
        simp only [Bool.not_true, Bool.false_eq_true, if_false, if_true, total_cons]
        exact ⟨by omega, ih2⟩
      | false =>
        simp only [Bool.not_false, Bool.false_eq_true, if_false, if_true]
        split
        · simp only [total_cons]
          exact ⟨by omega, ih2⟩
        · rename_i hk
          rw [kids_isEmpty] at hk
          have := total_kids (n := i) (by simpa using hk) x
          simp only [total_append]
          exact ⟨by omega, ih2⟩
end

theorem fmm97InnerLoop_consOk {s : Fin 8 → Oct} {t : Index} (i : Nat) : ∀ c, ConsOk s t c →
    ConsOk s (t.child i) (fmm97InnerLoop t c).2.1 := by
  intro c
  induction c with
  | nil => intro _; constructor <;> simp [fmm97InnerLoop]
  | cons j c ih =>
    intro hc
    have ih := ih hc.tail
    have hlev : (t.child i).level = t.level + 1 := rfl
    have hjl := hc.level j (by simp)
    have hcons : j.isLeaf = true → ConsOk s (t.child i) (j :: (fmm97InnerLoop t c).2.1) := by
      intro hleaf
      refine ⟨?_, ?_, ?_⟩
      · intro k hk
        rcases List.mem_cons.1 hk with rfl | hk
        · exact hc.under k (by simp)
        · exact ih.under k hk
      · intro k hk
        rcases List.mem_cons.1 hk with rfl | hk
        · omega
        · exact ih.level k hk
      · intro k hk hkl
        rcases List.mem_cons.1 hk with rfl | hk
        · exact hleaf
        · exact ih.leaf k hk hkl
    simp only [fmm97InnerLoop]
    split
    · rename_i hlt
      split
      · exact ih
      · exact hcons (hc.leaf j (by simp) hlt)
    · split
      · split
        · rename_i hk
          rw [kids_isEmpty] at hk
          exact hcons hk
        · refine ⟨?_, ?_, ?_⟩
          · intro k hk
            rcases List.mem_append.1 hk with hk | hk
            · exact (hc.under j (by simp)).kid hk
            · exact ih.under k hk
          · intro k hk
            rcases List.mem_append.1 hk with hk | hk
            · have := kid_level hk; omega
            · exact ih.level k hk
          · intro k hk hkl
            rcases List.mem_append.1 hk with hk | hk
            · have := kid_level hk; omega
            · exact ih.leaf k hk hkl
      · exact ih

/-- Offsets of nearby source children, and the effect of the test on them. -/
theorem near_child {n j : Index} (hw : wellSep j n = false) {a b : Nat}
    (ha : a < 8) (hb : b < 8) :
    let k := j.child a
    (-2 ≤ (k.x : Int) - 2 * n.x ∧ (k.x : Int) - 2 * n.x ≤ 3) ∧
    (-2 ≤ (k.y : Int) - 2 * n.y ∧ (k.y : Int) - 2 * n.y ≤ 3) ∧
    (-2 ≤ (k.z : Int) - 2 * n.z ∧ (k.z : Int) - 2 * n.z ≤ 3) ∧
    wellSep k (n.child b) =
      farOct ((k.x : Int) - 2 * n.x) ((k.y : Int) - 2 * n.y) ((k.z : Int) - 2 * n.z) b := by
  have hw' := mt (wellSep_iff j n).2 (by simp [hw])
  have hk := Index.child_eq j a ha
  have hn := Index.child_eq n b hb
  intro k
  have kx : k.x = 2 * j.x + a % 2 := by simp [k, hk]
  have ky : k.y = 2 * j.y + a / 2 % 2 := by simp [k, hk]
  have kz : k.z = 2 * j.z + a / 4 % 2 := by simp [k, hk]
  refine ⟨by omega, by omega, by omega, ?_⟩
  rw [Bool.eq_iff_iff, wellSep_iff, hn]
  have e1 : (k.x : Int) - ((2 * n.x + b % 2 : Nat) : Int) = (k.x : Int) - 2 * n.x - (b % 2 : Nat) := by
    omega
  have e2 : (k.y : Int) - ((2 * n.y + b / 2 % 2 : Nat) : Int) =
      (k.y : Int) - 2 * n.y - (b / 2 % 2 : Nat) := by omega
  have e3 : (k.z : Int) - ((2 * n.z + b / 4 % 2 : Nat) : Int) =
      (k.z : Int) - 2 * n.z - (b / 4 % 2 : Nat) := by omega
  simp only [farOct, Bool.or_eq_true, decide_eq_true_iff, or_assoc]
  simp only [octX, octY, octZ, e1, e2, e3]

theorem toChild_child (n : Index) (b : Nat) (hb : b < 8) : toChild (n.child b) = b := by
  rw [toChild, Index.child_eq n b hb]
  simp only
  omega

/-- What the `I->L` edge of child `t` of `n` takes from node `k` through the `I->I` edge `k → n`. -/
def viaMerge (val : Ref → Prov) (n t : Index) (x : Index) (k : TNode) : Nat :=
  ((childTakes (toChild t)).map fun tk =>
    contrib ⟨.ItoI, ⟨.src, k.ix, .interm⟩, ⟨.tgt, n, .interm⟩⟩ (val ⟨.src, k.ix, .interm⟩) tk.tag x).sum

theorem sum_ite_mul (l : List Nat) (v a : Nat) :
    (l.map fun tag => if v = tag then a else 0).sum =
      (l.map fun tag => if v = tag then 1 else 0).sum * a := by
  induction l with
  | nil => simp
  | cons b l ih =>
    simp only [List.map_cons, List.sum_cons, ih]
    split <;> simp [Nat.add_mul]

theorem sum_mul_right (l : List Take) (f : Take → Nat) (a : Nat) :
    (l.map fun k => f k * a).sum = (l.map f).sum * a := by
  induction l with
  | nil => simp
  | cons b l ih => simp [ih, Nat.add_mul]

theorem viaMerge_eq {s : Fin 8 → Oct} {val : Ref → Prov}
    (hI : ∀ i, Under (rootNode s) i → 2 ≤ i.ix.level → ∀ v x, v < 6 →
      val ⟨.src, i.ix, .interm⟩ v x = i.leaves.count x)
    {n : Index} {j k : TNode} (hw : wellSep j.ix n = false) (hk : k ∈ j.kids)
    (hu : Under (rootNode s) k) (hl : 2 ≤ k.ix.level) {b : Nat} (hb : b < 8) (x : Index) :
    viaMerge val n (n.child b) x k = if wellSep k.ix (n.child b) then k.leaves.count x else 0 := by
  obtain ⟨a, _, ha⟩ := mem_kids.1 hk
  have hnear := near_child hw a.isLt hb
  simp only [← ha] at hnear
  obtain ⟨⟨x1, x2⟩, ⟨y1, y2⟩, ⟨z1, z2⟩, hfar⟩ := hnear
  have htab := takeCount_table _ (mem_range6 x1 x2) _ (mem_range6 y1 y2) _ (mem_range6 z1 z2) b
    (List.mem_range.2 hb)
  have e : viaMerge val n (n.child b) x k =
      takeCount ((k.ix.x : Int) - 2 * n.x) ((k.ix.y : Int) - 2 * n.y) ((k.ix.z : Int) - 2 * n.z) b
        * k.leaves.count x := by
    rw [viaMerge, toChild_child n b hb, takeCount, ← sum_mul_right]
    congr 1
    apply List.map_congr_left
    intro tk _
    rw [← sum_ite_mul]
    simp only [contrib]
    congr 1
    apply List.map_congr_left
    intro tag _
    split
    · rw [hI k hu hl _ _ (tagView_lt tag)]
    · rfl
  rw [e, htab, hfar]
  split <;> simp

/-- The merged nodes account exactly for those the children skip. -/
theorem merge_total {s : Fin 8 → Oct} {val : Ref → Prov}
    (hI : ∀ i, Under (rootNode s) i → 2 ≤ i.ix.level → ∀ v x, v < 6 →
      val ⟨.src, i.ix, .interm⟩ v x = i.leaves.count x)
    {n : Index} (hn : n.InRange) {b : Nat} (hb : b < 8) (x : Index) : ∀ c, ConsOk s n c →
    (((fmm97InnerLoop n c).2.2).map (viaMerge val n (n.child b) x)).sum =
      total ((fmm97InnerLoop n c).2.1.filter (skips (n.child b))) x := by
  intro c
  induction c with
  | nil => intro _; rfl
  | cons j c ih =>
    intro hc
    have ih := ih hc.tail
    have hu := hc.under j (by simp)
    have hr := hu.inRange (root_inRange s)
    have hl := hc.level j (by simp)
    have hlev : (n.child b).level = n.level + 1 := rfl
    have hsk : skips (n.child b) j = false := by
      simp only [skips, Bool.and_eq_false_iff, decide_eq_false_iff_not]; left; omega
    simp only [fmm97InnerLoop]
    split
    · split
      · exact ih
      · simp only [List.filter_cons, hsk]
        exact ih
    · rename_i hlt
      have hle : j.ix.level = n.level := by omega
      cases hw : wellSep j.ix n with
      | true => simpa using ih
      | false =>
        simp only [Bool.not_false, if_true]
        split
        · simp only [List.filter_cons, hsk]
          exact ih
        · simp only [List.map_append, List.sum_append, List.filter_append, total_append, ih,
            Nat.add_right_cancel_iff]
          have hskip : ∀ k ∈ j.kids, skips (n.child b) k = wellSep k.ix (n.child b) := by
            intro k hk
            have := kid_level hk
            simp only [skips, hlev]
            rw [decide_eq_true (by omega), Bool.true_and]
          have hfilter : j.kids.filter (skips (n.child b)) =
              j.kids.filter (fun k => wellSep k.ix (n.child b)) := by
            apply List.filter_congr
            exact hskip
          rw [hfilter]
          split
          · rename_i hdo
            have hn1 : n.level ≥ 1 := by
              simp only [Bool.and_eq_true, decide_eq_true_eq] at hdo; exact hdo.1
            have : ∀ l : List TNode, (∀ k ∈ l, k ∈ j.kids) →
                (l.map (viaMerge val n (n.child b) x)).sum =
                  total (l.filter fun k => wellSep k.ix (n.child b)) x := by
              intro l
              induction l with
              | nil => intro _; rfl
              | cons k l ihl =>
                intro hl
                have hk := hl k (by simp)
                have := kid_level hk
                have hvm := viaMerge_eq hI hw hk (hu.kid hk) (by omega) hb x
                rw [List.map_cons, List.sum_cons, ihl (fun k' hk' => hl k' (by simp [hk'])), hvm,
                  List.filter_cons]
                split <;> simp
            exact this _ (fun k hk => hk)
          · rename_i hdo
            have h0 : j.kids.filter (fun k => wellSep k.ix (n.child b)) = [] := by
              rw [List.filter_eq_nil_iff]
              intro k hk hws
              have hkl := kid_level hk
              have h2 := wellSep_level ((hu.kid hk).inRange (root_inRange s))
                (Index.inRange_child hn b hb) (by omega) hws
              obtain ⟨a, _, ha⟩ := mem_kids.1 hk
              rw [wellSep_iff, ha, Index.child_eq _ _ a.isLt, Index.child_eq _ _ hb] at hws
              simp only [Bool.and_eq_true, Bool.or_eq_true, decide_eq_true_eq, not_and_or, not_or,
                not_not] at hdo
              rcases hdo with hdo | ⟨⟨e1, e2⟩, e3⟩
              · omega
              · simp only [e1, e2, e3] at hws
                push_cast at hws
                omega
            rw [h0]; rfl

/-! ### FMM97 as a whole -/

theorem FMM97_generate (n : TNode) : FMM97.generate n = Act.addParts .src n.ix ::
    if n.ix.level ≥ 2 then
      [Act.addNormal .src n.ix, Act.StoM n.ix n.ix, Act.addInterm .src n.ix, Act.MtoI n.ix n.ix]
    else [] := rfl

theorem FMM97_aggregate (n : TNode) : FMM97.aggregate n = if n.ix.level ≥ 2 then
      (Act.addNormal .src n.ix :: n.kids.map fun k => Act.MtoM k.ix n.ix) ++
      [Act.addInterm .src n.ix, Act.MtoI n.ix n.ix]
    else [] := rfl

theorem FMM97_inherit (n : TNode) (p leaf : Bool) : FMM97.inherit n p leaf =
    (if leaf then [Act.addParts .tgt n.ix] else []) ++
    (if n.ix.level ≥ 2 then
      Act.addNormal .tgt n.ix ::
        ((if p then [Act.ItoL n.ix.parent n.ix] else []) ++
         (if n.ix.level ≥ 3 then [Act.LtoL n.ix.parent n.ix] else []))
     else []) := rfl

/-- The `I->I` part of `process`. -/
def mergeActs (n : Index) (l : List TNode) : List Act :=
  if l.isEmpty then [] else Act.addInterm .tgt n :: l.map fun s => Act.ItoI s.ix n

theorem FMM97_process (n : TNode) (c : List TNode) (leaf : Bool) : FMM97.process n c leaf =
    if leaf then
      (fmm97LeafLoop n.ix c ++ (if n.ix.level ≥ 2 then [Act.LtoT n.ix n.ix] else []), c)
    else
      ((fmm97InnerLoop n.ix c).1 ++ mergeActs n.ix (fmm97InnerLoop n.ix c).2.2,
        (fmm97InnerLoop n.ix c).2.1) := rfl

theorem mergeActs_mem {n : Index} {l : List TNode} {a : Act} (h : a ∈ mergeActs n l) :
    a = Act.addInterm .tgt n ∨ ∃ k ∈ l, a = Act.ItoI k.ix n := by
  unfold mergeActs at h
  split at h
  · simp at h
  · rcases List.mem_cons.1 h with h | h
    · exact .inl h
    · obtain ⟨k, hk, rfl⟩ := List.mem_map.1 h
      exact .inr ⟨k, hk, rfl⟩

theorem FMM97_local : FMM97.Local where
  gen := by
    intro n e he
    simp only [FMM97_generate] at he
    split at he <;>
      simp [Act.addParts, Act.addNormal, Act.StoM, Act.addInterm, Act.MtoI] at he
    rcases he with rfl | rfl <;> simp
  agg := by
    intro n e he
    simp only [FMM97_aggregate] at he
    split at he <;> simp [Act.addNormal, Act.MtoM, Act.addInterm, Act.MtoI] at he
    rcases he with ⟨k, _, rfl⟩ | rfl <;> simp
  inh := by
    intro n p l e he
    simp only [FMM97_inherit] at he
    rcases List.mem_append.1 he with he | he
    · split at he <;> simp [Act.addParts] at he
    · split at he
      · rcases List.mem_cons.1 he with he | he
        · cases he
        · rcases List.mem_append.1 he with he | he <;> split at he <;>
            simp [Act.LtoL, Act.ItoL] at he <;> subst he <;> simp
      · simp at he
  proc := by
    intro n c l e he
    simp only [FMM97_process] at he
    split at he
    · rcases List.mem_append.1 he with he | he
      · obtain ⟨e', h1, h2⟩ := fmm97LeafLoop_mem _ _ _ he
        cases h1; exact h2
      · split at he <;> simp [Act.LtoT] at he
        subst he; simp
    · rcases List.mem_append.1 he with he | he
      · obtain ⟨e', h1, h2⟩ := fmm97InnerLoop_mem _ _ _ he
        cases h1; simp [h2]
      · rcases mergeActs_mem he with h | ⟨k, _, h⟩
        · cases h
        · cases h; simp

section
variable {unif : Nat} {same : Bool} {s t : Fin 8 → Oct} {val : Ref → Prov}

theorem FMM97_srcVals (hv : IsEvaluation (createDag FMM97 unif same s t) val) : SrcVals s val := by
  have hP : ∀ i, Under (rootNode s) i → i.isLeaf = true → ∀ x,
      val ⟨.src, i.ix, .parts⟩ 0 x = i.leaves.count x := by
    intro n h hl x
    rw [val_src FMM97_local hv h, ownSrc, hl, TNode.leaves_of_leaf hl]
    simp only [FMM97_generate, if_true]
    split <;> simp [actFlow, base, Act.addParts, Act.addNormal, Act.StoM, Act.addInterm, Act.MtoI,
      List.count_cons, beq_iff_eq, @eq_comm _ x]
  refine ⟨hP, ?_⟩
  intro n
  induction n using tnode_induction with
  | h n ih =>
    intro h h2 x
    rw [val_src FMM97_local hv h, ownSrc]
    cases hl : n.isLeaf with
    | true =>
      have := hP n h hl x
      simp [FMM97_generate, h2, actFlow, base, Act.addParts, Act.addNormal, Act.StoM,
        Act.addInterm, Act.MtoI, contrib, this]
    | false =>
      have e : (flow val ⟨.src, n.ix, .normal⟩ 0 x (n.kids.map fun k => Act.MtoM k.ix n.ix)) =
          total n.kids x := by
        rw [flow_map, total]
        congr 1
        apply List.map_congr_left
        intro k hk
        have := kid_level hk
        simp [actFlow, Act.MtoM, contrib, ih k hk (h.kid hk) (by omega)]
      simp [FMM97_aggregate, h2, base, Act.addNormal, actFlow, e, total_kids hl,
        Act.addInterm, Act.MtoI]

theorem FMM97_srcI (hv : IsEvaluation (createDag FMM97 unif same s t) val) (n : TNode)
    (h : Under (rootNode s) n) (h2 : 2 ≤ n.ix.level) (v : Nat) (x : Index) (h6 : v < 6) :
    val ⟨.src, n.ix, .interm⟩ v x = n.leaves.count x := by
  have hM := (FMM97_srcVals hv).M n h h2 x
  rw [val_src FMM97_local hv h, ownSrc]
  cases hl : n.isLeaf with
  | true =>
    simp [FMM97_generate, h2, actFlow, base, Act.addParts, Act.addNormal, Act.StoM,
        Act.addInterm, Act.MtoI, contrib, hM, h6]
  | false =>
    have e : (flow val ⟨.src, n.ix, .interm⟩ v x (n.kids.map fun k => Act.MtoM k.ix n.ix)) = 0 := by
      apply flow_eq_zero
      intro e he
      obtain ⟨k, _, h⟩ := List.mem_map.1 he
      cases h
      simp
    simp [FMM97_aggregate, h2, base, Act.addNormal, actFlow, e,
        Act.addInterm, Act.MtoI, contrib, hM, h6]

/-- What the parent passes to the local expansion of a child. -/
def fmm97Lin (val : Ref → Prov) (n : TNode) (p : Bool) (x : Index) : Nat :=
  (if 3 ≤ n.ix.level then val ⟨.tgt, n.ix.parent, .normal⟩ 0 x else 0) +
  (if 2 ≤ n.ix.level ∧ p = true then
    ((childTakes (toChild n.ix)).map fun k => val ⟨.tgt, n.ix.parent, .interm⟩ k.tag x).sum else 0)

theorem total_filter (c : List TNode) (f : TNode → Bool) (x : Index) :
    total (c.filter f) x + total (c.filter fun i => !f i) x = total c x := by
  induction c with
  | nil => rfl
  | cons i c ih =>
    simp only [List.filter_cons, total_cons]
    cases f i <;> simp <;> omega

/-- Invariant of the target traversal of FMM97. -/
structure FMM97Inv (unif : Nat) (same : Bool) (s t : Fin 8 → Oct) (val : Ref → Prov)
    (n : TNode) (p : Bool) (c : List TNode) : Prop where
  visit : Visit FMM97 unif same (rootNode t) false [rootNode s] n p c
  cons : ConsOk s n.ix c
  noI : n.ix.level < 2 → p = false
  sum : ∀ x, fmm97Lin val n p x + total (c.filter fun i => !skips n.ix i) x =
    (rootNode s).leaves.count x

theorem FMM97_normal (hv : IsEvaluation (createDag FMM97 unif same s t) val) {n : TNode} {p : Bool}
    {c : List TNode} (hi : Visit FMM97 unif same (rootNode t) false [rootNode s] n p c)
    (h2 : 2 ≤ n.ix.level) (x : Index) :
    val ⟨.tgt, n.ix, .normal⟩ 0 x = fmm97Lin val n p x + flow val ⟨.tgt, n.ix, .normal⟩ 0 x
        (FMM97.process n c (!refine FMM97 unif same n c)).1 := by
  rw [val_tgt FMM97_local hv hi, theVisit, Dashmm.visit, flow_append]
  congr 1
  simp only [FMM97_inherit, flow_append]
  have h0 : ∀ b : Bool, flow val ⟨.tgt, n.ix, .normal⟩ 0 x
      (if b = true then [Act.addParts .tgt n.ix] else []) = 0 := by
    intro b; split <;> simp [Act.addParts, actFlow]
  rw [h0, if_pos h2, fmm97Lin]
  by_cases h3 : 3 ≤ n.ix.level <;> cases p <;>
    simp [Act.addNormal, actFlow, Act.LtoL, Act.ItoL, contrib, h2, h3] <;> omega

theorem mergeActs_flow (val : Ref → Prov) (n : Index) (l : List TNode) (r : Ref) (v : Nat)
    (x : Index) : flow val r v x (mergeActs n l) =
      (l.map fun k => actFlow val r v x (Act.ItoI k.ix n)).sum := by
  unfold mergeActs
  split
  · rename_i h
    rw [List.isEmpty_iff] at h
    simp [h]
  · rw [flow_cons, flow_map]
    simp [Act.addInterm, actFlow]

theorem FMM97_makesInterm {n : TNode} {p : Bool} {c : List TNode}
    (hr : refine FMM97 unif same n c = true) :
    makesInterm FMM97 unif same n p c = !(fmm97InnerLoop n.ix c).2.2.isEmpty := by
  rw [Bool.eq_iff_iff, makesInterm, decide_eq_true_iff, theVisit, Dashmm.visit, hr]
  simp only [FMM97_process, FMM97_inherit, List.mem_append]
  constructor
  · rintro (h | h)
    · rcases h with h | h
      · simp at h
      · split at h
        · rcases List.mem_cons.1 h with h | h
          · cases h
          · rcases List.mem_append.1 h with h | h <;> split at h <;>
              simp [Act.addInterm, Act.ItoL, Act.LtoL] at h
        · simp at h
    · simp at h
      rcases h with h | h
      · obtain ⟨e, h, _⟩ := fmm97InnerLoop_mem _ _ _ h
        cases h
      · unfold mergeActs at h
        split at h
        · simp at h
        · simp_all
  · intro h
    right
    simp only [Bool.not_true, Bool.false_eq_true, if_false]
    rw [List.mem_append]
    right
    simp at h
    simp [mergeActs, h]

theorem FMM97_interm (hv : IsEvaluation (createDag FMM97 unif same s t) val) {n : TNode} {p : Bool}
    {c : List TNode} (hi : Visit FMM97 unif same (rootNode t) false [rootNode s] n p c)
    (hr : refine FMM97 unif same n c = true) (v : Nat) (x : Index) :
    val ⟨.tgt, n.ix, .interm⟩ v x = ((fmm97InnerLoop n.ix c).2.2.map fun k =>
      contrib ⟨.ItoI, ⟨.src, k.ix, .interm⟩, ⟨.tgt, n.ix, .interm⟩⟩
        (val ⟨.src, k.ix, .interm⟩) v x).sum := by
  rw [val_tgt FMM97_local hv hi, theVisit, Dashmm.visit, hr]
  simp only [FMM97_process, FMM97_inherit, flow_append, Bool.not_true, Bool.false_eq_true, if_false,
    flow_nil, Nat.zero_add, mergeActs_flow]
  have h1 : flow val ⟨.tgt, n.ix, .interm⟩ v x (fmm97InnerLoop n.ix c).1 = 0 :=
    flow_other (fmm97InnerLoop_mem _ _) (by simp)
  have h2 : flow val ⟨.tgt, n.ix, .interm⟩ v x (if n.ix.level ≥ 2 then
      Act.addNormal .tgt n.ix ::
        ((if p = true then [Act.ItoL n.ix.parent n.ix] else []) ++
         (if n.ix.level ≥ 3 then [Act.LtoL n.ix.parent n.ix] else []))
     else []) = 0 := by
    split
    · rw [flow_cons, flow_append]
      split <;> split <;> simp [Act.addNormal, Act.ItoL, Act.LtoL, actFlow]
    · rfl
  rw [h1, h2]
  simp [actFlow, Act.ItoI]

theorem sum_comm' {α β : Type*} (l : List α) (l' : List β) (f : α → β → Nat) :
    (l.map fun a => (l'.map fun b => f a b).sum).sum =
      (l'.map fun b => (l.map fun a => f a b).sum).sum := by
  induction l with
  | nil => simp
  | cons a l ih =>
    simp only [List.map_cons, List.sum_cons, ih]
    rw [← List.sum_map_add]

theorem FMM97_step (hv : IsEvaluation (createDag FMM97 unif same s t) val) {n : TNode} {p : Bool}
    {c : List TNode} (hi : FMM97Inv unif same s t val n p c)
    (hr : refine FMM97 unif same n c = true) {k : TNode} (hk : k ∈ n.kids) :
    FMM97Inv unif same s t val k (makesInterm FMM97 unif same n p c)
      (theVisit FMM97 unif same n p c).2 := by
  have e : (theVisit FMM97 unif same n p c).2 = (fmm97InnerLoop n.ix c).2.1 := by
    simp [theVisit, Dashmm.visit, hr, FMM97_process]
  obtain ⟨b, _, hb⟩ := mem_kids.1 hk
  have hn : n.ix.InRange := hi.visit.under.inRange (root_inRange t)
  have hlev := kid_level hk
  refine ⟨hi.visit.kid hr hk, ?_, ?_, ?_⟩
  · rw [e, hb]; exact fmm97InnerLoop_consOk _ _ hi.cons
  · intro h2
    rw [FMM97_makesInterm hr]
    have : ∀ c, (fmm97InnerLoop n.ix c).2.2 = [] := by
      intro c
      induction c with
      | nil => rfl
      | cons j c ih =>
        have h1 : ¬ (n.ix.level ≥ 1) := by omega
        simp only [fmm97InnerLoop, decide_eq_false h1, Bool.false_and, Bool.false_eq_true, if_false,
          List.nil_append]
        repeat' split
        all_goals exact ih
    simp [this]
  · intro x
    rw [e]
    obtain ⟨f1, f2⟩ := fmm97InnerLoop_flow (FMM97_srcVals hv) hn x c hi.cons
    have hs := hi.sum x
    have hsplit := total_filter c (skips n.ix) x
    have hsplit' := total_filter (fmm97InnerLoop n.ix c).2.1 (skips k.ix) x
    have hmerge := merge_total (FMM97_srcI hv) hn b.isLt x c hi.cons
    rw [← hb] at hmerge
    have hG : ((childTakes (toChild k.ix)).map fun tk =>
        val ⟨.tgt, k.ix.parent, .interm⟩ tk.tag x).sum =
        total ((fmm97InnerLoop n.ix c).2.1.filter (skips k.ix)) x := by
      rw [← hmerge, kid_parent hk]
      simp only [FMM97_interm hv hi.visit hr]
      rw [sum_comm']
      rfl
    have hGp : (if 2 ≤ k.ix.level ∧ makesInterm FMM97 unif same n p c = true then
        ((childTakes (toChild k.ix)).map fun tk =>
          val ⟨.tgt, k.ix.parent, .interm⟩ tk.tag x).sum else 0) =
        total ((fmm97InnerLoop n.ix c).2.1.filter (skips k.ix)) x := by
      by_cases hm : makesInterm FMM97 unif same n p c = true
      · by_cases h2 : 2 ≤ k.ix.level
        · rw [if_pos ⟨h2, hm⟩, hG]
        · rw [if_neg (by tauto)]
          have : (fmm97InnerLoop n.ix c).2.1.filter (skips k.ix) = [] := by
            rw [List.filter_eq_nil_iff]
            intro j hj hsk
            simp only [skips, Bool.and_eq_true, decide_eq_true_eq] at hsk
            have hco := fmm97InnerLoop_consOk (s := s) b c hi.cons
            have := wellSep_level ((hco.under j hj).inRange (root_inRange s))
              (by rw [hb]; exact Index.inRange_child hn b b.isLt) hsk.1 hsk.2
            omega
          rw [this]; rfl
      · rw [if_neg (by tauto)]
        rw [FMM97_makesInterm hr] at hm
        have : (fmm97InnerLoop n.ix c).2.2 = [] := by simpa using hm
        rw [← hmerge, this]; rfl
    rw [fmm97Lin, hGp]
    by_cases h2 : 2 ≤ n.ix.level
    · have hval := FMM97_normal hv hi.visit h2 x
      rw [hr] at hval
      have e2 : flow val ⟨.tgt, n.ix, .normal⟩ 0 x (FMM97.process n c (!true)).1 =
          flow val ⟨.tgt, n.ix, .normal⟩ 0 x (fmm97InnerLoop n.ix c).1 := by
        simp only [FMM97_process, Bool.not_true, Bool.false_eq_true, if_false, flow_append,
          mergeActs_flow]
        simp [actFlow, Act.ItoI]
      rw [e2] at hval
      rw [if_pos (by omega), kid_parent hk]
      omega
    · rw [if_neg (by omega)]
      have : fmm97Lin val n p x = 0 := by
        rw [fmm97Lin, if_neg (by omega), if_neg (by tauto)]
      have := f2 (by omega)
      omega

theorem FMM97_inv (hv : IsEvaluation (createDag FMM97 unif same s t) val)
    {n : TNode} {p : Bool} {c : List TNode}
    (h : Visit FMM97 unif same (rootNode t) false [rootNode s] n p c) :
    FMM97Inv unif same s t val n p c := by
  have step : ∀ {n : TNode} {p : Bool} {c : List TNode} {n₀ : TNode} {p₀ : Bool} {c₀ : List TNode},
      Visit FMM97 unif same n₀ p₀ c₀ n p c → FMM97Inv unif same s t val n₀ p₀ c₀ →
      FMM97Inv unif same s t val n p c := by
    intro n p c n₀ p₀ c₀ h
    induction h with
    | here => exact id
    | down hr hk h ih => intro hi; exact ih (FMM97_step hv hi hr hk)
  apply step h
  refine ⟨.here _ _ _, consOk_root s, fun _ => rfl, ?_⟩
  intro x
  have : skips (rootNode t).ix (rootNode s) = false := by
    simp [skips, rootNode, Index.root, wellSep]
  simp [fmm97Lin, rootNode, Index.root] at *
  simp [this]

end

theorem FMM97_delivers : DeliversAllOnce FMM97 := by
  apply deliversAllOnce_of_canonical
  intro unif same s t val hv
  apply deliver_of_visits FMM97_local hv
  · intro n p c hvis r hr
    simp only [theVisit, Dashmm.visit, List.mem_append] at hr
    rcases hr with hr | hr
    · simp only [FMM97_inherit, List.mem_append] at hr
      rcases hr with hr | hr
      · split at hr
        · rename_i hl
          simp [Act.addParts] at hr
          subst hr
          simpa using hl
        · simp at hr
      · split at hr
        · rcases List.mem_cons.1 hr with hr | hr
          · cases hr; simp
          · rcases List.mem_append.1 hr with hr | hr <;> split at hr <;>
              simp [Act.ItoL, Act.LtoL] at hr
        · simp at hr
    · simp only [FMM97_process] at hr
      split at hr
      · rcases List.mem_append.1 hr with hr | hr
        · obtain ⟨e, h, _⟩ := fmm97LeafLoop_mem _ _ _ hr
          cases h
        · split at hr <;> simp [Act.LtoT] at hr
      · rcases List.mem_append.1 hr with hr | hr
        · obtain ⟨e, h, _⟩ := fmm97InnerLoop_mem _ _ _ hr
          cases h
        · rcases mergeActs_mem hr with h | ⟨k, _, h⟩
          · cases h; simp
          · cases h
  · intro n r hr
    unfold ownSrc at hr
    split at hr <;> simp only [FMM97_generate, FMM97_aggregate] at hr <;> split at hr <;>
      simp [Act.addParts, Act.addNormal, Act.StoM, Act.MtoM, Act.addInterm, Act.MtoI] at hr
    · rcases hr with rfl | rfl | rfl <;> rfl
    · subst hr; rfl
    · rcases hr with rfl | rfl <;> rfl
  · intro n p c hvis hr x
    have hi := FMM97_inv hv hvis
    have hn : n.ix.InRange := hvis.under.inRange (root_inRange t)
    obtain ⟨f1, f2⟩ := fmm97LeafLoop_flow (FMM97_srcVals hv) hn x c hi.cons
    have hs := hi.sum x
    have hsplit := total_filter c (skips n.ix) x
    have hnormal := FMM97_normal hv hvis (x := x)
    rw [hr] at hnormal
    have e1 : flow val ⟨.tgt, n.ix, .parts⟩ 0 x (theVisit FMM97 unif same n p c).1 =
        flow val ⟨.tgt, n.ix, .parts⟩ 0 x (fmm97LeafLoop n.ix c) +
        if 2 ≤ n.ix.level then val ⟨.tgt, n.ix, .normal⟩ 0 x else 0 := by
      simp only [theVisit, Dashmm.visit, hr, FMM97_process, FMM97_inherit, flow_append,
        Bool.not_false, if_true]
      by_cases h2 : 2 ≤ n.ix.level
      · by_cases h3 : 3 ≤ n.ix.level <;> cases p <;>
          simp [h2, h3, Act.addParts, Act.addNormal, Act.LtoL, Act.LtoT, Act.ItoL, actFlow, contrib]
      · simp [h2, Act.addParts, actFlow]
    rw [e1]
    have e2 : flow val ⟨.tgt, n.ix, .normal⟩ 0 x (FMM97.process n c (!false)).1 =
        flow val ⟨.tgt, n.ix, .normal⟩ 0 x (fmm97LeafLoop n.ix c) := by
      simp only [FMM97_process, flow_append, Bool.not_false, if_true]
      split <;> simp [Act.LtoT, actFlow]
    rw [e2] at hnormal
    split
    · rename_i h2
      have := hnormal h2
      omega
    · rename_i h2
      have hp := hi.noI (by omega)
      have : fmm97Lin val n p x = 0 := by
        rw [fmm97Lin, if_neg (by omega), if_neg (by tauto)]
      have := f2 (by omega)
      omega

end Dashmm
