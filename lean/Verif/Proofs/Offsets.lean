import Verif.Proofs.MergeShift

/-! How far apart the two ends of an `M->L` edge are. -/

namespace Dashmm

/-- At most three boxes apart along every axis. -/
def Near (a b : Index) : Prop :=
  (-3 ≤ (a.x : Int) - b.x ∧ (a.x : Int) - b.x ≤ 3) ∧
  (-3 ≤ (a.y : Int) - b.y ∧ (a.y : Int) - b.y ≤ 3) ∧
  (-3 ≤ (a.z : Int) - b.z ∧ (a.z : Int) - b.z ≤ 3)

theorem near_of_parents {n j : Index} (hw : wellSep j n = false) {a b : Nat}
    (ha : a < 8) (hb : b < 8) : Near (j.child a) (n.child b) := by
  have h := near_child hw ha hb
  have hn := Index.child_eq n b hb
  simp only at h
  have kx : (n.child b).x = 2 * n.x + b % 2 := by simp [hn]
  have ky : (n.child b).y = 2 * n.y + b / 2 % 2 := by simp [hn]
  have kz : (n.child b).z = 2 * n.z + b / 4 % 2 := by simp [hn]
  refine ⟨?_, ?_, ?_⟩ <;> omega

theorem fmmInnerLoop_near {s : Fin 8 → Oct} {t : Index} {b : Nat} (hb : b < 8) : ∀ c, ConsOk s t c →
    ∀ k ∈ (fmmInnerLoop t c).2, k.ix.level = t.level + 1 → Near k.ix (t.child b) := by
  intro c
  induction c with
  | nil => intro _ k hk; simp [fmmInnerLoop] at hk
  | cons j c ih =>
    intro hc
    have ih := ih hc.tail
    have hjl := hc.level j (by simp)
    have hcons : ∀ k ∈ j :: (fmmInnerLoop t c).2, k.ix.level = t.level + 1 →
        Near k.ix (t.child b) := by
      intro k hk hl
      rcases List.mem_cons.1 hk with rfl | hk
      · omega
      · exact ih k hk hl
    simp only [fmmInnerLoop]
    split
    · split
      · exact ih
      · exact hcons
    · split
      · exact ih
      · rename_i hw
        split
        · exact hcons
        · intro k hk hl
          rcases List.mem_append.1 hk with hk | hk
          · obtain ⟨a, _, h⟩ := mem_kids.1 hk
            have := near_of_parents (j := j.ix) (n := t) (by simpa using hw) a.isLt hb
            rw [h]; exact this
          · exact ih k hk hl

/-- The consider list of a visit of FMM: what is at the level of the target is near it. -/
theorem FMM_near {unif : Nat} {same : Bool} {s : Fin 8 → Oct}
    {n : TNode} {p : Bool} {c : List TNode} {n₀ : TNode} {p₀ : Bool} {c₀ : List TNode}
    (h : Visit FMM unif same n₀ p₀ c₀ n p c) : ConsOk s n₀.ix c₀ →
    (∀ i ∈ c₀, i.ix.level = n₀.ix.level → Near i.ix n₀.ix) →
    ∀ i ∈ c, i.ix.level = n.ix.level → Near i.ix n.ix := by
  induction h with
  | here => intro _ h; exact h
  | @down n p c k n' p' c' hr hk h ih =>
    intro hi _
    have e : (theVisit FMM unif same n p c).2 = (fmmInnerLoop n.ix c).2 := by
      simp [theVisit, Dashmm.visit, hr, FMM_process]
    have hkl := kid_level hk
    obtain ⟨i, _, h2⟩ := mem_kids.1 hk
    apply ih
    · rw [e, h2]; exact fmmInnerLoop_consOk _ _ hi
    · rw [e]
      intro x hx hl
      have := fmmInnerLoop_near (b := i) i.isLt c hi x hx (by omega)
      rw [h2]; exact this

theorem fmmLeafLoop_MtoL (t : Index) {a b : Index} : ∀ c, (∀ i ∈ c, i.ix.level ≤ t.level) →
    Act.MtoL a b ∈ fmmLeafLoop t c →
    b = t ∧ ∃ i ∈ c, i.ix = a ∧ i.ix.level = t.level := by
  intro c
  induction c with
  | nil => intro _ h; simp [fmmLeafLoop] at h
  | cons j c ih =>
    intro hc h
    rw [fmmLeafLoop, List.mem_append] at h
    rcases h with h | h
    · split at h
      · split at h <;> simp [Act.MtoL, Act.StoL, Act.StoT] at h
      · rename_i hlt
        have := hc j (by simp)
        split at h
        · simp [Act.MtoL] at h
          exact ⟨h.2, j, by simp, h.1.symm, by omega⟩
        · have := procColl_mem t j _ h
          simp [Act.MtoL, Act.StoT, Act.MtoT] at this
    · obtain ⟨h1, i, hi, h2⟩ := ih (fun i hi => hc i (by simp [hi])) h
      exact ⟨h1, i, by simp [hi], h2⟩

theorem fmmInnerLoop_MtoL (t : Index) {a b : Index} : ∀ c, (∀ i ∈ c, i.ix.level ≤ t.level) →
    Act.MtoL a b ∈ (fmmInnerLoop t c).1 →
    b = t ∧ ∃ i ∈ c, i.ix = a ∧ i.ix.level = t.level := by
  intro c
  induction c with
  | nil => intro _ h; simp [fmmInnerLoop] at h
  | cons j c ih =>
    intro hc h
    have hj := hc j (by simp)
    have ih' : Act.MtoL a b ∈ (fmmInnerLoop t c).1 →
        b = t ∧ ∃ i ∈ j :: c, i.ix = a ∧ i.ix.level = t.level := by
      intro h
      obtain ⟨h1, i, hi, h2⟩ := ih (fun i hi => hc i (by simp [hi])) h
      exact ⟨h1, i, by simp [hi], h2⟩
    simp only [fmmInnerLoop] at h
    split at h
    · split at h
      · rcases List.mem_cons.1 h with h | h
        · simp [Act.MtoL, Act.StoL] at h
        · exact ih' h
      · exact ih' h
    · split at h
      · rcases List.mem_cons.1 h with h | h
        · simp [Act.MtoL] at h
          exact ⟨h.2, j, by simp, h.1.symm, by omega⟩
        · exact ih' h
      · split at h <;> exact ih' h


/-- Every `M->L` edge of FMM joins boxes of the same level that are separated but at most three
boxes apart along every axis. -/
theorem FMM_MtoL_offset {unif : Nat} {same : Bool} {s t : Fin 8 → Oct} {acts : List Act}
    (hr : Runs (createProg FMM unif same s t) acts) {e : Edge} (he : e ∈ edgesOf acts)
    (ho : e.op = .MtoL) :
    e.src.ix.level = e.dst.ix.level ∧ Near e.src.ix e.dst.ix ∧ wellSep e.src.ix e.dst.ix = true := by
  have h := mem_edges_createDag hr he
  rcases createDag_mem h with ⟨n, hu, ha⟩ | ⟨n, p, c, hv, ha⟩
  · have := FMM_src_act n _ ha
    generalize hx : Act.link e = x at this
    cases this <;> cases hx <;> simp at ho
  · have hc := FMM_cons hv (consOk_root s)
    have hn := FMM_near hv (consOk_root s) (by
      intro i hi _
      simp at hi; subst hi
      simp [Near, rootNode])
    have hact := FMM_visit_act hc _ ha
    generalize hx : Act.link e = x at hact
    cases hact with
    | loop h =>
      cases h with
      | MtoL h hl hw =>
        rename_i i
        simp only [theVisit, Dashmm.visit, List.mem_append, FMM_inherit, FMM_process] at ha
        rw [hx] at ha
        have : n.ix = n.ix ∧ ∃ i' ∈ c, i'.ix = i.ix ∧ i'.ix.level = n.ix.level := by
          rcases ha with (ha | ha) | ha
          · split at ha <;> simp [Act.MtoL, Act.addParts] at ha
          · split at ha
            · rcases List.mem_cons.1 ha with ha | ha
              · simp [Act.MtoL, Act.addNormal] at ha
              · split at ha <;> simp [Act.MtoL, Act.LtoL] at ha
            · simp at ha
          · split at ha
            · rcases List.mem_append.1 ha with ha | ha
              · exact fmmLeafLoop_MtoL _ _ hc.level ha
              · split at ha <;> simp [Act.MtoL, Act.LtoT] at ha
            · exact fmmInnerLoop_MtoL _ _ hc.level ha
        obtain ⟨_, i', hi', e1, e2⟩ := this
        cases hx
        refine ⟨hl, ?_, hw⟩
        have := hn i' hi' e2
        rw [e1] at this; exact this
      | _ => cases hx <;> simp at ho
    | _ => cases hx <;> simp at ho

end Dashmm
