import Verif.Proofs.BuildInv
import Verif.Spec.Build
namespace Dashmm
namespace Build
open Grid (InSlot InBoxOf slot_unique)

set_option linter.unusedSectionVars false
variable {K : Type} [Field K] [LinearOrder K] [IsStrictOrderedRing K] {R : Type}

/-- The children of `p` which have been made and have not reported. -/
def openKids (nodes : List Cell) (fwd : List Index) (p : Index) : List Nat :=
  (List.range 8).filter fun i => p.child i ∈ nodes.map Cell.idx ∧ p.child i ∉ fwd

/-- What holds of the completion LCOs. -/
structure Comp (s : State R) : Prop where
  pend : ∀ v ∈ s.pending, s.sets v.idx = 0
  leaf : ∀ v ∈ s.leaves, s.sets v.idx = 8
  inner : ∀ v ∈ s.inner, s.sets v.idx + (openKids s.nodes s.fwd v.idx).length = 8
  none : ∀ i, i ∉ s.nodes.map Cell.idx → s.sets i = 0
  fwd : ∀ i ∈ s.fwd, s.sets i = 8 ∧ ∃ v ∈ s.leaves ++ s.inner, v.idx = i

theorem comp_start (root : Cell) (mem : List R) : Comp (start root mem) := by
  constructor
  · intro v _; rfl
  · intro v hv; simp [start] at hv
  · intro v hv; simp [start] at hv
  · intro i _; rfl
  · intro i hi; simp [start] at hi

theorem openKids_congr {n n' : List Cell} {f f' : List Index} {p : Index}
    (h : ∀ i, i < 8 → ((p.child i ∈ n.map Cell.idx ∧ p.child i ∉ f) ↔ (p.child i ∈ n'.map Cell.idx ∧ p.child i ∉ f'))) :
    openKids n f p = openKids n' f' p := by
  unfold openKids
  apply List.filter_congr
  intro i hi
  rw [List.mem_range] at hi
  exact decide_eq_decide.2 (h i hi)

/-- idx of pending nodes differ from those of the others. -/
theorem pend_ne {E : Env K R} {root : Cell} {mem0 : List R} {s : State R} (h : Inv E root mem0 s) {v w : Cell}
    (hv : v ∈ s.pending) (hw : w ∈ s.leaves ++ s.inner) : v.idx ≠ w.idx := by
  have := h.nodup
  rw [State.nodes, List.map_append, List.nodup_append] at this
  exact this.2.2 _ (List.mem_map.2 ⟨v, hv, rfl⟩) _ (List.mem_map.2 ⟨w, hw, rfl⟩)

theorem pend_erase_ne {E : Env K R} {root : Cell} {mem0 : List R} {s : State R} (h : Inv E root mem0 s) {v w : Cell}
    (hv : v ∈ s.pending) (hw : w ∈ s.pending.erase v) : w.idx ≠ v.idx := by
  have h1 := h.nodup
  rw [State.nodes, List.map_append, List.nodup_append] at h1
  have h2 := ((List.perm_cons_erase hv).map Cell.idx).nodup_iff.1 h1.1
  rw [List.map_cons, List.nodup_cons] at h2
  intro he
  exact h2.1 (List.mem_map.2 ⟨w, hw, he⟩)

theorem leaf_inner_ne {E : Env K R} {root : Cell} {mem0 : List R} {s : State R} (h : Inv E root mem0 s) {v w : Cell}
    (hv : v ∈ s.leaves) (hw : w ∈ s.inner) : v.idx ≠ w.idx := by
  have := h.nodup
  rw [State.nodes, List.map_append, List.nodup_append] at this
  have := this.2.1
  rw [List.map_append, List.nodup_append] at this
  exact this.2.2 _ (List.mem_map.2 ⟨v, hv, rfl⟩) _ (List.mem_map.2 ⟨w, hw, rfl⟩)

theorem missing_add (v : Cell) (c : Nat → List R) :
    missing c + ((List.range 8).filter fun i => ¬ (c i).length = 0).length = 8 := by
  unfold missing
  have := List.length_eq_length_filter_add (l := List.range 8) (fun i => decide ((c i).length = 0))
  rw [List.length_range] at this
  simp only [decide_not] at *
  omega

theorem comp_step {E : Env K R} {root : Cell} {mem0 : List R} {s t : State R}
    (h : Inv E root mem0 s) (g : Comp s) (hst : Step E root.idx s t) : Comp t := by
  cases hst with
  | leaf v hv hn =>
    have hfv : v.idx ∉ s.fwd := fun hf => by
      obtain ⟨w, hw, he⟩ := (g.fwd _ hf).2
      exact pend_ne h hv hw he.symm
    have hn : ∀ i, i ∈ (s.pending.erase v ++ ((v :: s.leaves) ++ s.inner)).map Cell.idx ↔ i ∈ s.nodes.map Cell.idx :=
      fun i => ((leaf_nodes hv).map _).mem_iff
    constructor
    · intro w hw
      simp only at hw ⊢
      rw [if_neg (pend_erase_ne h hv hw)]
      exact g.pend w (List.mem_of_mem_erase hw)
    · intro w hw
      simp only at hw ⊢
      rcases List.mem_cons.1 hw with rfl | hw
      · rw [if_pos rfl, g.pend _ hv]
      · rw [if_neg (pend_ne h hv (List.mem_append_left _ hw)).symm]; exact g.leaf w hw
    · intro w hw
      simp only at hw ⊢
      rw [if_neg (pend_ne h hv (List.mem_append_right _ hw)).symm]
      rw [← g.inner w hw]
      congr 2
      apply openKids_congr
      intro i _
      unfold State.nodes
      simp only
      rw [hn]
      rfl
    · intro i hi
      unfold State.nodes at hi
      simp only at hi ⊢
      rw [hn] at hi
      rw [if_neg]
      · exact g.none i hi
      · rintro rfl
        exact hi (List.mem_map.2 ⟨v, by simp [State.nodes, hv], rfl⟩)
    · intro i hi
      simp only at hi ⊢
      obtain ⟨h1, w, hw, h2⟩ := g.fwd i hi
      refine ⟨?_, w, ?_, h2⟩
      · rw [if_neg]
        · exact h1
        · rintro rfl; exact hfv hi
      · simp only [List.mem_append, List.mem_cons] at *; tauto
  | split v hv hn c hc =>
    have hvn : v ∈ s.nodes := by simp [State.nodes, hv]
    have hfv : v.idx ∉ s.fwd := fun hf => by
      obtain ⟨w, hw, he⟩ := (g.fwd _ hf).2
      exact pend_ne h hv hw he.symm
    have hn' : ∀ i, i ∈ (kids v c ++ s.pending.erase v ++ (s.leaves ++ (v :: s.inner))).map Cell.idx ↔
        i ∈ (kids v c).map Cell.idx ∨ i ∈ s.nodes.map Cell.idx := fun i => by
      rw [((split_nodes hv (kids v c)).map _).mem_iff, List.map_append, List.mem_append]
    have hkid : ∀ i, i ∈ (kids v c).map Cell.idx ↔ ∃ j, j < 8 ∧ (c j).length ≠ 0 ∧ i = v.idx.child j := by
      intro i
      rw [List.mem_map]
      constructor
      · rintro ⟨u, hu, rfl⟩
        obtain ⟨j, h1, h2, rfl⟩ := mem_kids.1 hu
        exact ⟨j, h1, h2, rfl⟩
      · rintro ⟨j, h1, h2, rfl⟩
        exact ⟨_, mem_kids.2 ⟨j, h1, h2, rfl⟩, rfl⟩
    have hfresh : ∀ j, j < 8 → v.idx.child j ∉ s.nodes.map Cell.idx := by
      intro j hj hh
      obtain ⟨w, hw, he⟩ := List.mem_map.1 hh
      exact kids_fresh h hv hw hj he
    have hvc : ∀ j, j < 8 → v.idx.child j ≠ v.idx := by
      intro j hj hh
      have := child_level (i := v.idx) hj
      rw [hh] at this
      omega
    have hff : ∀ j, j < 8 → v.idx.child j ∉ s.fwd := by
      intro j hj hh
      obtain ⟨w, hw, he⟩ := (g.fwd _ hh).2
      exact hfresh j hj (List.mem_map.2 ⟨w, by simp only [State.nodes, List.mem_append] at *; tauto, he⟩)
    constructor
    · intro w hw
      simp only at hw ⊢
      rcases List.mem_append.1 hw with hw | hw
      · obtain ⟨j, hj, _, rfl⟩ := mem_kids.1 hw
        simp only
        rw [if_neg (hvc j hj)]
        exact g.none _ (hfresh j hj)
      · rw [if_neg (pend_erase_ne h hv hw)]
        exact g.pend w (List.mem_of_mem_erase hw)
    · intro w hw
      simp only at hw ⊢
      rw [if_neg (pend_ne h hv (List.mem_append_left _ hw)).symm]; exact g.leaf w hw
    · intro w hw
      simp only at hw ⊢
      rcases List.mem_cons.1 hw with rfl | hw
      · rw [if_pos rfl, g.pend _ hv, Nat.zero_add]
        rw [← missing_add w c]
        congr 2
        unfold openKids State.nodes
        apply List.filter_congr
        intro i hi
        rw [List.mem_range] at hi
        apply decide_eq_decide.2
        simp only
        rw [hn', hkid]
        constructor
        · rintro ⟨⟨j, hj, hz, he⟩ | hh, _⟩
          · rw [(Index.child_inj _ _ i j hi hj he).2]; exact hz
          · exact absurd hh (hfresh i hi)
        · intro hz
          exact ⟨.inl ⟨i, hi, hz, rfl⟩, hff i hi⟩
      · rw [if_neg (pend_ne h hv (List.mem_append_right _ hw)).symm]
        rw [← g.inner w hw]
        congr 2
        apply openKids_congr
        intro i hi
        unfold State.nodes
        simp only
        rw [hn']
        constructor
        · rintro ⟨hh | hh, h2⟩
          · obtain ⟨j, hj, _, he⟩ := (hkid _).1 hh
            exact absurd (Index.child_inj _ _ i j hi hj he).1 (pend_ne h hv (List.mem_append_right _ hw)).symm
          · exact ⟨hh, h2⟩
        · rintro ⟨hh, h2⟩; exact ⟨.inr hh, h2⟩
    · intro i hi
      unfold State.nodes at hi
      simp only at hi ⊢
      rw [hn'] at hi
      push Not at hi
      rw [if_neg]
      · exact g.none i hi.2
      · rintro rfl
        exact hi.2 (List.mem_map.2 ⟨v, hvn, rfl⟩)
    · intro i hi
      simp only at hi ⊢
      obtain ⟨h1, w, hw, h2⟩ := g.fwd i hi
      refine ⟨?_, w, ?_, h2⟩
      · rw [if_neg]
        · exact h1
        · rintro rfl; exact hfv hi
      · simp only [List.mem_append, List.mem_cons] at *; tauto
  | forward v hv hr h8 hf =>
    have hvn : v ∈ s.nodes := by simp only [State.nodes, List.mem_append] at *; tauto
    obtain ⟨p, hp, i, hi, he⟩ : ∃ p ∈ s.inner, ∃ i, i < 8 ∧ v.idx = p.idx.child i := by
      rcases h.up v hvn with rfl | hh
      · exact absurd rfl hr
      · exact hh
    have hpar : v.idx.parent = p.idx := by rw [he]; exact Index.parent_child _ _ hi
    have hpn : p ∈ s.nodes := by simp [State.nodes, hp]
    have hopen : i ∈ openKids s.nodes s.fwd p.idx := by
      unfold openKids
      rw [List.mem_filter, List.mem_range]
      refine ⟨hi, ?_⟩
      rw [decide_eq_true_iff, ← he]
      exact ⟨List.mem_map.2 ⟨v, hvn, rfl⟩, hf⟩
    have hpos : 0 < (openKids s.nodes s.fwd p.idx).length := List.length_pos_of_mem hopen
    have hpi := g.inner p hp
    have hv8 : s.sets v.idx = 8 := by
      rcases List.mem_append.1 hv with hv | hv
      · exact g.leaf v hv
      · have := g.inner v hv; omega
    have hpv : p.idx ≠ v.idx := fun hh => by
      have : s.sets p.idx = 8 := by rw [hh]; exact hv8
      omega
    constructor
    · intro w hw
      simp only at hw ⊢
      rw [hpar, if_neg (pend_ne h hw (List.mem_append_right _ hp))]
      exact g.pend w hw
    · intro w hw
      simp only at hw ⊢
      rw [hpar, if_neg (leaf_inner_ne h hw hp)]; exact g.leaf w hw
    · intro w hw
      simp only at hw ⊢
      have hwn : w ∈ s.nodes := by simp [State.nodes, hw]
      rw [hpar]
      by_cases hwp : w.idx = p.idx
      · rw [if_pos hwp, hwp]
        have : (openKids s.nodes s.fwd p.idx).length =
            (openKids s.nodes (v.idx :: s.fwd) p.idx).length + 1 := by
          have h1 : openKids s.nodes (v.idx :: s.fwd) p.idx = (openKids s.nodes s.fwd p.idx).erase i := by
            have hnd : (openKids s.nodes s.fwd p.idx).Nodup := List.Nodup.filter _ List.nodup_range
            rw [hnd.erase_eq_filter]
            unfold openKids
            rw [List.filter_filter]
            apply List.filter_congr
            intro j hj
            rw [List.mem_range] at hj
            rw [Bool.eq_iff_iff]
            simp only [decide_eq_true_iff, Bool.and_eq_true, bne_iff_ne, List.mem_cons, not_or]
            constructor
            · rintro ⟨h1, h2, h3⟩
              exact ⟨fun hji => h2 (by rw [hji, he]), h1, h3⟩
            · rintro ⟨h1, h2, h3⟩
              exact ⟨h2, fun hh => h1 (Index.child_inj _ _ j i hj hi (hh.trans he)).2, h3⟩
          rw [h1, List.length_erase_of_mem hopen]
          omega
        have h3 : State.nodes (R := R) { s with
          sets := fun j => if j = p.idx then s.sets j + 1 else s.sets j, fwd := v.idx :: s.fwd } = s.nodes := rfl
        have h4 : ∀ f, openKids (State.nodes (R := R) { s with sets := f, fwd := v.idx :: s.fwd }) (v.idx :: s.fwd) p.idx
          = openKids s.nodes (v.idx :: s.fwd) p.idx := fun _ => rfl
        rw [h4]
        omega
      · rw [if_neg hwp, ← g.inner w hw]
        congr 2
        apply openKids_congr
        intro j hj
        unfold State.nodes
        simp only [List.mem_cons, not_or]
        constructor
        · rintro ⟨h1, h2, h3⟩; exact ⟨h1, h3⟩
        · rintro ⟨h1, h3⟩
          exact ⟨h1, fun hh => hwp (Index.child_inj _ _ j i hj hi (hh.trans he)).1, h3⟩
    · intro j hj
      have hj' : j ∉ s.nodes.map Cell.idx := hj
      simp only
      rw [if_neg]
      · exact g.none j hj'
      · rw [hpar]; rintro rfl; exact hj' (List.mem_map.2 ⟨p, hpn, rfl⟩)
    · intro j hj
      simp only at hj ⊢
      rw [hpar]
      rcases List.mem_cons.1 hj with rfl | hj
      · exact ⟨by rw [if_neg (Ne.symm hpv)]; exact hv8, v, hv, rfl⟩
      · refine ⟨?_, (g.fwd j hj).2⟩
        have := (g.fwd j hj).1
        rw [if_neg]
        · exact this
        · rintro rfl; omega

theorem comp_steps {E : Env K R} {root : Cell} {mem0 : List R} {s t : State R} {k : Nat} (hd : 0 < E.dom.size)
    (h : Inv E root mem0 s) (g : Comp s) (hst : Steps E root.idx k s t) : Inv E root mem0 t ∧ Comp t := by
  induction hst with
  | zero => exact ⟨h, g⟩
  | succ _ hst ih =>
    obtain ⟨h', g'⟩ := ih h g
    exact ⟨inv_step hd h' hst, comp_step h' g' hst⟩

/-- No LCO gets more than eight inputs. -/
theorem comp_le {s : State R} (g : Comp s)
    (i : Index) : s.sets i ≤ 8 := by
  by_cases hi : i ∈ s.nodes.map Cell.idx
  · obtain ⟨v, hv, rfl⟩ := List.mem_map.1 hi
    simp only [State.nodes, List.mem_append] at hv
    rcases hv with hv | hv | hv
    · rw [g.pend v hv]; omega
    · rw [g.leaf v hv]
    · have := g.inner v hv; omega
  · rw [g.none i hi]; omega

/-- A node that is not complete keeps the root from completing. -/
theorem open_root {E : Env K R} {root : Cell} {mem0 : List R} {s : State R} (h : Inv E root mem0 s) (g : Comp s) :
    ∀ (m : Nat) (u : Cell), u ∈ s.nodes → u.idx.level ≤ m → s.sets u.idx < 8 → s.sets root.idx < 8 := by
  intro m
  induction m with
  | zero =>
    intro u hu hl hs
    rcases h.up u hu with rfl | ⟨p, hp, i, hi, he⟩
    · exact hs
    · rw [he, child_level hi] at hl; omega
  | succ m ih =>
    intro u hu hl hs
    rcases h.up u hu with rfl | ⟨p, hp, i, hi, he⟩
    · exact hs
    · rw [he, child_level hi] at hl
      apply ih p (by simp [State.nodes, hp]) (by omega)
      have hnf : u.idx ∉ s.fwd := fun hf => by have := (g.fwd _ hf).1; omega
      have hopen : i ∈ openKids s.nodes s.fwd p.idx := by
        unfold openKids
        rw [List.mem_filter, List.mem_range]
        refine ⟨hi, ?_⟩
        rw [decide_eq_true_iff, ← he]
        exact ⟨List.mem_map.2 ⟨u, hu, rfl⟩, hnf⟩
      have := List.length_pos_of_mem hopen
      have := g.inner p hp
      omega

theorem done_of_pending_nil {E : Env K R} {root : Cell} {mem0 : List R} {s : State R} (h : Inv E root mem0 s) (g : Comp s)
    (hp : s.pending = []) (hq : Quiet E root.idx s) : s.sets root.idx = 8 := by
  obtain ⟨M, hM⟩ : ∃ M, ∀ v ∈ s.nodes, v.idx.level ≤ M := by
    refine ⟨(s.nodes.map fun v => v.idx.level).sum, fun v hv => ?_⟩
    exact List.le_sum_of_mem (List.mem_map.2 ⟨v, hv, rfl⟩)
  have key : ∀ m, ∀ v ∈ s.nodes, M ≤ v.idx.level + m → s.sets v.idx = 8 := by
    intro m
    induction m with
    | zero =>
      intro v hv hl
      have hv' := hv
      simp only [State.nodes, hp, List.nil_append, List.mem_append] at hv'
      rcases hv' with hv' | hv'
      · exact g.leaf v hv'
      · have h1 := g.inner v hv'
        have : openKids s.nodes s.fwd v.idx = [] := by
          unfold openKids
          rw [List.filter_eq_nil_iff]
          intro i hi
          rw [List.mem_range] at hi
          rw [decide_eq_true_iff]
          rintro ⟨h2, _⟩
          obtain ⟨u, hu, he⟩ := List.mem_map.1 h2
          have := hM u hu
          rw [he, child_level hi] at this
          omega
        rw [this] at h1
        simpa using h1
    | succ m ih =>
      intro v hv hl
      have hv' := hv
      simp only [State.nodes, hp, List.nil_append, List.mem_append] at hv'
      rcases hv' with hv' | hv'
      · exact g.leaf v hv'
      · have h1 := g.inner v hv'
        have : openKids s.nodes s.fwd v.idx = [] := by
          unfold openKids
          rw [List.filter_eq_nil_iff]
          intro i hi
          rw [List.mem_range] at hi
          rw [decide_eq_true_iff]
          rintro ⟨h2, h3⟩
          obtain ⟨u, hu, he⟩ := List.mem_map.1 h2
          have hu8 := ih u hu (by rw [he, child_level hi]; omega)
          have hu' := hu
          simp only [State.nodes, hp, List.nil_append] at hu'
          apply hq
          refine Step.forward s u hu' ?_ (by omega) (by rw [he]; exact h3)
          intro hh
          have := h.level v hv
          have h5 := congrArg Index.level (he.symm.trans hh)
          rw [child_level hi] at h5
          omega
        rw [this] at h1
        simpa using h1
  exact key M root h.hroot (by omega)

end Build
end Dashmm
