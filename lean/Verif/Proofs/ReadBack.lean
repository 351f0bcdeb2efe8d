import Verif.Model.ReadBack
import Verif.Props.RankTree
/-!
Lemmas for C82.
-/
namespace Dashmm
namespace ReadBack
open Build RankTree Branch
open Grid (InDomain InBoxOf)

section
variable {R V : Type}

theorem writeNode_length (val : Nat → V) (v : Cell) (m : List (R × V)) : (writeNode val v m).length = m.length := by
  unfold writeNode; simp

theorem writeNode_get (val : Nat → V) (v : Cell) (m : List (R × V)) (j : Nat) :
    (writeNode val v m)[j]? = (m[j]?).map fun y => if v.off ≤ j ∧ j < v.off + v.n then (y.1, val (j - v.off)) else y := by
  unfold writeNode; rw [List.getElem?_mapIdx]

/-- The records stay where they are, and each place has the value of a node which it belongs to, if there is one. -/
theorem write_get (ws : List (Cell × (Nat → V))) : ∀ (m : List (R × V)) (j : Nat) (x : R) (y : V), m[j]? = some (x, y) →
    ∃ y', (ws.foldl (fun m w => writeNode w.2 w.1 m) m)[j]? = some (x, y') ∧
      ((∃ w ∈ ws, w.1.off ≤ j ∧ j < w.1.off + w.1.n ∧ y' = w.2 (j - w.1.off)) ∨
        ((∀ w ∈ ws, ¬ (w.1.off ≤ j ∧ j < w.1.off + w.1.n)) ∧ y' = y)) := by
  induction ws with
  | nil => intro m j x y h; exact ⟨y, h, .inr ⟨by simp, rfl⟩⟩
  | cons w ws ih =>
    intro m j x y h
    rw [List.foldl_cons]
    by_cases hw : w.1.off ≤ j ∧ j < w.1.off + w.1.n
    · obtain ⟨y', h1, h2⟩ := ih (writeNode w.2 w.1 m) j x (w.2 (j - w.1.off)) (by rw [writeNode_get, h]; simp [hw])
      refine ⟨y', h1, .inl ?_⟩
      rcases h2 with ⟨w', hw', h2⟩ | ⟨-, h2⟩
      · exact ⟨w', by simp [hw'], h2⟩
      · exact ⟨w, by simp, hw.1, hw.2, h2⟩
    · obtain ⟨y', h1, h2⟩ := ih (writeNode w.2 w.1 m) j x y (by rw [writeNode_get, h]; simp [hw])
      refine ⟨y', h1, ?_⟩
      rcases h2 with ⟨w', hw', h2⟩ | ⟨h3, h2⟩
      · exact .inl ⟨w', by simp [hw'], h2⟩
      · exact .inr ⟨by simpa using ⟨by simpa using hw, by simpa using h3⟩, h2⟩

theorem write_length (ws : List (Cell × (Nat → V))) : ∀ (m : List (R × V)), (ws.foldl (fun m w => writeNode w.2 w.1 m) m).length = m.length := by
  induction ws with
  | nil => intro m; rfl
  | cons w ws ih => intro m; rw [List.foldl_cons, ih, writeNode_length]

theorem cellAfter_fst (old : R → V) (rs : List Ref) (acc : Ref → Nat → V) (s : State R) : (cellAfter old rs acc s).map Prod.fst = s.mem := by
  unfold cellAfter
  apply List.ext_getElem?
  intro j
  rw [List.getElem?_map]
  by_cases hj : j < s.mem.length
  · obtain ⟨x, hx⟩ : ∃ x, s.mem[j]? = some x := ⟨_, List.getElem?_eq_getElem hj⟩
    obtain ⟨y', h, -⟩ := write_get (cellResults rs acc s) (s.mem.map fun x => (x, old x)) j x (old x) (by simp [hx])
    rw [h, hx]; rfl
  · rw [List.getElem?_eq_none (by rw [write_length]; simp; omega), List.getElem?_eq_none (by omega)]; rfl

end

section
variable {K : Type} [Field K] [LinearOrder K] [IsStrictOrderedRing K] [FloorRing K] {R V : Type} {E : Env K R} {C : Cfg R} {P : List R}

theorem cell_perm (hd : 0 < E.dom.size) (hu : 1 ≤ C.unif) (hin : ∀ x ∈ P, InDomain E.dom (E.pos x)) (harr : Arrived E C P) {n : Nat} {w : World R}
    (hr : Reach E C n w) {q : List Nat} (hq : C.IsCell q) :
    ((w.cell q).mem).Perm (P.filter fun x => Grid.gidOf E.dom C.unif (E.pos x) = cellOf C.unif q) := by
  have hbox := arrived_box hd hin harr
  have hW := inv_reach hd hu hbox hr
  refine List.Perm.trans ?_ (harr q hq)
  by_cases hm : C.mem q = []
  · rw [hW.idle q hq hm, hm]
  · obtain ⟨m, hm'⟩ := hW.run q hq hm
    exact C22_records hd hm (hbox q hq) hm'

/-- A place of a cell's memory is in the slice of exactly those nodes whose records it holds. -/
theorem place_in (hd : 0 < E.dom.size) (hu : 1 ≤ C.unif) (hin : ∀ x ∈ P, InDomain E.dom (E.pos x)) (harr : Arrived E C P) {n : Nat} {w : World R}
    (hr : Reach E C n w) {hold : Index → List R} (hH : HoldsAt C w hold) {q : List Nat} (hq : C.IsCell q) {j : Nat} {x : R}
    (hx : (w.cell q).mem[j]? = some x) {i : Index} (hi : x ∈ hold i) : ∃ v ∈ (w.cell q).nodes, v.idx = i ∧ v.off ≤ j ∧ j < v.off + v.n := by
  have hbox := arrived_box hd hin harr
  have hW := inv_reach hd hu hbox hr
  by_contra hno
  have : ∃ q', C.IsCell q' ∧ C.mem q' ≠ [] ∧ ∃ v ∈ (w.cell q').nodes, v.idx = i := by
    by_contra hc
    have := hH.other i fun q' h1 h2 v hv he => hc ⟨q', h1, h2, v, hv, he⟩
    rw [this] at hi
    exact absurd hi (by simp)
  obtain ⟨q', hq', hm', v, hv, rfl⟩ := this
  obtain ⟨m, hm⟩ := hW.run q' hq' hm'
  have hI := inv_steps hd (inv_start (List.length_pos_iff.2 hm') (hbox q' hq')) hm
  rw [hH.slices q' hq' hm' v hv] at hi
  have hmem : x ∈ (w.cell q').mem := List.mem_of_mem_drop (List.mem_of_mem_take hi)
  have h1 := (List.mem_filter.1 ((cell_perm hd hu hin harr hr hq').mem_iff.1 hmem)).2
  have h2 := (List.mem_filter.1 ((cell_perm hd hu hin harr hr hq).mem_iff.1 (List.mem_of_getElem? hx))).2
  have he : q = q' := by
    have e : cellOf C.unif q = cellOf C.unif q' := by
      rw [decide_eq_true_iff] at h1 h2
      exact h2.symm.trans h1
    exact C.at_inj 0 hq hq' (by unfold Cfg.at Cfg.grid; rw [e])
  subst he
  rw [slice_eq_inBox hI hv, mem_inBox] at hi
  exact hno ⟨v, hv, rfl, (hI.exact v hv j x hx).1 hi.2⟩

/-- The other way round. -/
theorem place_hold (hd : 0 < E.dom.size) (hu : 1 ≤ C.unif) (hin : ∀ x ∈ P, InDomain E.dom (E.pos x)) (harr : Arrived E C P) {n : Nat} {w : World R}
    (hr : Reach E C n w) {hold : Index → List R} (hH : HoldsAt C w hold) {q : List Nat} (hq : C.IsCell q) {j : Nat} {x : R}
    (hx : (w.cell q).mem[j]? = some x) {v : Cell} (hv : v ∈ (w.cell q).nodes) (h1 : v.off ≤ j) (h2 : j < v.off + v.n) :
    (hold v.idx)[j - v.off]? = some x := by
  have hbox := arrived_box hd hin harr
  have hW := inv_reach hd hu hbox hr
  have hm : C.mem q ≠ [] := by
    intro hm
    rw [hW.idle q hq hm] at hx
    simp at hx
  rw [hH.slices q hq hm v hv]
  unfold slice
  rw [List.getElem?_take, if_pos (by omega), List.getElem?_drop, show v.off + (j - v.off) = j by omega, hx]

/-- A node holds all copies of a record or none. -/
theorem count_hold [DecidableEq R] (hd : 0 < E.dom.size) (hu : 1 ≤ C.unif) (hin : ∀ x ∈ P, InDomain E.dom (E.pos x)) (harr : Arrived E C P) {n : Nat} {w : World R}
    (hr : Reach E C n w) {hold : Index → List R} (hH : HoldsAt C w hold) (x : R) (i : Index) :
    (hold i).count x = if x ∈ hold i then P.count x else 0 := by
  by_cases hi : x ∈ hold i
  · rw [if_pos hi]
    have hbox := arrived_box hd hin harr
    have hW := inv_reach hd hu hbox hr
    have : ∃ q', C.IsCell q' ∧ C.mem q' ≠ [] ∧ ∃ v ∈ (w.cell q').nodes, v.idx = i := by
      by_contra hc
      have := hH.other i fun q' h1 h2 v hv he => hc ⟨q', h1, h2, v, hv, he⟩
      rw [this] at hi
      exact absurd hi (by simp)
    obtain ⟨q', hq', hm', v, hv, rfl⟩ := this
    obtain ⟨m, hm⟩ := hW.run q' hq' hm'
    have hI := inv_steps hd (inv_start (List.length_pos_iff.2 hm') (hbox q' hq')) hm
    rw [hH.slices q' hq' hm' v hv, slice_eq_inBox hI hv] at hi ⊢
    obtain ⟨hi1, hi2⟩ := mem_inBox.1 hi
    have h1 := (List.mem_filter.1 ((cell_perm hd hu hin harr hr hq').mem_iff.1 hi1)).2
    unfold inBox
    rw [List.count_filter (by simpa using hi2), (cell_perm hd hu hin harr hr hq').count_eq]
    exact List.count_filter (p := fun x => decide (Grid.gidOf E.dom C.unif (E.pos x) = cellOf C.unif q')) h1
  · rw [if_neg hi, List.count_eq_zero_of_not_mem hi]

theorem sum_ite_count {A : Type} (l : List A) (p : A → Prop) [DecidablePred p] (c : Nat) :
    (l.map fun a => if p a then c else 0).sum = c * l.countP (fun a => decide (p a)) := by
  induction l with
  | nil => simp
  | cons a l ih =>
    rw [List.map_cons, List.sum_cons, ih, List.countP_cons]
    by_cases h : p a <;> simp [h, Nat.mul_add, Nat.add_comm]

open Classical in
/-- A record is in exactly one of the nodes that together hold all records. -/
theorem one_node (hd : 0 < E.dom.size) (hu : 1 ≤ C.unif) (hin : ∀ x ∈ P, InDomain E.dom (E.pos x)) (harr : Arrived E C P) {n : Nat} {w : World R}
    (hr : Reach E C n w) {hold : Index → List R} (hH : HoldsAt C w hold) {rs : List Ref} (hp : (rs.flatMap fun r => hold r.ix).Perm P) {x : R} (hx : x ∈ P) :
    rs.countP (fun r => decide (x ∈ hold r.ix)) = 1 := by
  have h1 := hp.count_eq x
  rw [List.count_flatMap, List.map_congr_left fun r _ => (by simpa using count_hold hd hu hin harr hr hH x r.ix : (List.count x ∘ fun r : Ref => hold r.ix) r =
    if x ∈ hold r.ix then P.count x else 0), sum_ite_count] at h1
  have h2 : 0 < P.count x := List.count_pos_iff.2 hx
  exact Nat.eq_of_mul_eq_mul_left h2 (by rw [h1, Nat.mul_one])

end
end ReadBack
end Dashmm
