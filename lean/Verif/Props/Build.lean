import Verif.Proofs.BuildSame
import Verif.Proofs.BuildTerm
import Mathlib.Algebra.Order.Ring.Rat
import Mathlib.Algebra.Field.Rat
import Mathlib.Tactic.NormNum
/-!
Properties C22, C23, C58 and C59: the adaptive partitioning of a cell of the uniform grid.

In all of them `mem` is what the cell of index `i` received, all of it in the box of that cell, and `s`
any state that any interleaving of the tasks reaches from the beginning.
-/
namespace Dashmm
open Build Grid

section
variable {K : Type} [Field K] [LinearOrder K] [IsStrictOrderedRing K] {R : Type}
variable {E : Env K R} {i : Index} {mem : List R} {k : Nat} {s : State R}

/-! ### C22 -/

/-- C22: no record is lost, duplicated or made up. -/
theorem C22_records (hd : 0 < E.dom.size) (h0 : mem ≠ []) (hin : ∀ r ∈ mem, InBoxOf E.dom i (E.pos r))
    (hs : Steps E i k (start ⟨i, 0, mem.length⟩ mem) s) : s.mem.Perm mem :=
  (inv_steps hd (inv_start (List.length_pos_iff.2 h0) hin) hs).perm

/-- C22: a node's slice lies in the array, is not empty, and holds exactly the records in its box. -/
theorem C22_slices (hd : 0 < E.dom.size) (h0 : mem ≠ []) (hin : ∀ r ∈ mem, InBoxOf E.dom i (E.pos r))
    (hs : Steps E i k (start ⟨i, 0, mem.length⟩ mem) s) (v : Cell) (hv : v ∈ s.nodes) :
    v.off + v.n ≤ s.mem.length ∧ 1 ≤ v.n ∧ (slice s.mem v).Perm (inBox E v.idx mem) ∧
      v.n = (inBox E v.idx mem).length := by
  have h := inv_steps hd (inv_start (List.length_pos_iff.2 h0) hin) hs
  refine ⟨(h.size v hv).2, (h.size v hv).1, ?_, n_eq h hv⟩
  rw [slice_eq_inBox h hv]
  exact inBox_perm h.perm

/-- C22: no two nodes have the same index. -/
theorem C22_unique (hd : 0 < E.dom.size) (h0 : mem ≠ []) (hin : ∀ r ∈ mem, InBoxOf E.dom i (E.pos r))
    (hs : Steps E i k (start ⟨i, 0, mem.length⟩ mem) s) : (s.nodes.map Cell.idx).Nodup :=
  (inv_steps hd (inv_start (List.length_pos_iff.2 h0) hin) hs).nodup

/-- C22: the slice of a divided node is what its children hold, in the order of the octants. -/
theorem C22_children_in_order (hd : 0 < E.dom.size) (h0 : mem ≠ []) (hin : ∀ r ∈ mem, InBoxOf E.dom i (E.pos r))
    (hs : Steps E i k (start ⟨i, 0, mem.length⟩ mem) s) (v : Cell) (hv : v ∈ s.inner) :
    slice s.mem v = (List.range 8).flatMap fun j => inBox E (v.idx.child j) s.mem := by
  have h := inv_steps hd (inv_start (List.length_pos_iff.2 h0) hin) hs
  have hvn : v ∈ s.nodes := by simp [State.nodes, hv]
  obtain ⟨c, hc, hk⟩ := h.div v hv
  obtain ⟨h1, h2⟩ := joined_slices (mem := s.mem) (h.size v hvn).2 hc
  rw [← h1]
  unfold joined
  apply List.flatMap_congr
  intro j hj
  rw [List.mem_range] at hj
  by_cases hz : (c j).length = 0
  · rw [List.eq_nil_of_length_eq_zero ((h2 j hj).trans hz)]
    symm
    rw [List.eq_nil_iff_forall_not_mem]
    intro r hr
    rw [mem_inBox] at hr
    obtain ⟨x, hxr⟩ := List.mem_iff_getElem?.1 hr.1
    have hxv := (h.exact v hvn x r hxr).1 (parent_box hd hj hr.2)
    obtain ⟨j', hj', h3, h4⟩ := offsetOf_find c 8 (x - v.off) (by omega)
    have hu := hk _ (mem_kids.2 ⟨j', hj', by omega, rfl⟩)
    have hb := (h.exact _ hu x r hxr).2 (by simp only; omega)
    have := sibling_box hd hj hj' hr.2 hb
    subst this
    omega
  · exact slice_eq_inBox h (hk _ (mem_kids.2 ⟨j, hj, hz, rfl⟩))

/-- C22: when all tasks have run, the leaves' slices tile the array. -/
theorem C22_leaves_tile (hd : 0 < E.dom.size) (h0 : mem ≠ []) (hin : ∀ r ∈ mem, InBoxOf E.dom i (E.pos r))
    (hs : Steps E i k (start ⟨i, 0, mem.length⟩ mem) s) (hp : s.pending = []) (x : Nat) (hx : x < mem.length) :
    ∃! v, v ∈ s.leaves ∧ v.off ≤ x ∧ x < v.off + v.n := by
  have h := inv_steps hd (inv_start (List.length_pos_iff.2 h0) hin) hs
  obtain ⟨w, hw, h1⟩ := h.cover x (by rw [h.perm.length_eq]; exact hx)
  have hf : s.front = s.leaves := by unfold State.front; rw [hp]; rfl
  rw [hf] at hw
  refine ⟨w, ⟨hw, h1⟩, ?_⟩
  rintro u ⟨hu, h2⟩
  by_contra hne
  have hd := h.disj
  rw [hf] at hd
  haveI : Std.Symm Disj := ⟨fun _ _ h => Disj.symm h⟩
  have := hd.forall hu hw hne
  unfold Disj at this
  omega

/-- C22: as soon as all tasks have run, there is a node with a given index below the cell exactly
if there is a record in its box and all the boxes it lies in, up to the cell, hold more records than the
threshold; it is a leaf exactly if it holds no more than that. -/
theorem C22_nodes (hd : 0 < E.dom.size) (h0 : mem ≠ []) (hin : ∀ r ∈ mem, InBoxOf E.dom i (E.pos r))
    (hs : Steps E i k (start ⟨i, 0, mem.length⟩ mem) s) (hp : s.pending = []) :
    (∀ p : List Nat, (∀ c ∈ p, c < 8) → ((∃ u ∈ s.nodes, u.idx = below i p) ↔
      1 ≤ (inBox E (below i p) mem).length ∧
        ∀ q, q <+: p → q ≠ p → E.threshold < (inBox E (below i q) mem).length)) ∧
    (∀ u ∈ s.nodes, ∃ p : List Nat, (∀ c ∈ p, c < 8) ∧ u.idx = below i p) ∧
    ∀ u ∈ s.nodes, (u ∈ s.leaves ↔ (inBox E u.idx mem).length ≤ E.threshold) := by
  have h := inv_steps hd (inv_start (List.length_pos_iff.2 h0) hin) hs
  refine ⟨?_, ?_, ?_⟩
  · intro p hp8
    constructor
    · rintro ⟨u, hu, he⟩
      refine ⟨?_, ?_⟩
      · rw [← he, ← n_eq h hu]; exact (h.size u hu).1
      · obtain ⟨p', h1, h2, h3⟩ := node_path h _ u hu (Nat.le_refl _)
        have hlen : ∀ (q : List Nat) (a : Index), (∀ c ∈ q, c < 8) → (q.foldl Index.child a).level = a.level + q.length := by
          intro q
          induction q with
          | nil => intro a _; simp
          | cons c q ih =>
            intro a ha
            rw [List.foldl_cons, ih _ (fun c hc => ha c (List.mem_cons_of_mem _ hc)), child_level (ha c (by simp))]
            simp; omega
        have hinj : ∀ (p q : List Nat) (a : Index), (∀ c ∈ p, c < 8) → (∀ c ∈ q, c < 8) →
            p.foldl Index.child a = q.foldl Index.child a → p = q := by
          intro p
          induction p using List.reverseRecOn with
          | nil =>
            intro q a _ hq he
            have := hlen q a hq
            rw [← he] at this
            simp at this
            exact this.symm
          | append_singleton p c ih =>
            intro q a hp hq he
            rcases List.eq_nil_or_concat q with rfl | ⟨q', c', rfl⟩
            · have := hlen _ a hp
              rw [he] at this
              simp at this
            · rw [List.concat_eq_append] at *
              rw [List.foldl_append, List.foldl_append] at he
              simp only [List.foldl_cons, List.foldl_nil] at he
              obtain ⟨h1, h2⟩ := Index.child_inj _ _ c c' (hp c (by simp)) (hq c' (by simp)) he
              rw [h2, ih q' a (fun c hc => hp c (List.mem_append_left _ hc))
                (fun c hc => hq c (List.mem_append_left _ hc)) h1]
        have : p' = p := hinj p' p i h1 hp8 (h2.symm.trans he)
        subst this
        exact h3
    · rintro ⟨h1, h2⟩
      exact path_node hd h hp p hp8 h1 h2
  · intro u hu
    obtain ⟨p', h1, h2, h3⟩ := node_path h _ u hu (Nat.le_refl _)
    exact ⟨p', h1, h2⟩
  · intro u hu
    rw [← n_eq h hu]
    constructor
    · exact h.small u
    · intro hle
      simp only [State.nodes, hp, List.nil_append, List.mem_append] at hu
      rcases hu with hu | hu
      · exact hu
      · have := h.large u hu; omega

/-- C22: when nothing can happen any more, there is a node with a given index below the cell exactly
if there is a record in its box and all the boxes it lies in, up to the cell, hold more records than the
threshold; it is a leaf exactly if it holds no more than that. In particular the tree depends neither on
the schedule nor on the order of the records. -/
theorem C22_tree (hd : 0 < E.dom.size) (h0 : mem ≠ []) (hin : ∀ r ∈ mem, InBoxOf E.dom i (E.pos r))
    (hsame : E.same = false)
    (hs : Steps E i k (start ⟨i, 0, mem.length⟩ mem) s) (hq : Quiet E i s) :
    s.pending = [] ∧
    (∀ p : List Nat, (∀ c ∈ p, c < 8) → ((∃ u ∈ s.nodes, u.idx = below i p) ↔
      1 ≤ (inBox E (below i p) mem).length ∧
        ∀ q, q <+: p → q ≠ p → E.threshold < (inBox E (below i q) mem).length)) ∧
    (∀ u ∈ s.nodes, ∃ p : List Nat, (∀ c ∈ p, c < 8) ∧ u.idx = below i p) ∧
    ∀ u ∈ s.nodes, (u ∈ s.leaves ↔ (inBox E u.idx mem).length ≤ E.threshold) :=
  have hp := quiet_pending E hsame i s hq
  ⟨hp, C22_nodes hd h0 hin hs hp⟩

/-! ### C59: completion -/

/-- C59: no completion LCO ever receives more than the eight inputs it was made for. -/
theorem C59_never_too_many (hd : 0 < E.dom.size) (h0 : mem ≠ []) (hin : ∀ r ∈ mem, InBoxOf E.dom i (E.pos r))
    (hs : Steps E i k (start ⟨i, 0, mem.length⟩ mem) s) (j : Index) : s.sets j ≤ 8 :=
  comp_le (comp_steps (root := ⟨i, 0, mem.length⟩) hd (inv_start (List.length_pos_iff.2 h0) hin) (comp_start _ _) hs).2 j

/-- C59: the cell completes only when every task of its branch has run. -/
theorem C59_not_early (hd : 0 < E.dom.size) (h0 : mem ≠ []) (hin : ∀ r ∈ mem, InBoxOf E.dom i (E.pos r))
    (hs : Steps E i k (start ⟨i, 0, mem.length⟩ mem) s) (hc : s.sets i = 8) : s.pending = [] := by
  obtain ⟨h, g⟩ := comp_steps (root := ⟨i, 0, mem.length⟩) hd (inv_start (List.length_pos_iff.2 h0) hin) (comp_start _ _) hs
  by_contra hne
  obtain ⟨v, hv⟩ := List.exists_mem_of_ne_nil _ hne
  have := open_root h g _ v (by simp [State.nodes, hv]) (Nat.le_refl _) (by rw [g.pend v hv]; omega)
  simp only at this
  omega

/-- C59: the cell does complete: once nothing else can happen its LCO has all its inputs. -/
theorem C59_completes (hd : 0 < E.dom.size) (h0 : mem ≠ []) (hin : ∀ r ∈ mem, InBoxOf E.dom i (E.pos r))
    (hsame : E.same = false)
    (hs : Steps E i k (start ⟨i, 0, mem.length⟩ mem) s) (hq : Quiet E i s) : s.sets i = 8 := by
  obtain ⟨h, g⟩ := comp_steps (root := ⟨i, 0, mem.length⟩) hd (inv_start (List.length_pos_iff.2 h0) hin) (comp_start _ _) hs
  exact done_of_pending_nil h g (quiet_pending E hsame i s hq) hq

/-! ### C23 -/

/-- C23, explicit bound: if no place has more records than the threshold, and distinct places differ by
`δ` in some coordinate, then no execution is longer than this. -/
theorem C23_bound_partial (hd : 0 < E.dom.size) (h0 : mem ≠ []) (hin : ∀ r ∈ mem, InBoxOf E.dom i (E.pos r))
    (ht : ∀ r ∈ mem, (atPlace E r mem).length ≤ E.threshold) {δ : K} (hA : Apart E δ mem) {L : Nat}
    (hδ : E.dom.size < δ * 2 ^ L) (hL : i.level ≤ L)
    (hs : Steps E i k (start ⟨i, 0, mem.length⟩ mem) s) : k ≤ 2 * mem.length * (L + 1 - i.level) := by
  have h := inv_start (E := E) (List.length_pos_iff.2 h0) hin
  have := work_steps (root := ⟨i, 0, mem.length⟩) (L := L) hd (fun s h v hv => node_level hd hA hδ ht hL h hv)
    (fun s h v hv hn => large_level hd hA hδ ht h hv hn) h (comp_start _ _) hs
  have hw : work L (start (R := R) ⟨i, 0, mem.length⟩ mem) = 2 * mem.length * (L + 1 - i.level) := by
    simp [work, start]
  omega

/-- C23: if no place has more records than the threshold, all executions end. The hypothesis is
needed, see `C23_coincident_never_ends`. -/
theorem C23_terminates_partial [Archimedean K] (hd : 0 < E.dom.size) (h0 : mem ≠ [])
    (hin : ∀ r ∈ mem, InBoxOf E.dom i (E.pos r)) (ht : ∀ r ∈ mem, (atPlace E r mem).length ≤ E.threshold) :
    ∃ B, ∀ k s, Steps E i k (start ⟨i, 0, mem.length⟩ mem) s → k ≤ B := by
  obtain ⟨δ, hδ, hA⟩ := apart_exists E mem
  obtain ⟨L, hL⟩ := pow_unbounded_of_one_lt (E.dom.size / δ) (one_lt_two (α := K))
  refine ⟨2 * mem.length * (L + i.level + 1 - i.level), fun k s hs => ?_⟩
  refine C23_bound_partial hd h0 hin ht hA (L := L + i.level) ?_ (by omega) hs
  rw [div_lt_iff₀ hδ] at hL
  have h1 : (1 : K) ≤ 2 ^ i.level := one_le_pow₀ (by norm_num)
  have h2 : (0 : K) < 2 ^ L := by positivity
  calc E.dom.size < 2 ^ L * δ := hL
    _ = δ * 2 ^ L * 1 := by ring
    _ ≤ δ * 2 ^ L * 2 ^ i.level := mul_le_mul_of_nonneg_left h1 (by positivity)
    _ = δ * 2 ^ (L + i.level) := by rw [pow_add]; ring

/-- C23 is false in general: with more records at one place than the threshold, no execution ever comes
to an end, and there is always a node with too many records left to be divided. -/
theorem C23_coincident_never_ends (hd : 0 < E.dom.size) (hin : ∀ r ∈ mem, InBoxOf E.dom i (E.pos r))
    (hsame : E.same = false) (r : R) (hr : r ∈ mem) (hn : E.threshold < (atPlace E r mem).length)
    (hs : Steps E i k (start ⟨i, 0, mem.length⟩ mem) s) :
    (∃ v ∈ s.pending, E.threshold < v.n) ∧ (∃ t, Step E i s t) ∧ s.sets i ≠ 8 := by
  have h0 : mem ≠ [] := fun h => by rw [h] at hr; simp at hr
  have h := inv_steps hd (inv_start (List.length_pos_iff.2 h0) hin) hs
  obtain ⟨v, hv, hlt⟩ := coincident_pending h hr hn
  refine ⟨⟨v, hv, hlt⟩, pending_steps E hsame i s v hv, fun h8 => ?_⟩
  rw [C59_not_early hd h0 hin hs h8] at hv
  simp at hv

/-! ### C58: identical sources and targets -/

/-- C58: when sources and targets are the same, the target tree is built over the records as the
completed source tree left them, by looking for the split points only. No record moves, every node is a
node of the source tree with the same slice, no task is ever stuck for want of a split point, and at the end
the two trees have the same nodes. -/
theorem C58_same (hd : 0 < E.dom.size) (h0 : mem ≠ []) (hin : ∀ r ∈ mem, InBoxOf E.dom i (E.pos r))
    (hs : Steps E i k (start ⟨i, 0, mem.length⟩ mem) s) (hc : s.sets i = 8)
    {m : Nat} {t : State R} (ht : Steps { E with same := true } i m (start ⟨i, 0, s.mem.length⟩ s.mem) t) :
    t.mem = s.mem ∧ (∀ u ∈ t.nodes, u ∈ s.nodes) ∧
      (∀ v ∈ t.pending, ¬ v.n ≤ E.threshold → ∃ c, Split8 { E with same := true } v.idx (slice t.mem v) c) ∧
      (Quiet { E with same := true } i t → t.sets i = 8 ∧ ∀ u, u ∈ t.nodes ↔ u ∈ s.nodes) := by
  have hp := C59_not_early hd h0 hin hs hc
  have h := inv_steps hd (inv_start (List.length_pos_iff.2 h0) hin) hs
  have hlen := h.perm.length_eq
  rw [hlen] at ht
  have hin' : ∀ r ∈ s.mem, InBoxOf E.dom i (E.pos r) := fun r hr => hin r (h.perm.mem_iff.1 hr)
  have h1 : Inv { E with same := true } ⟨i, 0, mem.length⟩ s.mem (start ⟨i, 0, mem.length⟩ s.mem) := by
    have := inv_start (E := { E with same := true }) (i := i) (mem := s.mem) (by
      rw [hlen]; exact List.length_pos_iff.2 h0) hin'
    rwa [hlen] at this
  have hroot : (⟨i, 0, mem.length⟩ : Cell) ∈ s.nodes := h.hroot
  have key : Inv { E with same := true } ⟨i, 0, mem.length⟩ s.mem t ∧ Comp t ∧ Follows s t := by
    clear hc
    generalize hst : start (R := R) ⟨i, 0, mem.length⟩ s.mem = st at ht
    induction ht with
    | zero =>
      subst hst
      refine ⟨h1, comp_start _ _, rfl, fun u hu => ?_⟩
      simp [start, State.nodes] at hu
      rw [hu]; exact hroot
    | succ _ hstep ih =>
      obtain ⟨a, b, c⟩ := ih hst
      exact ⟨inv_step (E := { E with same := true }) hd a hstep, comp_step a b hstep,
        follows_step hd h hp a c hstep⟩
  obtain ⟨a, b, c⟩ := key
  have hsplit : ∀ v ∈ t.pending, ¬ v.n ≤ E.threshold → ∃ c, Split8 { E with same := true } v.idx (slice t.mem v) c :=
    fun v hv hn => follows_split hd h hp a c hv hn
  refine ⟨c.mem, c.sub, hsplit, fun hq => ?_⟩
  have hpt : t.pending = [] := by
    by_contra hne
    obtain ⟨v, hv⟩ := List.exists_mem_of_ne_nil _ hne
    by_cases hn : v.n ≤ E.threshold
    · exact hq _ (Step.leaf t v hv hn)
    · obtain ⟨c', hc'⟩ := hsplit v hv hn
      exact hq _ (Step.split (E := { E with same := true }) t v hv hn c' hc')
  refine ⟨done_of_pending_nil a b hpt hq, fun u => ⟨c.sub u, fun hu => ?_⟩⟩
  -- every node of the source tree is a node of the target tree
  have key2 : ∀ n, ∀ u ∈ s.nodes, u.idx.level ≤ n → u ∈ t.nodes := by
    intro n
    induction n with
    | zero =>
      intro u hu hl
      rcases h.up u hu with rfl | ⟨p, hp', j, hj, he⟩
      · exact a.hroot
      · rw [he, child_level hj] at hl; omega
    | succ n ih =>
      intro u hu hl
      rcases h.up u hu with rfl | ⟨p, hp', j, hj, he⟩
      · exact a.hroot
      · rw [he, child_level hj] at hl
        have hpn : p ∈ s.nodes := by simp [State.nodes, hp']
        have hpt' := ih p hpn (by omega)
        have hpi : p ∈ t.inner := by
          simp only [State.nodes, hpt, List.nil_append, List.mem_append] at hpt'
          rcases hpt' with h5 | h5
          · have h6 : p.n ≤ E.threshold := a.small p h5
            have := h.large p hp'; omega
          · exact h5
        obtain ⟨hu1, hu2⟩ := h.size u hu
        have hr : s.mem[u.off]? = some (s.mem[u.off]'(by omega)) := List.getElem?_eq_getElem (by omega)
        have hb := (h.exact u hu u.off _ hr).2 (by omega)
        obtain ⟨w, hw, hwe⟩ := child_made (E := { E with same := true }) hd a hpi hj (r := s.mem[u.off]'(by omega))
          (by rw [c.mem]; exact List.mem_of_getElem? hr) (by rw [← he]; exact hb)
        have := cell_eq (E := E) (E' := { E with same := true }) rfl rfl h a c.mem hu hw (by rw [hwe, he])
        rw [← this]; exact hw
  exact key2 _ u hu (Nat.le_refl _)

end

/-! ### a concrete case -/

/-- Unit cube, at most one record per leaf. -/
def exEnv : Env ℚ (Point ℚ) := ⟨id, ⟨⟨0, 0, 0⟩, 1⟩, 1, false⟩
/-- Two records, the one in the last octant first. -/
def exMem : List (Point ℚ) := [⟨3/4, 3/4, 3/4⟩, ⟨1/4, 1/4, 1/4⟩]
/-- The pieces: octants 0 and 7. -/
def exPieces : Nat → List (Point ℚ) := fun k => if k = 0 then [⟨1/4, 1/4, 1/4⟩] else if k = 7 then [⟨3/4, 3/4, 3/4⟩] else []

theorem exMem_in : ∀ r ∈ exMem, InBoxOf exEnv.dom ⟨0, 0, 0, 0⟩ (exEnv.pos r) := by
  intro r hr
  simp only [exMem, List.mem_cons, List.not_mem_nil, or_false] at hr
  rcases hr with rfl | rfl <;>
    refine ⟨⟨by norm_num, ?_, .inl ?_⟩, ⟨by norm_num, ?_, .inl ?_⟩, ⟨by norm_num, ?_, .inl ?_⟩⟩ <;>
    simp [exEnv] <;> norm_num

theorem exSplit : Split8 exEnv ⟨0, 0, 0, 0⟩ (slice exMem ⟨⟨0, 0, 0, 0⟩, 0, 2⟩) exPieces := by
  refine ⟨[⟨1/4, 1/4, 1/4⟩], [⟨3/4, 3/4, 3/4⟩], [⟨1/4, 1/4, 1/4⟩], [], [], [⟨3/4, 3/4, 3/4⟩], ?_⟩
  simp only [exPieces, Build.Part, exEnv, slice, exMem, center]
  norm_num
  exact List.Perm.swap _ _ _

/-- The division happens, and the records are then in the order of the octants. -/
example : ∃ s, Steps exEnv ⟨0, 0, 0, 0⟩ 1 (start ⟨⟨0, 0, 0, 0⟩, 0, exMem.length⟩ exMem) s ∧
    s.mem = [⟨1/4, 1/4, 1/4⟩, ⟨3/4, 3/4, 3/4⟩] ∧
    s.pending = [⟨⟨0, 0, 0, 1⟩, 0, 1⟩, ⟨⟨1, 1, 1, 1⟩, 1, 1⟩] ∧ s.sets ⟨0, 0, 0, 0⟩ = 6 :=
  ⟨_, Steps.succ (Steps.zero _) (Step.split _ ⟨⟨0, 0, 0, 0⟩, 0, 2⟩ (by simp [start, exMem]) (by simp [exEnv]) exPieces
    (by simpa [start] using exSplit)), by
      refine ⟨?_, ?_, ?_⟩
      · simp [overwrite, start, joined, exPieces, exMem, List.range_succ]
      · rfl
      · rfl⟩

/-- The termination theorem applies. -/
example : ∃ B, ∀ k s, Steps exEnv ⟨0, 0, 0, 0⟩ k (start ⟨⟨0, 0, 0, 0⟩, 0, exMem.length⟩ exMem) s → k ≤ B := by
  apply C23_terminates_partial (by norm_num [exEnv]) (by simp [exMem]) exMem_in
  intro r hr
  simp only [exMem, List.mem_cons, List.not_mem_nil, or_false] at hr
  rcases hr with rfl | rfl <;> simp [atPlace, exMem, exEnv] <;> norm_num

/-- Two records at the same place, at most one per leaf: the construction never ends. -/
example (k : Nat) (s : State (Point ℚ)) (hs : Steps exEnv ⟨0, 0, 0, 0⟩ k
    (start ⟨⟨0, 0, 0, 0⟩, 0, 2⟩ [⟨1/4, 1/4, 1/4⟩, ⟨1/4, 1/4, 1/4⟩]) s) : ∃ t, Step exEnv ⟨0, 0, 0, 0⟩ s t :=
  (C23_coincident_never_ends (mem := [⟨1/4, 1/4, 1/4⟩, ⟨1/4, 1/4, 1/4⟩]) (by norm_num [exEnv]) (by
    intro r hr
    apply exMem_in
    simp only [List.mem_cons, List.not_mem_nil, or_false, or_self] at hr
    simp [exMem, hr]) rfl ⟨1/4, 1/4, 1/4⟩ (by simp) (by simp [atPlace, exEnv]) hs).2.1

end Dashmm
