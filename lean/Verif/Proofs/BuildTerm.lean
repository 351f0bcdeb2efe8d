import Verif.Proofs.BuildTree
import Mathlib.Algebra.Order.Archimedean.Basic
namespace Dashmm
namespace Build
open Grid (InSlot InBoxOf slot_unique)

set_option linter.unusedSectionVars false
variable {K : Type} [Field K] [LinearOrder K] [IsStrictOrderedRing K] {R : Type}

/-- Work left. -/
def work (L : Nat) (s : State R) : Nat :=
  (s.pending.map fun v => 2 * v.n * (L + 1 - v.idx.level)).sum +
    ((s.leaves ++ s.inner).filter fun v => v.idx ∉ s.fwd).length

theorem sum_erase {l : List Cell} {v : Cell} (hv : v ∈ l) (f : Cell → Nat) :
    (l.map f).sum = f v + ((l.erase v).map f).sum := by
  have := ((List.perm_cons_erase hv).map f).sum_eq
  rw [this]; simp

theorem kids_sum (v : Cell) (c : Nat → List R) (m : Nat) :
    ((kids v c).map fun u => 2 * u.n * (m - u.idx.level)).sum = 2 * offsetOf c 8 * (m - (v.idx.level + 1)) := by
  have key : ∀ n, n ≤ 8 → (((List.range n).filterMap fun i => if (c i).length = 0 then none
      else some (⟨v.idx.child i, v.off + offsetOf c i, (c i).length⟩ : Cell)).map
        fun u => 2 * u.n * (m - u.idx.level)).sum = 2 * offsetOf c n * (m - (v.idx.level + 1)) := by
    intro n
    induction n with
    | zero => intro _; simp [offsetOf]
    | succ n ih =>
      intro hn
      rw [List.range_succ, List.filterMap_append, List.map_append, List.sum_append, ih (by omega), offsetOf_succ]
      by_cases hz : (c n).length = 0
      · simp only [List.filterMap_cons, hz, if_true, List.filterMap_nil, List.map_nil, List.sum_nil, Nat.add_zero]
      · simp only [List.filterMap_cons, hz, if_false, List.filterMap_nil, List.map_cons, List.map_nil, List.sum_cons,
          List.sum_nil]
        rw [child_level (by omega)]
        ring
  exact key 8 (Nat.le_refl _)

theorem work_step {E : Env K R} {root : Cell} {mem0 : List R} {s t : State R} {L : Nat}
    (h : Inv E root mem0 s) (hL : ∀ v ∈ s.nodes, v.idx.level ≤ L)
    (hL' : ∀ v ∈ s.nodes, ¬ v.n ≤ E.threshold → v.idx.level < L)
    (hst : Step E root.idx s t) : work L t + 1 ≤ work L s := by
  cases hst with
  | leaf v hv hn =>
    have hvn : v ∈ s.nodes := by simp [State.nodes, hv]
    unfold work
    simp only
    rw [sum_erase hv]
    have h1 : 2 ≤ 2 * v.n * (L + 1 - v.idx.level) := by
      have a := (h.size v hvn).1
      have b := hL v hvn
      have : 1 ≤ L + 1 - v.idx.level := by omega
      nlinarith
    have h2 : (((v :: s.leaves) ++ s.inner).filter fun v => v.idx ∉ s.fwd).length ≤
        ((s.leaves ++ s.inner).filter fun v => v.idx ∉ s.fwd).length + 1 := by
      rw [List.cons_append, List.filter_cons]
      split <;> simp
    omega
  | split v hv hn c hc =>
    have hvn : v ∈ s.nodes := by simp [State.nodes, hv]
    have hsz := (h.size v hvn).2
    have hol : offsetOf c 8 = v.n := by
      rw [← joined_length, hc.perm.length_eq, slice_length hsz]
    unfold work
    simp only
    rw [sum_erase hv, List.map_append, List.sum_append, kids_sum, hol]
    have hlt := hL' v hvn hn
    have a := (h.size v hvn).1
    have h1 : 2 * v.n * (L + 1 - v.idx.level) = 2 * v.n * (L + 1 - (v.idx.level + 1)) + 2 * v.n := by
      have : L + 1 - v.idx.level = (L + 1 - (v.idx.level + 1)) + 1 := by omega
      rw [this]; ring
    have h2 : ((s.leaves ++ (v :: s.inner)).filter fun v => v.idx ∉ s.fwd).length ≤
        ((s.leaves ++ s.inner).filter fun v => v.idx ∉ s.fwd).length + 1 := by
      rw [List.filter_append, List.filter_append, List.filter_cons]
      split <;> simp [List.length_append]; omega
    omega
  | forward v hv hr h8 hf =>
    unfold work
    simp only
    have h1 : ((s.leaves ++ s.inner).filter fun u => u.idx ∉ v.idx :: s.fwd).length + 1 ≤
        ((s.leaves ++ s.inner).filter fun u => u.idx ∉ s.fwd).length := by
      have h2 := (List.perm_cons_erase hv)
      rw [(h2.filter _).length_eq, (h2.filter fun u => decide (u.idx ∉ s.fwd)).length_eq, List.filter_cons,
        List.filter_cons]
      rw [if_neg (by simp), if_pos (by simpa using hf)]
      rw [List.length_cons]
      apply Nat.succ_le_succ
      apply (List.monotone_filter_right _ _).length_le
      intro u hu
      simp only [List.mem_cons, not_or, decide_eq_true_iff] at *
      exact hu.2
    omega

theorem work_steps {E : Env K R} {root : Cell} {mem0 : List R} {L : Nat} (hd : 0 < E.dom.size)
    (hL : ∀ s, Inv E root mem0 s → ∀ v ∈ s.nodes, v.idx.level ≤ L)
    (hL' : ∀ s, Inv E root mem0 s → ∀ v ∈ s.nodes, ¬ v.n ≤ E.threshold → v.idx.level < L)
    {s t : State R} {k : Nat} (h : Inv E root mem0 s) (g : Comp s) (hst : Steps E root.idx k s t) :
    work L t + k ≤ work L s := by
  induction hst with
  | zero => omega
  | succ hs hst ih =>
    obtain ⟨h', g'⟩ := comp_steps hd h g hs
    have := work_step h' (hL _ h') (hL' _ h') hst
    have := ih h g
    omega

/-- Two points of a box are no further apart than its size, in each coordinate. -/
theorem slot_near {lo h p q : K} {dim n : Nat} (hp : InSlot lo h dim n p) (hq : InSlot lo h dim n q) : |p - q| ≤ h := by
  obtain ⟨_, a, b⟩ := hp
  obtain ⟨_, a', b'⟩ := hq
  have b1 : p ≤ ((n : K) + 1) * h + lo := by rcases b with b | b; exact b.le; exact b.2
  have b2 : q ≤ ((n : K) + 1) * h + lo := by rcases b' with b | b; exact b.le; exact b.2
  rw [abs_le]
  constructor <;> linarith

theorem large_level {E : Env K R} {root : Cell} {mem0 : List R} {s : State R} {L : Nat} {δ : K} (hd : 0 < E.dom.size)
    (hA : Apart E δ mem0) (hδ : E.dom.size < δ * 2 ^ L) (ht : ∀ r ∈ mem0, (atPlace E r mem0).length ≤ E.threshold)
    (h : Inv E root mem0 s) {v : Cell} (hv : v ∈ s.nodes) (hn : ¬ v.n ≤ E.threshold) : v.idx.level < L := by
  classical
  by_contra hl
  push Not at hl
  apply hn
  rw [n_eq h hv]
  have h1 := (h.size v hv).1
  rw [n_eq h hv] at h1
  obtain ⟨r, hr⟩ := List.exists_mem_of_length_pos (l := inBox E v.idx mem0) (by omega)
  rw [mem_inBox] at hr
  refine Nat.le_trans ?_ (ht r hr.1)
  unfold inBox atPlace
  rw [← List.countP_eq_length_filter, ← List.countP_eq_length_filter]
  apply List.countP_mono_left
  intro x hx hb
  rw [decide_eq_true_iff] at hb ⊢
  by_contra hne
  have hsz : E.dom.size / 2 ^ v.idx.level < δ := by
    rw [div_lt_iff₀ (by positivity)]
    have h2 : (2 : K) ^ L ≤ 2 ^ v.idx.level := pow_le_pow_right₀ (by norm_num) hl
    have h3 : 0 < δ := by
      by_contra hle
      push Not at hle
      have : δ * 2 ^ L ≤ 0 := mul_nonpos_of_nonpos_of_nonneg hle (by positivity)
      linarith
    calc E.dom.size < δ * 2 ^ L := hδ
      _ ≤ δ * 2 ^ v.idx.level := mul_le_mul_of_nonneg_left h2 h3.le
  obtain ⟨a, b, c⟩ := hb
  obtain ⟨a', b', c'⟩ := hr.2
  rcases hA x hx r hr.1 hne with h | h | h
  · exact absurd (h.trans (slot_near a a')) (not_le.2 hsz)
  · exact absurd (h.trans (slot_near b b')) (not_le.2 hsz)
  · exact absurd (h.trans (slot_near c c')) (not_le.2 hsz)

theorem node_level {E : Env K R} {root : Cell} {mem0 : List R} {s : State R} {L : Nat} {δ : K} (hd : 0 < E.dom.size)
    (hA : Apart E δ mem0) (hδ : E.dom.size < δ * 2 ^ L) (ht : ∀ r ∈ mem0, (atPlace E r mem0).length ≤ E.threshold)
    (hroot : root.idx.level ≤ L) (h : Inv E root mem0 s) {v : Cell} (hv : v ∈ s.nodes) : v.idx.level ≤ L := by
  rcases h.up v hv with rfl | ⟨p, hp, i, hi, he⟩
  · exact hroot
  · have := large_level hd hA hδ ht h (v := p) (by simp [State.nodes, hp]) (by have := h.large p hp; omega)
    rw [he, child_level hi]; omega

/-- Some distance keeps finitely many places apart. -/
theorem apart_exists (E : Env K R) (l : List R) : ∃ δ : K, 0 < δ ∧ Apart E δ l := by
  have key : ∀ m : List (R × R), ∃ δ : K, 0 < δ ∧ ∀ p ∈ m, E.pos p.1 ≠ E.pos p.2 →
      δ ≤ |(E.pos p.1).x - (E.pos p.2).x| ∨ δ ≤ |(E.pos p.1).y - (E.pos p.2).y| ∨
        δ ≤ |(E.pos p.1).z - (E.pos p.2).z| := by
    intro m
    induction m with
    | nil => exact ⟨1, one_pos, fun p hp => by simp at hp⟩
    | cons p m ih =>
      obtain ⟨δ, h0, h1⟩ := ih
      by_cases hx : (E.pos p.1).x = (E.pos p.2).x
      · by_cases hy : (E.pos p.1).y = (E.pos p.2).y
        · by_cases hz : (E.pos p.1).z = (E.pos p.2).z
          · refine ⟨δ, h0, fun q hq hne => ?_⟩
            rcases List.mem_cons.1 hq with rfl | hq
            · exfalso; apply hne
              generalize E.pos q.1 = a at *
              generalize E.pos q.2 = b at *
              cases a; cases b; simp only at *; rw [hx, hy, hz]
            · exact h1 q hq hne
          · refine ⟨min δ |(E.pos p.1).z - (E.pos p.2).z|, lt_min h0 (abs_pos.2 (sub_ne_zero.2 hz)), fun q hq hne => ?_⟩
            rcases List.mem_cons.1 hq with rfl | hq
            · exact .inr (.inr (min_le_right _ _))
            · rcases h1 q hq hne with h | h | h
              · exact .inl ((min_le_left _ _).trans h)
              · exact .inr (.inl ((min_le_left _ _).trans h))
              · exact .inr (.inr ((min_le_left _ _).trans h))
        · refine ⟨min δ |(E.pos p.1).y - (E.pos p.2).y|, lt_min h0 (abs_pos.2 (sub_ne_zero.2 hy)), fun q hq hne => ?_⟩
          rcases List.mem_cons.1 hq with rfl | hq
          · exact .inr (.inl (min_le_right _ _))
          · rcases h1 q hq hne with h | h | h
            · exact .inl ((min_le_left _ _).trans h)
            · exact .inr (.inl ((min_le_left _ _).trans h))
            · exact .inr (.inr ((min_le_left _ _).trans h))
      · refine ⟨min δ |(E.pos p.1).x - (E.pos p.2).x|, lt_min h0 (abs_pos.2 (sub_ne_zero.2 hx)), fun q hq hne => ?_⟩
        rcases List.mem_cons.1 hq with rfl | hq
        · exact .inl (min_le_right _ _)
        · rcases h1 q hq hne with h | h | h
          · exact .inl ((min_le_left _ _).trans h)
          · exact .inr (.inl ((min_le_left _ _).trans h))
          · exact .inr (.inr ((min_le_left _ _).trans h))
  obtain ⟨δ, h0, h1⟩ := key (l.product l)
  exact ⟨δ, h0, fun r hr r' hr' => h1 (r, r') (List.mem_product.2 ⟨hr, hr'⟩)⟩

/-- With more records at one place than the threshold, there is always a task left. -/
theorem coincident_pending {E : Env K R} {root : Cell} {mem0 : List R} {s : State R} (h : Inv E root mem0 s) {r : R}
    (hr : r ∈ mem0) (hn : E.threshold < (atPlace E r mem0).length) :
    ∃ v ∈ s.pending, E.threshold < v.n := by
  classical
  obtain ⟨k, hk⟩ := List.mem_iff_getElem?.1 (h.perm.mem_iff.2 hr)
  obtain ⟨w, hw, h1⟩ := h.cover k (getElem?_lt hk)
  have hwn := front_nodes hw
  have hb := (h.exact w hwn k r hk).2 h1
  have hlt : E.threshold < w.n := by
    rw [n_eq h hwn]
    refine Nat.lt_of_lt_of_le hn ?_
    unfold inBox atPlace
    rw [← List.countP_eq_length_filter, ← List.countP_eq_length_filter]
    apply List.countP_mono_left
    intro x _ hx
    rw [decide_eq_true_iff] at hx ⊢
    rw [hx]; exact hb
  rcases List.mem_append.1 hw with hw | hw
  · exact ⟨w, hw, hlt⟩
  · have := h.small w hw; omega

end Build
end Dashmm
