import Verif.Proofs.Link
import Mathlib.Algebra.Order.BigOperators.Group.Finset
/-!
Property C32: the bookkeeping of the DAG under concurrent linking.
-/
namespace Dashmm
section
open Link

/-- C32: whatever the interleaving of the tasks that link the edges `ops`, when all have finished every DAG node has as its outgoing
edges exactly those of `ops` that start from it, each as often as it was linked, and its input count is the number
of edges of `ops` that point to it, which is the number of edges in the whole DAG that point to it. -/
theorem C32_links (ops : List Edge) {k : Nat} {s : State} (h : Reach ops k s) (hd : ∀ i < ops.length, s.pc i = .done) :
    (∀ r, (s.out r).Perm (ops.filter fun e => e.src == r)) ∧
    (∀ r, s.inCount r = (ops.filter fun e => e.dst == r).length) ∧
    ∀ nodes : List Ref, nodes.Nodup → (∀ e ∈ ops, e.src ∈ nodes) →
      ∀ r, s.inCount r = ((nodes.flatMap s.out).filter fun e => e.dst == r).length := by
  obtain ⟨h1, h2⟩ := final (inv_reach h) hd
  refine ⟨h2, fun r => by rw [h1, List.countP_eq_length_filter], ?_⟩
  intro nodes hnd hsrc r
  rw [h1, ← List.countP_eq_length_filter]
  apply List.Perm.countP_eq
  rw [List.perm_iff_count]
  intro e
  have hc : ∀ l : List Ref, l.Nodup → (l.flatMap s.out).count e = if e.src ∈ l then ops.count e else 0 := by
    intro l
    induction l with
    | nil => intro _; simp
    | cons x l ih =>
      intro hn
      rw [List.nodup_cons] at hn
      rw [List.flatMap_cons, List.count_append, ih hn.2, (h2 x).count_eq]
      by_cases hx : e.src = x
      · subst hx
        rw [if_neg hn.1, if_pos (by simp), List.count_filter (by simp)]
        rfl
      · have h0 : (ops.filter fun e => e.src == x).count e = 0 := by
          apply List.count_eq_zero_of_not_mem
          intro hm
          have := (List.mem_filter.1 hm).2
          exact hx (by simpa using this)
        rw [h0, Nat.zero_add]
        by_cases hl : e.src ∈ l
        · rw [if_pos hl, if_pos (by simp [hl])]
        · rw [if_neg hl, if_neg (by simp [hx, hl])]
  rw [hc nodes hnd]
  split
  · rfl
  · rename_i hn
    apply List.count_eq_zero_of_not_mem
    intro hm
    exact hn (hsrc e hm)

/-- C32: no schedule takes more than eight steps per edge, and as long as some task has not finished, some task can go on. -/
theorem C32_progress (ops : List Edge) {k : Nat} {s : State} (h : Reach ops k s) :
    k ≤ 8 * ops.length ∧ ((∃ i < ops.length, s.pc i ≠ .done) → ∃ s', Step ops s s') := by
  constructor
  · rw [reach_num h]
    calc ∑ i ∈ Finset.range ops.length, (s.pc i).num ≤ ∑ i ∈ Finset.range ops.length, 8 := Finset.sum_le_sum fun i _ => num_le _
      _ = 8 * ops.length := by simp [Nat.mul_comm]
  · rintro ⟨i, hi, hd⟩
    exact progress (inv_reach h) hi hd

/-- Two edges to the same node from the same node, interleaved: the second task gets the destination while the first is about to
add its outgoing edge. -/
def exEdge (op : Op) : Edge := ⟨op, ⟨.src, ⟨2, 0, 0, 0⟩, .parts⟩, ⟨.tgt, ⟨2, 3, 0, 0⟩, .parts⟩⟩

example : ∃ s, Reach [exEdge .StoT, exEdge .StoL] 16 s ∧ (∀ i < 2, s.pc i = .done) ∧
    s.inCount (exEdge .StoT).dst = 2 ∧ s.out (exEdge .StoT).src = [exEdge .StoL, exEdge .StoT] := by
  have h0 : Reach [exEdge .StoT, exEdge .StoL] 0 start := .init
  have h1 := ((h0.step (.lockD (i := 0) rfl rfl rfl)).step (.readD (i := 0) rfl rfl)).step (.writeD (i := 0) (n := 0) rfl rfl)
  have h2 := (h1.step (.unlockD (i := 0) rfl rfl)).step (.lockD (i := 1) rfl rfl rfl)
  have h3 := ((h2.step (.readD (i := 1) rfl rfl)).step (.writeD (i := 1) (n := 1) rfl rfl)).step (.unlockD (i := 1) rfl rfl)
  have h4 := ((h3.step (.lockS (i := 1) rfl rfl rfl)).step (.readS (i := 1) rfl rfl)).step (.writeS (i := 1) (l := []) rfl rfl)
  have h5 := (h4.step (.unlockS (i := 1) rfl rfl)).step (.lockS (i := 0) rfl rfl rfl)
  have h6 := ((h5.step (.readS (i := 0) rfl rfl)).step (.writeS (i := 0) (l := [exEdge .StoL]) rfl rfl)).step (.unlockS (i := 0) rfl rfl)
  refine ⟨_, h6, ?_, rfl, rfl⟩
  intro i hi
  have : i = 0 ∨ i = 1 := by omega
  rcases this with rfl | rfl <;> rfl

end
end Dashmm
