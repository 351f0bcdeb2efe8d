import Verif.Model.Index
/-! Helper lemmas about `Index`. -/
namespace Dashmm.Index

theorem child_eq (i : Index) (c : Nat) (hc : c < 8) :
    i.child c = ⟨2 * i.x + c % 2, 2 * i.y + (c / 2) % 2, 2 * i.z + (c / 4) % 2, i.level + 1⟩ := by
  unfold child
  have h : c = 0 ∨ c = 1 ∨ c = 2 ∨ c = 3 ∨ c = 4 ∨ c = 5 ∨ c = 6 ∨ c = 7 := by omega
  rcases h with h | h | h | h | h | h | h | h <;> subst h <;>
    simp [Nat.shiftLeft_eq, Nat.mul_comm]

theorem parent_eq (i : Index) (n : Nat) :
    i.parent n = ⟨i.x / 2 ^ n, i.y / 2 ^ n, i.z / 2 ^ n, i.level - n⟩ := by
  unfold parent
  simp only [Nat.shiftRight_eq_div_pow]
  congr 1
  split <;> omega

theorem whichChild_eq (i : Index) :
    i.whichChild = i.x % 2 + 2 * (i.y % 2) + 4 * (i.z % 2) := by
  unfold whichChild
  simp only [Nat.shiftLeft_eq]
  omega

theorem whichChild_lt (i : Index) : i.whichChild < 8 := by
  rw [whichChild_eq]; omega

theorem parent_child (i : Index) (c : Nat) (hc : c < 8) : (i.child c).parent = i := by
  rw [child_eq i c hc, parent_eq]
  cases i
  simp
  omega

theorem whichChild_child (i : Index) (c : Nat) (hc : c < 8) : (i.child c).whichChild = c := by
  rw [child_eq i c hc, whichChild_eq]
  simp only
  omega

theorem child_parent (i : Index) (h : 1 ≤ i.level) : i.parent.child i.whichChild = i := by
  rw [child_eq _ _ (whichChild_lt i), parent_eq, whichChild_eq]
  cases i
  simp only [Index.mk.injEq, Nat.pow_one] at *
  omega

theorem parent_add (i : Index) (m n : Nat) : i.parent (m + n) = (i.parent m).parent n := by
  simp only [parent_eq, Nat.div_div_eq_div_mul, Nat.pow_add, Index.mk.injEq, true_and]
  omega

theorem parent_zero (i : Index) : i.parent 0 = i := by
  simp [parent_eq]

theorem child_inj (i j : Index) (c d : Nat) (hc : c < 8) (hd : d < 8)
    (h : i.child c = j.child d) : i = j ∧ c = d := by
  constructor
  · rw [← parent_child i c hc, ← parent_child j d hd, h]
  · rw [← whichChild_child i c hc, ← whichChild_child j d hd, h]

/-- In range: the coordinates of an index of level `l` are below `2^l`. -/
def InRange (i : Index) : Prop := i.x < 2 ^ i.level ∧ i.y < 2 ^ i.level ∧ i.z < 2 ^ i.level

theorem inRange_child {i : Index} (h : i.InRange) (c : Nat) (hc : c < 8) :
    (i.child c).InRange := by
  rw [child_eq i c hc]
  obtain ⟨h1, h2, h3⟩ := h
  refine ⟨?_, ?_, ?_⟩ <;> simp only [Nat.pow_succ] <;> omega

theorem inRange_root : root.InRange := by simp [InRange, root]

theorem inRange_parent {i : Index} (h : i.InRange) : i.parent.InRange := by
  rw [parent_eq]
  obtain ⟨h1, h2, h3⟩ := h
  cases i with
  | mk x y z l =>
    cases l with
    | zero => simp only [Nat.pow_zero] at *; refine ⟨?_, ?_, ?_⟩ <;> simp <;> omega
    | succ l =>
      simp only [Nat.pow_succ] at *
      refine ⟨?_, ?_, ?_⟩ <;> simp only [Nat.add_sub_cancel] <;> omega

end Dashmm.Index
