import Verif.Model.Octree
import Verif.Proofs.Index
import Verif.Spec.Provenance
import Mathlib.Data.List.Nodup
/-! Helper lemmas: descendants, subtrees, leaves. -/
namespace Dashmm

/-- `b` lies in the subtree of `a`. -/
def IsDesc (a b : Index) : Prop := a.level ≤ b.level ∧ b.parent (b.level - a.level) = a

theorem isDesc_refl (a : Index) : IsDesc a a := ⟨Nat.le_refl _, by simp [Index.parent_zero]⟩

theorem isDesc_of_child {a b : Index} {i : Nat} (hi : i < 8) (h : IsDesc (a.child i) b) :
    IsDesc a b := by
  obtain ⟨h1, h2⟩ := h
  have hl : (a.child i).level = a.level + 1 := rfl
  rw [hl] at h1 h2
  refine ⟨by omega, ?_⟩
  have : b.level - a.level = (b.level - (a.level + 1)) + 1 := by omega
  rw [this, Index.parent_add, h2, Index.parent_child a i hi]

theorem isDesc_child_unique {a b : Index} {i j : Nat} (hi : i < 8) (hj : j < 8)
    (h1 : IsDesc (a.child i) b) (h2 : IsDesc (a.child j) b) : i = j := by
  have hl : ∀ k, (a.child k).level = a.level + 1 := fun _ => rfl
  have e1 := h1.2
  have e2 := h2.2
  rw [hl] at e1 e2
  exact (Index.child_inj a a i j hi hj (e1.symm.trans e2)).2

theorem not_isDesc_child_self (a : Index) (i : Nat) : ¬ IsDesc (a.child i) a := by
  intro h
  have := h.1
  simp [Index.child] at this
  omega

theorem isDesc_trans {a b c : Index} (h1 : IsDesc a b) (h2 : IsDesc b c) : IsDesc a c := by
  refine ⟨Nat.le_trans h1.1 h2.1, ?_⟩
  have := h1.1; have := h2.1
  have e : c.level - a.level = (c.level - b.level) + (b.level - a.level) := by omega
  rw [e, Index.parent_add, h2.2, h1.2]

theorem isDesc_child_self (a : Index) (i : Nat) (hi : i < 8) : IsDesc a (a.child i) :=
  isDesc_of_child hi (isDesc_refl _)

/-- `b` is `a` or a node below `a`. -/
inductive Under : TNode → TNode → Prop
  | refl (a : TNode) : Under a a
  | down {a k b : TNode} (hk : k ∈ a.kids) (h : Under k b) : Under a b

theorem isLeaf_iff (n : TNode) : n.isLeaf = true ↔ ∀ i, n.c i = .nil := by
  unfold TNode.isLeaf TNode.nChildren
  simp only [beq_iff_eq, List.length_eq_zero_iff, List.filter_eq_nil_iff, List.mem_finRange,
    Bool.not_eq_true, true_implies, Bool.not_eq_false']
  constructor
  · intro h i
    have := h i
    cases hc : n.c i with
    | nil => rfl
    | node c => simp [hc, Oct.isNil] at this
  · intro h i
    simp [h i, Oct.isNil]

theorem mem_kids {n k : TNode} : k ∈ n.kids ↔ ∃ i : Fin 8, n.c i = .node k.c ∧ k.ix = n.ix.child i := by
  unfold TNode.kids
  simp only [List.mem_filterMap, List.mem_finRange, true_and]
  constructor
  · rintro ⟨i, hi⟩
    cases hc : n.c i with
    | nil => simp [hc] at hi
    | node c =>
      simp [hc] at hi
      refine ⟨i, ?_, ?_⟩ <;> rw [← hi]
      exact hc
  · rintro ⟨i, h1, h2⟩
    exact ⟨i, by simp [h1, ← h2]⟩

theorem kids_isEmpty (n : TNode) : n.kids.isEmpty = n.isLeaf := by
  rw [Bool.eq_iff_iff, isLeaf_iff, List.isEmpty_iff]
  constructor
  · intro h i
    cases hc : n.c i with
    | nil => rfl
    | node c =>
      have : (⟨n.ix.child i, c⟩ : TNode) ∈ n.kids := mem_kids.2 ⟨i, hc, rfl⟩
      rw [h] at this; simp at this
  · intro h
    rw [List.eq_nil_iff_forall_not_mem]
    intro k hk
    obtain ⟨i, h1, _⟩ := mem_kids.1 hk
    simp [h i] at h1

theorem Under.kid {a b k : TNode} (h : Under a b) (hk : k ∈ b.kids) : Under a k := by
  induction h with
  | refl a => exact .down hk (.refl _)
  | down h1 _ ih => exact .down h1 (ih hk)

theorem Under.trans {a b c : TNode} (h : Under a b) (h' : Under b c) : Under a c := by
  induction h with
  | refl a => exact h'
  | down h1 _ ih => exact .down h1 (ih h')

theorem Under.inRange {a b : TNode} (h : Under a b) (ha : a.ix.InRange) : b.ix.InRange := by
  induction h with
  | refl => exact ha
  | down hk _ ih =>
    obtain ⟨i, _, h2⟩ := mem_kids.1 hk
    exact ih (by rw [h2]; exact Index.inRange_child ha i i.isLt)

theorem Under.isDesc {a b : TNode} (h : Under a b) : IsDesc a.ix b.ix := by
  induction h with
  | refl => exact isDesc_refl _
  | down hk _ ih =>
    obtain ⟨i, _, h2⟩ := mem_kids.1 hk
    rw [h2] at ih
    exact isDesc_of_child i.isLt ih

theorem kid_level {n k : TNode} (hk : k ∈ n.kids) : k.ix.level = n.ix.level + 1 := by
  obtain ⟨i, _, h2⟩ := mem_kids.1 hk
  rw [h2]; rfl

/-- Leaves below a node. -/
def TNode.leaves (n : TNode) : List Index := Dashmm.leaves n.ix (.node n.c)

theorem TNode.leaves_of_leaf {n : TNode} (h : n.isLeaf = true) : n.leaves = [n.ix] := by
  simp [TNode.leaves, Dashmm.leaves, h]

theorem flatMap_kids {α : Type*} (f : Index → Oct → List α) (hf : ∀ ix, f ix .nil = []) (n : TNode) :
    ((List.finRange 8).flatMap fun i : Fin 8 => f (n.ix.child i) (n.c i)) =
      n.kids.flatMap fun k => f k.ix (.node k.c) := by
  unfold TNode.kids
  induction List.finRange 8 with
  | nil => rfl
  | cons i is ih =>
    rw [List.flatMap_cons, ih, List.filterMap_cons]
    cases hc : n.c i with
    | nil => simp [hf]
    | node c => simp

theorem TNode.leaves_of_not_leaf {n : TNode} (h : n.isLeaf = false) :
    n.leaves = n.kids.flatMap TNode.leaves := by
  have : n.leaves = (List.finRange 8).flatMap fun i : Fin 8 => Dashmm.leaves (n.ix.child i) (n.c i) := by
    show Dashmm.leaves n.ix (.node n.c) = _
    rw [Dashmm.leaves]
    simp [h]
  rw [this, flatMap_kids Dashmm.leaves (fun _ => rfl)]
  rfl

/-- Induction over the nodes of a tree: to prove `P` for a node, assume it for its kids. -/
theorem tnode_induction {P : TNode → Prop} (h : ∀ n : TNode, (∀ k ∈ n.kids, P k) → P n) :
    ∀ n : TNode, P n := by
  have key : ∀ o : Oct, ∀ ix c, o = .node c → P ⟨ix, c⟩ := by
    intro o
    induction o with
    | nil => intro ix c hc; cases hc
    | node c ih =>
      intro ix c' hc
      cases hc
      apply h
      intro k hk
      obtain ⟨i, h1, h2⟩ := mem_kids.1 hk
      have := ih i k.ix k.c h1
      exact this
  intro n
  exact key (.node n.c) n.ix n.c rfl

theorem mem_leaves_desc (n : TNode) : ∀ x ∈ n.leaves, IsDesc n.ix x := by
  induction n using tnode_induction with
  | h n ih =>
    intro x hx
    cases hl : n.isLeaf with
    | true =>
      rw [TNode.leaves_of_leaf hl] at hx
      simp at hx; subst hx; exact isDesc_refl _
    | false =>
      rw [TNode.leaves_of_not_leaf hl] at hx
      simp only [List.mem_flatMap] at hx
      obtain ⟨k, hk, hx⟩ := hx
      obtain ⟨i, _, h2⟩ := mem_kids.1 hk
      have := ih k hk x hx
      rw [h2] at this
      exact isDesc_of_child i.isLt this

theorem leaves_nodup (n : TNode) : n.leaves.Nodup := by
  induction n using tnode_induction with
  | h n ih =>
    cases hl : n.isLeaf with
    | true => rw [TNode.leaves_of_leaf hl]; simp
    | false =>
      rw [TNode.leaves_of_not_leaf hl, List.nodup_flatMap]
      refine ⟨fun k hk => ih k hk, ?_⟩
      unfold TNode.kids
      rw [List.pairwise_filterMap]
      refine (List.nodup_finRange 8).imp ?_
      intro i j hij k hk k' hk'
      have g : ∀ (i : Fin 8) (k : TNode), (match n.c i with
          | .nil => none
          | .node c => some ⟨n.ix.child i, c⟩) = some k → k.ix = n.ix.child i := by
        intro i k h
        cases hc : n.c i with
        | nil => simp [hc] at h
        | node c => simp [hc] at h; rw [← h]
      have e1 := g i k hk
      have e2 := g j k' hk'
      intro x hx hx'
      have d1 := mem_leaves_desc k x hx
      have d2 := mem_leaves_desc k' x hx'
      rw [e1] at d1; rw [e2] at d2
      exact hij (Fin.ext (isDesc_child_unique i.isLt j.isLt d1 d2))

theorem count_leaves (n : TNode) (x : Index) :
    n.leaves.count x = if x ∈ n.leaves then 1 else 0 := by
  split
  · rename_i h; exact List.count_eq_one_of_mem (leaves_nodup n) h
  · rename_i h; exact List.count_eq_zero_of_not_mem h

end Dashmm
