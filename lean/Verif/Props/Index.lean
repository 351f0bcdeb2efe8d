import Verif.Proofs.Index
import Mathlib.Data.List.Induction
/-!
Properties of octree addresses (C01).

Specification: a *path* is the list of octants walked from the root (first element first).
`ofPath` is the address a user gets by starting at the root and calling `child` for each octant.
-/
namespace Dashmm

/-- Specification helper: the index reached from the root by walking the octants in `p`. -/
def ofPath (p : List Nat) : Index := p.foldl Index.child Index.root

/-- C01 (a): going to a child and back is the identity, and the child knows which child it is. -/
theorem C01_index_child_then_parent (i : Index) (c : Nat) (hc : c < 8) :
    (i.child c).parent = i ∧ (i.child c).whichChild = c :=
  ⟨Index.parent_child i c hc, Index.whichChild_child i c hc⟩

example : (Index.child ⟨3, 5, 6, 3⟩ 6).parent = ⟨3, 5, 6, 3⟩ ∧
    (Index.child ⟨3, 5, 6, 3⟩ 6) = ⟨6, 11, 13, 4⟩ := by decide

/-- C01 (b): every index below the root is the `which_child` child of its parent. -/
theorem C01_index_parent_then_child (i : Index) (h : 1 ≤ i.level) :
    i.parent.child i.whichChild = i ∧ i.whichChild < 8 :=
  ⟨Index.child_parent i h, Index.whichChild_lt i⟩

example : (1 : Nat) ≤ (⟨6, 11, 13, 4⟩ : Index).level := by decide

/-- C01 (c): `parent(m+n)` is the `n`-th parent of the `m`-th parent; `parent(0)` is the identity. -/
theorem C01_index_parent_composes (i : Index) (m n : Nat) :
    i.parent (m + n) = (i.parent m).parent n ∧ i.parent 0 = i :=
  ⟨Index.parent_add i m n, Index.parent_zero i⟩

/-- C01 (d): distinct children, or children of distinct nodes, have distinct indices. -/
theorem C01_index_child_injective (i j : Index) (c d : Nat) (hc : c < 8) (hd : d < 8) :
    i.child c = j.child d ↔ i = j ∧ c = d :=
  ⟨Index.child_inj i j c d hc hd, fun ⟨h1, h2⟩ => by rw [h1, h2]⟩

/-- C01 (e): the address determines the path from the root: two walks that end at the same
index are the same walk (so an `Index` names one tree node). -/
theorem C01_index_names_one_path (p q : List Nat) (hp : ∀ c ∈ p, c < 8) (hq : ∀ c ∈ q, c < 8)
    (h : ofPath p = ofPath q) : p = q := by
  have lev : ∀ p : List Nat, ∀ i : Index, (p.foldl Index.child i).level = i.level + p.length := by
    intro p
    induction p with
    | nil => intro i; simp
    | cons c p ih => intro i; simp [ih, Index.child]; omega
  have hlen : p.length = q.length := by
    have := congrArg Index.level h
    simpa [ofPath, lev] using this
  unfold ofPath at h
  generalize Index.root = r at h
  clear lev
  induction p using List.reverseRecOn generalizing q with
  | nil => cases q with
    | nil => rfl
    | cons => simp at hlen
  | append_singleton p c ih => 
    rcases List.eq_nil_or_concat q with rfl | ⟨q', d, rfl⟩
    · simp at hlen
    · simp only [List.foldl_append, List.foldl_cons, List.foldl_nil, List.concat_eq_append] at h ⊢
      have := Index.child_inj _ _ c d (hp c (by simp)) (hq d (by simp)) h
      obtain ⟨h1, rfl⟩ := this
      rw [ih q' (fun c hc => hp c (by simp [hc])) (fun c hc => hq c (by simp [hc])) (by simpa using hlen) h1]

/-- C01 (f): addresses reached from the root have coordinates below `2^level`, so for levels up to
30 every coordinate fits a 32-bit signed `int` and no shift overflows. -/
theorem C01_index_coordinates_bounded (p : List Nat) (hp : ∀ c ∈ p, c < 8) :
    (ofPath p).level = p.length ∧
    (ofPath p).x < 2 ^ p.length ∧ (ofPath p).y < 2 ^ p.length ∧ (ofPath p).z < 2 ^ p.length := by
  have key : ∀ (p : List Nat) (i : Index), (∀ c ∈ p, c < 8) → i.InRange →
      (p.foldl Index.child i).InRange ∧ (p.foldl Index.child i).level = i.level + p.length := by
    intro p
    induction p with
    | nil => intro i _ h; exact ⟨h, by simp⟩
    | cons c p ih =>
      intro i hp h
      have := ih (i.child c) (fun d hd => hp d (by simp [hd]))
        (Index.inRange_child h c (hp c (by simp)))
      refine ⟨this.1, ?_⟩
      simp only [List.foldl_cons, this.2, List.length_cons]
      simp [Index.child]; omega
  have := key p Index.root hp Index.inRange_root
  have hl : (ofPath p).level = p.length := by simpa [Index.root, ofPath] using this.2
  refine ⟨hl, ?_⟩
  have h2 := this.1
  unfold Index.InRange at h2
  have hl' : (List.foldl Index.child Index.root p).level = p.length := hl
  rw [hl'] at h2
  exact h2

example : ofPath [1, 6, 7] = ⟨5, 3, 3, 3⟩ ∧ ∀ c ∈ [1, 6, 7], c < 8 := by decide

end Dashmm
