import Verif.Model.TopTree
/-
Specification vocabulary for copies of a branch of the tree (C24, C26, C54) and for the uniform top of
the tree (C25, C27).
-/
namespace Dashmm
namespace Branch

/-- The memory at address `a` holds a copy of the tree node `n` with everything below it: the same
index, a null pointer for each missing child, and for each child a pointer to a copy of it whose parent
pointer leads back to `a`. -/
inductive Copy (H : Heap) : Nat → TNode → Prop
  | mk (a : Nat) (n : TNode) (b : Fin 8 → Nat)
      (idx : (H a).idx = n.ix)
      (null : ∀ j : Fin 8, n.c j = .nil → (H a).child j = none)
      (ptr : ∀ (j : Fin 8) (c : Fin 8 → Oct), n.c j = .node c → (H a).child j = some (b j))
      (parent : ∀ (j : Fin 8) (c : Fin 8 → Oct), n.c j = .node c → (H (b j)).parent = some a)
      (dag : ∀ (j : Fin 8) (c : Fin 8 → Oct), n.c j = .node c → (H (b j)).dagIdx = n.ix.child j)
      (copy : ∀ (j : Fin 8) (c : Fin 8 → Oct), n.c j = .node c → Copy H (b j) ⟨n.ix.child j, c⟩) :
      Copy H a n

/-- Following the children `p` from `a` leads to `b`, every node on the way having the index that
belongs to it. -/
inductive Linked (H : Heap) : Nat → List Nat → Nat → Prop
  | refl (a : Nat) : Linked H a [] a
  | step {a b c : Nat} {j : Nat} {p : List Nat} (hj : j < 8) (hc : (H a).child j = some b)
      (hi : (H b).idx = (H a).idx.child j) (h : Linked H b p c) : Linked H a (j :: p) c

/-- In the original tree the path `p` leads from the node `n` to the node `m`. -/
inductive TPath : TNode → List Nat → TNode → Prop
  | refl (n : TNode) : TPath n [] n
  | step {n m : TNode} {p : List Nat} {c : Fin 8 → Oct} (j : Fin 8) (hj : n.c j = .node c)
      (h : TPath ⟨n.ix.child j, c⟩ p m) : TPath n (j.val :: p) m

/-- Number of nodes of a tree. -/
def Oct.size : Oct → Nat
  | .nil => 0
  | .node c => 1 + ((List.finRange 8).map fun j => Oct.size (c j)).sum

/-! ### the uniform top -/

/-- A path: which child to take at each step. -/
def Oct8 (p : List Nat) : Prop := ∀ c ∈ p, c < 8

/-- The index that a path from the root leads to. -/
def place (p : List Nat) : Index := p.foldl Index.child ⟨0, 0, 0, 0⟩

/-- Number of the cell that a path with as many steps as the uniform level leads to. -/
def cellOf (u : Nat) (p : List Nat) : Nat := Grid.simpleKey (place p).x (place p).y (place p).z (2 ^ u)

/-- Some cell of the uniform grid at or below the end of the path holds points. -/
def Alive (u : Nat) (counts : Nat → Nat) (q : List Nat) : Prop :=
  ∃ e, Oct8 e ∧ (q ++ e).length = u ∧ 0 < counts (cellOf u (q ++ e))

/-- The memory `H` still has the uniform top that `setup_basics` made at `r` in the memory `H0`: only the
children of the cells, and memory outside the top, may be different. -/
structure TopIntact (r u : Nat) (H0 H : Heap) : Prop where
  inner : ∀ b, r ≤ b → b < r + nTop u → H b = setupBasics r u H0 b
  cells : ∀ b, r + nTop u ≤ b → b < r + nTop u + 8 ^ u → (H b).idx = (setupBasics r u H0 b).idx ∧
    (H b).dagIdx = (setupBasics r u H0 b).dagIdx ∧ (H b).parent = (setupBasics r u H0 b).parent

end Branch
end Dashmm
