import Verif.Model.Methods
/-!
Specification of a sane DAG construction, in terms of the sequence of actions performed.
-/
namespace Dashmm

/-- No assertion of the construction fails: no DAG node is created twice (`assert(add_normal())`,
`assert(parts_ == nullptr)` …) and whenever two DAG nodes are linked, both exist already
(`assert(source->has_normal())` …). -/
def NoAssertionFails (acts : List Act) : Prop :=
  (nodesOf acts).Nodup ∧
  ∀ pre e post, acts = pre ++ Act.link e :: post → e.src ∈ nodesOf pre ∧ e.dst ∈ nodesOf pre

/-- Low and high end of a box in one dimension, as fractions of the root box, times `2^L` for some
`L` that is at least the level of the box. -/
def boxLo (L level x : Nat) : Nat := x * 2 ^ (L - level)
def boxHi (L level x : Nat) : Nat := (x + 1) * 2 ^ (L - level)

/-- In some dimension the two boxes are at least one box apart, where the box has the size of the
smaller of the two. -/
def Separated (a b : Index) : Prop :=
  let L := max a.level b.level
  let apart := fun xa xb : Nat =>
    boxHi L a.level xa + 1 ≤ boxLo L b.level xb ∨ boxHi L b.level xb + 1 ≤ boxLo L a.level xa
  apart a.x b.x ∨ apart a.y b.y ∨ apart a.z b.z

/-- `b` lies in the subtree whose root is `a` (or is `a`). -/
def InSubtree (a b : Index) : Prop := a.level ≤ b.level ∧ b.parent (b.level - a.level) = a

/-- The edges form no cycle: the nodes can be numbered so that every edge goes up. -/
def Acyclic (es : List Edge) : Prop := ∃ rank : Ref → Nat, ∀ e ∈ es, rank e.src < rank e.dst

end Dashmm
