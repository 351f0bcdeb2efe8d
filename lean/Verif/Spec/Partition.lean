import Mathlib.Data.List.Basic
/-
Specification vocabulary for the distribution of the cells of a grid over ranks (C15-C18, C57).
Independent of the model.
-/
namespace Dashmm

/-- The two cells are next to each other: they differ by one along one axis and agree on the others. -/
def FaceNeighbours (x y z x' y' z' : Nat) : Prop :=
  ((x' = x + 1 ∨ x = x' + 1) ∧ y = y' ∧ z = z') ∨
  (x = x' ∧ (y' = y + 1 ∨ y = y' + 1) ∧ z = z') ∨
  (x = x' ∧ y = y' ∧ (z' = z + 1 ∨ z = z' + 1))

/-- All cells of a cubic grid. -/
def gridCells (n : Nat) : List (Nat × Nat × Nat) :=
  (List.range n).flatMap fun x => (List.range n).flatMap fun y => (List.range n).map fun z => (x, y, z)

/-- The number of points in the cells which satisfy `p`. -/
def pointsIn (n : Nat) (load : Nat × Nat × Nat → Nat) (p : Nat × Nat × Nat → Prop)
    [DecidablePred p] : Nat :=
  ((gridCells n).map fun c => if p c then load c else 0).sum

/-- Distance of two numbers. -/
def gap (a b : Nat) : Nat := (a - b) + (b - a)

end Dashmm
