/-
Model of `dashmm::Index` (/repo/include/dashmm/index.h).

Simplification: the coordinates and the level are `int` in the code; here they are natural
numbers.  Every index the library makes starts from the root `{0,0,0,0}` and goes through `child`
and `parent`, which keep them non-negative.  Overflow of `int` is not modelled here (see
`C01_index_coordinates_bounded` for the bound that rules it out for levels up to 30).
-/
namespace Dashmm

/-- `class Index`, include/dashmm/index.h:35-112 (`idx_[3]`, `level_`). Equality is
`operator==` (lines 99-105), which compares all four members. -/
structure Index where
  x : Nat
  y : Nat
  z : Nat
  level : Nat
  deriving DecidableEq, Repr

namespace Index

/-- The root of every tree, `Index{0,0,0,0}` (include/dashmm/index.h:38 default arguments). -/
def root : Index := ⟨0, 0, 0, 0⟩

/-- `Index::parent(int num)`, include/dashmm/index.h:60-63. -/
def parent (i : Index) (num : Nat := 1) : Index :=
  ⟨i.x >>> num, i.y >>> num, i.z >>> num, if i.level > num then i.level - num else 0⟩

/-- `Index::child(int which)`, include/dashmm/index.h:77-82. -/
def child (i : Index) (which : Nat) : Index :=
  ⟨(i.x <<< 1) + (if which &&& 1 ≠ 0 then 1 else 0),
   (i.y <<< 1) + (if which &&& 2 ≠ 0 then 1 else 0),
   (i.z <<< 1) + (if which &&& 4 ≠ 0 then 1 else 0),
   i.level + 1⟩

/-- `Index::which_child()`, include/dashmm/index.h:93-98. -/
def whichChild (i : Index) : Nat :=
  let xval := i.x % 2
  let yval := (i.y % 2) <<< 1
  let zval := (i.z % 2) <<< 2
  xval + yval + zval

end Index
end Dashmm
