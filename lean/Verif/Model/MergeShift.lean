import Verif.Model.Index
/-
Model of the merge-and-shift lists of FMM97: the table `merge_and_shift_table`
(/repo/src/merge_shift.cc:24-188, enum in /repo/include/builtins/merge_shift.h:26-55) and their use
by `lap_i_to_i` and `lap_i_to_l` (/repo/src/laplace.cc:385-637).  The Yukawa kernel uses the same
table in the same way (/repo/src/yukawa.cc).  The two literal tables were transcribed mechanically
from the C++ text.
-/
namespace Dashmm

/-- `merge_and_shift_table[6][6][6][3]`, src/merge_shift.cc:24-188; tags are the enum values
`uall = 0 … w8 = 27`, `-1` marks unused entries. -/
def mergeShiftTable : List (List (List (List Int))) :=
[
  [[[14, -1, -1], [16, -1, -1], [16, -1, -1], [16, -1, -1], [16, -1, -1], [0, -1, -1]],
   [[14, -1, -1], [20, -1, -1], [20, -1, -1], [20, -1, -1], [20, -1, -1], [0, -1, -1]],
   [[14, -1, -1], [20, -1, -1], [20, -1, -1], [20, -1, -1], [20, -1, -1], [0, -1, -1]],
   [[14, -1, -1], [20, -1, -1], [20, -1, -1], [20, -1, -1], [20, -1, -1], [0, -1, -1]],
   [[14, -1, -1], [20, -1, -1], [20, -1, -1], [20, -1, -1], [20, -1, -1], [0, -1, -1]],
   [[14, -1, -1], [2, -1, -1], [2, -1, -1], [2, -1, -1], [2, -1, -1], [0, -1, -1]]],
  [[[14, -1, -1], [16, -1, -1], [16, -1, -1], [16, -1, -1], [16, -1, -1], [0, -1, -1]],
   [[14, -1, -1], [15, 18, 24], [17, 24, 26], [17, 24, 26], [1, 19, 26], [0, -1, -1]],
   [[14, -1, -1], [15, 22, -1], [21, -1, -1], [21, -1, -1], [1, 23, -1], [0, -1, -1]],
   [[14, -1, -1], [15, 22, -1], [21, -1, -1], [21, -1, -1], [1, 23, -1], [0, -1, -1]],
   [[14, -1, -1], [15, 4, 25], [3, 25, 27], [3, 25, 27], [1, 5, 27], [0, -1, -1]],
   [[14, -1, -1], [2, -1, -1], [2, -1, -1], [2, -1, -1], [2, -1, -1], [0, -1, -1]]],
  [[[14, -1, -1], [16, -1, -1], [16, -1, -1], [16, -1, -1], [16, -1, -1], [0, -1, -1]],
   [[14, -1, -1], [15, 18, -1], [17, -1, -1], [17, -1, -1], [1, 19, -1], [0, -1, -1]],
   [[14, -1, -1], [15, -1, -1], [-1, -1, -1], [-1, -1, -1], [1, -1, -1], [0, -1, -1]],
   [[14, -1, -1], [15, -1, -1], [-1, -1, -1], [-1, -1, -1], [1, -1, -1], [0, -1, -1]],
   [[14, -1, -1], [15, 4, -1], [3, -1, -1], [3, -1, -1], [1, 5, -1], [0, -1, -1]],
   [[14, -1, -1], [2, -1, -1], [2, -1, -1], [2, -1, -1], [2, -1, -1], [0, -1, -1]]],
  [[[14, -1, -1], [16, -1, -1], [16, -1, -1], [16, -1, -1], [16, -1, -1], [0, -1, -1]],
   [[14, -1, -1], [15, 18, -1], [17, -1, -1], [17, -1, -1], [1, 19, -1], [0, -1, -1]],
   [[14, -1, -1], [15, -1, -1], [-1, -1, -1], [-1, -1, -1], [1, -1, -1], [0, -1, -1]],
   [[14, -1, -1], [15, -1, -1], [-1, -1, -1], [-1, -1, -1], [1, -1, -1], [0, -1, -1]],
   [[14, -1, -1], [15, 4, -1], [3, -1, -1], [3, -1, -1], [1, 5, -1], [0, -1, -1]],
   [[14, -1, -1], [2, -1, -1], [2, -1, -1], [2, -1, -1], [2, -1, -1], [0, -1, -1]]],
  [[[14, -1, -1], [16, -1, -1], [16, -1, -1], [16, -1, -1], [16, -1, -1], [0, -1, -1]],
   [[14, -1, -1], [15, 18, 10], [17, 10, 12], [17, 10, 12], [1, 19, 12], [0, -1, -1]],
   [[14, -1, -1], [15, 8, -1], [7, -1, -1], [7, -1, -1], [1, 9, -1], [0, -1, -1]],
   [[14, -1, -1], [15, 8, -1], [7, -1, -1], [7, -1, -1], [1, 9, -1], [0, -1, -1]],
   [[14, -1, -1], [15, 4, 11], [3, 11, 13], [3, 11, 13], [1, 5, 13], [0, -1, -1]],
   [[14, -1, -1], [2, -1, -1], [2, -1, -1], [2, -1, -1], [2, -1, -1], [0, -1, -1]]],
  [[[14, -1, -1], [16, -1, -1], [16, -1, -1], [16, -1, -1], [16, -1, -1], [0, -1, -1]],
   [[14, -1, -1], [6, -1, -1], [6, -1, -1], [6, -1, -1], [6, -1, -1], [0, -1, -1]],
   [[14, -1, -1], [6, -1, -1], [6, -1, -1], [6, -1, -1], [6, -1, -1], [0, -1, -1]],
   [[14, -1, -1], [6, -1, -1], [6, -1, -1], [6, -1, -1], [6, -1, -1], [0, -1, -1]],
   [[14, -1, -1], [6, -1, -1], [6, -1, -1], [6, -1, -1], [6, -1, -1], [0, -1, -1]],
   [[14, -1, -1], [2, -1, -1], [2, -1, -1], [2, -1, -1], [2, -1, -1], [0, -1, -1]]]]

/-- `merge_and_shift_table[dx + 2][dy + 2][dz + 2][i]` for `i = 0, 1, 2` with the `break` at `-1`
(src/laplace.cc:418-423). `none` if a subscript is out of range. -/
def mergeTags (dx dy dz : Int) : Option (List Nat) :=
  if dx + 2 < 0 ∨ dy + 2 < 0 ∨ dz + 2 < 0 then none
  else do
    let a ← mergeShiftTable[(dx + 2).toNat]?
    let b ← a[(dy + 2).toNat]?
    let c ← b[(dz + 2).toNat]?
    some ((c.takeWhile (· ≠ -1)).map Int.toNat)

/-- The source view `S[k]` a tag reads (src/laplace.cc:425-437): views 0..5 of the source are the
expansions in directions +x, -x, +y, -y, +z, -z (src/laplace.cc:278-284). -/
def tagView (tag : Nat) : Nat :=
  if tag ≤ 1 then 5 else if tag ≤ 5 then 3 else if tag ≤ 13 then 1
  else if tag ≤ 15 then 4 else if tag ≤ 19 then 2 else 0

/-- The shift `(x, y, z)` given to `lap_e_to_e` for a tag (src/laplace.cc:425-437). -/
def tagShift (tag : Nat) (dx dy dz : Int) : Int × Int × Int :=
  if tag ≤ 1 then (dx, dy, 0) else if tag ≤ 5 then (dz, dx, 0) else if tag ≤ 13 then (-dz, dy, 0)
  else if tag ≤ 15 then (-dx, -dy, 0) else if tag ≤ 19 then (-dz, -dx, 0) else (dz, -dy, 0)

/-- One call `lap_e_to_e(S_slot, E[tag], x, y, z)` in `lap_i_to_l`; slots are numbered
`S_mz, S_pz, S_my, S_py, S_mx, S_px = 0..5` (src/laplace.cc:488-493). -/
structure Take where
  slot : Nat
  tag : Nat
  x : Int
  y : Int
  z : Int
  deriving DecidableEq, Repr

/-- The `switch (to_child)` of `lap_i_to_l`, src/laplace.cc:495-624. -/
def childTakes : Nat → List Take
  | 0 => [⟨0, 0, 0, 0, 3⟩,
     ⟨0, 1, 0, 0, 2⟩,
     ⟨1, 14, 0, 0, 2⟩,
     ⟨2, 2, 0, 0, 3⟩,
     ⟨2, 3, 0, 0, 2⟩,
     ⟨2, 4, 0, 0, 2⟩,
     ⟨3, 16, 0, 0, 2⟩,
     ⟨4, 6, 0, 0, 3⟩,
     ⟨4, 7, 0, 0, 2⟩,
     ⟨4, 8, 0, 0, 2⟩,
     ⟨4, 10, 0, 0, 2⟩,
     ⟨5, 20, 0, 0, 2⟩]
  | 1 => [⟨0, 0, -1, 0, 3⟩,
     ⟨0, 1, -1, 0, 2⟩,
     ⟨1, 14, 1, 0, 2⟩,
     ⟨2, 2, 0, -1, 3⟩,
     ⟨2, 3, 0, -1, 2⟩,
     ⟨2, 4, 0, -1, 2⟩,
     ⟨3, 16, 0, 1, 2⟩,
     ⟨4, 6, 0, 0, 2⟩,
     ⟨5, 20, 0, 0, 3⟩,
     ⟨5, 21, 0, 0, 2⟩,
     ⟨5, 22, 0, 0, 2⟩,
     ⟨5, 24, 0, 0, 2⟩]
  | 2 => [⟨0, 0, 0, -1, 3⟩,
     ⟨0, 1, 0, -1, 2⟩,
     ⟨1, 14, 0, 1, 2⟩,
     ⟨2, 2, 0, 0, 2⟩,
     ⟨3, 16, 0, 0, 3⟩,
     ⟨3, 17, 0, 0, 2⟩,
     ⟨3, 18, 0, 0, 2⟩,
     ⟨4, 6, 0, -1, 3⟩,
     ⟨4, 7, 0, -1, 2⟩,
     ⟨4, 8, 0, -1, 2⟩,
     ⟨4, 11, 0, -1, 2⟩,
     ⟨5, 20, 0, 1, 2⟩]
  | 3 => [⟨0, 0, -1, -1, 3⟩,
     ⟨0, 1, -1, -1, 2⟩,
     ⟨1, 14, 1, 1, 2⟩,
     ⟨2, 2, 0, -1, 2⟩,
     ⟨3, 16, 0, 1, 3⟩,
     ⟨3, 17, 0, 1, 2⟩,
     ⟨3, 18, 0, 1, 2⟩,
     ⟨4, 6, 0, -1, 2⟩,
     ⟨5, 20, 0, 1, 3⟩,
     ⟨5, 21, 0, 1, 2⟩,
     ⟨5, 22, 0, 1, 2⟩,
     ⟨5, 25, 0, 1, 2⟩]
  | 4 => [⟨0, 0, 0, 0, 2⟩,
     ⟨1, 14, 0, 0, 3⟩,
     ⟨1, 15, 0, 0, 2⟩,
     ⟨2, 2, -1, 0, 3⟩,
     ⟨2, 3, -1, 0, 2⟩,
     ⟨2, 5, -1, 0, 2⟩,
     ⟨3, 16, 1, 0, 2⟩,
     ⟨4, 6, 1, 0, 3⟩,
     ⟨4, 7, 1, 0, 2⟩,
     ⟨4, 9, 1, 0, 2⟩,
     ⟨4, 12, 1, 0, 2⟩,
     ⟨5, 20, -1, 0, 2⟩]
  | 5 => [⟨0, 0, -1, 0, 2⟩,
     ⟨1, 14, 1, 0, 3⟩,
     ⟨1, 15, 1, 0, 2⟩,
     ⟨2, 2, -1, -1, 3⟩,
     ⟨2, 3, -1, -1, 2⟩,
     ⟨2, 5, -1, -1, 2⟩,
     ⟨3, 16, 1, 1, 2⟩,
     ⟨4, 6, 1, 0, 2⟩,
     ⟨5, 20, -1, 0, 3⟩,
     ⟨5, 21, -1, 0, 2⟩,
     ⟨5, 23, -1, 0, 2⟩,
     ⟨5, 26, -1, 0, 2⟩]
  | 6 => [⟨0, 0, 0, -1, 2⟩,
     ⟨1, 14, 0, 1, 3⟩,
     ⟨1, 15, 0, 1, 2⟩,
     ⟨2, 2, -1, 0, 2⟩,
     ⟨3, 16, 1, 0, 3⟩,
     ⟨3, 17, 1, 0, 2⟩,
     ⟨3, 19, 1, 0, 2⟩,
     ⟨4, 6, 1, -1, 3⟩,
     ⟨4, 7, 1, -1, 2⟩,
     ⟨4, 9, 1, -1, 2⟩,
     ⟨4, 13, 1, -1, 2⟩,
     ⟨5, 20, -1, 1, 2⟩]
  | 7 => [⟨0, 0, -1, -1, 2⟩,
     ⟨1, 14, 1, 1, 3⟩,
     ⟨1, 15, 1, 1, 2⟩,
     ⟨2, 2, -1, -1, 2⟩,
     ⟨3, 16, 1, 1, 3⟩,
     ⟨3, 17, 1, 1, 2⟩,
     ⟨3, 19, 1, 1, 2⟩,
     ⟨4, 6, 1, -1, 2⟩,
     ⟨5, 20, -1, 1, 3⟩,
     ⟨5, 21, -1, 1, 2⟩,
     ⟨5, 23, -1, 1, 2⟩,
     ⟨5, 27, -1, 1, 2⟩]
  | _ => []

/-- `to_child` in `lap_i_to_l`, src/laplace.cc:482-483. -/
def toChild (t : Index) : Nat := 4 * (t.z % 2) + 2 * (t.y % 2) + (t.x % 2)

/-- Which directional expansion a slot holds when `lap_e_to_l` turns it into a local expansion
(src/laplace.cc:630-635): slots `S_mz, S_pz, S_my, S_py, S_mx, S_px` are read as the directions
-z, +z, -y, +y, -x, +x, which are views 5, 4, 3, 2, 1, 0 of a source (src/laplace.cc:278-284). -/
def slotView : Nat → Nat
  | 0 => 5 | 1 => 4 | 2 => 3 | 3 => 2 | 4 => 1 | _ => 0

/-- `lap_e_to_e` reads `xs[sidx + x]`, `ys[sidx + y]`, `zs[4 k + z]` with `sidx = 7 i + 3`
(src/laplace.cc:639-661) from tables that hold, for every exponential, the entries `-3 … 3` (seven)
resp. `0 … 3` (four) (src/laplace_table.cc:402-442). -/
def shiftInTable (x y z : Int) : Prop :=
  (0 ≤ 3 + x ∧ 3 + x < 7) ∧ (0 ≤ 3 + y ∧ 3 + y < 7) ∧ (0 ≤ z ∧ z < 4)

instance (x y z : Int) : Decidable (shiftInTable x y z) := by unfold shiftInTable; infer_instance

end Dashmm
