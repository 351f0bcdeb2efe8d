import Verif.Model.MergeShift
/-!
Specification of the plane-wave translations of FMM97.

An exponential ("plane wave") expansion in direction `+x, -x, +y, -y, +z, -z` (views 0 … 5 of a
source intermediate expansion) decays in its direction: it is valid only on boxes that lie ahead,
in that direction.  A displacement is expressed in the frame of a direction, whose third axis points
against it.
-/
namespace Dashmm

/-- The displacement `source - target` of boxes (in units of the box), in the frame of a direction.
The last component is how far the target lies ahead of the source in the given direction. -/
def frame (view : Nat) (d : Int × Int × Int) : Int × Int × Int :=
  match view with
  | 0 => (d.2.2, -d.2.1, -d.1)     -- +x
  | 1 => (-d.2.2, d.2.1, d.1)      -- -x
  | 2 => (-d.2.2, -d.1, -d.2.1)    -- +y
  | 3 => (d.2.2, d.1, d.2.1)       -- -y
  | 4 => (-d.1, -d.2.1, -d.2.2)    -- +z
  | _ => (d.1, d.2.1, d.2.2)       -- -z

/-- One way in which a source's directional expansion reaches a target child: it is merged into the
parent's expansion `tag` by `I->I` and taken from there by `I->L`. -/
structure Path where
  tag : Nat
  take : Take
  deriving DecidableEq, Repr

/-- All paths from a source box at offset `(dx, dy, dz)` from the first child of a target parent, to
the parent's child number `c`. -/
def paths (dx dy dz : Int) (c : Nat) : List Path :=
  ((mergeTags dx dy dz).getD []).flatMap fun tag =>
    ((childTakes c).filter fun k => k.tag == tag).map fun k => ⟨tag, k⟩

/-- A path is right if it keeps the direction, both its shifts are in the tables, the target lies at
least two boxes ahead, and the two shifts add up to the displacement of the two boxes. -/
def PathOk (dx dy dz : Int) (c : Nat) (p : Path) : Prop :=
  let s := tagShift p.tag dx dy dz
  let d := (dx - (c % 2 : Nat), dy - (c / 2 % 2 : Nat), dz - (c / 4 % 2 : Nat))
  slotView p.take.slot = tagView p.tag ∧
  shiftInTable s.1 s.2.1 s.2.2 ∧ shiftInTable p.take.x p.take.y p.take.z ∧
  2 ≤ (frame (tagView p.tag) d).2.2 ∧
  frame (tagView p.tag) d = (s.1 + p.take.x, s.2.1 + p.take.y, s.2.2 + p.take.z)

instance (dx dy dz : Int) (c : Nat) (p : Path) : Decidable (PathOk dx dy dz c p) := by
  unfold PathOk; infer_instance

end Dashmm
