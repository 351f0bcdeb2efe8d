import Verif.Model.RankLocal

/-!
Specification: programs that use the names of their objects right, and careful ones.
-/

namespace Dashmm.RankLocal

/-- The object `v` has acquired something. -/
def holds {V : Type} (S : State V) (v : Nat) : Bool :=
  match find S.objs v with
  | some o => o.ptr.isSome
  | none => false

/-- `v` is the name of an object. -/
def exists_ {V : Type} (S : State V) (v : Nat) : Prop := (find S.objs v).isSome = true

/-- New objects get new names, objects that are used exist, and only valid objects are written through. -/
def NamesRight {V : Type} (S : State V) : Cmd V → Prop
  | .make v _ _ => ¬ exists_ S v
  | .drop v => exists_ S v
  | .move v w => ¬ exists_ S v ∧ exists_ S w
  | .assign v w => exists_ S v ∧ exists_ S w
  | .write v _ => valid S v = true
  | .outside _ _ => True

/-- Objects that hold something are not assigned to. -/
def CarefulStep {V : Type} (S : State V) : Cmd V → Prop
  | .assign v _ => holds S v = false
  | _ => True

/-- A careful history. -/
def Careful {V : Type} (me : Nat) : State V → List (Cmd V) → Prop
  | _, [] => True
  | S, c :: h => CarefulStep S c ∧ ∀ S', step me S c = some S' → Careful me S' h

/-- The command changes which memory `v` refers to. -/
def Touches {V : Type} (v : Nat) : Cmd V → Prop
  | .drop u => u = v
  | .move _ w => w = v
  | .assign u w => u = v ∨ w = v
  | _ => False

/-- The command writes through `v`. -/
def WritesThrough {V : Type} (v : Nat) : Cmd V → Prop
  | .write u _ => u = v
  | _ => False

end Dashmm.RankLocal
