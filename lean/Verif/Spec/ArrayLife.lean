import Verif.Model.ArrayLife
/-
What an array owns.
-/
namespace Dashmm.ArrayLife

/-- The objects of one rank. -/
def Slot.owned (s : Slot) : Multiset Res := s.data.elim 0 ({·}) + s.manager.elim 0 ({·})

/-- What the array owns: nothing, or the metadata and what the metadata of the ranks points to. -/
def State.owned (n : Nat) (s : State) : Multiset Res :=
  match s.handle with
  | none => 0
  | some k => {Res.metadata k} + ((List.range n).map fun r => (s.slot r).owned).sum

/-- Everything that is allocated beyond `base` is owned by the array. -/
def Accounted (n : Nat) (base : Multiset Res) (s : State) : Prop := s.live = base + s.owned n

/-- The call is allowed: `destroy` and `set_manager` need an array that is allocated. -/
def Call.Allowed (s : State) : Call → Prop
  | .allocate .. => True
  | .destroy => s.handle.isSome
  | .setManager => s.handle.isSome

/-- The allocation of the first LCO does not fail (see `C89_reducer_failure_leaks` for what happens if it does). -/
def Call.Lucky : Call → Prop
  | .allocate luck _ _ => luck.metadata = true → luck.reducer = true
  | _ => True

end Dashmm.ArrayLife
