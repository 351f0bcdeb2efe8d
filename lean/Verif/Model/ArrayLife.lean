import Verif.Model.Array
import Mathlib.Data.Multiset.AddSub
import Mathlib.Algebra.BigOperators.Group.Finset.Basic
/-
What `Array` allocates and gives back: /repo/include/dashmm/array.h (`allocate`, `destroy`, `set_manager`), with every allocation possibly failing. The contents of the segments are the subject
of the model Array; here a state is the multiset of the objects that are allocated.

The ranks only touch their own metadata between the two collective reductions, so they are run one after the other. `none` is undefined behaviour: a null or dangling pointer is freed, or an
assertion fails.
-/
namespace Dashmm.ArrayLife

/-- The things that are allocated. The number is different for each allocation. -/
inductive Res
  /-- the global block of `ArrayMetaData`, array.h:501 -/
  | metadata (id : Nat)
  /-- the LCO that adds the counts, array.h:507-508 -/
  | reducer (id : Nat)
  /-- the LCO that reduces the return codes, array.h:515-516 -/
  | retcode (id : Nat)
  /-- the segment of a rank, allocated (array.h:581) or handed over by the user (array.h:571) -/
  | segment (id rank : Nat)
  /-- the serializer of a rank, array.h:572, 918 -/
  | manager (id rank : Nat)
  deriving DecidableEq

/-- An allocation. -/
def new (x : Res) (live : Multiset Res) : Multiset Res := x ::ₘ live

/-- `delete`, `hpx_gas_free_sync`, `hpx_lco_delete_sync`; the null pointer is `none`. -/
def free : Option Res → Multiset Res → Option (Multiset Res)
  | none, _ => none
  | some x, live => if x ∈ live then some (live.erase x) else none

/-- `if (p != nullptr) delete p`. -/
def release : Option Res → Multiset Res → Option (Multiset Res)
  | none, live => some live
  | some x, live => free (some x) live

/-- `local->data` and `local->manager` of the metadata of one rank, include/dashmm/arraymetadata.h:37-42. -/
structure Slot where
  data : Option Res
  manager : Option Res

/-- All ranks: the copies of the `Array` object agree (`handle` is `data_`), `slot` is the metadata of each rank. -/
structure State where
  live : Multiset Res
  next : Nat
  handle : Option Nat
  slot : Nat → Slot

/-- Which allocations succeed. -/
structure Luck where
  metadata : Bool
  reducer : Bool
  retcode : Bool
  segment : Nat → Bool

/-- `allocate_array_meta_handler`, array.h:497-526: the allocated objects, the three addresses and `code`. After a failure it goes on with the next allocation. -/
def allocMeta (k : Nat) (luck : Luck) (live : Multiset Res) :
    Option (Multiset Res × Option Res × Option Res × Option Res × Int) := do
  if !luck.metadata then return (live, none, none, none, kAllocationError)
  let live := new (.metadata k) live
  let (live, m, red, code) ←
    if luck.reducer then some (new (.reducer k) live, some (Res.metadata k), some (Res.reducer k), kSuccess)
    else (free (some (.metadata k)) live).map fun l => (l, none, none, kAllocationError)
  if luck.retcode then return (new (.retcode k) live, m, red, some (.retcode k), code)
  let live ← free m live
  let live ← free red live
  return (live, none, none, none, kAllocationError)

/-- The part of `allocate_local_work_handler` that allocates, array.h:562-584: on one rank, the objects, the metadata and the return code. `count` is `record_count`, `given` says whether
`segment` is not null. -/
def allocRank (k : Nat) (luck : Luck) (count : Nat → Nat) (given : Nat → Bool) (r : Nat) (live : Multiset Res) :
    Multiset Res × Slot × Int :=
  let live := if given r then new (.segment k r) live else live
  let live := new (.manager k r) live
  if count r ≠ 0 ∧ !given r then
    if luck.segment r then (new (.segment k r) live, ⟨some (.segment k r), some (.manager k r)⟩, kSuccess)
    else (live, ⟨none, some (.manager k r)⟩, kAllocationError)
  else (live, ⟨if given r then some (.segment k r) else none, some (.manager k r)⟩, kSuccess)

/-- All ranks, array.h:542-590; the return codes are reduced with the maximum, so that the result is the same on each rank (property C50). -/
def allocRanks (k : Nat) (luck : Luck) (count : Nat → Nat) (given : Nat → Bool) :
    List Nat → State → Int → State × Int
  | [], s, code => (s, code)
  | r :: rs, s, code =>
    let (live, slot, c) := allocRank k luck count given r s.live
    allocRanks k luck count given rs { s with live := live, slot := fun q => if q = r then slot else s.slot q } (max code c)

/-- `Array::allocate` on `n` ranks, array.h:137-164. The result of the call is the same on all ranks. -/
def allocate (n : Nat) (luck : Luck) (count : Nat → Nat) (given : Nat → Bool) (s : State) : Option (State × Int) := do
  if s.handle.isSome then return (s, kDomainError)
  let (live, _, red, ret, code) ← allocMeta s.next luck s.live
  let s := { s with live := live, next := s.next + 1 }
  if code ≠ kSuccess then return (s, code)
  let (s, code) := allocRanks (s.next - 1) luck count given (List.range n) { s with handle := some (s.next - 1) } 0
  let live ← free red s.live
  let live ← free ret live
  return ({ s with live := live }, if code ≠ kSuccess then kAllocationError else kSuccess)

/-- `deallocate_array_local_handler`, array.h:625-641, on the ranks. `delete` of a null `manager` would do nothing. -/
def destroyRanks : List Nat → State → Option State
  | [], s => some s
  | r :: rs, s => do
    let live ← release (s.slot r).data s.live
    let live ← release (s.slot r).manager live
    destroyRanks rs { s with live := live }

/-- `Array::destroy`, array.h:174-181, with `deallocate_array_handler`, 611-615: for an array that is not allocated the pin of the metadata fails an assertion. -/
def destroy (n : Nat) (s : State) : Option State := do
  let k ← s.handle
  let s ← destroyRanks (List.range n) s
  let live ← free (some (.metadata k)) s.live
  return { s with live := live, handle := none }

/-- `array_set_manager_handler`, array.h:909-921, on the ranks; `id` stands for the objects the ranks hand over. -/
def setRanks (id : Nat) : List Nat → State → Option State
  | [], s => some s
  | r :: rs, s => do
    let live ← release (s.slot r).manager s.live
    setRanks id rs { s with live := new (.manager id r) live
                            slot := fun q => if q = r then ⟨(s.slot q).data, some (.manager id r)⟩ else s.slot q }

/-- `Array::set_manager`, array.h:385-392. -/
def setManager (n : Nat) (s : State) : Option State := do
  let _ ← s.handle
  setRanks s.next (List.range n) { s with next := s.next + 1 }

/-- The calls of a program on an array. -/
inductive Call
  | allocate (luck : Luck) (count : Nat → Nat) (given : Nat → Bool)
  | destroy
  | setManager

/-- One call, on `n` ranks. -/
def Call.run (n : Nat) (s : State) : Call → Option State
  | .allocate luck count given => (ArrayLife.allocate n luck count given s).map (·.1)
  | .destroy => ArrayLife.destroy n s
  | .setManager => ArrayLife.setManager n s

end Dashmm.ArrayLife
