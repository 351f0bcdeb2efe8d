import Verif.Model.Reduce
import Verif.Model.Buffer
/-
Model of /repo/include/dashmm/array.h and arrayref.h.

Records are of an arbitrary type `T`. A segment is a list of records; a null pointer is `none`.
`Option` results: `none` means that the program has undefined behaviour (access outside an
allocation) or that an assertion fails. All per-rank values are functions of the rank, `Fin n`.
Not modelled: failure of `hpx_gas_try_pin` on the own block.
-/
namespace Dashmm

/-- The integer values of `ReturnCode`, include/dashmm/types.h. -/
def kSuccess : Int := 0
def kAllocationError : Int := 3
def kDomainError : Int := 6

namespace Arr

/-- `ArrayRef`: the address of the first record, relative to the array's first record (`none` is
`nullptr`), and the number of records, include/dashmm/arrayref.h:44-97. -/
structure Ref where
  data : Option Nat
  n : Nat
  deriving DecidableEq, Repr

/-- `ArrayRef::valid`, include/dashmm/arrayref.h:56. -/
def Ref.valid (r : Ref) : Bool := r.data.isSome

/-- `ArrayRef::slice(size_t offset, size_t n)`, include/dashmm/arrayref.h:69-78. The sum is computed
in `size_t`. -/
def Ref.slice (r : Ref) (offset n : Nat) : Ref :=
  if offset > r.n then ⟨none, 0⟩
  else if (offset + n) % sizeMod > r.n then ⟨none, 0⟩
  else ⟨r.data.map (· + offset), n⟩

variable {T : Type}

/-- `ArrayMetaData`, include/dashmm/arraymetadata.h:37-42 (the manager is a parameter of the
operations that use it). -/
structure Local (T : Type) where
  data : Option (List T)
  localCount : Nat
  totalCount : Nat

/-- What a rank passes to `Array::allocate`: `record_count` and `segment`. -/
structure Request (T : Type) where
  count : Nat
  segment : Option (List T)

/-- The contribution of a rank to the reduction of the counts, include/dashmm/array.h:551-557. -/
def contrib {n : Nat} (rank : Fin n) (count : Nat) : Fin n → Nat :=
  fun i => if i ≥ rank then count else 0

/-- The part of `allocate_local_work_handler` after the counts were reduced,
include/dashmm/array.h:562-588: the metadata written and the return code contributed. `newOk` says
whether `new T[record_count]` succeeds. -/
def allocLocal [Inhabited T] {n : Nat} (sums : Fin n → Nat) (hn : 0 < n) (newOk : Bool)
    (r : Request T) : Local T × Int :=
  let total := sums ⟨n - 1, by omega⟩
  if r.count ≠ 0 ∧ r.segment.isNone then
    if newOk then (⟨some (List.replicate r.count default), r.count, total⟩, 0)
    else (⟨none, r.count, total⟩, kAllocationError)
  else (⟨r.segment, r.count, total⟩, 0)

/-- `Array::allocate` on all ranks, include/dashmm/array.h:137-164, with
`allocate_array_meta_handler` (497-526) and `allocate_local_work_handler` (542-589). The state of the
array object is `none` if `data_` is `HPX_NULL`. `order1`, `order2` are the orders in which the
ranks' contributions reach the two reduction LCOs; `metaOk` says whether the metadata and the LCOs
could be allocated. Returns what each rank's call returns, and the new state. -/
def allocate [Inhabited T] {n : Nat} (hn : 0 < n) (order1 order2 : List (Fin n)) (metaOk : Bool)
    (newOk : Fin n → Bool) (req : Fin n → Request T) (a : Option (Fin n → Local T)) :
    (Fin n → Int) × Option (Fin n → Local T) :=
  match a with
  | some _ => (fun _ => kDomainError, a)
  | none =>
    if metaOk then
      let sums := Reduce.lco Reduce.sizeSumIdent Reduce.sizeSumOp
        (order1.map fun r => contrib r (req r).count)
      let out := fun r => allocLocal sums hn (newOk r) (req r)
      let code := Reduce.lco Reduce.intMaxIdent Reduce.intMaxOp
        (order2.map fun r => fun _ : Fin 1 => (out r).2)
      (fun _ => if code 0 ≠ kSuccess then kAllocationError else kSuccess,
       some fun r => (out r).1)
    else (fun _ => kAllocationError, none)

/-- `std::copy(&src[lo], &src[hi], &dst[pos])` between two allocations. -/
def copyInto (src : List T) (lo hi : Nat) (dst : List T) (pos : Nat) : Option (List T) :=
  if lo ≤ hi ∧ hi ≤ src.length ∧ pos + (hi - lo) ≤ dst.length then
    some (dst.take pos ++ (src.drop lo).take (hi - lo) ++ dst.drop (pos + (hi - lo)))
  else none

/-- The copying part of `array_get_handler`, include/dashmm/array.h:683-700: the new contents of
`out_data` and the return code contributed by the rank. -/
def getLocal (l : Local T) (first last : Nat) (out : List T) : Option (List T × Int) :=
  if last > l.localCount ∨ last < first then some (out, kDomainError)
  else if l.localCount ≠ 0 then
    match l.data with
    | none => none
    | some d => (copyInto d first last out 0).map fun o => (o, kSuccess)
  else some (out, kSuccess)

/-- The copying part of `array_put_handler`, include/dashmm/array.h:727-744: the new local segment
and the return code contributed. The copy reads `in_data[0 .. last)` and writes from
`local->data[first]` on, as in the code. -/
def putLocal (l : Local T) (first last : Nat) (inData : List T) : Option (Local T × Int) :=
  if last > l.localCount ∨ last < first then some (l, kDomainError)
  else if l.localCount ≠ 0 then
    match l.data with
    | none => none
    | some d => (copyInto inData 0 last d first).map fun d' => ({ l with data := some d' }, kSuccess)
  else some (l, kSuccess)

/-- The return code all ranks get from `get` and `put`, include/dashmm/array.h:702-706 and 746-749:
the maximum of the contributed codes, arriving in the order `order`. -/
def retcode {n : Nat} (order : List (Fin n)) (codes : Fin n → Int) : Int :=
  Reduce.lco Reduce.intMaxIdent Reduce.intMaxOp (order.map fun r => fun _ : Fin 1 => codes r) 0

/-- `Array::get` on all ranks, include/dashmm/array.h:202-215 and 678-707: the contents of the ranks'
output buffers and the code every rank gets. -/
def get {n : Nat} (order : List (Fin n)) (l : Fin n → Local T) (first last : Fin n → Nat)
    (out : Fin n → List T) : Option ((Fin n → List T) × Int) :=
  if h : ∀ r, (getLocal (l r) (first r) (last r) (out r)).isSome then
    some (fun r => ((getLocal (l r) (first r) (last r) (out r)).get (h r)).1,
      retcode order fun r => ((getLocal (l r) (first r) (last r) (out r)).get (h r)).2)
  else none

/-- `Array::put` on all ranks, include/dashmm/array.h:236-249 and 722-750. -/
def put {n : Nat} (order : List (Fin n)) (l : Fin n → Local T) (first last : Fin n → Nat)
    (inData : Fin n → List T) : Option ((Fin n → Local T) × Int) :=
  if h : ∀ r, (putLocal (l r) (first r) (last r) (inData r)).isSome then
    some (fun r => ((putLocal (l r) (first r) (last r) (inData r)).get (h r)).1,
      retcode order fun r => ((putLocal (l r) (first r) (last r) (inData r)).get (h r)).2)
  else none

/-! ### collect -/

/-- A `Serializer`, include/dashmm/serializer.h:40-77. `deserialize` gets the bytes from the buffer
pointer on and returns the record and the bytes after it; `none` is undefined behaviour. -/
structure Serializer (T : Type) where
  size : T → Nat
  serialize : T → List Byte
  deserialize : List Byte → Option (T × List Byte)

/-- What the documentation of `Serializer` asks of a serializer. -/
structure Serializer.Ok (s : Serializer T) : Prop where
  size_eq : ∀ x, s.size x = (s.serialize x).length
  roundtrip : ∀ x rest, s.deserialize (s.serialize x ++ rest) = some (x, rest)

/-- Pending work of a collect: a call of `array_collect_request_` on a rank (`location` is the index
in the result array), or a call of `array_collect_receive_` on rank 0 with the bytes between
`incoming` and `final` and the index `location + i`. -/
inductive CTask (n : Nat) where
  | request (rank : Fin n) (location : Nat)
  | receive (incoming : List Byte) (location : Nat)

/-- State of a collect: the result array, pending tasks, number of completions set on `done`. -/
structure CState (T : Type) (n : Nat) where
  mem : List T
  tasks : List (CTask n)
  done : Nat

/-- `offsets[i]`, include/dashmm/array.h:797-802. -/
def offset {n : Nat} (l : Fin n → Local T) (i : Nat) : Nat :=
  (((List.finRange n).take i).map fun r => (l r).localCount).sum

/-- The state after the loop of calls in `array_collect_handler`, include/dashmm/array.h:783-817.
`mem` is the newly allocated array of `total_count` (rank 0) records. -/
def collectStart {n : Nat} (l : Fin n → Local T) (mem : List T) : CState T n :=
  ⟨mem, (List.finRange n).map fun r => .request r (offset l r), 0⟩

/-- The bytes of records written into the parcel by `array_collect_request_handler`,
include/dashmm/array.h:835-865: `none` if the writes leave the parcel; `pad` is what the rest of the
parcel contains if the records need less than the size asked for. -/
def payload (s : Serializer T) (l : Local T) (pad : List Byte) : Option (List Byte) :=
  if l.localCount = 0 then some []
  else
    match l.data with
    | none => none
    | some d =>
      if d.length < l.localCount then none
      else
        let recs := d.take l.localCount
        let bytes := (recs.map s.serialize).flatten
        let arrsize := (recs.map s.size).sum
        if bytes.length > arrsize then none
        else some (bytes ++ pad.take (arrsize - bytes.length))

/-- One step of a collect: some pending task proceeds. The receive handler
(include/dashmm/array.h:884-903) proceeds record by record, so that handlers of different messages
interleave arbitrarily; when a handler returns its continuation sets `done` (870-871). -/
inductive CStep {n : Nat} (s : Serializer T) (l : Fin n → Local T) : CState T n → CState T n → Prop
  | request {mem done} {a b : List (CTask n)} {r loc pad bytes} :
      payload s (l r) pad = some bytes →
      CStep s l ⟨mem, a ++ .request r loc :: b, done⟩ ⟨mem, a ++ .receive bytes loc :: b, done⟩
  | record {mem done} {a b : List (CTask n)} {bytes loc x rest} :
      bytes ≠ [] → s.deserialize bytes = some (x, rest) → loc < mem.length →
      CStep s l ⟨mem, a ++ .receive bytes loc :: b, done⟩
        ⟨mem.set loc x, a ++ .receive rest (loc + 1) :: b, done⟩
  | finish {mem done} {a b : List (CTask n)} {loc} :
      CStep s l ⟨mem, a ++ .receive [] loc :: b, done⟩ ⟨mem, a ++ b, done + 1⟩

/-- States of a collect reachable under any schedule. -/
inductive CReach {n : Nat} (s : Serializer T) (l : Fin n → Local T) (mem : List T) :
    CState T n → Prop
  | start : CReach s l mem (collectStart l mem)
  | step {c c'} : CReach s l mem c → CStep s l c c' → CReach s l mem c'

end Arr
end Dashmm
