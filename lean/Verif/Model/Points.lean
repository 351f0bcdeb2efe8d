import Verif.Model.ViewSet
import Verif.Model.Array
/-
Model of the messages with points: `DualTree::send_points_handler` (/repo/include/dashmm/dualtree.h:1004-1137)
and `DualTree::recv_points_handler` (dualtree.h:853-985).

Simplifications: `int` has 4 and `hpx_addr_t` 8 bytes, both little-endian; `int`s are natural numbers;
a null pointer or an index out of range does not occur (the ranges of the slices are hypotheses of the
theorems); the waits for `unif_done_` and `done` and the tasks that do the merging are modelled in `Model/Merge`
and `Model/Exchange`; here the receiver only yields which merges it asks for.
-/
namespace Dashmm
namespace Points
open Arr (Serializer)

variable {S T : Type}

/-- What both ranks know: `dim3_`, `rank_map_` (`rank_of_unif_grid`), `same_sandt_` and the serializers of
the arrays. -/
structure Env (S T : Type) where
  dim3 : Nat
  rankOf : Nat → Nat
  same : Bool
  ss : Serializer S
  st : Serializer T

/-- `for (i = 0; i < dim3_; ++i) if (rank_of_unif_grid(i) == rank)`: the cells of a rank, in order. -/
def owned (E : Env S T) (rank : Nat) : List Nat := (List.range E.dim3).filter fun i => E.rankOf i == rank

/-- The arguments of the sender: `count_s`, `count_t`, `offset_s`, `offset_t`, `sources`, `targets` and the three
addresses. -/
structure Args (S T : Type) where
  countS : Nat → Nat
  countT : Nat → Nat
  offsetS : Nat → Nat
  offsetT : Nat → Nat
  sources : List S
  targets : List T
  rw : Nat
  smeta : Nat
  tmeta : Nat

/-- `data[offset[i] + j]` for `j < count[i]`. -/
def slice {R : Type} (data : List R) (offset count : Nat → Nat) (i : Nat) : List R := (data.drop (offset i)).take (count i)

/-- `send_ns`, include/dashmm/dualtree.h:1018-1026. -/
def sendNs (E : Env S T) (a : Args S T) (rank : Nat) : Nat := (owned E rank).foldl (fun n i => n + a.countS i) 0

/-- `send_nt`, include/dashmm/dualtree.h:1018-1031. -/
def sendNt (E : Env S T) (a : Args S T) (rank : Nat) : Nat :=
  if E.same then 0 else (owned E rank).foldl (fun n i => n + a.countT i) 0

/-- The size asked for the parcel, include/dashmm/dualtree.h:1043-1067. (`bytes += bytes_source` adds the running
total of all cells so far, so that more is allocated than needed.) -/
def parcelBytes (E : Env S T) (a : Args S T) (rank : Nat) : Nat :=
  let range := (owned E rank).length
  let bytes := 8 * 3 + 4 * 3
  let bytes := if sendNs E a rank ≠ 0 then
      ((owned E rank).foldl (fun (b : Nat × Nat) i =>
        let bs := (slice a.sources a.offsetS a.countS i).foldl (fun n x => n + E.ss.size x) b.2
        (b.1 + bs, bs)) (bytes + 4 * range, 0)).1
    else bytes
  if sendNt E a rank ≠ 0 then
    (owned E rank).foldl (fun b i => (slice a.targets a.offsetT a.countT i).foldl (fun n x => n + E.st.size x) b) (bytes + 4 * range)
  else bytes

/-- Writing the chunks one after the other; yields the address after them. -/
def storeAll (s : Mem × Nat) (ds : List (List Byte)) : Mem × Nat :=
  ds.foldl (fun s d => (s.1.store s.2 d, s.2 + d.length)) s

/-- Filling the parcel at address `p`, include/dashmm/dualtree.h:1069-1129; also yields the last value of `meta_s`. -/
def fill (E : Env S T) (a : Args S T) (rank p : Nat) (m : Mem) : Mem × Nat :=
  let own := owned E rank
  let range := own.length
  let ns := sendNs E a rank
  let nt := sendNt E a rank
  let (m, _) := storeAll (m, p) [leBytes 8 a.rw, leBytes 8 a.smeta, leBytes 8 a.tmeta]
  let (m, count) := storeAll (m, p + 3 * 8) [leBytes 4 range, leBytes 4 ns, leBytes 4 nt]
  let (m, count) := if ns ≠ 0 then storeAll (m, count) (own.map fun i => leBytes 4 (a.countS i)) else (m, count)
  let (m, _) := if nt ≠ 0 then storeAll (m, count) (own.map fun i => leBytes 4 (a.countT i)) else (m, count)
  let metaS := p + 3 * 8 + 4 * (3 + range * (if ns > 0 then 1 else 0) + range * (if nt > 0 then 1 else 0))
  let (m, metaS) := if ns ≠ 0 then
      storeAll (m, metaS) ((own.flatMap fun i => slice a.sources a.offsetS a.countS i).map E.ss.serialize)
    else (m, metaS)
  if nt ≠ 0 then
    storeAll (m, metaS) ((own.flatMap fun i => slice a.targets a.offsetT a.countT i).map E.st.serialize)
  else (m, metaS)

/-- `*(int *) a`. -/
def readInt (m : Mem) (a : Nat) : Nat := ofLe (m.load a 4)

/-- The deserialization loops, include/dashmm/dualtree.h:890-902; `none` if a serializer fails. -/
def deserializeN {R : Type} (s : Serializer R) : Nat → List Byte → Option (List R × List Byte)
  | 0, bs => some ([], bs)
  | n + 1, bs =>
    match s.deserialize bs with
    | none => none
    | some (x, bs) =>
      match deserializeN s n bs with
      | none => none
      | some (xs, bs) => some (x :: xs, bs)

/-- `*(hpx_addr_t *) a`. -/
def readAddr (m : Mem) (a : Nat) : Nat := ofLe (m.load a 8)

/-- What the receiver asks for: the addresses of the dual tree and of the two arrays, for each tree the merges (cell and points; for identical sources and targets only the number of
points), and how many times `done` is set, directly or when a merge has finished. -/
structure Received (S T : Type) where
  rw : Nat
  smeta : Nat
  tmeta : Nat
  range : Nat
  mergeS : List (Nat × List S)
  mergeT : List (Nat × List T)
  mergeSame : List (Nat × Nat)
  sets : Nat

/-- Body of the loop over the cells, include/dashmm/dualtree.h:911-925 and 940-954: `offset`, `current_box`, the
merges, the number of sets. -/
def mergeLoop {R : Type} (recs : List R) (count : Nat → Nat) (own : List Nat) : Nat × Nat × List (Nat × List R) × Nat :=
  own.foldl (fun s i =>
    let incoming := count s.2.1
    if incoming ≠ 0 then
      (s.1 + incoming, s.2.1 + 1, s.2.2.1 ++ [(i, (recs.drop s.1).take incoming)], s.2.2.2 + 1)
    else (s.1, s.2.1 + 1, s.2.2.1, s.2.2.2 + 1)) (0, 0, [], 0)

/-- `recv_points_handler` on rank `rank`, include/dashmm/dualtree.h:853-985, with the message of `bytes` bytes at `p`;
`none` if an assertion or a serializer fails. -/
def recv (E : Env S T) (rank p bytes : Nat) (m : Mem) : Option (Received S T) :=
  let range := readInt m (p + 3 * 8)
  let ns := readInt m (p + 3 * 8 + 4)
  let nt := readInt m (p + 3 * 8 + 8)
  let countS := fun k => readInt m (p + 3 * 8 + 4 * (3 + k))
  let countT := fun k => readInt m (p + 3 * 8 + 4 * (3 + range * (if ns > 0 then 1 else 0) + k))
  let recvS := p + 4 * 3 + 3 * 8 + 4 * range * (if ns > 0 then 1 else 0) + 4 * range * (if nt > 0 then 1 else 0)
  match deserializeN E.ss ns (m.load recvS (p + bytes - recvS)) with
  | none => none
  | some (sources, rest) =>
    match (if nt ≠ 0 then deserializeN E.st nt rest else some ([], rest)) with
    | none => none
    | some (targets, _) =>
      let own := owned E rank
      let s := if ns ≠ 0 then mergeLoop sources countS own else (0, range, [], range)
      let t := if nt ≠ 0 then mergeLoop targets countT own else (0, range, [], range)
      let same := if nt = 0 ∧ E.same = true ∧ ns ≠ 0 then
        own.foldl (fun (s : Nat × List (Nat × Nat) × Nat) i =>
          if countS s.1 ≠ 0 then (s.1 + 1, s.2.1 ++ [(i, countS s.1)], s.2.2 + 1) else (s.1 + 1, s.2.1, s.2.2 + 1)) (0, [], 0)
        else (range, [], if nt = 0 then range else 0)
      if s.2.1 ≠ range ∨ t.2.1 ≠ range ∨ same.1 ≠ range then none
      else some ⟨readAddr m p, readAddr m (p + 8), readAddr m (p + 16), range, s.2.2.1, t.2.2.1, same.2.1, s.2.2.2 + (if nt ≠ 0 then t.2.2.2 else 0) + same.2.2⟩

end Points
end Dashmm
