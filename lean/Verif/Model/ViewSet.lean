import Verif.Model.Buffer
/-
Model of `dashmm::ViewSet` (/repo/include/dashmm/viewset.h, /repo/src/viewset.cc).

Scalars are given by their bit patterns and stored little-endian (x86-64; `int` and enums 4 bytes,
`double` and `size_t` 8 bytes).  A view's `data` pointer together with its `bytes` is represented by
the list of the `bytes` bytes it points to.  A failing `assert` is the outcome `none`.
-/
namespace Dashmm

/-- Object representation of a `k`-byte scalar holding `n` (little-endian). -/
def leBytes : Nat → Nat → List Byte
  | 0, _ => []
  | k + 1, n => UInt8.ofNat (n % 256) :: leBytes k (n / 256)

/-- The value of a little-endian object representation. -/
def ofLe : List Byte → Nat
  | [] => 0
  | b :: bs => b.toNat + 256 * ofLe bs

/-- `struct View`, include/dashmm/viewset.h:33-37. `data` stands for the pointer and its
`bytes` bytes. -/
structure View where
  index : BitVec 32
  data : List Byte
  deriving DecidableEq, Repr

/-- `class ViewSet`, include/dashmm/viewset.h:58-162: `views_`, `role_`, `center_`, `scale_`
(doubles as bit patterns). -/
structure ViewSet where
  views : List View
  role : BitVec 32
  cx : BitVec 64
  cy : BitVec 64
  cz : BitVec 64
  scale : BitVec 64
  deriving DecidableEq, Repr

namespace ViewSet

/-- `ViewSet::bytes()`, src/viewset.cc:41-54. -/
def bytes (v : ViewSet) : Nat :=
  let retval := (v.views.map fun w => w.data.length).sum
  let retval := retval + 4
  let retval := retval + 4
  let retval := retval + 4 * 8
  let retval := retval + v.views.length * 4
  retval + v.views.length * 8

/-- A `write` whose returned flag is asserted: `e = buffer.write(..); assert(e);`. -/
def writeA (d : List Byte) (s : Mem × Buffer) : Option (Mem × Buffer) :=
  let r := Buffer.write s.1 s.2 d
  if r.2.2 then some (r.1, r.2.1) else none

/-- The loop writing index and size of each view, src/viewset.cc:75-80. -/
def serializeHeads : List View → Mem × Buffer → Option (Mem × Buffer)
  | [], s => some s
  | w :: ws, s => do
    let s ← writeA (leBytes 4 w.index.toNat) s
    let s ← writeA (leBytes 8 w.data.length) s
    serializeHeads ws s

/-- The loop writing the data of each view, src/viewset.cc:83-86. -/
def serializeData : List View → Mem × Buffer → Option (Mem × Buffer)
  | [], s => some s
  | w :: ws, s => do
    let s ← writeA w.data s
    serializeData ws s

/-- `ViewSet::serialize(WriteBuffer &)`, src/viewset.cc:57-87. -/
def serialize (v : ViewSet) (s : Mem × Buffer) : Option (Mem × Buffer) := do
  let s ← writeA (leBytes 4 v.role.toNat) s
  let s ← writeA (leBytes 4 v.views.length) s
  let s ← writeA (leBytes 8 v.cx.toNat) s
  let s ← writeA (leBytes 8 v.cy.toNat) s
  let s ← writeA (leBytes 8 v.cz.toNat) s
  let s ← writeA (leBytes 8 v.scale.toNat) s
  let s ← serializeHeads v.views s
  serializeData v.views s

/-- A `read` whose returned flag is asserted; yields the scalar read. -/
def readA (m : Mem) (n : Nat) (b : Buffer) : Option (Nat × Buffer) :=
  let r := Buffer.read m b n
  if r.2.2 then some (ofLe r.1, r.2.1) else none

/-- The loop reading index and size of each view, src/viewset.cc:113-122. -/
def interpretHeads (m : Mem) : Nat → Buffer → Option (List (BitVec 32 × Nat) × Buffer)
  | 0, b => some ([], b)
  | n + 1, b => do
    let (idx, b) ← readA m 4 b
    let (bts, b) ← readA m 8 b
    let (rest, b) ← interpretHeads m n b
    some ((BitVec.ofNat 32 idx, bts) :: rest, b)

/-- The loop setting the data pointers, src/viewset.cc:124-128. -/
def interpretData (m : Mem) : List (BitVec 32 × Nat) → Buffer → Option (List View × Buffer)
  | [], b => some ([], b)
  | (idx, bts) :: rest, b => do
    let data := m.load b.offset bts
    let r := b.advance bts
    let b ← (if r.2 then some r.1 else none)
    let (ws, b) ← interpretData m rest b
    some (⟨idx, data⟩ :: ws, b)

/-- `ViewSet::interpret(ReadBuffer &)`, src/viewset.cc:90-129. A count with the sign bit set would
be a negative `int` and run no iteration. -/
def interpret (m : Mem) (b : Buffer) : Option (ViewSet × Buffer) := do
  let (role, b) ← readA m 4 b
  let (ct, b) ← readA m 4 b
  let (x, b) ← readA m 8 b
  let (y, b) ← readA m 8 b
  let (z, b) ← readA m 8 b
  let (sc, b) ← readA m 8 b
  let n := if ct < 2 ^ 31 then ct else 0
  let (heads, b) ← interpretHeads m n b
  let (ws, b) ← interpretData m heads b
  some (⟨ws, BitVec.ofNat 32 role, BitVec.ofNat 64 x, BitVec.ofNat 64 y, BitVec.ofNat 64 z,
    BitVec.ofNat 64 sc⟩, b)

end ViewSet
end Dashmm
