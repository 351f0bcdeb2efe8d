/-
Model of the buffers in /repo/include/dashmm/buffer.h.

Memory is a function from addresses to bytes; a buffer holds the addresses and sizes the C++ object
holds.  Simplification: addresses and sizes are unbounded naturals.
-/
namespace Dashmm

abbrev Byte := UInt8
/-- Byte-addressed memory. -/
abbrev Mem := Nat → Byte

/-- `memcpy(dst, data, data.length)`. -/
def Mem.store (m : Mem) (dst : Nat) (data : List Byte) : Mem := fun a =>
  if dst ≤ a ∧ a < dst + data.length then data.getD (a - dst) 0 else m a

/-- The `n` bytes of memory starting at `a`. -/
def Mem.load (m : Mem) (a n : Nat) : List Byte := (List.range n).map fun i => m (a + i)

/-- `class Buffer`, include/dashmm/buffer.h:38-79: `base_`, `offset_`, `total_`, `remain_`. -/
structure Buffer where
  base : Nat
  offset : Nat
  total : Nat
  remain : Nat
  deriving DecidableEq, Repr

namespace Buffer

/-- `Buffer::Buffer(char *base, size_t total)`, include/dashmm/buffer.h:41-42 (also 86 and 165). -/
def new (base total : Nat) : Buffer := ⟨base, base, total, total⟩

/-- `Buffer::complete()`, include/dashmm/buffer.h:57. -/
def complete (b : Buffer) : Bool := b.remain == 0

/-- `Buffer::advance(size_t bytes)`, include/dashmm/buffer.h:66-72. -/
def advance (b : Buffer) (bytes : Nat) : Buffer × Bool :=
  if b.complete then (b, false)
  else
    let adv := if bytes ≤ b.remain then bytes else b.remain
    ({ b with offset := b.offset + adv, remain := b.remain - adv }, adv == bytes)

/-- `ReadBuffer::read(char *data, size_t bytes)`, include/dashmm/buffer.h:99-109. Returns the bytes
copied out, the new buffer, and the returned flag. -/
def read (m : Mem) (b : Buffer) (bytes : Nat) : List Byte × Buffer × Bool :=
  if b.complete then ([], b, false)
  else
    let toread := if bytes ≤ b.remain then bytes else b.remain
    (m.load b.offset toread,
     { b with offset := b.offset + toread, remain := b.remain - toread },
     toread == bytes)

/-- `ReadBuffer::interpret<T>()` / `interpret_array<T>(n)`, include/dashmm/buffer.h:129-157;
`bytes` is `sizeof(T)` resp. `sizeof(T) * n`. Returns the pointer (`none` is `nullptr`). -/
def interpret (b : Buffer) (bytes : Nat) : Option Nat × Buffer :=
  let r := b.advance bytes
  (if r.2 then some b.offset else none, r.1)

/-- `WriteBuffer::write(const char *data, size_t bytes)`, include/dashmm/buffer.h:178-188; also
`write(const T value)` (219-222), which forwards to it. -/
def write (m : Mem) (b : Buffer) (data : List Byte) : Mem × Buffer × Bool :=
  if b.complete then (m, b, false)
  else
    let towrite := if data.length ≤ b.remain then data.length else b.remain
    (m.store b.offset (data.take towrite),
     { b with offset := b.offset + towrite, remain := b.remain - towrite },
     towrite == data.length)

/-- `WriteBuffer::write(ReadBuffer &input)`, include/dashmm/buffer.h:200-216. Returns memory, this
buffer, the input buffer and the flag. Simplification: the two regions do not overlap (for `memcpy`
overlap is undefined); the inner `assert(e)` cannot fail (`towrite > 0` and
`towrite ≤ input.remain`), see `C04_buffer_write_readbuffer`. -/
def writeFrom (m : Mem) (b input : Buffer) : Mem × Buffer × Buffer × Bool :=
  if b.complete then (m, b, input, false)
  else
    let inputleft := input.remain
    let towrite := if inputleft ≤ b.remain then inputleft else b.remain
    let r := if towrite ≠ 0 then
        let rd := read m input towrite
        (m.store b.offset rd.1, rd.2.1)
      else (m, input)
    (r.1, { b with offset := b.offset + towrite, remain := b.remain - towrite }, r.2,
     towrite == inputleft)

/-- `WriteBuffer::write(const T *value, size_t count)`, include/dashmm/buffer.h:226-236; `data` is
the object representation of the `count` objects. -/
def writeArray (m : Mem) (b : Buffer) (data : List Byte) : Mem × Buffer × Bool :=
  if b.remain < data.length then (m, b, false)
  else
    (m.store b.offset data,
     { b with offset := b.offset + data.length, remain := b.remain - data.length }, true)

end Buffer
end Dashmm
