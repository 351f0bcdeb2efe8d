import Verif.Model.Buffer
/-! Helper lemmas about memory and buffers. -/
namespace Dashmm

theorem Mem.load_length (m : Mem) (a n : Nat) : (m.load a n).length = n := by simp [Mem.load]

theorem Mem.load_succ (m : Mem) (a n : Nat) : m.load a (n + 1) = m a :: m.load (a + 1) n := by
  simp only [Mem.load, List.range_succ_eq_map, List.map_cons, List.map_map, Nat.add_zero]
  congr 1
  apply List.map_congr_left
  intro i _
  simp only [Function.comp_apply, Nat.succ_eq_add_one]
  congr 1
  omega

theorem Mem.load_add (m : Mem) (a k n : Nat) : m.load a (k + n) = m.load a k ++ m.load (a + k) n := by
  induction k generalizing a with
  | zero => simp [Mem.load]
  | succ k ih =>
    rw [show k + 1 + n = (k + n) + 1 by omega, load_succ, load_succ, ih]
    simp [Nat.add_comm, Nat.add_left_comm]

theorem Mem.store_out (m : Mem) (dst : Nat) (d : List Byte) (a : Nat)
    (h : a < dst ∨ dst + d.length ≤ a) : m.store dst d a = m a := by
  unfold Mem.store
  rw [if_neg]; omega

theorem Mem.load_store_disjoint (m : Mem) (dst : Nat) (d : List Byte) (a n : Nat)
    (h : a + n ≤ dst ∨ dst + d.length ≤ a) : (m.store dst d).load a n = m.load a n := by
  unfold Mem.load
  apply List.map_congr_left
  intro i hi
  rw [List.mem_range] at hi
  exact Mem.store_out _ _ _ _ (by omega)

theorem Mem.load_store_same (m : Mem) (dst : Nat) (d : List Byte) :
    (m.store dst d).load dst d.length = d := by
  apply List.ext_getElem
  · simp [Mem.load]
  · intro i h1 h2
    simp [Mem.load, Mem.store, h2]

namespace Buffer

/-- The invariant of a buffer: the cursor and what remains add up to the whole. -/
def Ok (b : Buffer) : Prop := b.base ≤ b.offset ∧ b.offset + b.remain = b.base + b.total

theorem ok_new (base total : Nat) : (new base total).Ok := by simp [Ok, new]

theorem advance_ok {b : Buffer} (h : b.Ok) (n : Nat) :
    (b.advance n).1.Ok ∧ (b.advance n).1.base = b.base ∧ (b.advance n).1.total = b.total := by
  unfold advance Ok at *
  split
  · exact ⟨h, rfl, rfl⟩
  · refine ⟨⟨?_, ?_⟩, rfl, rfl⟩ <;> simp only <;> split <;> omega

theorem read_snd (m : Mem) (b : Buffer) (n : Nat) : (read m b n).2 = b.advance n := by
  unfold read advance
  split <;> rfl

theorem write_snd (m : Mem) (b : Buffer) (d : List Byte) : (write m b d).2 = b.advance d.length := by
  unfold write advance
  split <;> rfl

theorem write_mem_out (m : Mem) (b : Buffer) (h : b.Ok) (d : List Byte) (a : Nat)
    (ha : a < b.base ∨ b.base + b.total ≤ a) : (write m b d).1 a = m a := by
  unfold write Ok at *
  split
  · rfl
  · apply Mem.store_out
    simp only [List.length_take]
    split <;> omega

theorem write_success {m : Mem} {b : Buffer} {d : List Byte} (h0 : b.remain ≠ 0)
    (h : d.length ≤ b.remain) :
    write m b d = (m.store b.offset d,
      { b with offset := b.offset + d.length, remain := b.remain - d.length }, true) := by
  simp [write, complete, h0, h]

theorem write_exhausted {m : Mem} {b : Buffer} {d : List Byte} (h0 : b.remain = 0) :
    write m b d = (m, b, false) := by
  simp [write, complete, h0]

theorem read_success {m : Mem} {b : Buffer} {n : Nat} (h0 : b.remain ≠ 0)
    (h : n ≤ b.remain) :
    read m b n = (m.load b.offset n,
      { b with offset := b.offset + n, remain := b.remain - n }, true) := by
  simp [read, complete, h0, h]

theorem advance_success {b : Buffer} {n : Nat} (h0 : b.remain ≠ 0)
    (h : n ≤ b.remain) :
    advance b n = ({ b with offset := b.offset + n, remain := b.remain - n }, true) := by
  simp [advance, complete, h0, h]

end Buffer
end Dashmm
