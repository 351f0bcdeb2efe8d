import Verif.Proofs.Buffer
/-!
Properties of the serialization buffers (C04, C05).
-/
namespace Dashmm

/-- A user-visible operation on a buffer. -/
inductive BufOp where
  | read (bytes : Nat)
  | advance (bytes : Nat)
  | interpret (bytes : Nat)
  | write (data : List Byte)
  | writeArray (data : List Byte)
  | writeFrom (input : Buffer)

/-- The state after one operation: memory and buffer. -/
def BufOp.run (s : Mem × Buffer) : BufOp → Mem × Buffer
  | .read n => (s.1, (Buffer.read s.1 s.2 n).2.1)
  | .advance n => (s.1, (s.2.advance n).1)
  | .interpret n => (s.1, (s.2.interpret n).2)
  | .write d => let r := Buffer.write s.1 s.2 d; (r.1, r.2.1)
  | .writeArray d => let r := Buffer.writeArray s.1 s.2 d; (r.1, r.2.1)
  | .writeFrom i => let r := Buffer.writeFrom s.1 s.2 i; (r.1, r.2.1)

theorem run_inv (s : Mem × Buffer) (h : s.2.Ok) (op : BufOp) :
    (op.run s).2.Ok ∧ (op.run s).2.base = s.2.base ∧ (op.run s).2.total = s.2.total ∧
    (s.2.offset ≤ (op.run s).2.offset) ∧
    ∀ a, (a < s.2.base ∨ s.2.base + s.2.total ≤ a) → (op.run s).1 a = s.1 a := by
  have hadv : ∀ n, s.2.offset ≤ (s.2.advance n).1.offset := by
    intro n; unfold Buffer.advance; split <;> simp
  cases op with
  | read n =>
    have := Buffer.advance_ok h n
    have e : (BufOp.read n).run s = (s.1, (s.2.advance n).1) := by
      simp only [BufOp.run, Buffer.read_snd]
    rw [e]
    exact ⟨this.1, this.2.1, this.2.2, hadv n, fun _ _ => rfl⟩
  | advance n =>
    have := Buffer.advance_ok h n
    exact ⟨this.1, this.2.1, this.2.2, hadv n, fun _ _ => rfl⟩
  | interpret n =>
    have := Buffer.advance_ok h n
    exact ⟨this.1, this.2.1, this.2.2, hadv n, fun _ _ => rfl⟩
  | write d =>
    simp only [BufOp.run, Buffer.write_snd]
    have := Buffer.advance_ok h d.length
    exact ⟨this.1, this.2.1, this.2.2, hadv _, fun a ha => Buffer.write_mem_out _ _ h _ _ ha⟩
  | writeArray d =>
    simp only [BufOp.run, Buffer.writeArray]
    unfold Buffer.Ok at *
    split
    · exact ⟨h, rfl, rfl, Nat.le_refl _, fun _ _ => rfl⟩
    · refine ⟨⟨?_, ?_⟩, rfl, rfl, ?_, ?_⟩
      · simp only; omega
      · simp only; omega
      · simp only; omega
      · intro a ha
        exact Mem.store_out _ _ _ _ (by omega)
  | writeFrom i =>
    simp only [BufOp.run, Buffer.writeFrom]
    unfold Buffer.Ok at *
    split
    · exact ⟨h, rfl, rfl, Nat.le_refl _, fun _ _ => rfl⟩
    · refine ⟨⟨?_, ?_⟩, rfl, rfl, ?_, ?_⟩
      · simp only; split <;> omega
      · simp only; split <;> omega
      · simp only; split <;> omega
      · intro a ha
        simp only
        have hk : (if i.remain ≤ s.2.remain then i.remain else s.2.remain) ≤ s.2.remain := by
          split <;> omega
        generalize (if i.remain ≤ s.2.remain then i.remain else s.2.remain) = k at hk ⊢
        by_cases h0 : k = 0
        · simp [h0]
        · simp only [ne_eq, h0, not_false_eq_true, if_true]
          apply Mem.store_out
          have : (Buffer.read s.1 i k).1.length ≤ s.2.remain := by
            unfold Buffer.read
            split
            · simp
            · simp only [Mem.load_length]; split <;> omega
          omega

/-- C04 (a): under every sequence of operations the cursor stays inside the buffer, never moves
back, what remains is exactly the rest of the buffer, and no byte outside the buffer changes. -/
theorem C04_buffer_never_leaves_its_memory (m : Mem) (base total : Nat) (ops : List BufOp) :
    let s := ops.foldl BufOp.run (m, Buffer.new base total)
    base ≤ s.2.offset ∧ s.2.offset ≤ base + total ∧ s.2.offset + s.2.remain = base + total ∧
    ∀ a, (a < base ∨ base + total ≤ a) → s.1 a = m a := by
  have key : ∀ (ops : List BufOp) (s : Mem × Buffer), s.2.Ok →
      (ops.foldl BufOp.run s).2.Ok ∧ (ops.foldl BufOp.run s).2.base = s.2.base ∧
      (ops.foldl BufOp.run s).2.total = s.2.total ∧
      ∀ a, (a < s.2.base ∨ s.2.base + s.2.total ≤ a) → (ops.foldl BufOp.run s).1 a = s.1 a := by
    intro ops
    induction ops with
    | nil => intro s h; exact ⟨h, rfl, rfl, fun _ _ => rfl⟩
    | cons op ops ih =>
      intro s h
      obtain ⟨h1, h2, h3, _, h4⟩ := run_inv s h op
      obtain ⟨g1, g2, g3, g4⟩ := ih _ h1
      refine ⟨g1, g2.trans h2, g3.trans h3, fun a ha => ?_⟩
      rw [List.foldl_cons, g4 a (by rw [h2, h3]; exact ha), h4 a ha]
  have := key ops (m, Buffer.new base total) (Buffer.ok_new base total)
  obtain ⟨h1, h2, h3, h4⟩ := this
  simp only [Buffer.Ok, Buffer.new] at *
  refine ⟨by omega, by omega, by omega, h4⟩

example : ([BufOp.write [1, 2, 3], .advance 9, .read 1].foldl BufOp.run
    ((fun _ => 0), Buffer.new 100 4)).2 = ⟨100, 104, 4, 0⟩ := by decide

/-- C04 (b): for a non-empty request, success is reported exactly when all requested bytes fit;
then exactly these bytes are handled. -/
theorem C04_buffer_success_iff_fits (m : Mem) (b : Buffer) (n : Nat) (hn : 0 < n)
    (d : List Byte) (hd : d ≠ []) :
    ((b.advance n).2 = true ↔ n ≤ b.remain) ∧
    ((Buffer.read m b n).2.2 = true ↔ n ≤ b.remain) ∧
    (n ≤ b.remain → (Buffer.read m b n).1 = m.load b.offset n) ∧
    ((b.interpret n).1 = some b.offset ↔ n ≤ b.remain) ∧
    ((Buffer.write m b d).2.2 = true ↔ d.length ≤ b.remain) ∧
    (d.length ≤ b.remain → (Buffer.write m b d).1.load b.offset d.length = d) ∧
    ((Buffer.writeArray m b d).2.2 = true ↔ d.length ≤ b.remain) ∧
    (d.length ≤ b.remain → (Buffer.writeArray m b d).1.load b.offset d.length = d) := by
  have hadv : ∀ k, 0 < k → ((b.advance k).2 = true ↔ k ≤ b.remain) := by
    intro k hk
    unfold Buffer.advance Buffer.complete
    split
    · rename_i h; simp only [beq_iff_eq] at h; simp; omega
    · simp only [beq_iff_eq]; split <;> omega
  have hdl : 0 < d.length := List.length_pos_iff.2 hd
  refine ⟨hadv n hn, ?_, ?_, ?_, ?_, ?_, ?_, ?_⟩
  · rw [Buffer.read_snd]; exact hadv n hn
  · intro h; rw [Buffer.read_success (by omega) h]
  · unfold Buffer.interpret
    rw [← hadv n hn]
    cases h : (b.advance n).2 <;> simp [h]
  · rw [Buffer.write_snd]; exact hadv _ hdl
  · intro h; rw [Buffer.write_success (by omega) h]; exact Mem.load_store_same _ _ _
  · unfold Buffer.writeArray; split <;> simp <;> omega
  · intro h; unfold Buffer.writeArray; rw [if_neg (by omega)]; exact Mem.load_store_same _ _ _

example : (0 : Nat) < 3 ∧ ([1, 2] : List Byte) ≠ [] ∧ (Buffer.new 10 3).remain = 3 := by decide

/-- Write a list of chunks one after the other; collect the flags. -/
def writeChunks (m : Mem) (b : Buffer) : List (List Byte) → Mem × List Bool
  | [] => (m, [])
  | d :: ds =>
    let r := Buffer.write m b d
    let rest := writeChunks r.1 r.2.1 ds
    (rest.1, r.2.2 :: rest.2)

/-- Read a list of sizes one after the other; collect data and flags. -/
def readChunks (m : Mem) (b : Buffer) : List Nat → List (List Byte × Bool)
  | [] => []
  | n :: ns =>
    let r := Buffer.read m b n
    (r.1, r.2.2) :: readChunks m r.2.1 ns

theorem writeChunks_spec (ds : List (List Byte)) (m : Mem) (b : Buffer)
    (hne : ∀ d ∈ ds, d ≠ []) (hfit : ds.flatten.length ≤ b.remain) :
    (writeChunks m b ds).2 = ds.map (fun _ => true) ∧
    (writeChunks m b ds).1.load b.offset ds.flatten.length = ds.flatten ∧
    ∀ a, a < b.offset → (writeChunks m b ds).1 a = m a := by
  induction ds generalizing m b with
  | nil => simp [writeChunks, Mem.load]
  | cons d ds ih =>
    have hd : 0 < d.length := List.length_pos_iff.2 (hne d (by simp))
    simp only [List.flatten_cons, List.length_append] at hfit
    have hw := Buffer.write_success (m := m) (b := b) (d := d) (by omega) (by omega)
    simp only [writeChunks, hw]
    obtain ⟨h1, h2, h3⟩ := ih (m.store b.offset d)
      { b with offset := b.offset + d.length, remain := b.remain - d.length }
      (fun x hx => hne x (by simp [hx])) (by simp only; omega)
    refine ⟨by simp [h1], ?_, ?_⟩
    · simp only [List.flatten_cons, List.length_append, Mem.load_add]
      rw [h2]
      congr 1
      have : (writeChunks (m.store b.offset d)
          { b with offset := b.offset + d.length, remain := b.remain - d.length } ds).1.load
          b.offset d.length = (m.store b.offset d).load b.offset d.length := by
        unfold Mem.load
        apply List.map_congr_left
        intro i hi
        rw [List.mem_range] at hi
        exact h3 _ (by simp only; omega)
      rw [this, Mem.load_store_same]
    · intro a ha
      rw [h3 a (by simp only; omega)]
      exact Mem.store_out _ _ _ _ (by omega)

theorem readChunks_spec (ds : List (List Byte)) (m : Mem) (b : Buffer)
    (hne : ∀ d ∈ ds, d ≠ []) (hfit : ds.flatten.length ≤ b.remain)
    (hm : m.load b.offset ds.flatten.length = ds.flatten) :
    readChunks m b (ds.map List.length) = ds.map (fun d => (d, true)) := by
  induction ds generalizing b with
  | nil => simp [readChunks]
  | cons d ds ih =>
    have hd : 0 < d.length := List.length_pos_iff.2 (hne d (by simp))
    simp only [List.flatten_cons, List.length_append] at hfit hm
    rw [Mem.load_add] at hm
    have hm' := List.append_inj hm (by simp [Mem.load_length])
    simp only [List.map_cons, readChunks, Buffer.read_success (m := m) (b := b) (n := d.length)
      (by omega) (by omega)]
    rw [ih _ (fun x hx => hne x (by simp [hx])) (by simp only; omega) hm'.2, hm'.1]

/-- C04 (c): any sequence of non-empty writes that fits succeeds, and reading the same sizes back
from the same memory returns the same data in the same order, successfully. -/
theorem C04_buffer_round_trip (m : Mem) (base total : Nat) (ds : List (List Byte))
    (hne : ∀ d ∈ ds, d ≠ []) (hfit : ds.flatten.length ≤ total) :
    (writeChunks m (Buffer.new base total) ds).2 = ds.map (fun _ => true) ∧
    readChunks (writeChunks m (Buffer.new base total) ds).1 (Buffer.new base total)
      (ds.map List.length) = ds.map (fun d => (d, true)) := by
  have h := writeChunks_spec ds m (Buffer.new base total) hne hfit
  exact ⟨h.1, readChunks_spec ds _ _ hne hfit h.2.1⟩

example : (∀ d ∈ ([[1], [2, 3]] : List (List Byte)), d ≠ []) ∧
    ([[1], [2, 3]] : List (List Byte)).flatten.length ≤ 3 := by decide

/-- C04 (d): copying a `ReadBuffer` into a non-exhausted `WriteBuffer` transfers exactly
`min(input.remain, remain)` bytes of the input, in order, advances both cursors by that amount, and
succeeds iff the whole input was transferred; the read inside it never fails. -/
theorem C04_buffer_write_readbuffer (m : Mem) (b input : Buffer) (hb : b.remain ≠ 0) :
    let n := min input.remain b.remain
    let r := Buffer.writeFrom m b input
    r.1.load b.offset n = m.load input.offset n ∧
    r.2.1 = { b with offset := b.offset + n, remain := b.remain - n } ∧
    r.2.2.1 = { input with offset := input.offset + n, remain := input.remain - n } ∧
    (r.2.2.2 = true ↔ input.remain ≤ b.remain) ∧
    (0 < n → (Buffer.read m input n).2.2 = true) := by
  have hn : (if input.remain ≤ b.remain then input.remain else b.remain)
      = min input.remain b.remain := by rw [Nat.min_def]
  simp only [Buffer.writeFrom, Buffer.complete, beq_iff_eq, hb, if_false, hn]
  by_cases h0 : min input.remain b.remain = 0
  · have hi : input.remain = 0 := by omega
    simp [h0, hi, Mem.load]
    cases input; simp_all
  · have hi : input.remain ≠ 0 := by omega
    have hr := Buffer.read_success (m := m) (b := input) (n := min input.remain b.remain) hi (by omega)
    simp only [ne_eq, h0, not_false_eq_true, if_true, hr]
    refine ⟨?_, trivial, trivial, ?_, fun _ => trivial⟩
    · have := Mem.load_store_same m b.offset (m.load input.offset (min input.remain b.remain))
      rwa [Mem.load_length] at this
    · constructor <;> intro h <;> omega

example : (Buffer.new 0 8).remain ≠ 0 := by decide

/-- C05, refuted: a zero-byte read, write, advance or interpret on an exhausted buffer reports
failure (the code tests `complete()` before looking at the size). -/
theorem C05_empty_request_can_fail :
    ∃ b : Buffer, b.Ok ∧ (b.advance 0).2 = false ∧ (b.interpret 0).1 = none ∧
      ∀ m, (Buffer.read m b 0).2.2 = false ∧ (Buffer.write m b []).2.2 = false :=
  ⟨⟨10, 14, 4, 0⟩, by simp [Buffer.Ok], by decide, by decide, fun m => by
    rw [Buffer.read_snd, Buffer.write_snd]; decide⟩

/-- C05, what holds: an empty request succeeds (and changes nothing) exactly on buffers that are
not exhausted.  Missing from the full property: the exhausted buffer, refuted above. -/
theorem C05_empty_request_partial (m : Mem) (b : Buffer) :
    ((b.advance 0).2 = true ↔ b.remain ≠ 0) ∧ ((Buffer.read m b 0).2.2 = true ↔ b.remain ≠ 0) ∧
    ((Buffer.write m b []).2.2 = true ↔ b.remain ≠ 0) ∧ (b.advance 0).1 = b ∧
    (Buffer.writeArray m b []).2.2 = true := by
  have h : (b.advance 0).2 = true ↔ b.remain ≠ 0 := by
    unfold Buffer.advance Buffer.complete; split <;> simp_all
  refine ⟨h, ?_, ?_, ?_, ?_⟩
  · rw [Buffer.read_snd]; exact h
  · rw [Buffer.write_snd]; exact h
  · unfold Buffer.advance; split <;> simp
  · simp [Buffer.writeArray]

end Dashmm
