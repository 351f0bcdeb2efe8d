import Verif.Model.ViewSet
import Verif.Proofs.Buffer
/-! Helper lemmas: chunks written, chunks read back. -/
namespace Dashmm

theorem leBytes_length (k n : Nat) : (leBytes k n).length = k := by
  induction k generalizing n with
  | zero => rfl
  | succ k ih => simp [leBytes, ih]

theorem ofLe_leBytes (k n : Nat) (h : n < 256 ^ k) : ofLe (leBytes k n) = n := by
  induction k generalizing n with
  | zero => simp at h; simp [leBytes, ofLe, h]
  | succ k ih =>
    simp only [leBytes, ofLe]
    rw [ih (n / 256) (by rw [Nat.pow_succ] at h; exact Nat.div_lt_of_lt_mul (by omega))]
    simp only [UInt8.toNat_ofNat']
    omega

namespace ViewSet

/-- All chunks written by `serialize`, in order. -/
def headChunks (ws : List View) : List (List Byte) :=
  ws.flatMap fun w => [leBytes 4 w.index.toNat, leBytes 8 w.data.length]

def fixedChunks (v : ViewSet) : List (List Byte) :=
  [leBytes 4 v.role.toNat, leBytes 4 v.views.length, leBytes 8 v.cx.toNat, leBytes 8 v.cy.toNat,
   leBytes 8 v.cz.toNat, leBytes 8 v.scale.toNat]

def dataChunks (ws : List View) : List (List Byte) := ws.map View.data

def chunks (v : ViewSet) : List (List Byte) :=
  fixedChunks v ++ headChunks v.views ++ dataChunks v.views

def writeAll : List (List Byte) → Mem × Buffer → Option (Mem × Buffer)
  | [], s => some s
  | d :: ds, s => (writeA d s).bind (writeAll ds)

theorem writeAll_append (xs ys : List (List Byte)) (s : Mem × Buffer) :
    writeAll (xs ++ ys) s = (writeAll xs s).bind (writeAll ys) := by
  induction xs generalizing s with
  | nil => rfl
  | cons d ds ih =>
    simp only [List.cons_append, writeAll, Option.bind_assoc]
    congr 1
    funext t
    exact ih t

theorem serializeHeads_eq (ws : List View) (s : Mem × Buffer) :
    serializeHeads ws s = writeAll (headChunks ws) s := by
  induction ws generalizing s with
  | nil => rfl
  | cons w ws ih =>
    simp only [serializeHeads, headChunks, List.flatMap_cons, List.cons_append, List.nil_append,
      writeAll, Option.bind_eq_bind]
    congr 1; funext t; congr 1; funext t; exact ih t

theorem serializeData_eq (ws : List View) (s : Mem × Buffer) :
    serializeData ws s = writeAll (dataChunks ws) s := by
  induction ws generalizing s with
  | nil => rfl
  | cons w ws ih =>
    simp only [serializeData, dataChunks, List.map_cons, writeAll, Option.bind_eq_bind]
    congr 1; funext t; exact ih t

theorem serialize_eq (v : ViewSet) (s : Mem × Buffer) : serialize v s = writeAll (chunks v) s := by
  simp only [serialize, chunks, fixedChunks, writeAll_append, Option.bind_eq_bind,
    serializeHeads_eq, writeAll, Option.bind_assoc, List.append_assoc]
  congr 1; funext t; congr 1; funext t; congr 1; funext t; congr 1; funext t
  congr 1; funext t; congr 1; funext t
  rw [Option.bind_some, writeAll_append]
  congr 1; funext t
  exact serializeData_eq _ _

/-- The state after writing `ds` successfully. -/
def after (s : Mem × Buffer) (ds : List (List Byte)) : Mem × Buffer :=
  (s.1.store s.2.offset ds.flatten,
   { s.2 with offset := s.2.offset + ds.flatten.length, remain := s.2.remain - ds.flatten.length })

theorem store_store (m : Mem) (a : Nat) (d e : List Byte) :
    (m.store a d).store (a + d.length) e = m.store a (d ++ e) := by
  funext x
  unfold Mem.store
  by_cases h1 : a + d.length ≤ x ∧ x < a + d.length + e.length
  · rw [if_pos h1, if_pos (by simp only [List.length_append]; omega)]
    simp only [List.getD_eq_getElem?_getD]
    rw [List.getElem?_append_right (by omega)]
    congr 2; omega
  · rw [if_neg h1]
    by_cases h2 : a ≤ x ∧ x < a + d.length
    · rw [if_pos h2, if_pos (by simp only [List.length_append]; omega)]
      simp only [List.getD_eq_getElem?_getD]
      rw [List.getElem?_append_left (by omega)]
    · rw [if_neg h2, if_neg (by simp only [List.length_append]; omega)]

theorem store_nil (m : Mem) (a : Nat) : m.store a [] = m := by
  funext x; unfold Mem.store; rw [if_neg]; simp

/-- Exact condition under which a sequence of asserted writes succeeds: every chunk is written
while something remains. -/
theorem writeAll_some (ds : List (List Byte)) (s : Mem × Buffer)
    (hfit : ds.flatten.length ≤ s.2.remain)
    (hlast : ds = [] ∨ ds.flatten.length < s.2.remain ∨ ds.getLast? ≠ some []) (h0 : ds = [] ∨ s.2.remain ≠ 0) :
    writeAll ds s = some (after s ds) := by
  induction ds generalizing s with
  | nil =>
    simp only [writeAll, after, List.flatten_nil, store_nil, List.length_nil, Nat.add_zero, Nat.sub_zero]
  | cons d ds ih =>
    simp only [List.flatten_cons, List.length_append] at hfit hlast
    have hr : s.2.remain ≠ 0 := by simpa using h0
    simp only [writeAll, writeA, Buffer.write_success (m := s.1) (b := s.2) (d := d) hr (by omega),
      if_true, Option.bind_some]
    rw [ih]
    · simp only [after, List.flatten_cons, List.length_append, store_store, Nat.add_assoc,
        Nat.sub_sub]
    · simp only; omega
    · rcases hlast with h | h | h
      · simp at h
      · right; left; simp only; omega
      · cases ds with
        | nil => left; rfl
        | cons e es => right; right; simpa using h
    · cases ds with
      | nil => left; rfl
      | cons e es =>
        right
        simp only
        rcases hlast with h | h | h
        · simp at h
        · omega
        · intro hz
          have : (e :: es).flatten.length = 0 := by omega
          simp only [List.length_eq_zero_iff, List.flatten_eq_nil_iff] at this
          apply h
          rw [List.getLast?_cons_cons]
          have hne : (e :: es) ≠ [] := by simp
          rw [List.getLast?_eq_some_getLast hne]
          rw [this _ (List.getLast_mem hne)]

/-- If the last chunk is empty and the buffer exact, the sequence of writes fails. -/
theorem writeAll_none (ds : List (List Byte)) (s : Mem × Buffer)
    (hfit : ds.flatten.length = s.2.remain) (hlast : ds.getLast? = some []) :
    writeAll ds s = none := by
  induction ds generalizing s with
  | nil => simp at hlast
  | cons d ds ih =>
    simp only [List.flatten_cons, List.length_append] at hfit
    by_cases hr : s.2.remain = 0
    · simp [writeAll, writeA, Buffer.write_exhausted hr]
    · simp only [writeAll, writeA, Buffer.write_success (m := s.1) (b := s.2) (d := d) hr (by omega),
        if_true, Option.bind_some]
      cases ds with
      | nil =>
        simp at hlast
        subst hlast
        simp at hfit
        omega
      | cons e es =>
        apply ih
        · simp only; omega
        · simpa using hlast

theorem chunks_flatten_length (v : ViewSet) : (chunks v).flatten.length = v.bytes := by
  have h1 : (headChunks v.views).flatten.length = v.views.length * 12 := by
    unfold headChunks
    induction v.views with
    | nil => rfl
    | cons w ws ih =>
      simp only [List.flatMap_cons, List.flatten_append, List.length_append, ih, List.length_cons]
      simp [leBytes_length]; omega
  have h2 : (dataChunks v.views).flatten.length = (v.views.map fun w => w.data.length).sum := by
    unfold dataChunks
    induction v.views with
    | nil => rfl
    | cons w ws ih => simp only [List.map_cons, List.flatten_cons, List.length_append, ih, List.sum_cons]
  unfold chunks bytes
  simp only [List.flatten_append, List.length_append, h1, h2]
  simp [fixedChunks, leBytes_length]
  omega

/-- Memory holds the bytes `bs` at address `a`. -/
def Holds (m : Mem) (a : Nat) (bs : List Byte) : Prop := m.load a bs.length = bs

theorem holds_append {m : Mem} {a : Nat} {xs ys : List Byte} :
    Holds m a (xs ++ ys) ↔ Holds m a xs ∧ Holds m (a + xs.length) ys := by
  unfold Holds
  rw [List.length_append, Mem.load_add]
  constructor
  · intro h
    exact List.append_inj h (by simp [Mem.load_length])
  · rintro ⟨h1, h2⟩; rw [h1, h2]

theorem readA_le {m : Mem} {b : Buffer} {k n : Nat} (hk : 0 < k) (hr : k ≤ b.remain)
    (hn : n < 256 ^ k) (h : Holds m b.offset (leBytes k n)) :
    readA m k b = some (n, { b with offset := b.offset + k, remain := b.remain - k }) := by
  unfold Holds at h
  rw [leBytes_length] at h
  simp only [readA, Buffer.read_success (m := m) (b := b) (n := k) (by omega) hr, if_true, h,
    ofLe_leBytes k n hn]

def skip (b : Buffer) (n : Nat) : Buffer := { b with offset := b.offset + n, remain := b.remain - n }

theorem skip_skip (b : Buffer) (m n : Nat) : skip (skip b m) n = skip b (m + n) := by
  simp [skip, Nat.add_assoc, Nat.sub_sub]

theorem interpretHeads_spec (m : Mem) (ws : List View) (b : Buffer)
    (hw : ∀ w ∈ ws, w.data.length < 2 ^ 64)
    (hr : (headChunks ws).flatten.length ≤ b.remain)
    (h : Holds m b.offset (headChunks ws).flatten) :
    interpretHeads m ws.length b =
      some (ws.map fun w => (w.index, w.data.length), skip b (headChunks ws).flatten.length) := by
  induction ws generalizing b with
  | nil => simp [interpretHeads, headChunks, skip]
  | cons w ws ih =>
    have e : (headChunks (w :: ws)).flatten =
        leBytes 4 w.index.toNat ++ (leBytes 8 w.data.length ++ (headChunks ws).flatten) := by
      simp [headChunks]
    rw [e] at h hr ⊢
    simp only [List.length_append, leBytes_length] at hr ⊢
    rw [holds_append, holds_append, leBytes_length, leBytes_length] at h
    obtain ⟨h1, h2, h3⟩ := h
    simp only [List.length_cons, interpretHeads, Option.bind_eq_bind]
    rw [readA_le (by omega) (by omega) (by have := w.index.isLt; omega) h1]
    simp only [Option.bind_some]
    rw [readA_le (by omega) (by simp only; omega)
      (by have := hw w (by simp); omega) h2]
    simp only [Option.bind_some]
    rw [ih _ (fun x hx => hw x (by simp [hx])) (by simp only; omega) h3]
    simp [skip, Nat.add_assoc, Nat.sub_sub]
    omega

theorem interpretData_spec (m : Mem) (ws : List View) (b : Buffer)
    (hr : (dataChunks ws).flatten.length ≤ b.remain)
    (h0 : ws = [] ∨ b.remain ≠ 0)
    (hlast : ws = [] ∨ (dataChunks ws).flatten.length < b.remain ∨
      (dataChunks ws).getLast? ≠ some [])
    (h : Holds m b.offset (dataChunks ws).flatten) :
    interpretData m (ws.map fun w => (w.index, w.data.length)) b =
      some (ws, skip b (dataChunks ws).flatten.length) := by
  induction ws generalizing b with
  | nil => simp [interpretData, dataChunks, skip]
  | cons w ws ih =>
    have e : (dataChunks (w :: ws)).flatten = w.data ++ (dataChunks ws).flatten := by
      simp [dataChunks]
    rw [e] at h hr hlast ⊢
    simp only [List.length_append] at hr hlast ⊢
    rw [holds_append] at h
    have hr0 : b.remain ≠ 0 := by simpa using h0
    have hadv := Buffer.advance_success (b := b) (n := w.data.length) hr0 (by omega)
    simp only [List.map_cons, interpretData, hadv, if_true, Option.bind_eq_bind, Option.bind_some]
    rw [ih]
    · simp only [Option.bind_some]
      rw [h.1]
      simp [skip, Nat.add_assoc, Nat.sub_sub]
    · simp only; omega
    · cases ws with
      | nil => left; rfl
      | cons x xs =>
        right
        simp only
        rcases hlast with hl | hl | hl
        · simp at hl
        · omega
        · intro hz
          have hz' : (dataChunks (x :: xs)).flatten.length = 0 := by omega
          simp only [List.length_eq_zero_iff, List.flatten_eq_nil_iff] at hz'
          apply hl
          have hne : dataChunks (x :: xs) ≠ [] := by simp [dataChunks]
          have : dataChunks (w :: x :: xs) = w.data :: dataChunks (x :: xs) := rfl
          rw [this, List.getLast?_cons, List.getLast?_eq_some_getLast hne]
          simp [hz' _ (List.getLast_mem hne)]
    · cases ws with
      | nil => left; rfl
      | cons x xs =>
        right
        rcases hlast with hl | hl | hl
        · simp at hl
        · left; simp only; omega
        · right; simpa [dataChunks] using hl
    · exact h.2

end ViewSet
end Dashmm
