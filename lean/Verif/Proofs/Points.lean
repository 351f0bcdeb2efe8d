import Verif.Model.Points
import Verif.Proofs.ViewSet
import Verif.Proofs.Array
import Mathlib.Tactic.Ring
namespace Dashmm
namespace Points
open Arr (Serializer)
open ViewSet (Holds holds_append)

variable {S T : Type}

theorem storeAll_eq (ds : List (List Byte)) : ∀ (m : Mem) (a : Nat),
    storeAll (m, a) ds = (m.store a ds.flatten, a + ds.flatten.length) := by
  induction ds with
  | nil => intro m a; simp [storeAll, ViewSet.store_nil]
  | cons d ds ih =>
    intro m a
    unfold storeAll at *
    rw [List.foldl_cons, ih, ViewSet.store_store]
    simp [Nat.add_assoc]

/-- The `int`s of the message. -/
def ints (E : Env S T) (a : Args S T) (rank : Nat) : List Nat :=
  [(owned E rank).length, sendNs E a rank, sendNt E a rank] ++
    (if sendNs E a rank ≠ 0 then (owned E rank).map a.countS else []) ++
    (if sendNt E a rank ≠ 0 then (owned E rank).map a.countT else [])

def recsS (E : Env S T) (a : Args S T) (rank : Nat) : List S :=
  if sendNs E a rank ≠ 0 then (owned E rank).flatMap fun i => slice a.sources a.offsetS a.countS i else []

def recsT (E : Env S T) (a : Args S T) (rank : Nat) : List T :=
  if sendNt E a rank ≠ 0 then (owned E rank).flatMap fun i => slice a.targets a.offsetT a.countT i else []

def header (a : Args S T) : List Byte := leBytes 8 a.rw ++ leBytes 8 a.smeta ++ leBytes 8 a.tmeta

def body (E : Env S T) (a : Args S T) (rank : Nat) : List Byte :=
  ((recsS E a rank).map E.ss.serialize).flatten ++ ((recsT E a rank).map E.st.serialize).flatten

def intBytes (l : List Nat) : List Byte := (l.map (leBytes 4)).flatten

theorem intBytes_length (l : List Nat) : (intBytes l).length = 4 * l.length := by
  unfold intBytes
  induction l with
  | nil => rfl
  | cons x l ih => rw [List.map_cons, List.flatten_cons, List.length_append, ih, leBytes_length]; simp; ring

theorem intBytes_append (l l' : List Nat) : intBytes (l ++ l') = intBytes l ++ intBytes l' := by unfold intBytes; simp

theorem header_length (a : Args S T) : (header a).length = 24 := by unfold header; simp [leBytes_length]

theorem ints_length (E : Env S T) (a : Args S T) (rank : Nat) : (ints E a rank).length =
    3 + (owned E rank).length * (if sendNs E a rank > 0 then 1 else 0) + (owned E rank).length * (if sendNt E a rank > 0 then 1 else 0) := by
  unfold ints
  simp only [List.length_append, List.length_cons, List.length_nil]
  by_cases h1 : sendNs E a rank = 0 <;> by_cases h2 : sendNt E a rank = 0 <;>
    simp [h1, h2, Nat.pos_of_ne_zero]

/-- What `fill` writes. -/
theorem fill_eq (E : Env S T) (a : Args S T) (rank p : Nat) (m : Mem) :
    fill E a rank p m = (m.store p (header a ++ intBytes (ints E a rank) ++ body E a rank),
      p + (header a ++ intBytes (ints E a rank) ++ body E a rank).length) := by
  have hh := header_length a
  have hil := ints_length E a rank
  unfold fill
  simp only [storeAll_eq]
  have e1 : [leBytes 8 a.rw, leBytes 8 a.smeta, leBytes 8 a.tmeta].flatten = header a := by unfold header; simp
  have e2 : [leBytes 4 (owned E rank).length, leBytes 4 (sendNs E a rank), leBytes 4 (sendNt E a rank)].flatten =
      intBytes [(owned E rank).length, sendNs E a rank, sendNt E a rank] := by unfold intBytes; simp
  rw [e1, e2]
  have c1 : ((owned E rank).map fun i => leBytes 4 (a.countS i)).flatten = intBytes ((owned E rank).map a.countS) := by
    unfold intBytes; rw [List.map_map]; rfl
  have c2 : ((owned E rank).map fun i => leBytes 4 (a.countT i)).flatten = intBytes ((owned E rank).map a.countT) := by
    unfold intBytes; rw [List.map_map]; rfl
  rw [c1, c2, show p + 3 * 8 = p + (header a).length by omega]
  have hi3 : (intBytes [(owned E rank).length, sendNs E a rank, sendNt E a rank]).length = 12 := by rw [intBytes_length]; rfl
  by_cases h1 : sendNs E a rank = 0 <;> by_cases h2 : sendNt E a rank = 0
  · have g1 : ints E a rank = [(owned E rank).length, sendNs E a rank, sendNt E a rank] := by unfold ints; simp [h1, h2]
    have g2 : body E a rank = [] := by unfold body recsS recsT; simp [h1, h2]
    simp only [h1, h2, ne_eq, not_true_eq_false, if_false, Nat.lt_irrefl, gt_iff_lt]
    rw [g1, g2, h1, h2, List.append_nil, ViewSet.store_store]
    rw [h1, h2] at hi3
    simp only [List.length_append, hi3, hh]
    rfl
  · have g1 : ints E a rank = [(owned E rank).length, sendNs E a rank, sendNt E a rank] ++ (owned E rank).map a.countT := by
      unfold ints; simp [h1, h2]
    have g2 : body E a rank = (((owned E rank).flatMap fun i => slice a.targets a.offsetT a.countT i).map E.st.serialize).flatten := by
      unfold body recsS recsT; simp [h1, h2]
    have hpos : 0 < sendNt E a rank := Nat.pos_of_ne_zero h2
    simp only [h1, h2, hpos, ne_eq, not_true_eq_false, not_false_eq_true, if_false, if_true, Nat.lt_irrefl, gt_iff_lt]
    rw [g1, g2, h1, intBytes_append]
    rw [h1] at hi3
    have hl2 := intBytes_length ((owned E rank).map a.countT)
    rw [List.length_map] at hl2
    generalize (((owned E rank).flatMap fun i => slice a.targets a.offsetT a.countT i).map E.st.serialize).flatten = B at *
    generalize intBytes [(owned E rank).length, 0, sendNt E a rank] = I at *
    generalize intBytes ((owned E rank).map a.countT) = J at *
    generalize header a = Hd at *
    rw [ViewSet.store_store, ViewSet.store_store,
      show p + Hd.length + 4 * (3 + (owned E rank).length * 0 + (owned E rank).length * 1) = p + (Hd ++ (I ++ J)).length by
        simp only [List.length_append]; omega, ViewSet.store_store]
    simp only [List.append_assoc, List.length_append, Prod.mk.injEq, true_and]
    omega
  · have g1 : ints E a rank = [(owned E rank).length, sendNs E a rank, sendNt E a rank] ++ (owned E rank).map a.countS := by
      unfold ints; simp [h1, h2]
    have g2 : body E a rank = (((owned E rank).flatMap fun i => slice a.sources a.offsetS a.countS i).map E.ss.serialize).flatten := by
      unfold body recsS recsT; simp [h1, h2]
    have hpos : 0 < sendNs E a rank := Nat.pos_of_ne_zero h1
    simp only [h1, h2, hpos, ne_eq, not_true_eq_false, not_false_eq_true, if_false, if_true, Nat.lt_irrefl, gt_iff_lt]
    rw [g1, g2, h2, intBytes_append]
    rw [h2] at hi3
    have hl2 := intBytes_length ((owned E rank).map a.countS)
    rw [List.length_map] at hl2
    generalize (((owned E rank).flatMap fun i => slice a.sources a.offsetS a.countS i).map E.ss.serialize).flatten = B at *
    generalize intBytes [(owned E rank).length, sendNs E a rank, 0] = I at *
    generalize intBytes ((owned E rank).map a.countS) = J at *
    generalize header a = Hd at *
    rw [ViewSet.store_store, ViewSet.store_store,
      show p + Hd.length + 4 * (3 + (owned E rank).length * 1 + (owned E rank).length * 0) = p + (Hd ++ (I ++ J)).length by
        simp only [List.length_append]; omega, ViewSet.store_store]
    simp only [List.append_assoc, List.length_append, Prod.mk.injEq, true_and]
    omega
  · have g1 : ints E a rank = [(owned E rank).length, sendNs E a rank, sendNt E a rank] ++ (owned E rank).map a.countS ++
        (owned E rank).map a.countT := by
      unfold ints; simp [h1, h2]
    have g2 : body E a rank = (((owned E rank).flatMap fun i => slice a.sources a.offsetS a.countS i).map E.ss.serialize).flatten ++
        (((owned E rank).flatMap fun i => slice a.targets a.offsetT a.countT i).map E.st.serialize).flatten := by
      unfold body recsS recsT; simp [h1, h2]
    have hpos : 0 < sendNs E a rank := Nat.pos_of_ne_zero h1
    have hpos' : 0 < sendNt E a rank := Nat.pos_of_ne_zero h2
    simp only [h1, h2, hpos, hpos', ne_eq, not_true_eq_false, not_false_eq_true, if_false, if_true, Nat.lt_irrefl, gt_iff_lt]
    rw [g1, g2, intBytes_append, intBytes_append]
    have hl1 := intBytes_length ((owned E rank).map a.countS)
    have hl2 := intBytes_length ((owned E rank).map a.countT)
    rw [List.length_map] at hl1 hl2
    generalize (((owned E rank).flatMap fun i => slice a.sources a.offsetS a.countS i).map E.ss.serialize).flatten = A at *
    generalize (((owned E rank).flatMap fun i => slice a.targets a.offsetT a.countT i).map E.st.serialize).flatten = B at *
    generalize intBytes [(owned E rank).length, sendNs E a rank, sendNt E a rank] = I at *
    generalize intBytes ((owned E rank).map a.countS) = J at *
    generalize intBytes ((owned E rank).map a.countT) = J' at *
    generalize header a = Hd at *
    rw [show p + Hd.length + I.length = p + (Hd ++ I).length by simp; omega]
    rw [show p + (Hd ++ I).length + J.length = p + (Hd ++ I ++ J).length by simp; omega]
    rw [show p + Hd.length + 4 * (3 + (owned E rank).length * 1 + (owned E rank).length * 1) = p + (Hd ++ I ++ J ++ J').length by
        simp only [List.length_append]; omega]
    rw [show p + (Hd ++ I ++ J ++ J').length + A.length = p + (Hd ++ I ++ J ++ J' ++ A).length by simp; omega]
    simp only [ViewSet.store_store]
    simp only [List.append_assoc, List.length_append, Prod.mk.injEq, true_and]
    omega

/-! ### sizes -/

theorem foldl_size {R : Type} (f : R → Nat) (l : List R) : ∀ n, l.foldl (fun n x => n + f x) n = n + (l.map f).sum := by
  induction l with
  | nil => intro n; simp
  | cons x l ih => intro n; rw [List.foldl_cons, ih]; simp; omega

theorem flatten_size {R : Type} {s : Serializer R} (h : s.Ok) (l : List R) : ((l.map s.serialize).flatten).length = (l.map s.size).sum := by
  induction l with
  | nil => rfl
  | cons x l ih => simp [h.size_eq] at *; omega

theorem running_total {R : Type} (f : Nat → List R) (g : R → Nat) (l : List Nat) : ∀ b : Nat × Nat,
    b.1 + b.2 + ((l.flatMap f).map g).sum ≤ (l.foldl (fun (b : Nat × Nat) i =>
      (b.1 + (f i).foldl (fun n x => n + g x) b.2, (f i).foldl (fun n x => n + g x) b.2)) b).1 + (if l = [] then b.2 else 0) := by
  induction l with
  | nil => intro b; simp
  | cons i l ih =>
    intro b
    have := ih (b.1 + (f i).foldl (fun n x => n + g x) b.2, (f i).foldl (fun n x => n + g x) b.2)
    rw [List.foldl_cons, if_neg (by simp)]
    simp only [foldl_size, List.flatMap_cons, List.map_append, List.sum_append] at this ⊢
    by_cases hl : l = []
    · subst hl; simp at this ⊢; omega
    · rw [if_neg hl] at this; omega

theorem sum_flatMap_size {R : Type} (f : Nat → List R) (g : R → Nat) (l : List Nat) : ∀ b : Nat,
    l.foldl (fun b i => (f i).foldl (fun n x => n + g x) b) b = b + ((l.flatMap f).map g).sum := by
  induction l with
  | nil => intro b; simp
  | cons i l ih => intro b; rw [List.foldl_cons, ih, foldl_size]; simp; omega

theorem fits (E : Env S T) (hs : E.ss.Ok) (ht : E.st.Ok) (a : Args S T) (rank : Nat) :
    (header a ++ intBytes (ints E a rank) ++ body E a rank).length ≤ parcelBytes E a rank := by
  rw [List.length_append, List.length_append, header_length, intBytes_length, ints_length]
  unfold body parcelBytes
  rw [List.length_append, flatten_size hs, flatten_size ht]
  unfold recsS recsT
  simp only [sum_flatMap_size]
  have hr := running_total (fun i => slice a.sources a.offsetS a.countS i) E.ss.size (owned E rank)
    (8 * 3 + 4 * 3 + 4 * (owned E rank).length, 0)
  simp only [Nat.add_zero, ite_self] at hr
  by_cases h1 : sendNs E a rank = 0 <;> by_cases h2 : sendNt E a rank = 0
  · simp [h1, h2]
  · have hpos : 0 < sendNt E a rank := Nat.pos_of_ne_zero h2
    simp [h1, h2, hpos]; omega
  · have hpos : 0 < sendNs E a rank := Nat.pos_of_ne_zero h1
    simp only [h1, h2, hpos, ne_eq, not_true_eq_false, not_false_eq_true, if_false, if_true, Nat.lt_irrefl, gt_iff_lt]
    refine Nat.le_trans ?_ hr
    simp; omega
  · have hpos : 0 < sendNs E a rank := Nat.pos_of_ne_zero h1
    have hpos' : 0 < sendNt E a rank := Nat.pos_of_ne_zero h2
    simp only [h1, h2, hpos, hpos', ne_eq, not_false_eq_true, if_true, gt_iff_lt]
    have he : (fun i => slice a.targets a.offsetT a.countT i) = slice a.targets a.offsetT a.countT := rfl
    rw [he]
    refine Nat.le_trans ?_ (Nat.add_le_add_right (Nat.add_le_add_right hr _) _)
    omega

/-! ### decoding -/

theorem readInt_at {m : Mem} {a : Nat} {l : List Nat} (h : Holds m a (intBytes l)) (k : Nat) (x : Nat) (hk : l[k]? = some x)
    (hx : x < 256 ^ 4) : readInt m (a + 4 * k) = x := by
  obtain ⟨hlt, hx'⟩ := List.getElem?_eq_some_iff.1 hk
  have hsplit : l = l.take k ++ (x :: l.drop (k + 1)) := by
    rw [← hx', ← List.drop_eq_getElem_cons hlt, List.take_append_drop]
  rw [hsplit, intBytes_append, holds_append] at h
  have h2 := h.2
  rw [intBytes_length, List.length_take, Nat.min_eq_left (by omega)] at h2
  have : intBytes (x :: l.drop (k + 1)) = leBytes 4 x ++ intBytes (l.drop (k + 1)) := by unfold intBytes; simp
  rw [this, holds_append] at h2
  have h3 := h2.1
  unfold Holds at h3
  rw [leBytes_length] at h3
  unfold readInt
  rw [h3, ofLe_leBytes 4 x hx]

theorem deserialize_all {R : Type} {s : Serializer R} (h : s.Ok) (l : List R) : ∀ rest,
    deserializeN s l.length ((l.map s.serialize).flatten ++ rest) = some (l, rest) := by
  induction l with
  | nil => intro rest; rfl
  | cons x l ih =>
    intro rest
    simp only [List.map_cons, List.flatten_cons, List.length_cons, List.append_assoc]
    unfold deserializeN
    rw [h.roundtrip]
    simp only
    rw [ih]

theorem mergeLoop_eq {R : Type} (f : Nat → List R) (cnt : Nat → Nat) (count : Nat → Nat) (own : List Nat)
    (hf : ∀ i ∈ own, (f i).length = cnt i) (hc : ∀ k i, own[k]? = some i → count k = cnt i) :
    mergeLoop (own.flatMap f) count own =
      ((own.flatMap f).length, own.length, (own.filter fun i => cnt i ≠ 0).map fun i => (i, f i), own.length) := by
  unfold mergeLoop
  have key : ∀ (l1 l2 : List Nat), own = l1 ++ l2 →
      l2.foldl (fun (s : Nat × Nat × List (Nat × List R) × Nat) i =>
        let incoming := count s.2.1
        if incoming ≠ 0 then
          (s.1 + incoming, s.2.1 + 1, s.2.2.1 ++ [(i, ((own.flatMap f).drop s.1).take incoming)], s.2.2.2 + 1)
        else (s.1, s.2.1 + 1, s.2.2.1, s.2.2.2 + 1))
        ((l1.flatMap f).length, l1.length, (l1.filter fun i => cnt i ≠ 0).map fun i => (i, f i), l1.length) =
      ((own.flatMap f).length, own.length, (own.filter fun i => cnt i ≠ 0).map fun i => (i, f i), own.length) := by
    intro l1 l2
    induction l2 generalizing l1 with
    | nil => intro h; rw [h]; simp
    | cons i l2 ih =>
      intro h
      rw [List.foldl_cons]
      have hci : count l1.length = cnt i := hc l1.length i (by rw [h]; simp)
      have hfi := hf i (by rw [h]; simp)
      have hstep : (let incoming := count l1.length
        if incoming ≠ 0 then
          ((l1.flatMap f).length + incoming, l1.length + 1, ((l1.filter fun i => cnt i ≠ 0).map fun i => (i, f i)) ++
            [(i, ((own.flatMap f).drop (l1.flatMap f).length).take incoming)], l1.length + 1)
        else ((l1.flatMap f).length, l1.length + 1, ((l1.filter fun i => cnt i ≠ 0).map fun i => (i, f i)), l1.length + 1)) =
        (((l1 ++ [i]).flatMap f).length, (l1 ++ [i]).length, ((l1 ++ [i]).filter fun i => cnt i ≠ 0).map fun i => (i, f i),
          (l1 ++ [i]).length) := by
        simp only [hci]
        by_cases h0 : cnt i = 0
        · have : f i = [] := List.length_eq_zero_iff.1 (by rw [hfi, h0])
          simp [h0, this]
        · rw [if_pos h0, h]
          simp [h0, hfi, List.flatMap_append, List.filter_append]
      simp only at hstep
      simp only
      rw [hstep]
      exact ih (l1 ++ [i]) (by rw [h]; simp)
  exact key [] own rfl

theorem sameLoop_eq (cnt : Nat → Nat) (count : Nat → Nat) (own : List Nat)
    (hc : ∀ k i, own[k]? = some i → count k = cnt i) :
    own.foldl (fun (s : Nat × List (Nat × Nat) × Nat) i =>
      if count s.1 ≠ 0 then (s.1 + 1, s.2.1 ++ [(i, count s.1)], s.2.2 + 1) else (s.1 + 1, s.2.1, s.2.2 + 1)) (0, [], 0) =
      (own.length, (own.filter fun i => cnt i ≠ 0).map fun i => (i, cnt i), own.length) := by
  have key : ∀ (l1 l2 : List Nat), own = l1 ++ l2 →
      l2.foldl (fun (s : Nat × List (Nat × Nat) × Nat) i =>
        if count s.1 ≠ 0 then (s.1 + 1, s.2.1 ++ [(i, count s.1)], s.2.2 + 1) else (s.1 + 1, s.2.1, s.2.2 + 1))
        (l1.length, (l1.filter fun i => cnt i ≠ 0).map fun i => (i, cnt i), l1.length) =
      (own.length, (own.filter fun i => cnt i ≠ 0).map fun i => (i, cnt i), own.length) := by
    intro l1 l2
    induction l2 generalizing l1 with
    | nil => intro h; rw [h]; simp
    | cons i l2 ih =>
      intro h
      rw [List.foldl_cons]
      have hci : count l1.length = cnt i := hc l1.length i (by rw [h]; simp)
      simp only [hci]
      have := ih (l1 ++ [i]) (by rw [h]; simp)
      by_cases h0 : cnt i = 0
      · simpa [h0, List.filter_append] using this
      · simpa [h0, List.filter_append] using this
  exact key [] own rfl

theorem flatMap_len {R : Type} (f : Nat → List R) (cnt : Nat → Nat) (l : List Nat) (hf : ∀ i ∈ l, (f i).length = cnt i) :
    (l.flatMap f).length = l.foldl (fun n i => n + cnt i) 0 := by
  rw [foldl_size cnt l 0, Nat.zero_add]
  induction l with
  | nil => rfl
  | cons i l ih =>
    rw [List.flatMap_cons, List.length_append, hf i (by simp), ih (fun j hj => hf j (by simp [hj]))]
    simp

theorem slice_len {R : Type} {data : List R} {offset count : Nat → Nat} {i : Nat} (h : offset i + count i ≤ data.length) :
    (slice data offset count i).length = count i := by
  unfold slice; rw [List.length_take, List.length_drop]; omega

theorem holds_store {m : Mem} {a : Nat} {d : List Byte} : Holds (m.store a d) a d := by
  unfold Holds
  exact Mem.load_store_same m a d

theorem readAddr_eq {m : Mem} {a x : Nat} (h : Holds m a (leBytes 8 x)) (hx : x < 256 ^ 8) : readAddr m a = x := by
  unfold Holds at h
  rw [leBytes_length] at h
  unfold readAddr
  rw [h, ofLe_leBytes 8 x hx]

theorem count_le_sum (cnt : Nat → Nat) (l : List Nat) (i : Nat) (h : i ∈ l) : cnt i ≤ l.foldl (fun n i => n + cnt i) 0 := by
  rw [foldl_size cnt l 0, Nat.zero_add]
  exact List.le_sum_of_mem (List.mem_map_of_mem h)

/-- The receiver finds what was sent, wherever in its memory the message is put. -/
theorem recv_fill (E : Env S T) (hs : E.ss.Ok) (ht : E.st.Ok) (a : Args S T) (rank p : Nat) (m : Mem)
    (hS : ∀ i ∈ owned E rank, a.offsetS i + a.countS i ≤ a.sources.length)
    (hT : E.same = false → ∀ i ∈ owned E rank, a.offsetT i + a.countT i ≤ a.targets.length)
    (hd : (owned E rank).length < 256 ^ 4) (hns : sendNs E a rank < 256 ^ 4) (hnt : sendNt E a rank < 256 ^ 4)
    (hw : a.rw < 256 ^ 8 ∧ a.smeta < 256 ^ 8 ∧ a.tmeta < 256 ^ 8)
    (bytes : Nat) (hb : (header a ++ intBytes (ints E a rank) ++ body E a rank).length ≤ bytes)
    (hm : Holds m p (header a ++ intBytes (ints E a rank) ++ body E a rank)) :
    recv E rank p bytes m = some ⟨a.rw, a.smeta, a.tmeta, (owned E rank).length,
      ((owned E rank).filter fun i => a.countS i ≠ 0).map fun i => (i, slice a.sources a.offsetS a.countS i),
      if E.same then [] else ((owned E rank).filter fun i => a.countT i ≠ 0).map fun i => (i, slice a.targets a.offsetT a.countT i),
      if E.same then ((owned E rank).filter fun i => a.countS i ≠ 0).map fun i => (i, a.countS i) else [],
      2 * (owned E rank).length⟩ := by
  rw [holds_append, holds_append] at hm
  obtain ⟨⟨hm1, hm2⟩, hm3⟩ := hm
  rw [header_length] at hm2
  have hlen := intBytes_length (ints E a rank)
  have hil := ints_length E a rank
  rw [List.length_append, header_length, ← Nat.add_assoc] at hm3
  have r0 : readInt m (p + 24) = (owned E rank).length := by
    simpa using readInt_at hm2 0 (owned E rank).length (by unfold ints; simp) hd
  have r1 : readInt m (p + 24 + 4) = sendNs E a rank := by
    simpa using readInt_at hm2 1 (sendNs E a rank) (by unfold ints; simp) hns
  have r2 : readInt m (p + 24 + 8) = sendNt E a rank := by
    simpa using readInt_at hm2 2 (sendNt E a rank) (by unfold ints; simp) hnt
  have hh : Holds m p (leBytes 8 a.rw) ∧ Holds m (p + 8) (leBytes 8 a.smeta) ∧ Holds m (p + 16) (leBytes 8 a.tmeta) := by
    unfold header at hm1
    rw [holds_append, holds_append] at hm1
    simp only [List.length_append, leBytes_length] at hm1
    exact ⟨hm1.1.1, hm1.1.2, hm1.2⟩
  have lenS : sendNs E a rank ≠ 0 → (recsS E a rank).length = sendNs E a rank := by
    intro h
    unfold recsS
    rw [if_pos h, flatMap_len _ a.countS _ (fun i hi => slice_len (hS i hi))]
    rfl
  have lenS' : (recsS E a rank).length = sendNs E a rank := by
    by_cases h : sendNs E a rank = 0
    · unfold recsS; simp [h]
    · exact lenS h
  have hsame : E.same = true → sendNt E a rank = 0 := by intro h; unfold sendNt; rw [if_pos h]
  have lenT : (recsT E a rank).length = sendNt E a rank := by
    by_cases h : sendNt E a rank = 0
    · unfold recsT; simp [h]
    · have hf : E.same = false := by
        cases hE : E.same with
        | false => rfl
        | true => exact absurd (hsame hE) h
      unfold recsT
      rw [if_pos h, flatMap_len _ a.countT _ (fun i hi => slice_len (hT hf i hi))]
      unfold sendNt
      rw [if_neg (by simp [hf])]
  have hcS : sendNs E a rank ≠ 0 → ∀ k i, (owned E rank)[k]? = some i → readInt m (p + 24 + 4 * (3 + k)) = a.countS i := by
    intro h k i hk
    refine readInt_at hm2 (3 + k) (a.countS i) ?_ ?_
    · have hkl : k < (owned E rank).length := (List.getElem?_eq_some_iff.1 hk).1
      unfold ints
      rw [if_pos h, List.append_assoc, List.getElem?_append_right (by simp), List.getElem?_append_left (by simp; omega)]
      simp [hk]
    · refine Nat.lt_of_le_of_lt (count_le_sum a.countS _ i (List.mem_of_getElem? hk)) hns
  have hcT : sendNt E a rank ≠ 0 → ∀ k i, (owned E rank)[k]? = some i →
      readInt m (p + 24 + 4 * (3 + (owned E rank).length * (if sendNs E a rank > 0 then 1 else 0) + k)) = a.countT i := by
    intro h k i hk
    refine readInt_at hm2 _ (a.countT i) ?_ ?_
    · unfold ints
      rw [if_pos h, List.getElem?_append_right]
      · by_cases h1 : sendNs E a rank = 0
        · simp [h1, hk]
        · simp [h1, hk, Nat.pos_of_ne_zero h1]
          rw [show 3 + (owned E rank).length + k - ((owned E rank).length + 1 + 1 + 1) = k by omega, hk]; simp
      · by_cases h1 : sendNs E a rank = 0
        · simp [h1]
        · simp [h1, Nat.pos_of_ne_zero h1]; omega
    · have hf : E.same = false := by
        cases hE : E.same with
        | false => rfl
        | true => exact absurd (hsame hE) h
      have := count_le_sum a.countT _ i (List.mem_of_getElem? hk)
      unfold sendNt at hnt
      rw [if_neg (by simp [hf])] at hnt
      omega
  -- the data
  have haddr : p + 4 * 3 + 3 * 8 + 4 * (owned E rank).length * (if sendNs E a rank > 0 then 1 else 0) +
      4 * (owned E rank).length * (if sendNt E a rank > 0 then 1 else 0) = p + 24 + (intBytes (ints E a rank)).length := by
    rw [hlen, hil]; ring
  have hload : ∃ pad, m.load (p + 24 + (intBytes (ints E a rank)).length)
      (p + bytes - (p + 24 + (intBytes (ints E a rank)).length)) = body E a rank ++ pad := by
    rw [List.length_append, List.length_append, header_length] at hb
    have : p + bytes - (p + 24 + (intBytes (ints E a rank)).length) =
      (body E a rank).length + (p + bytes - (p + 24 + (intBytes (ints E a rank)).length) - (body E a rank).length) := by omega
    rw [this, Mem.load_add, hm3]
    exact ⟨_, rfl⟩
  obtain ⟨pad, hload⟩ := hload
  unfold recv
  simp only [show p + 3 * 8 = p + 24 by rfl, r0, r1, r2, haddr, hload]
  have hd1 : deserializeN E.ss (sendNs E a rank) (body E a rank ++ pad) =
      some (recsS E a rank, ((recsT E a rank).map E.st.serialize).flatten ++ pad) := by
    unfold body
    rw [List.append_assoc, ← lenS', deserialize_all hs]
  have hd2 : (if sendNt E a rank ≠ 0 then
      deserializeN E.st (sendNt E a rank) (((recsT E a rank).map E.st.serialize).flatten ++ pad)
      else some ([], ((recsT E a rank).map E.st.serialize).flatten ++ pad)) =
      some (recsT E a rank, if sendNt E a rank ≠ 0 then pad else ((recsT E a rank).map E.st.serialize).flatten ++ pad) := by
    by_cases h : sendNt E a rank = 0
    · have : recsT E a rank = [] := by unfold recsT; simp [h]
      simp [h, this]
    · rw [if_pos h, if_pos h, ← lenT, deserialize_all ht]
  simp only [hd1, hd2, readAddr_eq hh.1 hw.1, readAddr_eq hh.2.1 hw.2.1, readAddr_eq hh.2.2 hw.2.2]
  have hS0 : sendNs E a rank = 0 → ((owned E rank).filter fun i => a.countS i ≠ 0) = [] := by
    intro h
    rw [List.filter_eq_nil_iff]
    intro i hi
    have := count_le_sum a.countS _ i hi
    have h' : (owned E rank).foldl (fun n i => n + a.countS i) 0 = 0 := h
    simp; omega
  have hT0 : E.same = false → sendNt E a rank = 0 → ((owned E rank).filter fun i => a.countT i ≠ 0) = [] := by
    intro hf h
    rw [List.filter_eq_nil_iff]
    intro i hi
    have := count_le_sum a.countT _ i hi
    unfold sendNt at h
    rw [if_neg (by simp [hf])] at h
    simp; omega
  have mS : (if sendNs E a rank ≠ 0 then mergeLoop (recsS E a rank) (fun k => readInt m (p + 24 + 4 * (3 + k))) (owned E rank)
      else (0, (owned E rank).length, [], (owned E rank).length)) =
      ((recsS E a rank).length, (owned E rank).length,
        ((owned E rank).filter fun i => a.countS i ≠ 0).map fun i => (i, slice a.sources a.offsetS a.countS i), (owned E rank).length) := by
    by_cases h : sendNs E a rank = 0
    · rw [if_neg (by simp [h]), hS0 h]
      have : recsS E a rank = [] := by unfold recsS; simp [h]
      rw [this]; rfl
    · rw [if_pos h]
      have he : recsS E a rank = (owned E rank).flatMap fun i => slice a.sources a.offsetS a.countS i := by unfold recsS; rw [if_pos h]
      rw [he, mergeLoop_eq (fun i => slice a.sources a.offsetS a.countS i) a.countS _ _ (fun i hi => slice_len (hS i hi)) (hcS h)]
  have mT : (if sendNt E a rank ≠ 0 then mergeLoop (recsT E a rank)
      (fun k => readInt m (p + 24 + 4 * (3 + (owned E rank).length * (if sendNs E a rank > 0 then 1 else 0) + k))) (owned E rank)
      else (0, (owned E rank).length, [], (owned E rank).length)) =
      ((recsT E a rank).length, (owned E rank).length,
        (if E.same then [] else ((owned E rank).filter fun i => a.countT i ≠ 0).map fun i => (i, slice a.targets a.offsetT a.countT i)),
        (owned E rank).length) := by
    by_cases h : sendNt E a rank = 0
    · rw [if_neg (by simp [h])]
      have : recsT E a rank = [] := by unfold recsT; simp [h]
      rw [this]
      cases hE : E.same with
      | true => rfl
      | false => rw [hT0 hE h]; rfl
    · rw [if_pos h]
      have hf : E.same = false := by
        cases hE : E.same with
        | false => rfl
        | true => exact absurd (hsame hE) h
      have he : recsT E a rank = (owned E rank).flatMap fun i => slice a.targets a.offsetT a.countT i := by unfold recsT; rw [if_pos h]
      rw [he, mergeLoop_eq (fun i => slice a.targets a.offsetT a.countT i) a.countT _ _ (fun i hi => slice_len (hT hf i hi)) (hcT h), hf]
      rfl
  have mSame : (if sendNt E a rank = 0 ∧ E.same = true ∧ sendNs E a rank ≠ 0 then
      (owned E rank).foldl (fun (s : Nat × List (Nat × Nat) × Nat) i =>
        if readInt m (p + 24 + 4 * (3 + s.1)) ≠ 0 then (s.1 + 1, s.2.1 ++ [(i, readInt m (p + 24 + 4 * (3 + s.1)))], s.2.2 + 1)
        else (s.1 + 1, s.2.1, s.2.2 + 1)) (0, [], 0)
      else ((owned E rank).length, [], if sendNt E a rank = 0 then (owned E rank).length else 0)) =
      ((owned E rank).length, (if E.same then ((owned E rank).filter fun i => a.countS i ≠ 0).map fun i => (i, a.countS i) else []),
        if sendNt E a rank = 0 then (owned E rank).length else 0) := by
    by_cases h : sendNt E a rank = 0 ∧ E.same = true ∧ sendNs E a rank ≠ 0
    · rw [if_pos h, sameLoop_eq a.countS (fun k => readInt m (p + 24 + 4 * (3 + k))) _ (hcS h.2.2), if_pos h.1, h.2.1]
      rfl
    · rw [if_neg h]
      cases hE : E.same with
      | false => rfl
      | true =>
        have h0 : sendNs E a rank = 0 := by
          by_contra hc
          exact h ⟨hsame hE, hE, hc⟩
        rw [hS0 h0]; rfl
  simp only [mS, mT, mSame]
  rw [if_neg (by simp)]
  by_cases h : sendNt E a rank = 0
  · simp [h]; omega
  · simp [h]; omega

end Points
end Dashmm
