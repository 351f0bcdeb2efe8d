import Verif.Spec.TraceFile
import Mathlib.Data.List.Basic
import Mathlib.Data.Nat.Basic
import Mathlib.Order.Nat
import Mathlib.Tactic.SplitIfs
import Mathlib.Tactic.IntervalCases

/-!
# C114: the files of a trace
-/

namespace Dashmm

namespace Trace

/-! ## Splitting -/

theorem splitFrom_flat (d : Char) (s p : List Char) : (splitFrom d p s).flatten = p ++ s.filter fun c => decide (c ≠ d) := by
  induction s generalizing p with
  | nil => simp [splitFrom]
  | cons c s ih =>
    unfold splitFrom
    by_cases hc : c = d
    · rw [if_pos hc, List.filter_cons_of_neg (by simpa using hc)]
      split_ifs with hp
      · rw [ih, hp]
      · rw [List.flatten_cons, ih]; simp
    · rw [if_neg hc, List.filter_cons_of_pos (by simpa using hc), ih]; simp

theorem splitFrom_no (d : Char) (s p : List Char) (hp : d ∉ p) : ∀ q ∈ splitFrom d p s, d ∉ q := by
  induction s generalizing p with
  | nil => intro q hq; simp [splitFrom] at hq; subst hq; exact hp
  | cons c s ih =>
    unfold splitFrom
    split_ifs with hc he
    · exact ih _ (by simp)
    · intro q hq
      rcases List.mem_cons.1 hq with rfl | hq
      · exact hp
      · exact ih _ (by simp) q hq
    · refine ih _ ?_
      simp only [List.mem_append, List.mem_singleton]
      rintro (h | h)
      · exact hp h
      · exact hc h.symm

theorem splitFrom_piece {d : Char} {p : List Char} (hp : d ∉ p) (q s : List Char) : splitFrom d q (p ++ s) = splitFrom d (q ++ p) s := by
  induction p generalizing q with
  | nil => simp
  | cons c p ih =>
    have hc : ¬ c = d := fun h => hp (by simp [h])
    rw [List.cons_append, splitFrom, if_neg hc, ih (fun h => hp (by simp [h]))]
    simp

theorem split_joined {d : Char} {ps : List (List Char)} (hne : ps ≠ []) (h : ∀ p ∈ ps, p ≠ [] ∧ d ∉ p) : split d (joined d ps) = ps := by
  unfold split
  induction ps with
  | nil => exact absurd rfl hne
  | cons p ps ih =>
    obtain ⟨h1, h2⟩ := h p (by simp)
    cases ps with
    | nil =>
      show splitFrom d [] p = [p]
      have := splitFrom_piece h2 [] []
      simp only [List.append_nil, List.nil_append] at this
      rw [this, splitFrom]
    | cons q ps =>
      show splitFrom d [] (p ++ d :: joined d (q :: ps)) = _
      rw [splitFrom_piece h2, List.nil_append, splitFrom, if_pos rfl, if_neg h1, ih (by simp) fun p hp => h p (by simp [hp])]

theorem split_last {d : Char} {s : List Char} (hs : d ∉ s) (r p : List Char) : (splitFrom d p (r ++ d :: s)).getLastD [] = s := by
  have h0 : splitFrom d [] s = [s] := by
    have := splitFrom_piece hs [] []
    simp only [List.append_nil, List.nil_append] at this
    rw [this, splitFrom]
  induction r generalizing p with
  | nil =>
    rw [List.nil_append, splitFrom, if_pos rfl]
    split_ifs
    · rw [h0]; rfl
    · rw [h0]; rfl
  | cons c r ih =>
    rw [List.cons_append, splitFrom]
    split_ifs
    · exact ih []
    · have := ih []
      cases hx : splitFrom d [] (r ++ d :: s) with
      | nil =>
        have h1 := splitFrom_flat d (r ++ d :: s) []
        exfalso
        rw [hx] at this
        simp at this
        subst this
        have : ∀ (l q : List Char), splitFrom d q l ≠ [] := by
          intro l
          induction l with
          | nil => intro q; simp [splitFrom]
          | cons c l ih => intro q; unfold splitFrom; split_ifs <;> simp [ih]
        exact this _ _ hx
      | cons y l => rw [hx] at this; simpa using this
    · exact ih _

theorem splitOnce_spec {d : Char} {a b : List Char} (ha : d ∉ a) : splitOnce d (a ++ d :: b) = (a, b) := by
  unfold splitOnce
  have h1 : ∀ c ∈ a, decide (c ≠ d) = true := by
    intro c hc; simp; rintro rfl; exact ha hc
  rw [List.takeWhile_append_of_pos h1, List.dropWhile_append_of_pos h1, List.takeWhile_cons_of_neg (by simp), List.dropWhile_cons_of_neg (by simp)]
  simp

/-! ## Numbers -/

theorem digit_digitChar : ∀ d < 10, digit? (Nat.digitChar d) = some d := by decide

theorem digits_append {l r : List Char} (h : ∀ c ∈ l, (digit? c).isSome) (n : Nat) : digits n (l ++ r) = digits (digits n l) r := by
  induction l generalizing n with
  | nil => rfl
  | cons c l ih =>
    obtain ⟨d, hd⟩ := Option.isSome_iff_exists.1 (h c (by simp))
    rw [List.cons_append, digits, hd, digits, hd]
    exact ih (fun c hc => h c (by simp [hc])) _

theorem decimal_spec (n : Nat) : (∀ c ∈ decimal n, (digit? c).isSome) ∧ decimal n ≠ [] ∧ digits 0 (decimal n) = n := by
  induction n using Nat.strongRecOn with
  | ind n ih =>
    unfold decimal at *
    rw [Nat.toDigits_eq_if (by decide)]
    split_ifs with h
    · have h1 := digit_digitChar n h
      refine ⟨by simp [h1], by simp, ?_⟩
      rw [digits, h1]
      simp [digits]
    · obtain ⟨a, b, c⟩ := ih (n / 10) (by omega)
      have h1 := digit_digitChar (n % 10) (by omega)
      refine ⟨?_, by simp, ?_⟩
      · intro x hx
        rcases List.mem_append.1 hx with hx | hx
        · exact a x hx
        · simp at hx; subst hx; rw [h1]; rfl
      · rw [digits_append a, c, digits, h1]
        simp only [digits]; omega

theorem digit_not {c x : Char} (h : (digit? c).isSome) (hx : digit? x = none) : c ≠ x := by
  rintro rfl; rw [hx] at h; simp at h

theorem stoi_decimal {n : Nat} (hn : n < 2 ^ 31) : stoi (decimal n) = some (n : Int) := by
  obtain ⟨a, b, c⟩ := decimal_spec n
  generalize decimal n = s at *
  cases s with
  | nil => exact absurd rfl b
  | cons x s =>
    have hx := a x (by simp)
    have h1 : isSpace x = false := by
      have n1 := digit_not hx (x := ' ') (by decide)
      have n2 := digit_not hx (x := '\t') (by decide)
      have n3 := digit_not hx (x := '\n') (by decide)
      have n4 := digit_not hx (x := '\r') (by decide)
      have n5 : x.toNat ≠ 11 ∧ x.toNat ≠ 12 := by
        unfold digit? at hx
        split_ifs at hx with hc
        · have h48 : ('0' : Char).toNat ≤ x.toNat := hc.1
          have : ('0' : Char).toNat = 48 := rfl
          omega
        · simp at hx
      simp [isSpace, n1, n2, n3, n4, n5.1, n5.2]
    have h2 : x ≠ '-' := digit_not hx (by decide)
    have h3 : x ≠ '+' := digit_not hx (by decide)
    obtain ⟨d, hd⟩ := Option.isSome_iff_exists.1 hx
    unfold stoi
    rw [List.dropWhile_cons_of_neg (by simp [h1])]
    simp only [List.head?_cons, Option.some.injEq, h2, h3, or_self, if_false, Option.bind_some, hd]
    have h4 : (some x == some '-') = false := by simp [h2]
    simp only [h4, Bool.false_eq_true, if_false, c]
    rw [if_pos (by omega)]

theorem decimal_no (n : Nat) {x : Char} (hx : digit? x = none) : x ∉ decimal n := fun h => digit_not ((decimal_spec n).1 x h) hx rfl

/-! ## Bytes -/

theorem fromLE_toLE (k n : Nat) : fromLE (toLE k n) = n % 256 ^ k := by
  induction k generalizing n with
  | zero => simp [toLE, fromLE, Nat.mod_one]
  | succ k ih =>
    rw [toLE, fromLE, ih, Nat.pow_succ, Nat.mul_comm (256 ^ k) 256, Nat.mod_mul]

theorem toLE_length (k n : Nat) : (toLE k n).length = k := by
  induction k generalizing n with
  | zero => rfl
  | succ k ih => simp [toLE, ih]

theorem stamps_length (stamps : List Nat) : (stamps.flatMap (toLE 8)).length = 8 * stamps.length := by
  induction stamps with
  | nil => rfl
  | cons t l ih => rw [List.flatMap_cons, List.length_append, ih, toLE_length, List.length_cons]; omega

theorem readRecords_ok {p : Evt} {stamps : List Nat} (h : ∀ t ∈ stamps, t < 2 ^ 64) {tail : List Nat} (ht : tail.length < 8) {fuel : Nat}
    (hf : stamps.length + tail.length ≤ fuel) :
    readRecords p fuel (stamps.flatMap (toLE 8) ++ tail) = if tail = [] then some (stamps.map fun t => { p with stamp := t }) else none := by
  induction stamps generalizing fuel with
  | nil =>
    simp only [List.flatMap_nil, List.nil_append, List.map_nil]
    cases fuel with
    | zero =>
      have : tail = [] := List.eq_nil_of_length_eq_zero (by simp at hf; simp [hf])
      subst this; rfl
    | succ fuel => rw [readRecords, if_pos ht]
  | cons t l ih =>
    cases fuel with
    | zero => simp at hf
    | succ fuel =>
      have hl := toLE_length 8 t
      rw [List.flatMap_cons, List.append_assoc, readRecords]
      have hne : toLE 8 t ++ (l.flatMap (toLE 8) ++ tail) ≠ [] := by simp [toLE]
      rw [if_neg hne, if_neg (by simp [hl]), List.drop_left' hl, List.take_left' hl, ih (fun t ht => h t (by simp [ht])) (by simp at hf; omega),
        fromLE_toLE]
      have := h t (by simp)
      have e : t % 256 ^ 8 = t := Nat.mod_eq_of_lt (by omega)
      rw [e]
      split_ifs <;> simp

theorem skipHeader_ok {version header r : List Nat} (hv : version.length = 2) (hh : header.length < 2 ^ 16) :
    skipHeader ([72, 80, 88, 110, 112, 121] ++ version ++ toLE 2 header.length ++ header ++ r) = some r := by
  have hl := toLE_length 2 header.length
  unfold skipHeader
  rw [if_neg (by simp), if_neg (by simp [magic])]
  have e1 : (([72, 80, 88, 110, 112, 121] ++ version ++ toLE 2 header.length ++ header ++ r).drop 6).drop 2 = toLE 2 header.length ++ (header ++ r) := by
    have : [72, 80, 88, 110, 112, 121] ++ version ++ toLE 2 header.length ++ header ++ r =
        [72, 80, 88, 110, 112, 121] ++ (version ++ (toLE 2 header.length ++ (header ++ r))) := by simp
    rw [this, List.drop_left' (by rfl), List.drop_left' hv]
  simp only [e1]
  rw [if_neg (by simp [hl]), List.drop_left' hl, List.take_left' hl, fromLE_toLE, Nat.mod_eq_of_lt (by omega), List.drop_left' rfl]

end Trace

open Trace

/-- Splitting keeps everything except the delimiters, in order, and no piece has a delimiter. -/
theorem C114_split (d : Char) (s : List Char) : (split d s).flatten = s.filter (fun c => decide (c ≠ d)) ∧ ∀ p ∈ split d s, d ∉ p :=
  ⟨by have h := splitFrom_flat d s []; rw [List.nil_append] at h; exact h, splitFrom_no d s [] (by simp)⟩

/-- Pieces without delimiters, none of them empty, are found again. -/
theorem C114_split_joined {d : Char} {ps : List (List Char)} (hne : ps ≠ []) (h : ∀ p ∈ ps, p ≠ [] ∧ d ∉ p) : split d (joined d ps) = ps :=
  split_joined hne h

/-- The name of a file of a trace, in any directory, tells its locality, its worker and its type of events. -/
theorem C114_name {L W : Nat} (hL : L < 2 ^ 31) (hW : W < 2 ^ 31) {x y cls evt ext : List Char}
    (hx : x ≠ [] ∧ '.' ∉ x ∧ '/' ∉ x) (hy : y ≠ [] ∧ '.' ∉ y ∧ '/' ∉ y) (hext : ext ≠ [] ∧ '.' ∉ ext ∧ '/' ∉ ext)
    (hc : cls ≠ [] ∧ '.' ∉ cls ∧ '/' ∉ cls ∧ '_' ∉ cls) (he : evt ≠ [] ∧ '.' ∉ evt ∧ '/' ∉ evt) {p : Evt} (hp : proto cls evt = some p) (dir : List Char) :
    interpret (joined '.' [decimal L, decimal W, x, y, cls ++ '_' :: evt, ext]) = some ((L : Int), (W : Int), p) ∧
      interpret (dir ++ '/' :: joined '.' [decimal L, decimal W, x, y, cls ++ '_' :: evt, ext]) = some ((L : Int), (W : Int), p) := by
  have hsp : split '.' (joined '.' [decimal L, decimal W, x, y, cls ++ '_' :: evt, ext]) = [decimal L, decimal W, x, y, cls ++ '_' :: evt, ext] := by
    refine split_joined (by simp) ?_
    intro q hq
    simp only [List.mem_cons, List.not_mem_nil, or_false] at hq
    rcases hq with rfl | rfl | rfl | rfl | rfl | rfl
    · exact ⟨(decimal_spec L).2.1, decimal_no L (by decide)⟩
    · exact ⟨(decimal_spec W).2.1, decimal_no W (by decide)⟩
    · exact ⟨hx.1, hx.2.1⟩
    · exact ⟨hy.1, hy.2.1⟩
    · refine ⟨by simp, ?_⟩
      simp only [List.mem_append, List.mem_cons, not_or]
      exact ⟨hc.2.1, by decide, he.2.1⟩
    · exact ⟨hext.1, hext.2.1⟩
  have hslash : '/' ∉ joined '.' [decimal L, decimal W, x, y, cls ++ '_' :: evt, ext] := by
    simp only [joined, List.mem_append, List.mem_cons, not_or]
    exact ⟨decimal_no L (by decide), by decide, decimal_no W (by decide), by decide, hx.2.2, by decide, hy.2.2, by decide,
      ⟨hc.2.2.1, by decide, he.2.2⟩, by decide, hext.2.2⟩
  have hbase : (match split '.' (joined '.' [decimal L, decimal W, x, y, cls ++ '_' :: evt, ext]) with
      | [a, b, _, _, e, _] =>
        match stoi a, stoi b with
        | some l, some w =>
          let ce := splitOnce '_' e
          if ce.1 = [] ∨ ce.2 = [] then none
          else (proto ce.1 ce.2).map fun p => (l, w, p)
        | _, _ => none
      | _ => none) = some ((L : Int), (W : Int), p) := by
    rw [hsp]
    simp only [stoi_decimal hL, stoi_decimal hW, splitOnce_spec hc.2.2.2, hc.1, he.1, or_self, if_false, hp, Option.map_some]
  have h0 : (split '/' (joined '.' [decimal L, decimal W, x, y, cls ++ '_' :: evt, ext])).getLastD [] =
      joined '.' [decimal L, decimal W, x, y, cls ++ '_' :: evt, ext] := by
    have := splitFrom_piece hslash [] []
    simp only [List.append_nil, List.nil_append] at this
    unfold split
    rw [this, splitFrom]; rfl
  have h1 : (split '/' (dir ++ '/' :: joined '.' [decimal L, decimal W, x, y, cls ++ '_' :: evt, ext])).getLastD [] =
      joined '.' [decimal L, decimal W, x, y, cls ++ '_' :: evt, ext] := split_last hslash dir []
  constructor
  · unfold interpret; rw [h0]; exact hbase
  · unfold interpret; rw [h1]; exact hbase

/-- A name with any other number of parts is refused. -/
theorem C114_name_parts {name : List Char} (h : (split '.' ((split '/' name).getLastD [])).length ≠ 6) : interpret name = none := by
  unfold interpret
  split
  · rename_i heq; rw [heq] at h; simp at h
  · rfl

/-- Every operation that DASHMM records has one type of events for its begin and one for its end, of the same segment type, different from those of the other
operations; and the origin is of no segment type. -/
theorem C114_kinds : (∀ o ∈ recorded, ∃ s b e, s ≠ 0 ∧ proto "TRACE".toList ("DASHMM_" ++ o ++ "_BEGIN").toList = some ⟨0, b, s, true, false⟩ ∧
      proto "TRACE".toList ("DASHMM_" ++ o ++ "_END").toList = some ⟨0, e, s, false, true⟩) ∧
    (recorded.map fun o => (proto "TRACE".toList ("DASHMM_" ++ o ++ "_BEGIN").toList).map Evt.seg).Nodup ∧
    proto "TRACE".toList "DASHMM_ZEROREF".toList = some ⟨0, "dashmm zero ref", 0, false, false⟩ := by
  refine ⟨?_, by decide +kernel, by decide +kernel⟩
  have : ∀ o ∈ recorded, (match proto "TRACE".toList ("DASHMM_" ++ o ++ "_BEGIN").toList, proto "TRACE".toList ("DASHMM_" ++ o ++ "_END").toList with
      | some a, some b => decide (a.seg ≠ 0 ∧ a = ⟨0, a.tag, a.seg, true, false⟩ ∧ b = ⟨0, b.tag, a.seg, false, true⟩)
      | _, _ => false) = true := by decide +kernel
  intro o ho
  have h := this o ho
  cases h1 : proto "TRACE".toList ("DASHMM_" ++ o ++ "_BEGIN").toList with
  | none => rw [h1] at h; simp at h
  | some a =>
    cases h2 : proto "TRACE".toList ("DASHMM_" ++ o ++ "_END").toList with
    | none => rw [h1, h2] at h; simp at h
    | some b =>
      rw [h1, h2] at h
      simp only [decide_eq_true_eq] at h
      exact ⟨a.seg, a.tag, b.tag, h.1, congrArg some h.2.1, congrArg some h.2.2⟩

/-- Whatever the file, its records either begin or end a segment, if they are of a segment type. -/
theorem C114_regular {cls evt : List Char} {p : Evt} (hp : proto cls evt = some p) : p.seg ≠ 0 → p.starts = !p.ends := by
  have hn : ∀ k ∈ networkKinds, k.2.2.1 ≠ 0 → k.2.2.2.1 = !k.2.2.2.2 := by decide
  have hd : ∀ k ∈ dashmmKinds, k.2.2.1 ≠ 0 → k.2.2.2.1 = !k.2.2.2.2 := by decide
  unfold proto at hp
  obtain ⟨k, hk, rfl⟩ := Option.map_eq_some_iff.1 hp
  have hm := List.mem_of_find?_eq_some hk
  unfold kindsOf at hm
  split_ifs at hm
  · exact hn k hm
  · exact hd k hm
  · simp at hm

/-- What the runtime has written is read back: one record for each stamp, in order. -/
theorem C114_read {name : List Char} {l w : Int} {p : Evt} (hn : interpret name = some (l, w, p)) {version header stamps : List Nat}
    (hv : version.length = 2) (hh : header.length < 2 ^ 16) (hs : ∀ t ∈ stamps, t < 2 ^ 64) :
    load name (fileOf version header stamps) = some ⟨l, w, stamps.map fun t => { p with stamp := t }⟩ := by
  unfold load fileOf
  rw [hn, skipHeader_ok hv hh]
  simp only
  have := readRecords_ok (p := p) hs (tail := []) (by simp) (fuel := (stamps.flatMap (toLE 8)).length) (by rw [stamps_length]; simp; omega)
  simp only [List.append_nil, if_true] at this
  rw [this]; rfl

/-- A file that is cut off within a record is refused. -/
theorem C114_cut_off {name : List Char} {l w : Int} {p : Evt} (hn : interpret name = some (l, w, p)) {version header stamps tail : List Nat}
    (hv : version.length = 2) (hh : header.length < 2 ^ 16) (hs : ∀ t ∈ stamps, t < 2 ^ 64) (h0 : tail ≠ []) (h8 : tail.length < 8) :
    load name (fileOf version header stamps ++ tail) = none := by
  have e : fileOf version header stamps ++ tail =
      [72, 80, 88, 110, 112, 121] ++ version ++ toLE 2 header.length ++ header ++ (stamps.flatMap (toLE 8) ++ tail) := by
    simp [fileOf]
  unfold load
  rw [hn, e, skipHeader_ok hv hh]
  simp only
  have := readRecords_ok (p := p) hs h8 (fuel := (stamps.flatMap (toLE 8) ++ tail).length) (by rw [List.length_append, stamps_length]; omega)
  rw [this, if_neg h0]; rfl

/-- A file that does not begin with the magic number is refused. -/
theorem C114_magic {name : List Char} {bytes : List Nat} (h : bytes.take 6 ≠ [72, 80, 88, 110, 112, 121]) : load name bytes = none := by
  have h1 : skipHeader bytes = none := by
    have hm : magic = [72, 80, 88, 110, 112, 121] := by decide
    unfold skipHeader
    split_ifs with a b
    · rfl
    · rfl
    · rw [hm] at b; exact absurd h b
  unfold load
  rw [h1]
  cases interpret name <;> rfl

/-- A file whose header is cut off is not refused: it is read as one without records, which is then undefined behaviour (C110_empty). -/
theorem C114_header_cut_off {name : List Char} {l w : Int} {p : Evt} (hn : interpret name = some (l, w, p)) {version header : List Nat}
    (hv : version.length = 2) (hh : header.length < 2 ^ 16) {n : Nat} (h0 : n < header.length) :
    load name ([72, 80, 88, 110, 112, 121] ++ version ++ toLE 2 header.length ++ header.take n) = some ⟨l, w, []⟩ := by
  have hl := toLE_length 2 header.length
  have h1 : skipHeader ([72, 80, 88, 110, 112, 121] ++ version ++ toLE 2 header.length ++ header.take n) = some [] := by
    unfold skipHeader
    rw [if_neg (by simp), if_neg (by simp [magic])]
    have e1 : (([72, 80, 88, 110, 112, 121] ++ version ++ toLE 2 header.length ++ header.take n).drop 6).drop 2 =
        toLE 2 header.length ++ header.take n := by
      have : [72, 80, 88, 110, 112, 121] ++ version ++ toLE 2 header.length ++ header.take n =
          [72, 80, 88, 110, 112, 121] ++ (version ++ (toLE 2 header.length ++ header.take n)) := by simp
      rw [this, List.drop_left' (by rfl), List.drop_left' hv]
    simp only [e1]
    rw [if_neg (by simp [hl]), List.drop_left' hl, List.take_left' hl, fromLE_toLE, Nat.mod_eq_of_lt (by omega), List.drop_eq_nil_of_le]
    simp
  unfold load
  rw [hn, h1]
  rfl

/-! A name and a file. -/

example : interpret "traces/00/0.3.a.b.TRACE_DASHMM_STOT_END.log".toList = some (0, 3, ⟨0, "dashmm stot end", 2, false, true⟩) := by decide +kernel

example : load "0.3.a.b.TRACE_DASHMM_STOT_END.log".toList (fileOf [1, 0] [9, 9, 9] [258, 70000]) =
    some ⟨0, 3, [⟨258, "dashmm stot end", 2, false, true⟩, ⟨70000, "dashmm stot end", 2, false, true⟩]⟩ :=
  C114_read (l := 0) (w := 3) (p := ⟨0, "dashmm stot end", 2, false, true⟩) (name := "0.3.a.b.TRACE_DASHMM_STOT_END.log".toList)
    (version := [1, 0]) (header := [9, 9, 9]) (stamps := [258, 70000]) (by decide +kernel) rfl (by decide) (by decide)

end Dashmm
