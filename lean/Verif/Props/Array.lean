import Verif.Proofs.Array
import Verif.Proofs.ForEach
import Mathlib.Data.Fin.VecNotation
import Mathlib.Tactic.FinCases
/-!
Properties C08 to C14 and C50: arrays and reductions.
-/
namespace Dashmm
open Arr

variable {T : Type}

/-! ### C08 -/

/-- C08 (part): for an array reference of `r.n` records and any offset and count whose sum does not
wrap around in `size_t`, the slice is valid exactly if the requested range lies inside, and is then
exactly that range.
Missing for the full property: requests with `offset + n ≥ 2 ^ 64`, see `C08_slice_wraps`. -/
theorem C08_slice_partial (r : Ref) (start : Nat) (hr : r.data = some start)
    (offset n : Nat) (hw : offset + n < sizeMod) :
    ((r.slice offset n).valid ↔ offset + n ≤ r.n) ∧
    (offset + n ≤ r.n → r.slice offset n = ⟨some (start + offset), n⟩) := by
  obtain ⟨d, m⟩ := r
  simp only at hr
  subst hr
  have hm : (offset + n) % sizeMod = offset + n := Nat.mod_eq_of_lt hw
  simp only [Ref.slice, hm]
  constructor
  · constructor
    · intro h
      by_cases h1 : offset > m
      · rw [if_pos h1] at h; simp [Ref.valid] at h
      · rw [if_neg h1] at h
        by_cases h2 : offset + n > m
        · rw [if_pos h2] at h; simp [Ref.valid] at h
        · omega
    · intro h
      rw [if_neg (by omega), if_neg (by omega)]
      simp [Ref.valid]
  · intro h
    rw [if_neg (by omega), if_neg (by omega)]
    simp

example : (Ref.mk (some 7) 10).slice 3 4 = ⟨some 10, 4⟩ := by decide

/-- C08: every in-range request succeeds and refers to exactly the requested records (for any array
whose length is a `size_t`). -/
theorem C08_slice_in_range (r : Ref) (start : Nat) (hr : r.data = some start) (hn : r.n < sizeMod)
    (offset n : Nat) (h : offset + n ≤ r.n) : r.slice offset n = ⟨some (start + offset), n⟩ :=
  (C08_slice_partial r start hr offset n (by omega)).2 h

/-- C08 fails without the restriction: for every non-empty array there are an offset inside it and a
count representable in `size_t` for which `slice` returns a valid reference reaching past the end of
the array. -/
theorem C08_slice_wraps (start m : Nat) (hm : 0 < m) (hm2 : m < sizeMod) :
    ∃ offset n, offset ≤ m ∧ n < sizeMod ∧ offset + n > m ∧
      (Ref.mk (some start) m).slice offset n = ⟨some (start + offset), n⟩ := by
  refine ⟨1, sizeMod - 1, hm, by decide, by omega, ?_⟩
  have h1 : (1 + (sizeMod - 1)) % sizeMod = 0 := by decide
  simp only [Ref.slice, h1]
  rw [if_neg (by omega), if_neg (by omega)]
  rfl

/-! ### C50 -/

/-- C50: the sum reduction of `int` arrays gives the element-wise sum of all contributions, in
whatever order and association they are combined. -/
theorem C50_int_sum {n : Nat} {xs : List (Fin n → Int)} {v : Fin n → Int}
    (h : Reduce.Combined Reduce.intSumIdent Reduce.intSumOp xs v) (i : Fin n) :
    v i = (xs.map (· i)).sum := Reduce.intSum h i

/-- C50: the sum reduction of `size_t` arrays gives the element-wise sum modulo `2 ^ 64`. -/
theorem C50_size_sum {n : Nat} {xs : List (Fin n → Nat)} {v : Fin n → Nat}
    (h : Reduce.Combined Reduce.sizeSumIdent Reduce.sizeSumOp xs v)
    (hx : ∀ x ∈ xs, ∀ i, x i < sizeMod) (i : Fin n) :
    v i = (xs.map (· i)).sum % sizeMod := Reduce.sizeSum h hx i

/-- C50: the maximum reduction of `int` arrays gives the element-wise maximum of all contributions
(which are `int`s), in whatever order and association they are combined. -/
theorem C50_int_max {n : Nat} {xs : List (Fin n → Int)} {v : Fin n → Int}
    (h : Reduce.Combined Reduce.intMaxIdent Reduce.intMaxOp xs v)
    (hx : ∀ x ∈ xs, ∀ i, intMin ≤ x i) (hne : xs ≠ []) (i : Fin n) :
    (∀ x ∈ xs, x i ≤ v i) ∧ ∃ x ∈ xs, v i = x i := Reduce.intMax_nonempty h hx hne i

/-- C50: what a reduction LCO holds after the contributions arrived in any order is such a
combination. -/
theorem C50_lco_any_order {α : Type} {ident : α} {op : α → α → α} {xs arrivals : List α}
    (h : arrivals.Perm xs) : Reduce.Combined ident op xs (Reduce.lco ident op arrivals) :=
  Reduce.lco_combined h

example : Reduce.lco Reduce.intMaxIdent Reduce.intMaxOp [![(-5 : Int), 3], ![-7, 4]] 0 = -5 := by
  decide
example : Reduce.lco Reduce.sizeSumIdent Reduce.sizeSumOp [![2 ^ 64 - 1, 3], ![2, 4]] 0 = 1 := by
  decide

/-! ### C09 -/

/-- A rank asking for memory and not getting it. -/
def AllocFails {n : Nat} (newOk : Fin n → Bool) (req : Fin n → Request T) (r : Fin n) : Prop :=
  (req r).count ≠ 0 ∧ (req r).segment = none ∧ newOk r = false

/-- The records a rank has after an allocation: the segment it provided, otherwise default values. -/
def initialRecords [Inhabited T] (q : Request T) : List T :=
  q.segment.getD (List.replicate q.count default)

/-- C09: a collective allocation on a fresh array object, for any number of ranks, any counts, any
orders in which the contributions arrive: every rank has the count it asked for, every rank has as
total the sum of all counts; and either no rank's memory request failed, every rank returns success
and has its records; or some rank's request failed and every rank returns an allocation error. -/
theorem C09_allocate [Inhabited T] {n : Nat} (hn : 0 < n) {order1 order2 : List (Fin n)}
    (ho1 : order1.Perm (List.finRange n)) (ho2 : order2.Perm (List.finRange n))
    (newOk : Fin n → Bool) (req : Fin n → Request T)
    (hseg : ∀ r d, (req r).segment = some d → d.length = (req r).count)
    (hsum : ∑ r, (req r).count < sizeMod) :
    ∃ l, (allocate hn order1 order2 true newOk req none).2 = some l ∧
      (∀ r, (l r).localCount = (req r).count ∧ (l r).totalCount = ∑ q, (req q).count) ∧
      (((∀ r, ¬ AllocFails newOk req r) ∧
          (∀ r, (allocate hn order1 order2 true newOk req none).1 r = kSuccess) ∧
          ∀ r, Holds (l r) (initialRecords (req r))) ∨
        ((∃ r, AllocFails newOk req r) ∧
          ∀ r, (allocate hn order1 order2 true newOk req none).1 r = kAllocationError)) := by
  simp only [allocate, if_true]
  generalize hS : Reduce.lco Reduce.sizeSumIdent Reduce.sizeSumOp
    (order1.map fun r => contrib r (req r).count) = sums
  have hlast : sums ⟨n - 1, by omega⟩ = ∑ q, (req q).count := by
    rw [← hS]; exact sums_spec hn ho1 _ hsum
  refine ⟨_, rfl, ?_, ?_⟩
  · intro r
    simp only [allocLocal]
    rw [hlast]
    split
    · split <;> exact ⟨rfl, rfl⟩
    · exact ⟨rfl, rfl⟩
  · have hcode : ∀ r, (allocLocal sums hn (newOk r) (req r)).2 = 0 ∧ ¬ AllocFails newOk req r ∨
        (allocLocal sums hn (newOk r) (req r)).2 = kAllocationError ∧ AllocFails newOk req r := by
      intro r
      simp only [allocLocal, AllocFails]
      by_cases h1 : (req r).count ≠ 0 ∧ (req r).segment.isNone
      · rw [if_pos h1]
        by_cases h2 : newOk r = true
        · rw [if_pos h2]; left; exact ⟨rfl, by simp [h2]⟩
        · rw [if_neg h2]; right
          exact ⟨rfl, h1.1, Option.isNone_iff_eq_none.1 h1.2, by simpa using h2⟩
      · rw [if_neg h1]
        left
        refine ⟨rfl, fun h => h1 ⟨h.1, by simp [h.2.1]⟩⟩
    have hret := retcode_spec ho2 (codes := fun r => (allocLocal sums hn (newOk r) (req r)).2)
      (by
        intro r
        rcases hcode r with h | h <;> simp only [h.1] <;> decide) hn
    unfold retcode at hret
    by_cases hf : ∃ r, AllocFails newOk req r
    · right
      refine ⟨hf, fun _ => ?_⟩
      obtain ⟨r, hr⟩ := hf
      have h1 := hret.1 r
      rcases hcode r with h | h
      · exact absurd hr h.2
      · simp only [h.1] at h1
        rw [if_pos]
        intro he
        rw [he] at h1
        exact absurd h1 (by decide)
    · left
      have hall : ∀ r, ¬ AllocFails newOk req r := fun r h => hf ⟨r, h⟩
      refine ⟨hall, fun _ => ?_, ?_⟩
      · obtain ⟨r, hr⟩ := hret.2
        rw [if_neg]
        rw [hr]
        rcases hcode r with h | h
        · simp [h.1, kSuccess]
        · exact absurd h.2 (hall r)
      · intro r
        have h1 := hall r
        simp only [AllocFails] at h1
        simp only [allocLocal, initialRecords]
        split
        · rename_i hc
          have : newOk r = true := by
            have h2 := Option.isNone_iff_eq_none.1 hc.2
            cases hb : newOk r
            · exact absurd ⟨hc.1, h2, hb⟩ h1
            · rfl
          rw [if_pos this]
          have h2 := Option.isNone_iff_eq_none.1 hc.2
          simp [Holds, h2]
        · rename_i hc
          cases hs : (req r).segment with
          | none =>
            have h0 : (req r).count = 0 := by
              by_contra h
              exact hc ⟨h, by simp [hs]⟩
            simp [Holds, h0]
          | some d =>
            have := hseg r d hs
            simp [Holds, this]

/-- C09: allocating an array object that already has an allocation gives a domain error on every rank
and changes nothing. -/
theorem C09_allocate_twice [Inhabited T] {n : Nat} (hn : 0 < n) (order1 order2 : List (Fin n))
    (metaOk : Bool) (newOk : Fin n → Bool) (req : Fin n → Request T) (l : Fin n → Local T) :
    (∀ r, (allocate hn order1 order2 metaOk newOk req (some l)).1 r = kDomainError) ∧
    (allocate hn order1 order2 metaOk newOk req (some l)).2 = some l := ⟨fun _ => rfl, rfl⟩

/-- C09: if the global metadata cannot be allocated, every rank gets an allocation error and the
object stays unallocated, so that the call can be repeated. -/
theorem C09_allocate_no_metadata [Inhabited T] {n : Nat} (hn : 0 < n) (order1 order2 : List (Fin n))
    (newOk : Fin n → Bool) (req : Fin n → Request T) :
    (∀ r, (allocate hn order1 order2 false newOk req none).1 r = kAllocationError) ∧
    (allocate hn order1 order2 false newOk req none).2 = none := ⟨fun _ => rfl, rfl⟩

example : ∃ l, (allocate (T := Nat) (n := 3) (by decide) [2, 0, 1] [1, 2, 0] true (fun _ => true)
    ![⟨2, none⟩, ⟨0, none⟩, ⟨3, some [7, 8, 9]⟩] none).2 = some l ∧
    (l 1).totalCount = 5 ∧ (l 0).data = some [0, 0] ∧ (l 2).data = some [7, 8, 9] :=
  ⟨_, rfl, by decide, rfl, rfl⟩

/-! ### C10 -/

/-- C10: a collective `get`, for any segments and any ranges, the ranks' codes being combined in any
order (each rank's output buffer being large enough for its range): the call is defined; a rank whose
range lies inside its segment receives exactly those records, in order, at the start of its buffer,
and nothing else is written; a rank whose range is not receives nothing; and the code is success on
every rank if all ranges were good, and a domain error on every rank otherwise. -/
theorem C10_get {n : Nat} (hn : 0 < n) {order : List (Fin n)} (ho : order.Perm (List.finRange n))
    (l : Fin n → Local T) (recs : Fin n → List T) (hl : ∀ r, Holds (l r) (recs r))
    (first last : Fin n → Nat) (out : Fin n → List T)
    (hout : ∀ r, last r - first r ≤ (out r).length) :
    ∃ res, Arr.get order l first last out = some res ∧
      (∀ r, first r ≤ last r → last r ≤ (recs r).length →
        res.1 r = ((recs r).drop (first r)).take (last r - first r) ++
          (out r).drop (last r - first r)) ∧
      (∀ r, ¬ (first r ≤ last r ∧ last r ≤ (recs r).length) → res.1 r = out r) ∧
      ((∀ r, first r ≤ last r ∧ last r ≤ (recs r).length) → res.2 = kSuccess) ∧
      ((∃ r, ¬ (first r ≤ last r ∧ last r ≤ (recs r).length)) → res.2 = kDomainError) := by
  have hone : ∀ r, getLocal (l r) (first r) (last r) (out r) =
      some (if first r ≤ last r ∧ last r ≤ (recs r).length then
        (((recs r).drop (first r)).take (last r - first r) ++ (out r).drop (last r - first r),
          kSuccess) else (out r, kDomainError)) := by
    intro r
    obtain ⟨h1, h2⟩ := hl r
    unfold getLocal
    rw [h1]
    by_cases hv : first r ≤ last r ∧ last r ≤ (recs r).length
    · rw [if_neg (by omega), if_pos hv]
      split
      · rename_i hne
        rcases h2 with h2 | ⟨_, h2⟩
        · rw [h2]
          have := hout r
          simp only [copyInto]
          rw [if_pos ⟨hv.1, hv.2, by omega⟩]
          simp
        · simp [h2] at hne
      · rename_i hz
        have hz' : (recs r).length = 0 := by omega
        have hre : recs r = [] := List.length_eq_zero_iff.1 hz'
        have : last r - first r = 0 := by omega
        rw [this]
        simp
    · rw [if_pos (by omega), if_neg hv]
  have hget : Arr.get order l first last out = some
      (fun r => (if first r ≤ last r ∧ last r ≤ (recs r).length then
        (((recs r).drop (first r)).take (last r - first r) ++ (out r).drop (last r - first r),
          kSuccess) else (out r, kDomainError)).1,
       retcode order fun r => (if first r ≤ last r ∧ last r ≤ (recs r).length then
        (((recs r).drop (first r)).take (last r - first r) ++ (out r).drop (last r - first r),
          kSuccess) else (out r, kDomainError)).2) := by
    unfold Arr.get
    rw [dif_pos (fun r => by rw [hone r]; rfl)]
    simp only [hone, Option.get_some]
  have hret := retcode_spec ho (codes := fun r => (if first r ≤ last r ∧ last r ≤ (recs r).length then
        (((recs r).drop (first r)).take (last r - first r) ++ (out r).drop (last r - first r),
          kSuccess) else (out r, kDomainError)).2)
      (by
        intro r
        by_cases h : first r ≤ last r ∧ last r ≤ (recs r).length
        · simp only [if_pos h]; decide
        · simp only [if_neg h]; decide) hn
  refine ⟨_, hget, ?_, ?_, ?_, ?_⟩
  · intro r h1 h2
    simp only [if_pos (And.intro h1 h2)]
  · intro r h
    simp only [if_neg h]
  · intro h
    obtain ⟨r, hr⟩ := hret.2
    simp only
    rw [hr, if_pos (h r)]
  · rintro ⟨r, hr⟩
    have h1 := hret.1 r
    simp only [if_neg hr] at h1
    obtain ⟨q, hq⟩ := hret.2
    simp only
    rw [hq] at h1 ⊢
    split at h1
    · exact absurd h1 (by simp only; decide)
    · rename_i h; rw [if_neg h]

example : Holds (⟨some [4, 5, 6], 3, 3⟩ : Local Nat) [4, 5, 6] := ⟨rfl, .inl rfl⟩

/-! ### C11, C12 -/

/-- What `put` does to a segment, for every range inside it: it is defined exactly if the caller's
buffer holds `last` records and the segment has room for `last` records from `first` on; then it
replaces the records `first .. first + last - 1`. -/
theorem putLocal_exact (l : Local T) (recs : List T) (hl : Holds l recs) (hne : recs ≠ [])
    (first last : Nat) (h1 : first ≤ last) (h2 : last ≤ recs.length) (inData : List T) :
    putLocal l first last inData =
      if last ≤ inData.length ∧ first + last ≤ recs.length then
        some ({ l with data := some (recs.take first ++ inData.take last ++ recs.drop (first + last)) },
          kSuccess)
      else none := by
  obtain ⟨e1, e2⟩ := hl
  have hpos : 0 < recs.length := List.length_pos_iff.2 hne
  rcases e2 with e2 | ⟨_, e2⟩
  · unfold putLocal
    rw [e1, if_neg (by omega), if_pos (by omega), e2]
    simp only [copyInto, Nat.zero_le, true_and, Nat.sub_zero, List.drop_zero]
    split <;> simp
  · exact absurd e2 hne

/-- C11 (part): `put(0, last, in)` with `last` inside the segment and `in` holding `last` records
replaces exactly the records `0 .. last - 1` by those of `in` and reports success.
Missing for the full property: ranges with `first > 0`, for which it is false, see
`C11_put_first_positive_undefined` and `C11_put_overwrites_too_much`. -/
theorem C11_put_partial (l : Local T) (recs : List T) (hl : Holds l recs) (last : Nat)
    (h : last ≤ recs.length) (inData : List T) (hin : inData.length = last) :
    ∃ l', putLocal l 0 last inData = some (l', kSuccess) ∧ Holds l' (inData ++ recs.drop last) := by
  by_cases hne : recs = []
  · subst hne
    obtain ⟨e1, e2⟩ := hl
    simp only [List.length_nil, Nat.le_zero_eq] at h e1
    subst h
    have : inData = [] := List.length_eq_zero_iff.1 hin
    subst this
    refine ⟨l, by simp [putLocal, e1], ?_⟩
    exact ⟨by simpa using e1, by simpa using e2⟩
  · refine ⟨_, (putLocal_exact l recs hl hne 0 last (Nat.zero_le _) h inData).trans
      (if_pos ⟨by omega, by omega⟩), ?_⟩
    · subst hin
      refine ⟨?_, .inl ?_⟩
      · simp [hl.1]; omega
      · simp

/-- C11: a range that does not lie inside the segment changes nothing and is reported. -/
theorem C11_put_bad_range (l : Local T) (recs : List T) (hl : Holds l recs) (first last : Nat)
    (h : ¬ (first ≤ last ∧ last ≤ recs.length)) (inData : List T) :
    putLocal l first last inData = some (l, kDomainError) := by
  unfold putLocal
  rw [if_pos]
  have := hl.1
  omega

/-- C11 fails for `first > 0`: whenever a caller passes a buffer of exactly the records of its range,
`put` reads past the end of that buffer, for every segment and every good range not starting at 0. -/
theorem C11_put_first_positive_undefined (l : Local T) (recs : List T) (hl : Holds l recs)
    (first last : Nat) (h0 : 0 < first) (h1 : first ≤ last) (h2 : last ≤ recs.length)
    (inData : List T) (hin : inData.length = last - first) :
    putLocal l first last inData = none := by
  rw [putLocal_exact l recs hl (by rintro rfl; simp at h2; omega) first last h1 h2,
    if_neg (by omega)]

/-- C11 fails for `first > 0` even if the caller's buffer is longer: records behind the range are
overwritten. -/
theorem C11_put_overwrites_too_much :
    ∃ l', putLocal (⟨some [10, 11, 12], 3, 3⟩ : Local Nat) 1 2 [20, 21] = some (l', kSuccess) ∧
      Holds l' [10, 20, 21] := ⟨_, rfl, rfl, .inl rfl⟩

/-- C12 (part): `put(0, last, d)` followed by `get(0, last)` yields `d`; the other records keep their
values, as a `get` of the whole segment shows. Missing: ranges with `first > 0`, see
`C12_neighbour_lost`. -/
theorem C12_get_after_put_partial (l : Local T) (recs : List T) (hl : Holds l recs) (last : Nat)
    (h : last ≤ recs.length) (d : List T) (hd : d.length = last) :
    ∃ l', putLocal l 0 last d = some (l', kSuccess) ∧
      (∀ out : List T, out.length = last → getLocal l' 0 last out = some (d, kSuccess)) ∧
      (∀ out : List T, out.length = recs.length →
        getLocal l' 0 recs.length out = some (d ++ recs.drop last, kSuccess)) := by
  obtain ⟨l', h1, h2⟩ := C11_put_partial l recs hl last h d hd
  have hg : ∀ k, k ≤ recs.length → ∀ out : List T, out.length = k →
      getLocal l' 0 k out = some ((d ++ recs.drop last).take k, kSuccess) := by
    intro k hk out ho
    obtain ⟨e1, e2⟩ := h2
    have hlen : (d ++ recs.drop last).length = recs.length := by simp; omega
    unfold getLocal
    rw [e1, hlen, if_neg (by omega)]
    split
    · rename_i hne
      rcases e2 with e2 | ⟨_, e2⟩
      · rw [e2]
        simp only [copyInto, Nat.zero_le, true_and, Nat.sub_zero, Nat.zero_add, List.drop_zero]
        rw [if_pos ⟨by omega, by omega⟩]
        simp [ho]
      · rw [e2] at hlen; simp at hlen; omega
    · rename_i hz
      have : k = 0 := by omega
      subst this
      have : out = [] := List.length_eq_zero_iff.1 ho
      simp [this]
  refine ⟨l', h1, ?_, ?_⟩
  · intro out ho
    rw [hg last h out ho]
    simp [hd]
  · intro out ho
    rw [hg recs.length (le_refl _) out ho]
    rw [List.take_of_length_le (by simp; omega)]

example : ∃ l', putLocal (⟨some [10, 11, 12], 3, 3⟩ : Local Nat) 0 2 [20, 21] = some (l', kSuccess) ∧
    Holds l' [20, 21, 12] := ⟨_, rfl, rfl, .inl rfl⟩

/-- C12 fails for `first > 0`: a record outside the range loses its value. -/
theorem C12_neighbour_lost :
    ∃ l', putLocal (⟨some [10, 11, 12], 3, 3⟩ : Local Nat) 1 2 [20, 21] = some (l', kSuccess) ∧
      getLocal l' 2 3 [0] = some ([21], kSuccess) := ⟨_, rfl, rfl⟩

/-! ### C13 -/

/-- C13: whenever, in any schedule of the requests and of the (interleaved) receive handlers, as many
completions have been set as there are ranks, which is what rank 0 waits for, the result array holds
the records of rank 0, then those of rank 1, and so on; for any serializer that keeps its contract and
any initial contents of the result array. -/
theorem C13_collect {n : Nat} {s : Serializer T} (hs : s.Ok) {l : Fin n → Local T}
    {recs : Fin n → List T} (hl : ∀ r, Holds (l r) (recs r)) {mem : List T}
    (hm : mem.length = ∑ r, (l r).localCount) {c : CState T n} (h : CReach s l mem c)
    (hdone : c.done = n) : c.mem = ((List.finRange n).map recs).flatten := by
  have hm' : mem.length = (((List.finRange n).map recs).flatten).length := by
    rw [hm, List.length_flatten, List.map_map, ← sum_finRange]
    congr 1
    apply List.map_congr_left
    intro r _
    exact (hl r).1
  obtain ⟨w, hi⟩ := creach_inv hs hl hm' h
  have ht : c.tasks = [] := List.length_eq_zero_iff.1 (by have := hi.cnt; omega)
  have hw : w = [] := by
    have := hi.two
    rw [ht] at this
    exact List.forall₂_nil_left_iff.1 this
  apply List.ext_getElem?
  intro i
  apply hi.rest
  rw [hw]
  intro p hp
  cases hp

/-- C13: no schedule gets stuck: as long as completions are missing, some handler can proceed (in
particular no parcel is overrun and no record is stored outside the result array). -/
theorem C13_collect_progress {n : Nat} {s : Serializer T} (hs : s.Ok) {l : Fin n → Local T}
    {recs : Fin n → List T} (hl : ∀ r, Holds (l r) (recs r)) {mem : List T}
    (hm : mem.length = ∑ r, (l r).localCount) {c : CState T n} (h : CReach s l mem c) :
    c.done ≤ n ∧ (c.done < n → ∃ c', CStep s l c c') := by
  have hm' : mem.length = (((List.finRange n).map recs).flatten).length := by
    rw [hm, List.length_flatten, List.map_map, ← sum_finRange]
    congr 1
    apply List.map_congr_left
    intro r _
    exact (hl r).1
  obtain ⟨w, hi⟩ := creach_inv hs hl hm' h
  refine ⟨by have := hi.cnt; omega, fun hlt => hi.progress hs hl ?_⟩
  intro ht
  have := hi.cnt
  rw [ht] at this
  simp at this
  omega

/-- C13: every schedule ends: from any state of a collect there are only finitely many further
steps (their number is bounded). -/
theorem C13_collect_terminates {n : Nat} {s : Serializer T} (hs : s.Ok) {l : Fin n → Local T}
    {recs : Fin n → List T} (hl : ∀ r, Holds (l r) (recs r)) {mem : List T}
    (hm : mem.length = ∑ r, (l r).localCount) {c : CState T n} (h : CReach s l mem c) :
    ∃ bound, ∀ f : Nat → CState T n, f 0 = c → ∀ k, (∀ i, i < k → CStep s l (f i) (f (i + 1))) →
      k ≤ bound := by
  have hm' : mem.length = (((List.finRange n).map recs).flatten).length := by
    rw [hm, List.length_flatten, List.map_map, ← sum_finRange]
    congr 1
    apply List.map_congr_left
    intro r _
    exact (hl r).1
  obtain ⟨w, hi⟩ := creach_inv hs hl hm' h
  refine ⟨cmeas w c, fun f h0 k hk => ?_⟩
  have key : ∀ j, j ≤ k → ∃ w', CInv recs s ((List.finRange n).map recs).flatten (f j) w' ∧
      cmeas w' (f j) + j ≤ cmeas w c := by
    intro j
    induction j with
    | zero => intro _; exact ⟨w, h0 ▸ hi, by rw [h0]; omega⟩
    | succ j ih =>
      intro hj
      obtain ⟨w', h1, h2⟩ := ih (by omega)
      obtain ⟨w'', h3, h4⟩ := h1.step hs hl (hk j (by omega))
      exact ⟨w'', h3, by omega⟩
  obtain ⟨w', _, h2⟩ := key k (le_refl _)
  omega

/-- A serializer of bytes as two bytes. -/
def exSerializer : Serializer Byte where
  size _ := 2
  serialize x := [x, 255]
  deserialize
    | x :: _ :: rest => some (x, rest)
    | _ => none

example : exSerializer.Ok := ⟨fun _ => rfl, fun _ _ => rfl⟩

example : ∀ r, Holds ((![⟨some [1, 2], 2, 3⟩, ⟨none, 0, 3⟩, ⟨some [3], 1, 3⟩] : Fin 3 → Local Byte) r)
    ((![[1, 2], [], [3]] : Fin 3 → List Byte) r) := by
  intro r
  fin_cases r
  · exact ⟨rfl, .inl rfl⟩
  · exact ⟨rfl, .inr ⟨rfl, rfl⟩⟩
  · exact ⟨rfl, .inl rfl⟩

/-! ### C14 -/

open ForEach

/-- C14: at any time of any schedule of a `forEach` over a non-empty segment, with any factor and
number of threads: the leaf calls made so far and the pending tasks together divide the segment into
non-empty consecutive ranges without gap or overlap; no call is longer than a chunk. -/
theorem C14_calls_disjoint (g : T → T) (factor threads : Nat) {mem : List T} (hm : mem ≠ [])
    {st : St T}
    (h : Reach (List.map g) (chunking mem.length (overFactor factor threads)).1 mem st) :
    (∃ L : List Task, L.Perm (st.pool ++ st.calls) ∧
      Tiles 0 mem.length (L.map fun t => (t.data, t.data + t.count))) ∧
    ∀ t ∈ st.calls, t.count ≤ (chunking mem.length (overFactor factor threads)).1 := by
  have hi := reach_inv (chunking_spec (List.length_pos_iff.2 hm)).1 hm h
  exact ⟨hi.tile, hi.small⟩

/-- C14: `forEach` is released exactly when no task is pending any more, and then the leaf calls
divide the segment exactly, the action has been applied to every record exactly once, and the number
of completions is the number the completion LCO was created for. -/
theorem C14_map_complete (g : T → T) (factor threads : Nat) {mem : List T} (hm : mem ≠ [])
    {st : St T}
    (h : Reach (List.map g) (chunking mem.length (overFactor factor threads)).1 mem st) :
    (released (chunking mem.length (overFactor factor threads)).2 st ↔ st.pool = []) ∧
    (st.pool = [] →
      st.sets = (chunking mem.length (overFactor factor threads)).2 ∧
      st.mem = mem.map g ∧
      ∃ L : List Task, L.Perm st.calls ∧
        Tiles 0 mem.length (L.map fun t => (t.data, t.data + t.count))) := by
  have hspec := chunking_spec (over := overFactor factor threads) (List.length_pos_iff.2 hm)
  have hi := reach_inv hspec.1 hm h
  have hcount := hi.count
  rw [← hspec.2] at hcount
  have hempty : st.pool = [] → st.sets = (chunking mem.length (overFactor factor threads)).2 := by
    intro hp
    rw [hp] at hcount
    simpa using hcount
  refine ⟨⟨?_, ?_⟩, ?_⟩
  · intro hr
    unfold released at hr
    by_contra hp
    obtain ⟨t, ts, hp'⟩ := List.exists_cons_of_ne_nil hp
    have hpos := hi.pool_pos (t := t) (by simp [hp'])
    have := (nch_spec hspec.1 t.count).1
    have hn : 0 < nch (chunking mem.length (overFactor factor threads)).1 t.count := by
      rcases Nat.eq_zero_or_pos (nch (chunking mem.length (overFactor factor threads)).1 t.count)
        with h0 | h0
      · rw [h0] at this; omega
      · exact h0
    rw [hp'] at hcount
    simp only [List.map_cons, List.sum_cons] at hcount
    omega
  · intro hp
    unfold released
    rw [hempty hp]
  · intro hp
    refine ⟨hempty hp, ?_, ?_⟩
    · apply List.ext_getElem?
      intro i
      rw [List.getElem?_map]
      by_cases hlt : i < mem.length
      · apply hi.done
        obtain ⟨L, hL, hT⟩ := hi.tile
        obtain ⟨c, hc, h1, h2⟩ := hT.cover (Nat.zero_le i) hlt
        obtain ⟨t, ht, rfl⟩ := List.mem_map.1 hc
        refine ⟨t, ?_, h1, h2⟩
        have := hL.mem_iff.1 ht
        rw [hp] at this
        simpa using this
      · rw [List.getElem?_eq_none (by rw [hi.len]; omega), List.getElem?_eq_none (by omega)]
        rfl
    · obtain ⟨L, hL, hT⟩ := hi.tile
      rw [hp] at hL
      exact ⟨L, by simpa using hL, hT⟩

/-- C14: every schedule ends after at most `2 * count - 1` handler invocations, and as long as a task
is pending it can run, so every schedule reaches the release. -/
theorem C14_map_terminates (g : T → T) (factor threads : Nat) {mem : List T} (hm : mem ≠ [])
    (f : Nat → St T) (h0 : f 0 = start mem) (k : Nat)
    (hk : ∀ i, i < k →
      Step (List.map g) (chunking mem.length (overFactor factor threads)).1 (f i) (f (i + 1))) :
    k ≤ 2 * mem.length - 1 := by
  have hspec := chunking_spec (over := overFactor factor threads) (List.length_pos_iff.2 hm)
  have key : ∀ j, j ≤ k → FInv g (chunking mem.length (overFactor factor threads)).1 mem (f j) ∧
      fmeas (f j) + j ≤ 2 * mem.length - 1 := by
    intro j
    induction j with
    | zero =>
      intro _
      rw [h0]
      exact ⟨FInv.start g _ hm, by simp [fmeas, ForEach.start]⟩
    | succ j ih =>
      intro hj
      obtain ⟨h1, h2⟩ := ih (by omega)
      have hst := hk j (by omega)
      have := h1.decreases hspec.1 hst
      exact ⟨h1.step hspec.1 hst, by omega⟩
  have := (key k (le_refl _)).2
  omega

/-- C14: a pending task can always run. -/
theorem C14_map_progress (f : List T → List T) (chunk : Nat) (st : St T) (hp : st.pool ≠ []) :
    ∃ st', Step f chunk st st' := by
  obtain ⟨pool, calls, sets, mem⟩ := st
  obtain ⟨t, ts, rfl⟩ := List.exists_cons_of_ne_nil hp
  cases h : spawn chunk t with
  | none => exact ⟨_, Step.leaf (a := []) h⟩
  | some p => exact ⟨_, Step.split (a := []) (t1 := p.1) (t2 := p.2) h⟩

/-- C14: with at least one thread, neither division of the splitting is by zero: not that by the number of
pieces asked for (any factor, zero included), nor those by the chunk size. -/
theorem C14_no_division_by_zero (factor threads total : Nat) (ht : 0 < threads) (hn : 0 < total) :
    0 < overFactor factor threads ∧ 0 < (chunking total (overFactor factor threads)).1 := by
  refine ⟨?_, (chunking_spec (over := overFactor factor threads) hn).1⟩
  unfold overFactor
  split_ifs with h1 h2
  · exact Nat.one_pos
  · exact Nat.one_pos
  · exact Nat.mul_pos ht (Nat.pos_of_ne_zero h1)

/-- C14: factor zero, or a single thread, means one chunk with all the records. -/
theorem C14_single_chunk (factor threads total : Nat) (hn : 0 < total) (h : factor = 0 ∨ threads = 1) :
    chunking total (overFactor factor threads) = (total, 1) := by
  have : overFactor factor threads = 1 := by
    unfold overFactor
    rcases h with h | h <;> simp [h]
  rw [this]
  simp [chunking, Nat.div_self hn, Nat.ne_of_gt hn]

example : overFactor 0 4 = 1 ∧ overFactor 2 4 = 8 := by decide
example : chunking 10 (overFactor 1 3) = (3, 4) := by decide
example : spawn 3 ⟨0, 10⟩ = some (⟨0, 6⟩, ⟨6, 4⟩) := by decide

end Dashmm
