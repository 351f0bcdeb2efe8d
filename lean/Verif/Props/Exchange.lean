import Verif.Proofs.Merge
import Verif.Proofs.Points
import Verif.Proofs.Exchange
/-!
Properties C28 to C31: the exchange of the points between the ranks.
-/
namespace Dashmm

/-! ### C28 -/

section
open Merge
variable {R : Type}

/-- The messages for a cell: those of the ranks that hold points of it (`if (local_count[i])`, tree.h:245, and
`if (incoming_ns)`, dualtree.h:906). -/
def messages (locs : List (List R)) : List (List R) := locs.filter fun l => !l.isEmpty

theorem messages_flatten (locs : List (List R)) : (messages locs).flatten = locs.flatten := by
  unfold messages
  induction locs with
  | nil => rfl
  | cons l locs ih =>
    rw [List.filter_cons]
    cases l with
    | nil => simpa using ih
    | cons a l => simp [ih]

/-- C28: whatever the interleaving of the tasks that bring the points `locs` of the single ranks into their cell, no point is
written outside of the memory of the cell, the adaptive partitioning is started at most once, and when it is started
the cell holds exactly the points of all the ranks. -/
theorem C28_merge (locs : List (List R)) (s : State R) (h : Reach (messages locs) locs.flatten.length s) :
    s.overrun = false ∧ s.parts.length = locs.flatten.length ∧ s.started ≤ 1 ∧
    (s.started = 1 → s.parts.Perm (locs.flatten.map some)) := by
  have hn : locs.flatten.length = (messages locs).flatten.length := by rw [messages_flatten]
  have hne : ∀ t ∈ messages locs, t ≠ [] := by
    intro t ht
    unfold messages at ht
    have := (List.mem_filter.1 ht).2
    rintro rfl; simp at this
  obtain ⟨order, hI⟩ := inv_reach hn hne h
  refine ⟨hI.safe, hI.len, ?_, ?_⟩
  · by_cases hc : ∃ i b, s.pc i = .counted b
    · obtain ⟨i, b, hb⟩ := hc
      rw [(hI.wait i b hb).2]; omega
    · push Not at hc
      rw [hI.rest hc]; split <;> omega
  · intro h1
    have hc : ∀ i b, s.pc i ≠ .counted b := by
      intro i b hb
      rw [(hI.wait i b hb).2] at h1; omega
    have := hI.rest hc
    rw [h1] at this
    by_cases hf : order ≠ [] ∧ locs.flatten.length ≤ s.first
    · rw [← messages_flatten]
      exact (inv_all hn hI (inv_full hn hne hI hf.2)).2
    · rw [if_neg hf] at this; omega

/-- C28: when every task has finished, partitioning has been started, unless there are no points at all; and as long as some
task has not finished, some task can go on. -/
theorem C28_started (locs : List (List R)) (s : State R) (h : Reach (messages locs) locs.flatten.length s) :
    ((∀ i, i < (messages locs).length → s.pc i = .done) → locs.flatten ≠ [] → s.started = 1) ∧
    ((∃ i, i < (messages locs).length ∧ s.pc i ≠ .done) → ∃ s', Step (messages locs) s s') := by
  have hn : locs.flatten.length = (messages locs).flatten.length := by rw [messages_flatten]
  have hne : ∀ t ∈ messages locs, t ≠ [] := by
    intro t ht
    unfold messages at ht
    have := (List.mem_filter.1 ht).2
    rintro rfl; simp at this
  obtain ⟨order, hI⟩ := inv_reach hn hne h
  constructor
  · intro hd h0
    have hall : ∀ i, i < (messages locs).length → i ∈ order := fun i hi => (hI.mem i).2 (by rw [hd i hi]; rfl)
    have hf := (inv_all hn hI hall).1
    rw [hI.rest, if_pos]
    · refine ⟨?_, Nat.le_of_eq hf.symm⟩
      rintro rfl
      cases hm : messages locs with
      | nil => rw [← messages_flatten, hm] at h0; simp at h0
      | cons t ts => exact absurd (hall 0 (by rw [hm]; simp)) (by simp)
    · intro i b hb
      have := hd i (hI.task i (by rw [hb]; simp))
      rw [hb] at this; simp at this
  · rintro ⟨i, hi, hd⟩
    cases hl : s.lock with
    | some j =>
      have hh := (hI.holder j).2 hl
      cases hp : s.pc j with
      | idle => rw [hp] at hh; simp [PC.holds] at hh
      | done => rw [hp] at hh; simp [PC.holds] at hh
      | locked => exact ⟨_, .read hp⟩
      | read f => exact ⟨_, .copy hp⟩
      | copied => exact ⟨_, .count hp⟩
      | counted b => exact ⟨_, .spawn hp⟩
      | spawned => exact ⟨_, .unlock hp⟩
    | none =>
      have hh : (s.pc i).holds = false := by
        by_contra hc
        have := (hI.holder i).1 (by simpa using hc)
        rw [hl] at this; simp at this
      cases hp : s.pc i with
      | idle => exact ⟨_, .lock hi hp hl⟩
      | done => exact absurd hp hd
      | locked => rw [hp] at hh; simp [PC.holds] at hh
      | read f => rw [hp] at hh; simp [PC.holds] at hh
      | copied => rw [hp] at hh; simp [PC.holds] at hh
      | counted b => rw [hp] at hh; simp [PC.holds] at hh
      | spawned => rw [hp] at hh; simp [PC.holds] at hh

/-- Three ranks, one of them without points of the cell; the message of the third is merged first. -/
example : ∃ s : State Nat, Reach (messages [[10, 11], [], [12]]) 3 s ∧ s.started = 1 ∧
    s.parts = [some 12, some 10, some 11] := by
  have h0 : Reach (messages [[10, 11], [], [12]]) 3 (start 3 : State Nat) := .init
  have h1 := ((h0.step (.lock (i := 1) (by decide) rfl rfl)).step (.read (i := 1) rfl)).step (.copy (i := 1) (f := 0) rfl)
  have h2 := ((h1.step (.count (i := 1) rfl)).step (.spawn (i := 1) (full := false) rfl)).step (.unlock (i := 1) rfl)
  have h3 := ((h2.step (.lock (i := 0) (by decide) rfl rfl)).step (.read (i := 0) rfl)).step (.copy (i := 0) (f := 1) rfl)
  have h4 := ((h3.step (.count (i := 0) rfl)).step (.spawn (i := 0) (full := true) rfl)).step (.unlock (i := 0) rfl)
  exact ⟨_, h4, rfl, rfl⟩

end

/-! ### C29 -/

section
open Points
variable {S T : Type}

/-- The arguments of a sender are sound: every slice lies in its array and every number fits its type. -/
structure GoodArgs (E : Env S T) (a : Args S T) (rank : Nat) : Prop where
  sources : ∀ i < E.dim3, E.rankOf i = rank → a.offsetS i + a.countS i ≤ a.sources.length
  targets : E.same = false → ∀ i < E.dim3, E.rankOf i = rank → a.offsetT i + a.countT i ≤ a.targets.length
  cells : E.dim3 < 2 ^ 31
  nSources : (((List.range E.dim3).filter fun i => E.rankOf i == rank).map a.countS).sum < 2 ^ 31
  nTargets : (((List.range E.dim3).filter fun i => E.rankOf i == rank).map a.countT).sum < 2 ^ 31
  addresses : a.rw < 2 ^ 64 ∧ a.smeta < 2 ^ 64 ∧ a.tmeta < 2 ^ 64

theorem mem_owned {E : Env S T} {rank i : Nat} : i ∈ owned E rank ↔ i < E.dim3 ∧ E.rankOf i = rank := by
  unfold owned; simp [List.mem_filter]

/-- C29: filling the message for a rank writes nothing outside of the parcel acquired for it. -/
theorem C29_fits (E : Env S T) (hs : E.ss.Ok) (ht : E.st.Ok) (a : Args S T) (rank p : Nat) (m : Mem) :
    (fill E a rank p m).2 ≤ p + parcelBytes E a rank ∧
    ∀ x, (x < p ∨ p + parcelBytes E a rank ≤ x) → (fill E a rank p m).1 x = m x := by
  have hf := fits E hs ht a rank
  rw [fill_eq]
  refine ⟨by simp only; omega, fun x hx => ?_⟩
  simp only
  refine Mem.store_out _ _ _ _ ?_
  omega

/-- C29: whatever the address `p'` and the memory the message is received in, the receiver finds the addresses of the tree and of the
arrays, asks for each of its cells with points for one merge, with exactly the points the sender holds for
that cell (for identical sources and targets: their number), and for no other merge, no assertion fails, and `done`
is set exactly as often as it has to be. -/
theorem C29_decode (E : Env S T) (hs : E.ss.Ok) (ht : E.st.Ok) (a : Args S T) (rank : Nat) (h : GoodArgs E a rank)
    (p : Nat) (m : Mem) (p' : Nat) (m' : Mem)
    (hcopy : m'.load p' (parcelBytes E a rank) = (fill E a rank p m).1.load p (parcelBytes E a rank)) :
    ∃ r, recv E rank p' (parcelBytes E a rank) m' = some r ∧
      r.rw = a.rw ∧ r.smeta = a.smeta ∧ r.tmeta = a.tmeta ∧
      (∀ i l, (i, l) ∈ r.mergeS ↔ i < E.dim3 ∧ E.rankOf i = rank ∧ a.countS i ≠ 0 ∧
        l = (a.sources.drop (a.offsetS i)).take (a.countS i)) ∧
      (r.mergeS.map Prod.fst).Nodup ∧
      (E.same = false → ∀ i l, (i, l) ∈ r.mergeT ↔ i < E.dim3 ∧ E.rankOf i = rank ∧ a.countT i ≠ 0 ∧
        l = (a.targets.drop (a.offsetT i)).take (a.countT i)) ∧
      (r.mergeT.map Prod.fst).Nodup ∧
      (E.same = true → r.mergeT = [] ∧
        ∀ i n, (i, n) ∈ r.mergeSame ↔ i < E.dim3 ∧ E.rankOf i = rank ∧ a.countS i ≠ 0 ∧ n = a.countS i) ∧
      (E.same = false → r.mergeSame = []) ∧ (r.mergeSame.map Prod.fst).Nodup ∧
      r.range = ((List.range E.dim3).filter fun i => E.rankOf i == rank).length ∧ r.sets = 2 * r.range := by
  have hf := fits E hs ht a rank
  have hm : ViewSet.Holds m' p' (header a ++ intBytes (ints E a rank) ++ body E a rank) := by
    generalize hd : header a ++ intBytes (ints E a rank) ++ body E a rank = d at *
    rw [fill_eq, hd] at hcopy
    simp only at hcopy
    rw [show parcelBytes E a rank = d.length + (parcelBytes E a rank - d.length) by omega, Mem.load_add, Mem.load_add,
      Mem.load_store_same] at hcopy
    exact (List.append_inj hcopy (by rw [Mem.load_length])).1
  have hnS : sendNs E a rank < 256 ^ 4 := by
    have := h.nSources
    unfold sendNs
    rw [foldl_size a.countS]; unfold owned; omega
  have hnT : sendNt E a rank < 256 ^ 4 := by
    have := h.nTargets
    unfold sendNt
    split
    · omega
    · rw [foldl_size a.countT]; unfold owned; omega
  have hlen : (owned E rank).length < 256 ^ 4 := by
    have := h.cells
    have h2 : (owned E rank).length ≤ (List.range E.dim3).length := List.length_filter_le _ _
    rw [List.length_range] at h2
    omega
  have hnd : (owned E rank).Nodup := List.nodup_range.filter _
  refine ⟨_, recv_fill E hs ht a rank p' m' (fun i hi => h.sources i (mem_owned.1 hi).1 (mem_owned.1 hi).2)
    (fun hE i hi => h.targets hE i (mem_owned.1 hi).1 (mem_owned.1 hi).2) hlen hnS hnT
    (by have := h.addresses; omega) _ hf hm, rfl, rfl, rfl, ?_, ?_, ?_, ?_, ?_, ?_, ?_, rfl, rfl⟩
  · intro i l
    simp only [List.mem_map, List.mem_filter, mem_owned, Prod.mk.injEq]
    constructor
    · rintro ⟨j, ⟨⟨h1, h2⟩, h3⟩, rfl, rfl⟩; exact ⟨h1, h2, by simpa using h3, rfl⟩
    · rintro ⟨h1, h2, h3, rfl⟩; exact ⟨i, ⟨⟨h1, h2⟩, by simpa using h3⟩, rfl, rfl⟩
  · simp only [List.map_map]
    have : (Prod.fst ∘ fun i => (i, slice a.sources a.offsetS a.countS i)) = id := rfl
    rw [this, List.map_id]
    exact hnd.filter _
  · intro hE i l
    simp only [hE, Bool.false_eq_true, if_false, List.mem_map, List.mem_filter, mem_owned, Prod.mk.injEq]
    constructor
    · rintro ⟨j, ⟨⟨h1, h2⟩, h3⟩, rfl, rfl⟩; exact ⟨h1, h2, by simpa using h3, rfl⟩
    · rintro ⟨h1, h2, h3, rfl⟩; exact ⟨i, ⟨⟨h1, h2⟩, by simpa using h3⟩, rfl, rfl⟩
  · simp only
    split
    · simp
    · simp only [List.map_map]
      have : (Prod.fst ∘ fun i => (i, slice a.targets a.offsetT a.countT i)) = id := rfl
      rw [this, List.map_id]
      exact hnd.filter _
  · intro hE
    simp only [hE, if_true, List.mem_map, List.mem_filter, mem_owned, Prod.mk.injEq, true_and]
    intro i n
    constructor
    · rintro ⟨j, ⟨⟨h1, h2⟩, h3⟩, rfl, rfl⟩; exact ⟨h1, h2, by simpa using h3, rfl⟩
    · rintro ⟨h1, h2, h3, rfl⟩; exact ⟨i, ⟨⟨h1, h2⟩, by simpa using h3⟩, rfl, rfl⟩
  · intro hE
    simp [hE]
  · simp only
    split
    · simp only [List.map_map]
      have : (Prod.fst ∘ fun i => (i, a.countS i)) = id := rfl
      rw [this, List.map_id]
      exact hnd.filter _
    · simp

/-- One byte per record. -/
def byteSer : Arr.Serializer Byte where
  size _ := 1
  serialize x := [x]
  deserialize bs := match bs with
    | [] => none
    | x :: bs => some (x, bs)

theorem byteSer_ok : byteSer.Ok := ⟨fun _ => rfl, fun _ _ => rfl⟩

def exPEnv (same : Bool) : Env Byte Byte := ⟨8, fun i => i / 4, same, byteSer, byteSer⟩

def exArgs : Args Byte Byte where
  countS i := if i = 5 then 2 else if i = 7 then 1 else 0
  countT i := if i = 4 then 1 else 0
  offsetS i := if i ≤ 5 then 0 else if i ≤ 6 then 2 else 2
  offsetT i := if i ≤ 4 then 0 else 1
  sources := [1, 2, 3]
  targets := [4]
  rw := 1000
  smeta := 2000
  tmeta := 3000

example (same : Bool) : GoodArgs (exPEnv same) exArgs 1 where
  sources := by cases same <;> decide
  targets := by cases same <;> decide
  cells := by cases same <;> decide
  nSources := by cases same <;> decide
  nTargets := by cases same <;> decide
  addresses := by decide

example : ((recv (exPEnv false) 1 500 (parcelBytes (exPEnv false) exArgs 1) (fill (exPEnv false) exArgs 1 500 (fun _ => 0)).1).map
    fun r => (r.mergeS, r.mergeT, r.sets)) = some ([(5, [1, 2]), (7, [3])], [(4, [4])], 8) := by decide

end

/-! ### C30, C31 -/

section
open Exch

/-- C30: under every schedule, the LCO on which a rank waits never gets more than the `2 * dim3` inputs it was made for, and
when the rank goes on it has got all of them. -/
theorem C30_inputs (C : Cfg) {k : Nat} {s : State} (h : Reach C k s) (r : Nat) :
    s.sets r ≤ 2 * C.dim3 ∧ (Event.finish r ∈ s.done → s.sets r = 2 * C.dim3) :=
  ⟨sets_bound h r, fun hf => Nat.le_antisymm (sets_bound h r) (reach_enabled h _ hf).2⟩

/-- C30: a rank goes on only when in both trees every cell with points has received the points of all the ranks and has been partitioned
by its owner, and its branch is present on this rank. -/
theorem C30_not_early (C : Cfg) (hC : C.Ok) {k : Nat} {s : State} (h : Reach C k s) (r : Nat) (hf : Event.finish r ∈ s.done)
    (t : Bool) (c : Nat) (hc : c < C.dim3) (h0 : ∃ r' < C.ranks, C.cnt t r' c ≠ 0) :
    Event.part t c ∈ s.done ∧ (r ≠ C.owner c → Event.recvNode t r c ∈ s.done) ∧
    ∀ r' < C.ranks, r' ≠ C.owner c → C.cnt t r' c ≠ 0 → Event.merge t r' (C.owner c) c ∈ s.done := by
  have hne : C.total t c ≠ 0 := by
    obtain ⟨r', hr', hz⟩ := h0
    unfold Cfg.total
    intro hs
    exact hz (Finset.sum_eq_zero_iff.1 hs r' (Finset.mem_range.2 hr'))
  obtain ⟨h1, _, h3⟩ := finish_all h r hf t c hc hne
  refine ⟨h1, h3, fun r' hr' ho hz => ?_⟩
  exact (arrived_send hC h t c hc (reach_enabled h _ h1).2.2.1 r' hr' ho hz).1

/-- C30: there is no infinite run, and as long as some rank has not finished something can happen: every schedule leads to the end of
the creation of the tree on all ranks. -/
theorem C30_completes (C : Cfg) (hC : C.Ok) {k : Nat} {s : State} (h : Reach C k s) :
    k ≤ 4 * C.ranks + 2 * C.ranks ^ 2 + 2 * C.dim3 * (3 * C.ranks + 2) ∧
    ((∃ r < C.ranks, Event.finish r ∉ s.done) → ∃ s', Step C s s') := by
  refine ⟨reach_bound h, ?_⟩
  rintro ⟨r, hr, hn⟩
  by_contra hc
  refine hn (quiet_finish hC h (fun _ _ => False) (by simp) (fun e _ he => ?_) r hr)
  by_contra hd
  exact hc ⟨_, e, hd, he, rfl⟩

/-- C31 (the part that holds): when a rank frees its arrays, the sends that carry points have been done. -/
theorem C31_sends_partial (C : Cfg) (hC : C.Ok) {k : Nat} {s : State} (h : Reach C k s) (r : Nat) (hr : r < C.ranks)
    (hf : Event.finish r ∈ s.done) (t : Bool) (c : Nat) (hc : c < C.dim3) (ho : r ≠ C.owner c) (h0 : C.cnt t r c ≠ 0) :
    Event.send r (C.owner c) ∈ s.done := by
  have hne : C.total t c ≠ 0 := by
    unfold Cfg.total
    intro hs
    exact h0 (Finset.sum_eq_zero_iff.1 hs r (Finset.mem_range.2 hr))
  have h1 := (finish_all h r hf t c hc hne).1
  exact (arrived_send hC h t c hc (reach_enabled h _ h1).2.2.1 r hr ho h0).2

/-- C31 is false: whenever a rank holds no points for another one, all ranks can finish, and free the arrays of counts and offsets,
while the task that is to send from the one to the other, and reads these arrays, has yet to run. -/
theorem C31_send_after_free (C : Cfg) (hC : C.Ok) (a b : Nat) (ha : a < C.ranks) (hb : b < C.ranks) (hab : a ≠ b)
    (h0 : ∀ t, ∀ c < C.dim3, C.owner c = b → C.cnt t a c = 0) :
    ∃ k s, Reach C k s ∧ (∀ r < C.ranks, Event.finish r ∈ s.done) ∧ Event.send a b ∉ s.done ∧ Enabled C s (.send a b) := by
  obtain ⟨k, s, h, hn, hq⟩ := run_without (C := C) a b _ 0 start .init (by simp [start]) (by rw [Nat.zero_add])
  have hfin := quiet_finish hC h (fun r r' => r = a ∧ r' = b)
    (fun t r c hc hr => by obtain ⟨rfl, hr⟩ := hr; exact h0 t c hc hr)
    (fun e he hen => hq e (he a b ⟨rfl, rfl⟩) hen)
  have hen := reach_enabled h
  exact ⟨k, s, h, hfin, hn, hen _ (hen _ (hfin a ha)).1, hb, hab⟩

/-- Two ranks and 64 cells; rank 1 owns the second half. Rank 0 holds points for both, rank 1 only its own; there are no sources in
most of the cells. -/
def exCfg (same : Bool) : Cfg where
  ranks := 2
  dim3 := 64
  owner c := c / 32
  same := same
  cnt _ r c := if r = 0 then (if c = 3 ∨ c = 40 then 5 else 0) else if c = 40 then 2 else 0

example (same : Bool) : (exCfg same).Ok where
  owner := by intro c hc; simp only [exCfg] at *; omega
  same := fun _ => rfl

example (same : Bool) : ∀ t, ∀ c < (exCfg same).dim3, (exCfg same).owner c = 0 → (exCfg same).cnt t 1 c = 0 := by
  intro t c hc h
  simp only [exCfg] at *
  have : c < 32 := by omega
  simp
  omega

example (same : Bool) : ∃ r < (exCfg same).ranks, (exCfg same).cnt true r 40 ≠ 0 := ⟨1, by simp [exCfg], by simp [exCfg]⟩

end

end Dashmm
