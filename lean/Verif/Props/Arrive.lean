import Verif.Proofs.Arrive
import Verif.Props.RankTree
/-!
# From the arrays of the ranks to the cells (C81)

Each rank groups its records by cells, the counts are added up, each rank sends each other rank the records of its cells, and merges what it receives into its cells, in any order. Below,
`PS r` and `PT r` are the sources and targets rank `r` has at the beginning, `srt r`, `trt r` the same after sorting, and `rcv r o` what rank `o` reads from the message of rank `r`.
-/
namespace Dashmm

open Arrive Grid

section
variable {K : Type} [Field K] [LinearOrder K] [IsStrictOrderedRing K] [FloorRing K] {S T : Type} [Inhabited S] [Inhabited T]
  {E : Points.Env S T} {ranks : Nat} {d : Domain K} {level fuel : Nat} {posS : S → Point K} {posT : T → Point K} {PS : Nat → List S} {PT : Nat → List T}
  {srt : Nat → Sorted S} {trt : Nat → Sorted T} {rcv : Nat → Nat → Points.Received S T}

theorem sum_getD_sublist (l : List Nat) (p : Nat → Bool) : (((List.range l.length).filter p).map fun i => l.getD i 0).sum ≤ l.sum := by
  have h1 : (List.range l.length).map (fun i => l.getD i 0) = l := by
    apply List.ext_getElem
    · simp
    · intro i h1 h2
      simp at h1
      simp [h1]
  have h2 : (((List.range l.length).filter p).map fun i => l.getD i 0).Sublist ((List.range l.length).map fun i => l.getD i 0) :=
    List.filter_sublist.map _
  have := h2.sum_le_sum fun _ _ => Nat.zero_le _
  rw [h1] at this
  exact this

theorem good_args_of (hdm : E.dim3 = 8 ^ level) (hsortS : ∀ r < ranks, sortLocal d level fuel posS (PS r) = some (srt r))
    (hsortT : E.same = false → ∀ r < ranks, sortLocal d level fuel posT (PT r) = some (trt r))
    (hcountT : ∀ r < ranks, (trt r).count = (assignPoints d level ((PT r).map posT)).2) (hd : 0 < d.size)
    (hS : ∀ r < ranks, ∀ x ∈ PS r, InDomain d (posS x)) (hT : ∀ r < ranks, ∀ x ∈ PT r, InDomain d (posT x))
    (hnS : ∀ r < ranks, (PS r).length ≤ fuel ∧ (PS r).length < 2 ^ 31) (hnT : ∀ r < ranks, (PT r).length ≤ fuel ∧ (PT r).length < 2 ^ 31)
    (hdim : 8 ^ level < 2 ^ 31) {r : Nat} (hr : r < ranks) (o : Nat) {rw smeta tmeta : Nat} (h1 : rw < 2 ^ 64) (h2 : smeta < 2 ^ 64)
    (h3 : tmeta < 2 ^ 64) : GoodArgs E (args (srt r) (trt r) rw smeta tmeta) o := by
  obtain ⟨s, e1, -, -, e4, e5, e6⟩ := sortLocal_spec hd level fuel posS (PS r) (hS r hr) (hnS r hr).1
  obtain ⟨t, f1, -, f3, f4, f5, f6⟩ := sortLocal_spec hd level fuel posT (PT r) (hT r hr) (hnT r hr).1
  obtain rfl : s = srt r := by have := hsortS r hr; rw [e1] at this; simpa using this
  refine ⟨?_, ?_, by rw [hdm]; exact hdim, ?_, ?_, h1, h2, h3⟩
  · intro i hi _
    exact (e6 i (by rw [← hdm]; exact hi)).2.1
  · intro hE i hi _
    obtain rfl : t = trt r := by have := hsortT hE r hr; rw [f1] at this; simpa using this
    exact (f6 i (by rw [← hdm]; exact hi)).2.1
  · have := sum_getD_sublist (srt r).count fun i => E.rankOf i == o
    rw [e4, e5] at this
    rw [hdm]
    exact lt_of_le_of_lt this (hnS r hr).2
  · have := sum_getD_sublist (trt r).count fun i => E.rankOf i == o
    rw [hcountT r hr, ← f3, f4, f5] at this
    rw [hdm]
    refine lt_of_le_of_lt ?_ (hnT r hr).2
    rw [f3] at this
    exact le_of_eq_of_le (by unfold args; simp only; rw [hcountT r hr]) this

variable (hx : Exchanged E ranks d level fuel posS posT PS PT srt trt rcv) (hd : 0 < d.size) (hss : E.ss.Ok) (hst : E.st.Ok)
  (hS : ∀ r < ranks, ∀ x ∈ PS r, InDomain d (posS x)) (hT : ∀ r < ranks, ∀ x ∈ PT r, InDomain d (posT x))
  (hnS : ∀ r < ranks, (PS r).length ≤ fuel ∧ (PS r).length < 2 ^ 31) (hnT : ∀ r < ranks, (PT r).length ≤ fuel ∧ (PT r).length < 2 ^ 31)
  (hdim : 8 ^ level < 2 ^ 31)

/-- The records of all ranks that were assigned to a cell. -/
theorem flatMap_ofGid {R : Type} (pos : R → Point K) (c : Nat) (P : Nat → List R) {o : Nat} (ho : o < ranks) :
    (((o :: others ranks o).map fun r => ofGid d level pos c (P r)).flatten).Perm
      (((List.range ranks).flatMap P).filter fun x => gidOf d level (pos x) = c) := by
  refine (((others_perm ho).map _).flatten).trans ?_
  rw [← List.flatMap_def, List.filter_flatMap]
  rfl

include hx hd hss hst hS hT hnS hnT hdim in
/-- **C81** The sources come to their cells: on the rank `E.rankOf c`, whatever the order of the tasks that bring records into cell `c`, and provided that it expects as many as there are,
nothing is written outside of the cell's memory, and the division of the cell is started at most once, and not before the cell holds each source of all the ranks that was assigned to it; it is
started when all the tasks are done, and they do not get stuck. -/
theorem C81_sources {c : Nat} (hc : c < 8 ^ level) (ho : E.rankOf c < ranks) {n : Nat}
    (hn : n = (((List.range ranks).flatMap PS).filter fun x => gidOf d level (posS x) = c).length) {s : Merge.State S}
    (h : Merge.Reach (tasks (srt (E.rankOf c)) ((others ranks (E.rankOf c)).map fun r => (rcv r (E.rankOf c)).mergeS) c) n s) :
    s.overrun = false ∧ s.started ≤ 1 ∧
    (s.started = 1 → Filled s (((List.range ranks).flatMap PS).filter fun x => gidOf d level (posS x) = c)) ∧
    ((∀ i < (tasks (srt (E.rankOf c)) ((others ranks (E.rankOf c)).map fun r => (rcv r (E.rankOf c)).mergeS) c).length, s.pc i = .done) →
      ((List.range ranks).flatMap PS).filter (fun x => gidOf d level (posS x) = c) ≠ [] → s.started = 1) ∧
    ((∃ i < (tasks (srt (E.rankOf c)) ((others ranks (E.rankOf c)).map fun r => (rcv r (E.rankOf c)).mergeS) c).length, s.pc i ≠ .done) →
      ∃ s', Merge.Step (tasks (srt (E.rankOf c)) ((others ranks (E.rankOf c)).map fun r => (rcv r (E.rankOf c)).mergeS) c) s s') := by
  set o := E.rankOf c with ho'
  have key : ∀ r < ranks, (srt r).count.getD c 0 = (ofGid d level posS c (PS r)).length ∧
      Points.slice (srt r).data ((srt r).offset.getD · 0) ((srt r).count.getD · 0) c = ofGid d level posS c (PS r) := by
    intro r hr
    obtain ⟨s, e1, -, -, -, -, e6⟩ := sortLocal_spec hd level fuel posS (PS r) (hS r hr) (hnS r hr).1
    obtain rfl : s = srt r := by have := hx.sortS r hr; rw [e1] at this; simpa using this
    exact ⟨(e6 c hc).1, (e6 c hc).2.2⟩
  refine filled_of (locs := (o :: others ranks o).map fun r => ofGid d level posS c (PS r)) ?_ (by rw [hn, (flatMap_ofGid posS c PS ho).length_eq])
    (flatMap_ofGid posS c PS ho) h
  refine tasks_eq (key o ho).2 (key o ho).1 _ _ _ fun r hr => ?_
  obtain ⟨hr1, hr2⟩ := List.mem_filter.1 hr
  have hr1' := List.mem_range.1 hr1
  obtain ⟨rw', smeta, tmeta, p, m, p', m', h1, h2, h3, hcopy, hrecv⟩ := hx.message r hr1' o ho (by simpa using hr2)
  obtain ⟨x, hx1, -, -, -, hx5, hx6, -⟩ := C29_decode E hss hst _ o (good_args_of hx.dim hx.sortS hx.sortT hx.countT hd hS hT hnS hnT hdim hr1' o h1 h2 h3) p m p' m' hcopy
  rw [hx1] at hrecv
  obtain rfl : x = rcv r o := by simpa using hrecv
  refine single_of hx6 fun y => ?_
  rw [hx5 c y]
  have e1 : (args (srt r) (trt r) rw' smeta tmeta).countS c = (ofGid d level posS c (PS r)).length := (key r hr1').1
  have e2 : ((args (srt r) (trt r) rw' smeta tmeta).sources.drop ((args (srt r) (trt r) rw' smeta tmeta).offsetS c)).take
      ((args (srt r) (trt r) rw' smeta tmeta).countS c) = ofGid d level posS c (PS r) := (key r hr1').2
  rw [e2, e1, hx.dim]
  constructor
  · rintro ⟨-, -, h, h'⟩; exact ⟨h, h'⟩
  · rintro ⟨h, h'⟩; exact ⟨hc, rfl, h, h'⟩

include hx hd hss hst hS hT hnS hnT hdim in
/-- **C81** The same for the targets, unless they are the sources. -/
theorem C81_targets (hE : E.same = false) {c : Nat} (hc : c < 8 ^ level) (ho : E.rankOf c < ranks) {n : Nat}
    (hn : n = (((List.range ranks).flatMap PT).filter fun x => gidOf d level (posT x) = c).length) {s : Merge.State T}
    (h : Merge.Reach (tasks (trt (E.rankOf c)) ((others ranks (E.rankOf c)).map fun r => (rcv r (E.rankOf c)).mergeT) c) n s) :
    s.overrun = false ∧ s.started ≤ 1 ∧
    (s.started = 1 → Filled s (((List.range ranks).flatMap PT).filter fun x => gidOf d level (posT x) = c)) ∧
    ((∀ i < (tasks (trt (E.rankOf c)) ((others ranks (E.rankOf c)).map fun r => (rcv r (E.rankOf c)).mergeT) c).length, s.pc i = .done) →
      ((List.range ranks).flatMap PT).filter (fun x => gidOf d level (posT x) = c) ≠ [] → s.started = 1) ∧
    ((∃ i < (tasks (trt (E.rankOf c)) ((others ranks (E.rankOf c)).map fun r => (rcv r (E.rankOf c)).mergeT) c).length, s.pc i ≠ .done) →
      ∃ s', Merge.Step (tasks (trt (E.rankOf c)) ((others ranks (E.rankOf c)).map fun r => (rcv r (E.rankOf c)).mergeT) c) s s') := by
  set o := E.rankOf c with ho'
  have key : ∀ r < ranks, (trt r).count.getD c 0 = (ofGid d level posT c (PT r)).length ∧
      Points.slice (trt r).data ((trt r).offset.getD · 0) ((trt r).count.getD · 0) c = ofGid d level posT c (PT r) := by
    intro r hr
    obtain ⟨s, e1, -, -, -, -, e6⟩ := sortLocal_spec hd level fuel posT (PT r) (hT r hr) (hnT r hr).1
    obtain rfl : s = trt r := by have := hx.sortT hE r hr; rw [e1] at this; simpa using this
    exact ⟨(e6 c hc).1, (e6 c hc).2.2⟩
  refine filled_of (locs := (o :: others ranks o).map fun r => ofGid d level posT c (PT r)) ?_ (by rw [hn, (flatMap_ofGid posT c PT ho).length_eq])
    (flatMap_ofGid posT c PT ho) h
  refine tasks_eq (key o ho).2 (key o ho).1 _ _ _ fun r hr => ?_
  obtain ⟨hr1, hr2⟩ := List.mem_filter.1 hr
  have hr1' := List.mem_range.1 hr1
  obtain ⟨rw', smeta, tmeta, p, m, p', m', h1, h2, h3, hcopy, hrecv⟩ := hx.message r hr1' o ho (by simpa using hr2)
  obtain ⟨x, hx1, -, -, -, -, -, hx7, hx8, -⟩ := C29_decode E hss hst _ o (good_args_of hx.dim hx.sortS hx.sortT hx.countT hd hS hT hnS hnT hdim hr1' o h1 h2 h3) p m p' m' hcopy
  rw [hx1] at hrecv
  obtain rfl : x = rcv r o := by simpa using hrecv
  refine single_of hx8 fun y => ?_
  rw [hx7 hE c y]
  have e1 : (args (srt r) (trt r) rw' smeta tmeta).countT c = (ofGid d level posT c (PT r)).length := (key r hr1').1
  have e2 : ((args (srt r) (trt r) rw' smeta tmeta).targets.drop ((args (srt r) (trt r) rw' smeta tmeta).offsetT c)).take
      ((args (srt r) (trt r) rw' smeta tmeta).countT c) = ofGid d level posT c (PT r) := (key r hr1').2
  rw [e2, e1, hx.dim]
  constructor
  · rintro ⟨-, -, h, h'⟩; exact ⟨h, h'⟩
  · rintro ⟨h, h'⟩; exact ⟨hc, rfl, h, h'⟩

include hx hd hS hT hnS hnT in
/-- **C81** The counts of all ranks, added up in any order, are the numbers of sources and targets of each cell. -/
theorem C81_counts {v : Fin (8 ^ level * 2) → Int}
    (hv : Reduce.Combined Reduce.intSumIdent Reduce.intSumOp ((List.range ranks).map fun r => bothCounts (8 ^ level) (srt r).count (trt r).count) v)
    {c : Nat} (hc : c < 8 ^ level) :
    v ⟨c, by omega⟩ = (((List.range ranks).flatMap PS).filter fun x => gidOf d level (posS x) = c).length ∧
    v ⟨8 ^ level + c, by omega⟩ = (((List.range ranks).flatMap PT).filter fun x => gidOf d level (posT x) = c).length := by
  have hsum : ∀ {R : Type} (pos : R → Point K) (P : Nat → List R),
      ((((List.range ranks).flatMap P).filter fun x => gidOf d level (pos x) = c).length : Int) =
        ((List.range ranks).map fun r => ((ofGid d level pos c (P r)).length : Int)).sum := by
    intro R pos P
    rw [List.filter_flatMap, List.length_flatMap, Nat.cast_list_sum, List.map_map]
    rfl
  constructor
  · rw [Reduce.intSum hv, hsum posS PS, List.map_map]
    congr 1
    refine List.map_congr_left fun r hr => ?_
    have hr := List.mem_range.1 hr
    obtain ⟨s, e1, -, -, -, -, e6⟩ := sortLocal_spec hd level fuel posS (PS r) (hS r hr) (hnS r hr).1
    obtain rfl : s = srt r := by have := hx.sortS r hr; rw [e1] at this; simpa using this
    simp only [Function.comp, bothCounts]
    rw [if_pos hc, (e6 c hc).1]
  · rw [Reduce.intSum hv, hsum posT PT, List.map_map]
    congr 1
    refine List.map_congr_left fun r hr => ?_
    have hr := List.mem_range.1 hr
    obtain ⟨t, f1, -, f3, -, -, f6⟩ := sortLocal_spec hd level fuel posT (PT r) (hT r hr) (hnT r hr).1
    simp only [Function.comp, bothCounts]
    rw [if_neg (by omega), hx.countT r hr, ← f3, Nat.add_sub_cancel_left, (f6 c hc).1]

end
/-- **C81** The array of a rank is divided among its cells, without gaps: if each cell that belongs to the rank has the number of records in the counts, then the array with all these records
has the computed size, and the part of it that the rank makes the memory of a cell is exactly the cell's. -/
theorem C81_offsets {R : Type} (dim3 rank : Nat) (rankMap count : Nat → Nat) (h0 : 0 < dim3) (mem : Nat → List R)
    (hm : ∀ i < dim3, rankMap i = rank → (mem i).length = count i) :
    ∃ offs n, globalOffsets dim3 rank rankMap count = (offs, n) ∧
      (((List.range dim3).filter fun i => rankMap i = rank).flatMap mem).length = n ∧
      ∀ i < dim3, rankMap i = rank → ((((List.range dim3).filter fun i => rankMap i = rank).flatMap mem).drop (offs.getD i 0)).take (count i) = mem i := by
  obtain ⟨-, h2, h3⟩ := globalOffsets_spec dim3 rank rankMap count h0
  obtain ⟨h4, h5⟩ := segment_spec dim3 rank rankMap count mem hm
  refine ⟨(globalOffsets dim3 rank rankMap count).1, (globalOffsets dim3 rank rankMap count).2, rfl, by rw [h4, h3], fun i hi ho => ?_⟩
  rw [h2 i hi]
  exact h5 i hi ho

/-- Four cells, of which the rank has the first and the last two. -/
example : globalOffsets 4 1 (fun i => if i = 1 then 0 else 1) (fun i => i + 2) = ([0, 2, 2, 6], 11) := by decide

section
variable {K : Type} [Field K] [LinearOrder K] [IsStrictOrderedRing K] [FloorRing K] {R : Type} [Inhabited R]

/-- **C81** Sorting the records of a rank always succeeds: it only reorders them, and finds the records of each cell, which are consecutive. -/
theorem C81_sorted {d : Domain K} (hd : 0 < d.size) (level : Nat) {fuel : Nat} (pos : R → Point K) (P : List R)
    (hin : ∀ x ∈ P, InDomain d (pos x)) (hf : P.length ≤ fuel) :
    ∃ s, sortLocal d level fuel pos P = some s ∧ s.data.Perm P ∧ ∀ c < 8 ^ level,
      (s.data.drop (s.offset.getD c 0)).take (s.count.getD c 0) = P.filter fun x => gidOf d level (pos x) = c := by
  obtain ⟨s, e1, e2, -, -, -, e6⟩ := sortLocal_spec hd level fuel pos P hin hf
  exact ⟨s, e1, e2, fun c hc => (e6 c hc).2.2⟩

end

open RankTree Branch in
/-- **C81** So, when the division of all cells with records has been started, the records have arrived in the sense of C80. (`Q` are the records of all ranks, and `s q` the state of the cell
when its division starts.) -/
theorem C81_arrived {K : Type} [Field K] [LinearOrder K] [FloorRing K] {R : Type} {E : Build.Env K R} {C : Cfg R} {Q : List R} {s : List Nat → Merge.State R}
    (hs : ∀ q, C.IsCell q → C.mem q ≠ [] → Filled (s q) (Q.filter fun x => gidOf E.dom C.unif (E.pos x) = cellOf C.unif q))
    (hm : ∀ q, C.IsCell q → C.mem q ≠ [] → (s q).parts = (C.mem q).map some)
    (h0 : ∀ q, C.IsCell q → C.mem q = [] → countsOf E C.unif Q (cellOf C.unif q) = 0) : Arrived E C Q := by
  intro q hq
  by_cases h : C.mem q = []
  · rw [h]
    have := h0 q hq h
    unfold countsOf at this
    rw [List.length_eq_zero_iff.1 this]
  · obtain ⟨-, -, L, hL, hp⟩ := hs q hq h
    rw [hm q hq h] at hL
    rw [List.map_injective_iff.2 (Option.some_injective R) hL]
    exact hp

section
variable {K : Type} [Field K] [LinearOrder K] [IsStrictOrderedRing K] [FloorRing K] {S T : Type} [Inhabited S] [Inhabited T]

/-- **C81** All of this happens for all inputs: sorting succeeds on all ranks, each message is read by its receiver, and the tasks on a cell can all run. -/
theorem C81_exists (E : Points.Env S T) (hss : E.ss.Ok) (hst : E.st.Ok) (ranks : Nat) {d : Domain K} (hd : 0 < d.size) {level fuel : Nat}
    (posS : S → Point K) (posT : T → Point K) (PS : Nat → List S) (PT : Nat → List T) (hdim : E.dim3 = 8 ^ level) (hlt : 8 ^ level < 2 ^ 31)
    (hS : ∀ r < ranks, ∀ x ∈ PS r, InDomain d (posS x)) (hT : ∀ r < ranks, ∀ x ∈ PT r, InDomain d (posT x))
    (hnS : ∀ r < ranks, (PS r).length ≤ fuel ∧ (PS r).length < 2 ^ 31) (hnT : ∀ r < ranks, (PT r).length ≤ fuel ∧ (PT r).length < 2 ^ 31) :
    ∃ srt trt rcv, Exchanged E ranks d level fuel posS posT PS PT srt trt rcv ∧
      ∀ c < 8 ^ level, E.rankOf c < ranks → ((List.range ranks).flatMap PS).filter (fun x => gidOf d level (posS x) = c) ≠ [] →
        ∃ s, Merge.Reach (tasks (srt (E.rankOf c)) ((others ranks (E.rankOf c)).map fun r => (rcv r (E.rankOf c)).mergeS) c)
          (((List.range ranks).flatMap PS).filter fun x => gidOf d level (posS x) = c).length s ∧
          Filled s (((List.range ranks).flatMap PS).filter fun x => gidOf d level (posS x) = c) := by
  classical
  have h1 : ∀ r, ∃ s, r < ranks → sortLocal d level fuel posS (PS r) = some s := fun r => by
    by_cases hr : r < ranks
    · obtain ⟨s, h, -⟩ := sortLocal_spec hd level fuel posS (PS r) (hS r hr) (hnS r hr).1
      exact ⟨s, fun _ => h⟩
    · exact ⟨⟨[], [], []⟩, fun h => absurd h hr⟩
  have h2 : ∀ r, ∃ s, r < ranks → sortLocal d level fuel posT (PT r) = some s ∧ s.count = (assignPoints d level ((PT r).map posT)).2 := fun r => by
    by_cases hr : r < ranks
    · obtain ⟨s, h, -, h', -⟩ := sortLocal_spec hd level fuel posT (PT r) (hT r hr) (hnT r hr).1
      exact ⟨s, fun _ => ⟨h, h'⟩⟩
    · exact ⟨⟨[], [], []⟩, fun h => absurd h hr⟩
  choose srt hsrt using h1
  choose trt htrt using h2
  have pre : ∀ rcv, (∀ r < ranks, ∀ o < ranks, r ≠ o → ∃ rw smeta tmeta p m p' m', rw < 2 ^ 64 ∧ smeta < 2 ^ 64 ∧ tmeta < 2 ^ 64 ∧
      Mem.load m' p' (Points.parcelBytes E (args (srt r) (trt r) rw smeta tmeta) o) =
        (Points.fill E (args (srt r) (trt r) rw smeta tmeta) o p m).1.load p (Points.parcelBytes E (args (srt r) (trt r) rw smeta tmeta) o) ∧
      Points.recv E o p' (Points.parcelBytes E (args (srt r) (trt r) rw smeta tmeta) o) m' = some (rcv r o)) →
      Exchanged E ranks d level fuel posS posT PS PT srt trt rcv := fun rcv h =>
    ⟨hdim, hsrt, fun _ r hr => (htrt r hr).1, fun r hr => (htrt r hr).2, h⟩
  have h3 : ∀ r o, ∃ x, r < ranks → Points.recv E o 0 (Points.parcelBytes E (args (srt r) (trt r) 0 0 0) o)
      (Points.fill E (args (srt r) (trt r) 0 0 0) o 0 fun _ => 0).1 = some x := fun r o => by
    by_cases hr : r < ranks
    · have hg : GoodArgs E (args (srt r) (trt r) 0 0 0) o := good_args_of hdim (fun r hr => hsrt r hr) (fun _ r hr => (htrt r hr).1)
        (fun r hr => (htrt r hr).2) hd hS hT hnS hnT hlt hr o (by norm_num) (by norm_num) (by norm_num)
      obtain ⟨x, hx, -⟩ := C29_decode E hss hst _ o hg 0 (fun _ => 0) 0 _ rfl
      exact ⟨x, fun _ => hx⟩
    · exact ⟨⟨0, 0, 0, 0, [], [], [], 0⟩, fun h => absurd h hr⟩
  choose rcv hrcv using h3
  have hx := pre rcv fun r hr o _ _ => ⟨0, 0, 0, 0, fun _ => 0, 0, _, by norm_num, by norm_num, by norm_num, rfl, hrcv r o hr⟩
  refine ⟨srt, trt, rcv, hx, fun c hc ho hne => ?_⟩
  obtain ⟨s, hs, hdone⟩ := merge_exists (tasks (srt (E.rankOf c)) ((others ranks (E.rankOf c)).map fun r => (rcv r (E.rankOf c)).mergeS) c)
    (((List.range ranks).flatMap PS).filter fun x => gidOf d level (posS x) = c).length
  obtain ⟨-, -, g3, g4, -⟩ := C81_sources hx hd hss hst hS hT hnS hnT hlt hc ho rfl hs
  exact ⟨s, hs, g3 (g4 hdone hne)⟩

end

end Dashmm
