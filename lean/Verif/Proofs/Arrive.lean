import Verif.Spec.Arrive
import Verif.Proofs.Reduce
import Verif.Props.Grid
import Verif.Props.Exchange
/-!
The way of the records to the cells: lemmas for C81.
-/
namespace Dashmm
namespace Arrive
open Grid

section
variable {K : Type} [Field K] [LinearOrder K] [IsStrictOrderedRing K] [FloorRing K] {R : Type}

/-- The records assigned to a cell. -/
def ofGid (d : Domain K) (level : Nat) (pos : R → Point K) (c : Nat) (P : List R) : List R :=
  P.filter fun x => gidOf d level (pos x) = c

theorem gid_lt {d : Domain K} (hd : 0 < d.size) (level : Nat) {p : Point K} (hp : InDomain d p) : gidOf d level p < 8 ^ level := by
  obtain ⟨i, hi, ⟨a, b, c⟩, he⟩ := gidOf_spec hd level hp
  rw [he, ← Hilbert.cube_eq]
  rw [hi] at a b c
  exact simpleKey_lt a.1 b.1 c.1

theorem zip_filter (f : R → Nat) (c : Nat) : ∀ l : List R, ((l.zip (l.map f)).filter fun p => p.2 = c).map Prod.fst = l.filter fun x => f x = c
  | [] => rfl
  | x :: l => by
    rw [List.map_cons, List.zip_cons_cons, List.filter_cons, List.filter_cons]
    by_cases h : f x = c
    · simp [h, zip_filter f c l]
    · simp [h, zip_filter f c l]

theorem countP_ofGid (d : Domain K) (level : Nat) (pos : R → Point K) (c : Nat) (P : List R) :
    ((P.map pos).map (gidOf d level)).countP (· = c) = (ofGid d level pos c P).length := by
  rw [List.countP_map, List.countP_map, List.countP_eq_length_filter]
  rfl

theorem take_sum_le (l : List Nat) (c : Nat) : (l.take c).sum + l.getD c 0 ≤ l.sum := by
  induction l generalizing c with
  | nil => simp
  | cons a l ih =>
    cases c with
    | zero => simp
    | succ c => have := ih c; simp only [List.take_succ_cons, List.sum_cons, List.getD_cons_succ]; omega

variable [Inhabited R]

theorem sortLocal_spec {d : Domain K} (hd : 0 < d.size) (level fuel : Nat) (pos : R → Point K) (P : List R)
    (hin : ∀ x ∈ P, InDomain d (pos x)) (hf : P.length ≤ fuel) :
    ∃ s, sortLocal d level fuel pos P = some s ∧ s.data.Perm P ∧ s.count = (assignPoints d level (P.map pos)).2 ∧ s.count.sum = P.length ∧
      s.count.length = 8 ^ level ∧
      ∀ c < 8 ^ level, s.count.getD c 0 = (ofGid d level pos c P).length ∧
        s.offset.getD c 0 + s.count.getD c 0 ≤ s.data.length ∧
        Points.slice s.data (s.offset.getD · 0) (s.count.getD · 0) c = ofGid d level pos c P := by
  have hP : ∀ p ∈ P.map pos, InDomain d p := by
    intro p hp
    obtain ⟨x, hx, rfl⟩ := List.mem_map.1 hp
    exact hin x hx
  obtain ⟨gid, count, he, h1, h2, h3, h4, h5⟩ := C20_counts d hd level (P.map pos) hP
  obtain ⟨out, offs, g1, g2, g3, g4⟩ := C21_group P gid count (8 ^ level) fuel (by positivity) (by rw [h1]; simp) h2 h4 hf
  obtain ⟨out', offs', g1', g4'⟩ := C21_offsets P gid count (8 ^ level) fuel (by positivity) (by rw [h1]; simp) h2 h4 hf
  rw [g1] at g1'
  obtain ⟨rfl, rfl⟩ : out = out' ∧ offs = offs' := by simpa using g1'
  refine ⟨⟨out, count, offs⟩, ?_, g2, ?_, ?_, h3, ?_⟩
  · unfold sortLocal; rw [he]; simp only; rw [g1]; rfl
  · rw [he]
  · rw [h5]; simp
  · intro c hc
    refine ⟨?_, ?_, ?_⟩
    · simp only; rw [h4 c hc, h1, countP_ofGid]
    · simp only; rw [g4' c hc, g2.length_eq]
      have := take_sum_le count c
      rw [h5, List.length_map] at this
      exact this
    · unfold Points.slice
      simp only
      rw [g4 c hc, h1, List.map_map, zip_filter]; rfl

end

/-! ### The tasks of a cell -/

section
variable {R : Type}

theorem single_of {l : List (Nat × List R)} {c : Nat} (hn : (l.map Prod.fst).Nodup) {p : Prop} [Decidable p] {x : List R}
    (h : ∀ y, (c, y) ∈ l ↔ p ∧ y = x) : (l.filter fun m => m.1 = c).map Prod.snd = if p then [x] else [] := by
  by_cases hp : p
  · rw [if_pos hp]
    have hx : (c, x) ∈ l := (h x).2 ⟨hp, rfl⟩
    obtain ⟨a, b, rfl⟩ := List.append_of_mem hx
    rw [List.map_append, List.map_cons, List.nodup_append] at hn
    have ha : a.filter (fun m => m.1 = c) = [] := by
      rw [List.filter_eq_nil_iff]
      intro m hm he
      exact hn.2.2 m.1 (List.mem_map_of_mem hm) c (by simp) (by simpa using he)
    have hb : b.filter (fun m => m.1 = c) = [] := by
      rw [List.filter_eq_nil_iff]
      intro m hm he
      have he' : m.1 = c := by simpa using he
      exact (List.nodup_cons.1 hn.2.1).1 (List.mem_map.2 ⟨m, hm, he'⟩)
    simp [List.filter_append, ha, hb]
  · rw [if_neg hp]
    have : l.filter (fun m => m.1 = c) = [] := by
      rw [List.filter_eq_nil_iff]
      rintro ⟨i, y⟩ hm he
      have : i = c := by simpa using he
      subst this
      exact hp ((h y).1 hm).1
    rw [this]; rfl

theorem messages_cons (l : List R) (ls : List (List R)) :
    messages (l :: ls) = (if l.length ≠ 0 then [l] else []) ++ messages ls := by
  unfold messages
  rw [List.filter_cons]
  cases l <;> simp

/-- The tasks of a cell are the non-empty contributions of the ranks. -/
theorem tasks_eq {s : Sorted R} {c : Nat} {own : List R} (hs : Points.slice s.data (s.offset.getD · 0) (s.count.getD · 0) c = own)
    (hc : s.count.getD c 0 = own.length) (rs : List Nat) (req : Nat → List (Nat × List R)) (part : Nat → List R)
    (hr : ∀ r ∈ rs, mergeTasks (req r) c = if (part r).length ≠ 0 then [part r] else []) :
    tasks s (rs.map req) c = messages (own :: rs.map part) := by
  rw [messages_cons]
  unfold tasks localTask
  rw [hs, hc]
  congr 1
  induction rs with
  | nil => rfl
  | cons r rs ih =>
    rw [List.map_cons, List.flatMap_cons, List.map_cons, messages_cons, hr r (by simp), ih fun r' h => hr r' (by simp [h])]

/-- A rank and the others. -/
theorem others_perm {ranks o : Nat} (ho : o < ranks) : (o :: others ranks o).Perm (List.range ranks) := by
  unfold others
  refine (List.perm_ext_iff_of_nodup ?_ List.nodup_range).2 ?_
  · exact List.nodup_cons.2 ⟨by simp, List.nodup_range.filter _⟩
  · intro x
    simp only [List.mem_cons, List.mem_filter, List.mem_range]
    constructor
    · rintro (rfl | h)
      · exact ho
      · exact h.1
    · intro h
      by_cases he : x = o
      · exact .inl he
      · exact .inr ⟨h, by simpa using he⟩

theorem filled_of {ts : List (List R)} {locs : List (List R)} {n : Nat} {Q : List R} (hts : ts = messages locs) (hn : n = locs.flatten.length)
    (hQ : locs.flatten.Perm Q) {s : Merge.State R} (h : Merge.Reach ts n s) :
    s.overrun = false ∧ s.started ≤ 1 ∧ (s.started = 1 → Filled s Q) ∧
    ((∀ i < ts.length, s.pc i = .done) → Q ≠ [] → s.started = 1) ∧
    ((∃ i < ts.length, s.pc i ≠ .done) → ∃ s', Merge.Step ts s s') := by
  subst hts hn
  obtain ⟨h1, h2, h3, h4⟩ := C28_merge locs s h
  obtain ⟨h5, h6⟩ := C28_started locs s h
  refine ⟨h1, h3, fun hs => ⟨h1, hs, ?_⟩, fun ha hne => h5 ha fun h0 => hne ?_, h6⟩
  · have hp := h4 hs
    obtain ⟨L, hL, hm⟩ : ∃ L : List R, s.parts = L.map some ∧ L.Perm locs.flatten := by
      have hall : ∀ x ∈ s.parts, ∃ y, x = some y := by
        intro x hx
        obtain ⟨y, -, rfl⟩ := List.mem_map.1 (hp.mem_iff.1 hx)
        exact ⟨y, rfl⟩
      have : ∃ L : List R, s.parts = L.map some := by
        clear hp h4 h2
        generalize s.parts = l at hall
        induction l with
        | nil => exact ⟨[], rfl⟩
        | cons a l ih =>
          obtain ⟨y, rfl⟩ := hall a (by simp)
          obtain ⟨L, rfl⟩ := ih fun x hx => hall x (by simp [hx])
          exact ⟨y :: L, rfl⟩
      obtain ⟨L, hL⟩ := this
      refine ⟨L, hL, ?_⟩
      rw [hL] at hp
      have := hp.filterMap id
      rw [List.filterMap_map, List.filterMap_map] at this
      simpa only [Function.id_comp, List.filterMap_some] using this
    exact ⟨L, hL, hm.trans hQ⟩
  · rw [h0] at hQ
    exact hQ.symm.eq_nil

end
/-- All tasks on a cell can run, one after the other. -/
theorem merge_exists {R : Type} (ts : List (List R)) (n : Nat) : ∃ s, Merge.Reach ts n s ∧ ∀ i < ts.length, s.pc i = .done := by
  have key : ∀ k ≤ ts.length, ∃ s, Merge.Reach ts n s ∧ s.lock = none ∧ (∀ i < k, s.pc i = .done) ∧ ∀ i, k ≤ i → s.pc i = .idle := by
    intro k
    induction k with
    | zero => exact fun _ => ⟨_, .init, rfl, fun i hi => absurd hi (by omega), fun _ _ => rfl⟩
    | succ k ih =>
      intro hk
      obtain ⟨s, hs, hl, hd, hi⟩ := ih (by omega)
      have h1 := hs.step (.lock (i := k) (by omega) (hi k le_rfl) hl)
      have h2 := h1.step (.read (i := k) (by simp [Merge.State.goto]))
      have h3 := h2.step (.copy (i := k) (f := s.first) (by simp [Merge.State.goto]))
      have h4 := h3.step (.count (i := k) (by simp [Merge.State.goto]))
      have h5 := h4.step (.spawn (i := k) (by simp [Merge.State.goto]; rfl))
      have h6 := h5.step (.unlock (i := k) (by simp [Merge.State.goto]))
      refine ⟨_, h6, by simp [Merge.State.goto], fun i hik => ?_, fun i hik => ?_⟩
      · by_cases he : i = k
        · simp [Merge.State.goto, he]
        · have : i < k := by omega
          simp [Merge.State.goto, he, hd i this]
      · have : i ≠ k := by omega
        simp [Merge.State.goto, this, hi i (by omega)]
  obtain ⟨s, h1, -, h2, -⟩ := key ts.length le_rfl
  exact ⟨s, h1, h2⟩

/-! ### The array of a rank -/

section

/-- What a cell adds to the array of a rank. -/
def weight (rank : Nat) (rankMap count : Nat → Nat) (i : Nat) : Nat := if rankMap i = rank then count i else 0

theorem globalOffsets_spec (dim3 rank : Nat) (rankMap count : Nat → Nat) (h0 : 0 < dim3) :
    (globalOffsets dim3 rank rankMap count).1.length = dim3 ∧
    (∀ i < dim3, (globalOffsets dim3 rank rankMap count).1.getD i 0 = ((List.range i).map (weight rank rankMap count)).sum) ∧
    (globalOffsets dim3 rank rankMap count).2 = ((List.range dim3).map (weight rank rankMap count)).sum := by
  have key : ∀ m, m + 1 ≤ dim3 → ∀ a, a = (List.range' 1 m).foldl (fun (a : List Nat × Nat) i =>
      (a.1.set i (a.1.getD (i - 1) 0 + if rankMap (i - 1) = rank then count (i - 1) else 0),
        a.2 + if rankMap i = rank then count i else 0)) (List.replicate dim3 0, if rankMap 0 = rank then count 0 else 0) →
      a.1.length = dim3 ∧ (∀ i ≤ m, a.1.getD i 0 = ((List.range i).map (weight rank rankMap count)).sum) ∧
      a.2 = ((List.range (m + 1)).map (weight rank rankMap count)).sum := by
    intro m
    induction m with
    | zero =>
      rintro - a rfl
      refine ⟨by simp, fun i hi => ?_, by simp [weight]⟩
      obtain rfl : i = 0 := by omega
      simp only [List.range'_zero, List.foldl_nil]
      cases dim3 with
      | zero => omega
      | succ n => simp
    | succ m ih =>
      intro hm a ha
      rw [List.range'_concat, List.foldl_append] at ha
      obtain ⟨h1, h2, h3⟩ := ih (by omega) _ rfl
      generalize (List.range' 1 m).foldl _ _ = b at ha h1 h2 h3
      simp only [List.foldl_cons, List.foldl_nil, Nat.one_mul] at ha
      subst ha
      refine ⟨by simpa using h1, fun i hi => ?_, ?_⟩
      · rw [getD_set, h1]
        by_cases hi' : 1 + m = i
        · rw [if_pos ⟨hi', by omega⟩]
          subst hi'
          rw [show 1 + m - 1 = m by omega, h2 m le_rfl, Nat.add_comm 1 m, List.range_succ]
          simp [weight]
        · rw [if_neg (by tauto), h2 i (by omega)]
      · simp only
        rw [h3, List.range_succ (n := m + 1), Nat.add_comm 1 m]
        simp [weight]
  obtain ⟨h1, h2, h3⟩ := key (dim3 - 1) (by omega) _ rfl
  refine ⟨h1, fun i hi => h2 i (by omega), ?_⟩
  rw [show dim3 - 1 + 1 = dim3 by omega] at h3
  exact h3

theorem segment_spec {R : Type} (dim3 rank : Nat) (rankMap count : Nat → Nat) (mem : Nat → List R) (hm : ∀ i < dim3, rankMap i = rank → (mem i).length = count i) :
    (((List.range dim3).filter fun i => rankMap i = rank).flatMap mem).length = ((List.range dim3).map (weight rank rankMap count)).sum ∧
    ∀ i < dim3, rankMap i = rank →
      ((((List.range dim3).filter fun i => rankMap i = rank).flatMap mem).drop ((List.range i).map (weight rank rankMap count)).sum).take (count i) = mem i := by
  have hlen : ∀ n ≤ dim3, (((List.range n).filter fun i => rankMap i = rank).flatMap mem).length = ((List.range n).map (weight rank rankMap count)).sum := by
    intro n
    induction n with
    | zero => simp
    | succ n ih =>
      intro hn
      rw [List.range_succ, List.filter_append, List.flatMap_append, List.length_append, ih (by omega), List.map_append, List.sum_append]
      congr 1
      by_cases h : rankMap n = rank
      · simp [h, weight, hm n (by omega) h]
      · simp [h, weight]
  refine ⟨hlen _ le_rfl, fun i hi ho => ?_⟩
  obtain ⟨k, rfl⟩ : ∃ k, dim3 = i + 1 + k := ⟨dim3 - (i + 1), by omega⟩
  have hsplit : (List.range (i + 1 + k)).filter (fun i => rankMap i = rank) =
      (List.range i).filter (fun i => rankMap i = rank) ++ i :: ((List.range k).map (i + 1 + ·)).filter fun i => rankMap i = rank := by
    rw [List.range_add, List.range_succ, List.append_assoc, List.filter_append, List.cons_append, List.nil_append,
      List.filter_cons_of_pos (by simpa using ho)]
  rw [hsplit, List.flatMap_append, ← hlen i (by omega), List.drop_left, List.flatMap_cons, ← hm i hi ho, List.take_left]

end
end Arrive
end Dashmm
