import Verif.Proofs.Trace

/-!
# C110: windows of a trace
-/

namespace Dashmm

namespace Trace

theorem reads_inv {fs : List TFile} {S : St} (h : Reads fs S) : ∃ S0, Inv fs S0 ∧ (minNs S0.ws).isSome ∧ (maxNs S0.ws).isSome ∧ S.locked = true ∧
    List.Forall₂ sortedFrom S0.ws S.ws := by
  obtain ⟨S0, h0, h1⟩ := h
  have hI : Inv fs S0 := by simpa using Inv.start.adds h0
  unfold Finalizes at h1
  rw [hI.open_] at h1
  simp only [Bool.false_eq_true, if_false] at h1
  exact ⟨S0, hI, h1.1, h1.2.1, h1.2.2.1, h1.2.2.2.2⟩

theorem reads_worker {fs : List TFile} {S : St} (h : Reads fs S) {w : Wrk} (hw : w ∈ S.ws) :
    Sorted w.events ∧ w.events.Perm (recordsOf fs (key w)) ∧ ∃ f ∈ fs, fkey f = key w := by
  obtain ⟨S0, hI, _, _, _, hF⟩ := reads_inv h
  obtain ⟨w0, hw0, e⟩ := fin_mem hF hw
  obtain ⟨a, b, _, p, s⟩ := e
  have hk : key w = key w0 := by simp [key, a, b]
  refine ⟨s, ?_, ?_⟩
  · rw [hk, ← hI.records w0 hw0]; exact p
  · rw [hk]; exact (hI.keys _).1 (List.mem_map_of_mem hw0)

theorem records_ne {fs : List TFile} (hne : NoEmptyFile fs) {k : Int × Int} {f : TFile} (hf : f ∈ fs) (hk : fkey f = k) : recordsOf fs k ≠ [] := by
  intro e
  unfold recordsOf at e
  rw [List.flatMap_eq_nil_iff] at e
  refine hne f hf (e f ?_)
  rw [List.mem_filter]
  exact ⟨hf, by simpa [fkey] using hk⟩

theorem reads_ne {fs : List TFile} (hne : NoEmptyFile fs) {S : St} (h : Reads fs S) {w : Wrk} (hw : w ∈ S.ws) : w.events ≠ [] := by
  obtain ⟨_, p, f, hf, e⟩ := reads_worker h hw
  intro hc
  rw [hc] at p
  exact records_ne hne hf e (List.nil_perm.1 p)

open Classical in
/-- The time of the latest record, of a list that is not empty. -/
noncomputable def latest (l : List Evt) : Nat := if h : ∃ t, Latest l t then h.choose else 0

theorem latest_spec {l : List Evt} (h : l ≠ []) : Latest l (latest l) := by
  have h' := latest_exists h
  unfold latest
  rw [dif_pos h']
  exact h'.choose_spec

theorem window_eq {fs : List TFile} (hne : NoEmptyFile fs) {S : St} (h : Reads fs S) {a b : Nat} (hab : a ≤ b) :
    window S a b = .ok (S.ws.map fun w => (key w, w.events.filter (inside a (min b (latest w.events))))) := by
  obtain ⟨S0, hI, _, _, hl, hF⟩ := reads_inv h
  unfold window
  rw [hl]
  refine ranges_ok ?_
  intro w hw
  have h1 := reads_ne hne h hw
  exact range_eq (reads_worker h hw).1 h1 hab (latest_spec h1)

end Trace

open Trace

/-- Files that all have records can be read: they are added and sorted without an exception and without reading outside of a vector. -/
theorem C110_defined {fs : List TFile} (hne : NoEmptyFile fs) : ∃ S, Reads fs S := by
  obtain ⟨S0, h0⟩ := adds_ok Inv.start fs
  have hI : Inv fs S0 := by simpa using Inv.start.adds h0
  have hev : ∀ w ∈ S0.ws, w.events ≠ [] := by
    intro w hw
    rw [hI.records w hw]
    obtain ⟨f, hf, e⟩ := (hI.keys (key w)).1 (List.mem_map_of_mem hw)
    exact records_ne hne hf e
  have hmin : ∀ w ∈ S0.ws, w.minNs.isSome := by
    intro w hw
    have := hev w hw
    unfold Wrk.minNs
    cases he : w.events with
    | nil => exact absurd he this
    | cons x l => rfl
  have hmax : ∀ w ∈ S0.ws, w.maxNs.isSome := by
    intro w hw
    have := hev w hw
    unfold Wrk.maxNs
    rw [Option.isSome_map]
    cases he : w.events.getLast? with
    | none => exact absurd (List.getLast?_eq_none_iff.1 he) this
    | some x => rfl
  refine ⟨⟨true, S0.counter, S0.ws.map fun w => ⟨w.loc, w.wid, w.gid, w.events.mergeSort fun a b => decide (a.stamp ≤ b.stamp)⟩⟩, S0, h0, ?_⟩
  unfold Finalizes
  rw [hI.open_]
  simp only [Bool.false_eq_true, if_false]
  have e1 : minNs S0.ws = _ := fold_some (f := min) (g := Wrk.minNs) S0.ws (2 ^ 64 - 1) hmin
  have e2 : maxNs S0.ws = _ := fold_some (f := max) (g := Wrk.maxNs) S0.ws 0 hmax
  refine ⟨by rw [e1]; rfl, by rw [e2]; rfl, trivial, trivial, ?_⟩
  rw [List.forall₂_map_right_iff]
  refine List.forall₂_same.2 ?_
  intro w _
  refine ⟨rfl, rfl, rfl, List.mergeSort_perm _ _, ?_⟩
  have := List.pairwise_mergeSort (le := fun a b : Evt => decide (a.stamp ≤ b.stamp)) (by simp; omega) (by simp; omega) w.events
  exact this.imp (by simp)

/-- A file without records makes the reader read outside of a vector, unless another file has records for the same worker: there is no defined way
through `finalize`. -/
theorem C110_empty {fs : List TFile} {f : TFile} (hf : f ∈ fs) (he : recordsOf fs (f.loc, f.wid) = []) : ¬ ∃ S, Reads fs S := by
  rintro ⟨S, h⟩
  obtain ⟨S0, hI, h1, _, _, _⟩ := reads_inv h
  obtain ⟨w, hw, hk⟩ := List.mem_map.1 ((hI.keys (fkey f)).2 ⟨f, hf, rfl⟩)
  have : w.events = [] := by rw [hI.records w hw, hk]; exact he
  have h2 : minNs S0.ws = none := by
    unfold minNs
    refine fold_none _ _ (Or.inr ⟨w, hw, ?_⟩)
    simp [Wrk.minNs, this]
  rw [h2] at h1
  simp at h1

/-- A window has one entry for each worker of the files, and holds, in order of time, exactly its records of the interval, those at the latest instant
of the worker excepted: the end of the interval is cut back to that instant, which is then not included. -/
theorem C110_window {fs : List TFile} (hne : NoEmptyFile fs) {S : St} (h : Reads fs S) {a b : Nat} (hab : a ≤ b) :
    ∃ W, window S a b = .ok W ∧ (W.map Prod.fst).Nodup ∧ (∀ k, k ∈ W.map Prod.fst ↔ ∃ f ∈ fs, (f.loc, f.wid) = k) ∧
      ∀ k l t, (k, l) ∈ W → Latest (recordsOf fs k) t → Sorted l ∧ l.Perm ((recordsOf fs k).filter (inside a (min b t))) := by
  refine ⟨_, window_eq hne h hab, ?_, ?_, ?_⟩
  · rw [List.map_map]
    obtain ⟨S0, hI, _, _, _, hF⟩ := reads_inv h
    have h1 := fin_lt hF hI.sorted
    exact List.pairwise_map.2 (h1.imp lt_keys)
  · intro k
    rw [List.map_map]
    obtain ⟨S0, hI, _, _, _, hF⟩ := reads_inv h
    have h1 : S.ws.map (Prod.fst ∘ fun w => (key w, w.events.filter (inside a (min b (latest w.events))))) = S0.ws.map key := by
      rw [← fin_keys hF]; rfl
    rw [h1, hI.keys]
    exact Iff.rfl
  · intro k l t hm ht
    obtain ⟨w, hw, e⟩ := List.mem_map.1 hm
    simp only [Prod.mk.injEq] at e
    obtain ⟨rfl, rfl⟩ := e
    obtain ⟨hs, hp, _⟩ := reads_worker h hw
    have : latest w.events = t := latest_unique (latest_spec (reads_ne hne h hw)) (ht.perm hp.symm)
    rw [this]
    exact ⟨List.Pairwise.filter _ hs, hp.filter _⟩

/-- What is wanted: the window `[a, b)` holds exactly the records of that interval. It does for the workers that have a record at `b` or later. -/
theorem C110_window_partial {fs : List TFile} (hne : NoEmptyFile fs) {S : St} (h : Reads fs S) {a b : Nat} (hab : a ≤ b)
    {W : List ((Int × Int) × List Evt)} (hW : window S a b = .ok W) {k : Int × Int} {l : List Evt} (hl : (k, l) ∈ W)
    (hlast : ∃ e ∈ recordsOf fs k, b ≤ e.stamp) : Sorted l ∧ l.Perm ((recordsOf fs k).filter (inside a b)) := by
  obtain ⟨W', h1, _, _, h3⟩ := C110_window hne h hab
  rw [hW] at h1
  cases h1
  obtain ⟨e, he, hb⟩ := hlast
  have hne' : recordsOf fs k ≠ [] := List.ne_nil_of_mem he
  obtain ⟨t, ht⟩ := latest_exists hne'
  obtain ⟨p, q⟩ := h3 k l t hl ht
  have : min b t = b := by have := ht.2 e he; omega
  rw [this] at q
  exact ⟨p, q⟩

/-- The full statement is false: no window, however wide, holds the records at the latest instant of a worker. -/
theorem C110_latest_lost {fs : List TFile} (hne : NoEmptyFile fs) {S : St} (h : Reads fs S) {a b : Nat} (hab : a ≤ b)
    {W : List ((Int × Int) × List Evt)} (hW : window S a b = .ok W) {k : Int × Int} {l : List Evt} (hl : (k, l) ∈ W)
    {e : Evt} (he : Latest (recordsOf fs k) e.stamp) : e ∉ l := by
  obtain ⟨W', h1, _, _, h3⟩ := C110_window hne h hab
  rw [hW] at h1
  cases h1
  intro hm
  have := (h3 k l _ hl he).2.mem_iff.1 hm
  rw [List.mem_filter] at this
  have h4 := this.2
  simp only [inside, decide_eq_true_eq] at h4
  omega

/-- Windows that follow each other neither overlap nor leave anything out: together they are the window of both. -/
theorem C110_adjacent {fs : List TFile} (hne : NoEmptyFile fs) {S : St} (h : Reads fs S) {a b c : Nat} (hab : a ≤ b) (hbc : b ≤ c)
    {U V W : List ((Int × Int) × List Evt)} (hU : window S a b = .ok U) (hV : window S b c = .ok V) (hW : window S a c = .ok W)
    {k : Int × Int} {u v : List Evt} (hu : (k, u) ∈ U) (hv : (k, v) ∈ V) : (k, u ++ v) ∈ W := by
  rw [window_eq hne h hab] at hU
  rw [window_eq hne h hbc] at hV
  rw [window_eq hne h (Nat.le_trans hab hbc)] at hW
  cases hU; cases hV; cases hW
  obtain ⟨w, hw, e⟩ := List.mem_map.1 hu
  obtain ⟨w', hw', e'⟩ := List.mem_map.1 hv
  simp only [Prod.mk.injEq] at e e'
  have hww : w = w' := by
    obtain ⟨S0, hI, _, _, _, hF⟩ := reads_inv h
    have h1 := fin_lt hF hI.sorted
    by_contra hcon
    rcases List.pairwise_iff_getElem.1 h1 with h2
    obtain ⟨i, hi, ei⟩ := List.getElem_of_mem hw
    obtain ⟨j, hj, ej⟩ := List.getElem_of_mem hw'
    rcases Nat.lt_trichotomy i j with hij | hij | hij
    · have := lt_keys (h2 i j hi hj hij)
      rw [ei, ej] at this
      exact this (e.1.trans e'.1.symm)
    · subst hij; exact hcon (ei.symm.trans ej)
    · have := lt_keys (h2 j i hj hi hij)
      rw [ei, ej] at this
      exact this (e'.1.trans e.1.symm)
  subst hww
  refine List.mem_map.2 ⟨w, hw, ?_⟩
  rw [Prod.mk.injEq]
  refine ⟨e.1, ?_⟩
  rw [← e.2, ← e'.2]
  have hs := (reads_worker h hw).1
  generalize latest w.events = t
  clear * - hs hab hbc
  generalize w.events = l at hs
  have key1 : ∀ l : List Evt, Sorted l → l.filter (inside a (min c t)) = l.filter (inside a (min b t)) ++ l.filter (inside b (min c t)) := by
    intro l hl
    induction l with
    | nil => rfl
    | cons x l ih =>
      obtain ⟨h1, h2⟩ := sorted_cons.1 hl
      by_cases hx : x.stamp < b
      · have e1 : inside b (min c t) x = false := by
          simp only [inside, decide_eq_false_iff_not]; omega
        have e2 : inside a (min c t) x = inside a (min b t) x := by
          simp only [inside]; rw [decide_eq_decide]; omega
        simp only [List.filter_cons, e1, e2, ih h2]
        cases inside a (min b t) x <;> simp
      · have e3 : ∀ y ∈ x :: l, inside a (min b t) y = false := by
          intro y hy
          rcases List.mem_cons.1 hy with rfl | hy
          · simp only [inside, decide_eq_false_iff_not]; omega
          · have := h1 y hy; simp only [inside, decide_eq_false_iff_not]; omega
        have e4 : ∀ y ∈ x :: l, inside a (min c t) y = inside b (min c t) y := by
          intro y hy
          have : b ≤ y.stamp := by
            rcases List.mem_cons.1 hy with rfl | hy
            · omega
            · have := h1 y hy; omega
          simp only [inside]
          rw [decide_eq_decide]; omega
        have e5 : (x :: l).filter (inside a (min b t)) = [] := List.filter_eq_nil_iff.2 (fun y hy => by rw [e3 y hy]; simp)
        rw [e5, List.nil_append]
        exact List.filter_congr e4
  exact key1 l hs

/-- The bounds in time of a trace are those of its earliest and of its latest record. -/
theorem C110_bounds {fs : List TFile} (hne : NoEmptyFile fs) (hfs : fs ≠ []) (h64 : ∀ f ∈ fs, ∀ e ∈ f.events, e.stamp < 2 ^ 64) {S : St}
    (h : Reads fs S) : ∃ m M, minNs S.ws = some m ∧ maxNs S.ws = some M ∧ Earliest (fs.flatMap TFile.events) m ∧ Latest (fs.flatMap TFile.events) M := by
  have hmin : ∀ w ∈ S.ws, w.minNs.isSome := by
    intro w hw
    have := reads_ne hne h hw
    unfold Wrk.minNs
    cases he : w.events with
    | nil => exact absurd he this
    | cons x l => rfl
  have hmax : ∀ w ∈ S.ws, w.maxNs.isSome := by
    intro w hw
    have := reads_ne hne h hw
    unfold Wrk.maxNs
    rw [Option.isSome_map]
    cases he : w.events.getLast? with
    | none => exact absurd (List.getLast?_eq_none_iff.1 he) this
    | some x => rfl
  have hback : ∀ w ∈ S.ws, ∀ e ∈ w.events, e ∈ fs.flatMap TFile.events := by
    intro w hw e he
    have := (reads_worker h hw).2.1.mem_iff.1 he
    unfold recordsOf at this
    obtain ⟨f, hf, hef⟩ := List.mem_flatMap.1 this
    exact List.mem_flatMap.2 ⟨f, (List.mem_filter.1 hf).1, hef⟩
  have hforth : ∀ e ∈ fs.flatMap TFile.events, ∃ w ∈ S.ws, e ∈ w.events := by
    intro e he
    obtain ⟨f, hf, hef⟩ := List.mem_flatMap.1 he
    obtain ⟨S0, hI, _, _, _, hF⟩ := reads_inv h
    have h1 : fkey f ∈ S.ws.map key := by rw [fin_keys hF]; exact (hI.keys _).2 ⟨f, hf, rfl⟩
    obtain ⟨w, hw, hk⟩ := List.mem_map.1 h1
    refine ⟨w, hw, (reads_worker h hw).2.1.mem_iff.2 ?_⟩
    unfold recordsOf
    refine List.mem_flatMap.2 ⟨f, List.mem_filter.2 ⟨hf, ?_⟩, hef⟩
    rw [hk]; simp [fkey]
  obtain ⟨w1, hw1⟩ : ∃ w, w ∈ S.ws := by
    cases fs with
    | nil => exact absurd rfl hfs
    | cons f fs =>
      have hf0 := hne f List.mem_cons_self
      obtain ⟨e, he⟩ := List.exists_mem_of_ne_nil _ hf0
      obtain ⟨w, hw, _⟩ := hforth e (List.mem_flatMap.2 ⟨f, List.mem_cons_self, he⟩)
      exact ⟨w, hw⟩
  refine ⟨_, _, fold_some _ _ hmin, fold_some _ _ hmax, ?_, ?_⟩
  · obtain ⟨a, b, c⟩ := foldl_min (S.ws.filterMap Wrk.minNs) (2 ^ 64 - 1)
    generalize (S.ws.filterMap Wrk.minNs).foldl min (2 ^ 64 - 1) = m at *
    have hle : ∀ e ∈ fs.flatMap TFile.events, m ≤ e.stamp := by
      intro e he
      obtain ⟨w, hw, hew⟩ := hforth e he
      obtain ⟨x, hx⟩ := Option.isSome_iff_exists.1 (hmin w hw)
      have h1 := c x (List.mem_filterMap.2 ⟨w, hw, hx⟩)
      unfold Wrk.minNs at hx
      obtain ⟨y, hy, rfl⟩ := Option.map_eq_some_iff.1 hx
      have h2 := head_min (reads_worker h hw).1 hy e hew
      omega
    refine ⟨?_, hle⟩
    rcases a with a | a
    · obtain ⟨e, he⟩ := List.exists_mem_of_ne_nil _ (reads_ne hne h hw1)
      have h1 := hback w1 hw1 e he
      have h2 := hle e h1
      obtain ⟨f, hf, hef⟩ := List.mem_flatMap.1 h1
      have h3 := h64 f hf e hef
      exact ⟨e, h1, by omega⟩
    · obtain ⟨w, hw, hx⟩ := List.mem_filterMap.1 a
      unfold Wrk.minNs at hx
      obtain ⟨y, hy, rfl⟩ := Option.map_eq_some_iff.1 hx
      exact ⟨y, hback w hw y (List.mem_of_head? hy), rfl⟩
  · obtain ⟨a, b, c⟩ := foldl_max (S.ws.filterMap Wrk.maxNs) 0
    generalize (S.ws.filterMap Wrk.maxNs).foldl max 0 = m at *
    have hle : ∀ e ∈ fs.flatMap TFile.events, e.stamp ≤ m := by
      intro e he
      obtain ⟨w, hw, hew⟩ := hforth e he
      obtain ⟨x, hx⟩ := Option.isSome_iff_exists.1 (hmax w hw)
      have h1 := c x (List.mem_filterMap.2 ⟨w, hw, hx⟩)
      unfold Wrk.maxNs at hx
      obtain ⟨y, hy, rfl⟩ := Option.map_eq_some_iff.1 hx
      have h2 := last_max (reads_worker h hw).1 hy e hew
      omega
    refine ⟨?_, hle⟩
    rcases a with a | a
    · obtain ⟨e, he⟩ := List.exists_mem_of_ne_nil _ (reads_ne hne h hw1)
      have h1 := hback w1 hw1 e he
      have h2 := hle e h1
      exact ⟨e, h1, by omega⟩
    · obtain ⟨w, hw, hx⟩ := List.mem_filterMap.1 a
      unfold Wrk.maxNs at hx
      obtain ⟨y, hy, rfl⟩ := Option.map_eq_some_iff.1 hx
      exact ⟨y, hback w hw y (List.mem_of_getLast? hy), rfl⟩

/-- The numbers of the workers, which are the keys of the table of workers, are different. -/
theorem C110_ids {fs : List TFile} {S : St} (h : Reads fs S) : (S.ws.map Wrk.gid).Nodup := by
  obtain ⟨S0, hI, _, _, _, hF⟩ := reads_inv h
  rw [fin_gids hF]; exact hI.gids

/-- The number of events reported is that of the records of all files. -/
theorem C110_count {fs : List TFile} {S : St} (h : Reads fs S) : numEvents S = (fs.map fun f => f.events.length).sum := by
  obtain ⟨S0, hI, _, _, _, hF⟩ := reads_inv h
  rw [← hI.count]
  unfold numEvents
  congr 1
  have hF' := hF
  clear h hI hF
  generalize S0.ws = A at hF'
  generalize S.ws = B at hF'
  induction hF' with
  | nil => rfl
  | cons h1 _ ih => simp only [List.map_cons, ih]; rw [h1.2.2.2.1.length_eq]

/-- No file is added after `finalize`, finalizing again changes nothing, and there are no windows before it. -/
theorem C110_locked {fs : List TFile} {S : St} (h : Reads fs S) :
    (∀ f, addFile S f = .throws) ∧ (∀ S', Finalizes S S' ↔ S' = S) ∧
      ∀ gs S0 a b, addFiles St.start gs = .ok S0 → window S0 a b = .throws := by
  obtain ⟨_, _, _, _, hl, _⟩ := reads_inv h
  refine ⟨fun f => by simp [addFile, hl], fun S' => by simp [Finalizes, hl], fun gs S0 a b h0 => ?_⟩
  have hI : Inv gs S0 := by simpa using Inv.start.adds h0
  simp [window, hI.open_]

/-- An interval with its ends in the wrong order is refused. -/
theorem C110_inverted {fs : List TFile} (hfs : fs ≠ []) {S : St} (h : Reads fs S) {a b : Nat} (hab : b < a) : window S a b = .throws := by
  obtain ⟨S0, hI, _, _, hl, hF⟩ := reads_inv h
  unfold window
  rw [hl]
  cases fs with
  | nil => exact absurd rfl hfs
  | cons f fs =>
    have h1 : fkey f ∈ S.ws.map key := by rw [fin_keys hF]; exact (hI.keys _).2 ⟨f, List.mem_cons_self, rfl⟩
    cases hws : S.ws with
    | nil => rw [hws] at h1; simp at h1
    | cons w ws => simp [ranges, range, hab]

/-! Files of two workers, in pieces: the records can be read, and the record at 9 is in no window. -/

example : NoEmptyFile [⟨0, 0, [⟨3, "b", 2, true, false⟩, ⟨9, "b", 2, true, false⟩]⟩, ⟨0, 1, [⟨5, "b", 2, true, false⟩]⟩,
    ⟨0, 0, [⟨7, "e", 2, false, true⟩]⟩] := by unfold NoEmptyFile; decide

example : recordsOf [⟨0, 0, [⟨3, "b", 2, true, false⟩, ⟨9, "b", 2, true, false⟩]⟩, ⟨0, 1, [⟨5, "b", 2, true, false⟩]⟩,
    ⟨0, 0, [⟨7, "e", 2, false, true⟩]⟩] (0, 0) = [⟨3, "b", 2, true, false⟩, ⟨9, "b", 2, true, false⟩, ⟨7, "e", 2, false, true⟩] := by decide

example : range [⟨3, "b", 2, true, false⟩, ⟨7, "e", 2, false, true⟩, ⟨9, "b", 2, true, false⟩] 0 100 =
    .ok [⟨3, "b", 2, true, false⟩, ⟨7, "e", 2, false, true⟩] := by decide

example : recordsOf [⟨0, 0, []⟩] (0, 0) = [] := by decide

end Dashmm
