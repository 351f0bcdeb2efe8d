import Verif.Proofs.TraceDb
import Verif.Props.TraceZero

/-!
# C113: the database of a trace
-/

namespace Dashmm

namespace Trace

theorem readsZero_gids {fs : List TFile} {S : St} (h : ReadsZero fs S) : (S.ws.map Wrk.gid).Nodup := by
  obtain ⟨S0, ws, h0, h1, h2⟩ := h
  have hI : Inv fs S0 := by simpa using Inv.start.adds h0
  unfold resetZero at h1
  split_ifs at h1
  cases h1
  unfold Finalizes at h2
  simp only [hI.open_, Bool.false_eq_true, if_false] at h2
  rw [fin_gids h2.2.2.2.2, List.map_map]
  exact hI.gids

theorem own_empty (loc : Int) (gid : Nat) : Own loc gid Coll.empty := by
  intro ty p h; simp [Coll.empty] at h

theorem collateAll_kinds {loc : Int} {gid : Nat} {l : List (Evt × Nat)} {c c' : Coll} (h : Own loc gid c) (hc : collateAll loc gid c l = some c') :
    ∀ s ∈ c'.full, s ∈ c.full ∨ (s.kind ≠ 0 ∧ s.gid = gid) := by
  induction l generalizing c with
  | nil =>
    simp only [collateAll, Option.some.injEq] at hc
    subst hc; exact fun s hs => Or.inl hs
  | cons x l ih =>
    obtain ⟨e, i⟩ := x
    rw [collateAll] at hc
    cases h1 : collate loc gid c e i with
    | none => rw [h1] at hc; simp at hc
    | some c1 =>
      rw [h1] at hc
      simp only at hc
      intro s hs
      rcases ih (collate_own h h1) hc s hs with hs | hs
      · unfold collate at h1
        by_cases h0 : e.seg = 0
        · rw [if_pos h0] at h1; cases h1; exact Or.inl hs
        · rw [if_neg h0] at h1
          cases hp : c.part e.seg with
          | none =>
            rw [hp] at h1
            simp only at h1
            split_ifs at h1
            cases h1; exact Or.inl hs
          | some p =>
            rw [hp] at h1
            simp only at h1
            split_ifs at h1
            cases h1
            rcases List.mem_append.1 hs with hs | hs
            · exact Or.inl hs
            · simp at hs; subst hs
              exact Or.inr ⟨h0, (h _ _ hp).2⟩
      · exact Or.inr hs

/-- The tables are those of the workers, one after the other. -/
theorem tables_some {names : List String} {ws : List Wrk} {n : Nat} {rows : List Row} {segs : List Seg} (h : tables names n ws = some (rows, segs)) :
    rows.map Row.id = List.range' n rows.length ∧ rows.length = (ws.map fun w => w.events.length).sum ∧
    (∀ s ∈ segs, s.kind ≠ 0 ∧ ∃ w ∈ ws, s.gid = w.gid) ∧ (∀ r ∈ rows, ∃ w ∈ ws, r.gid = w.gid) ∧
    ((ws.map Wrk.gid).Nodup → ∀ w ∈ ws, ∃ m c, collateAll w.loc w.gid Coll.empty (w.events.zipIdx m) = some c ∧
      (segs.filter fun s => decide (s.gid = w.gid)) = c.full ∧
      (rows.filter fun r => decide (r.gid = w.gid)) = (w.events.zipIdx m).map (rowOf names w)) := by
  induction ws generalizing n rows segs with
  | nil =>
    simp only [tables, Option.some.injEq, Prod.mk.injEq] at h
    obtain ⟨rfl, rfl⟩ := h
    simp
  | cons x ws ih =>
    rw [tables] at h
    cases h1 : collateAll x.loc x.gid Coll.empty (x.events.zipIdx n) with
    | none => rw [h1] at h; simp at h
    | some c =>
      cases h2 : tables names (n + x.events.length) ws with
      | none => rw [h1, h2] at h; simp at h
      | some t =>
        obtain ⟨rows', segs'⟩ := t
        rw [h1, h2] at h
        simp only [Option.some.injEq, Prod.mk.injEq] at h
        obtain ⟨rfl, rfl⟩ := h
        obtain ⟨a, b, d, e, f⟩ := ih h2
        have hrow : ∀ r ∈ (x.events.zipIdx n).map (rowOf names x), r.gid = x.gid := by
          intro r hr
          obtain ⟨y, _, rfl⟩ := List.mem_map.1 hr
          rfl
        have hseg : ∀ s ∈ c.full, s.kind ≠ 0 ∧ s.gid = x.gid := by
          intro s hs
          rcases collateAll_kinds (own_empty _ _) h1 s hs with hs | hs
          · simp [Coll.empty] at hs
          · exact hs
        refine ⟨?_, ?_, ?_, ?_, ?_⟩
        · rw [List.map_append, a, List.map_map, List.length_append, List.length_map, List.length_zipIdx]
          have : (x.events.zipIdx n).map (Row.id ∘ rowOf names x) = List.range' n x.events.length := by
            rw [← List.zipIdx_map_snd]
            refine List.map_congr_left ?_
            intro y _; rfl
          rw [this, List.range'_append_1]
        · simp [b]
        · intro s hs
          rcases List.mem_append.1 hs with hs | hs
          · exact ⟨(hseg s hs).1, x, by simp, (hseg s hs).2⟩
          · obtain ⟨p, w, hw, q⟩ := d s hs
            exact ⟨p, w, by simp [hw], q⟩
        · intro r hr
          rcases List.mem_append.1 hr with hr | hr
          · exact ⟨x, by simp, hrow r hr⟩
          · obtain ⟨w, hw, q⟩ := e r hr
            exact ⟨w, by simp [hw], q⟩
        · intro hnd w hw
          rw [List.map_cons, List.nodup_cons] at hnd
          rcases List.mem_cons.1 hw with rfl | hw
          · refine ⟨n, c, h1, ?_, ?_⟩
            · rw [List.filter_append, List.filter_eq_self.2 (fun s hs => by simpa using (hseg s hs).2), List.filter_eq_nil_iff.2, List.append_nil]
              intro s hs hc
              obtain ⟨_, w', hw', q⟩ := d s hs
              simp at hc
              exact hnd.1 (List.mem_map.2 ⟨w', hw', by rw [← q, hc]⟩)
            · rw [List.filter_append, List.filter_eq_self.2 (fun s hs => by simpa using hrow s hs), List.filter_eq_nil_iff.2, List.append_nil]
              intro s hs hc
              obtain ⟨w', hw', q⟩ := e s hs
              simp at hc
              exact hnd.1 (List.mem_map.2 ⟨w', hw', by rw [← q, hc]⟩)
          · have hxw : x.gid ≠ w.gid := fun h => hnd.1 (List.mem_map.2 ⟨w, hw, h.symm⟩)
            obtain ⟨m, c', p, q, r⟩ := f hnd.2 w hw
            refine ⟨m, c', p, ?_, ?_⟩
            · rw [List.filter_append, List.filter_eq_nil_iff.2, List.nil_append, q]
              intro s hs; simp [(hseg s hs).2, hxw]
            · rw [List.filter_append, List.filter_eq_nil_iff.2, List.nil_append, r]
              intro s hs; simp [hrow s hs, hxw]

theorem tables_none {names : List String} {ws : List Wrk} {n : Nat} :
    tables names n ws = none ↔ ∃ w ∈ ws, ∃ m, collateAll w.loc w.gid Coll.empty (w.events.zipIdx m) = none ∧ tables names n ws = none := by
  constructor
  · intro h
    induction ws generalizing n with
    | nil => simp [tables] at h
    | cons x ws ih =>
      have h' := h
      rw [tables] at h
      cases h1 : collateAll x.loc x.gid Coll.empty (x.events.zipIdx n) with
      | none => exact ⟨x, by simp, n, h1, h'⟩
      | some c =>
        cases h2 : tables names (n + x.events.length) ws with
        | none =>
          obtain ⟨w, hw, m, p, _⟩ := ih h2
          exact ⟨w, by simp [hw], m, p, h'⟩
        | some t => rw [h1, h2] at h; simp at h
  · rintro ⟨_, _, _, _, h⟩; exact h

theorem tables_all {names : List String} {ws : List Wrk} {n : Nat} {t : List Row × List Seg} (h : tables names n ws = some t) :
    ∀ w ∈ ws, ∃ m, (collateAll w.loc w.gid Coll.empty (w.events.zipIdx m)).isSome := by
  induction ws generalizing n t with
  | nil => simp
  | cons x ws ih =>
    rw [tables] at h
    cases h1 : collateAll x.loc x.gid Coll.empty (x.events.zipIdx n) with
    | none => rw [h1] at h; simp at h
    | some c =>
      cases h2 : tables names (n + x.events.length) ws with
      | none => rw [h1, h2] at h; simp at h
      | some t' =>
        intro w hw
        rcases List.mem_cons.1 hw with rfl | hw
        · exact ⟨n, by rw [h1]; rfl⟩
        · exact ih h2 w hw

theorem mem_names {ws : List Wrk} {w : Wrk} (hw : w ∈ ws) {e : Evt} (he : e ∈ w.events) : e.tag ∈ typeNames ws := by
  unfold typeNames
  rw [mem_foldNames]
  exact Or.inr ⟨e, List.mem_flatMap.2 ⟨w, hw, he⟩, rfl⟩

theorem rowOf_is {S : St} {w : Wrk} (hw : w ∈ S.ws) {e : Evt} {i : Nat} (he : e ∈ w.events) : RowIs (typeNames S.ws) (rowOf (typeNames S.ws) w (e, i)) w e := by
  obtain ⟨j, p, q⟩ := typeId_spec (mem_names hw he)
  exact ⟨rfl, rfl, rfl, j, p, q⟩

theorem mem_of_zipIdx {e : Evt} {i n : Nat} {l : List Evt} (h : (e, i) ∈ l.zipIdx n) : e ∈ l := by
  have : e ∈ (l.zipIdx n).map Prod.fst := List.mem_map.2 ⟨_, h, rfl⟩
  rwa [List.zipIdx_map_fst] at this

end Trace

open Trace

/-- The table of events: the rows are numbered from zero on, there are as many as records, and those of a worker are its records, in order, each with its
time, locality, worker, and the number of its type. -/
theorem C113_events {fs : List TFile} {S : St} (h : ReadsZero fs S) {rows : List Row} {segs : List Seg} (hd : database S = some (rows, segs)) :
    rows.map Row.id = List.range (numEvents S) ∧
      ∀ w ∈ S.ws, List.Forall₂ (fun r e => RowIs (typeNames S.ws) r w e) (rows.filter fun r => decide (r.gid = w.gid)) w.events := by
  obtain ⟨a, b, _, _, f⟩ := tables_some hd
  refine ⟨?_, ?_⟩
  · rw [a, b, List.range_eq_range']; rfl
  · intro w hw
    obtain ⟨m, c, _, _, r⟩ := f (readsZero_gids h) w hw
    rw [r, List.forall₂_map_left_iff]
    have : ∀ (l : List Evt) (n : Nat), (∀ e ∈ l, e ∈ w.events) →
        List.Forall₂ (fun x e => RowIs (typeNames S.ws) (rowOf (typeNames S.ws) w x) w e) (l.zipIdx n) l := by
      intro l
      induction l with
      | nil => intro n _; exact List.Forall₂.nil
      | cons e l ih =>
        intro n hl
        rw [List.zipIdx_cons]
        exact List.Forall₂.cons (rowOf_is hw (hl e (by simp))) (ih _ fun e he => hl e (by simp [he]))
    exact this _ _ fun e he => he

/-- The numbers of the types: different types have different numbers. -/
theorem C113_types (S : St) : (typeNames S.ws).Nodup ∧ ∀ t, t ∈ typeNames S.ws ↔ ∃ w ∈ S.ws, ∃ e ∈ w.events, e.tag = t := by
  refine ⟨(typeNames_sorted S.ws).imp (fun h e => ?_), fun t => ?_⟩
  · subst e; exact String.lt_irrefl _ h
  · unfold typeNames
    rw [mem_foldNames]
    constructor
    · rintro (h | ⟨e, he, rfl⟩)
      · simp at h
      · obtain ⟨w, hw, he⟩ := List.mem_flatMap.1 he
        exact ⟨w, hw, e, he, rfl⟩
    · rintro ⟨w, hw, e, he, rfl⟩
      exact Or.inr ⟨e, List.mem_flatMap.2 ⟨w, hw, he⟩, rfl⟩

/-- The table of segments: those of a worker and a type are, in order, the segments in the records of the worker that have ended; each refers to the rows of
the two records that begin and end it. -/
theorem C113_segments {fs : List TFile} {S : St} (h : ReadsZero fs S) {rows : List Row} {segs : List Seg} (hd : database S = some (rows, segs))
    {w : Wrk} (hw : w ∈ S.ws) {ty : Nat} (hty : ty ≠ 0) {sg : List (Nat × Nat)} (hs : Segments ty w.events sg) :
    (segs.filter fun s => decide (s.gid = w.gid ∧ s.kind = ty)).map (fun s => (s.start, s.finish)) = sg ∧
      ∀ s ∈ segs, s.gid = w.gid → s.kind = ty → s.loc = w.loc ∧
        (∃ e ∈ w.events, e.starts = true ∧ e.stamp = s.start ∧ e.seg = ty ∧ ∃ r ∈ rows, r.id = s.begin_ ∧ RowIs (typeNames S.ws) r w e) ∧
        ∃ e ∈ w.events, e.ends = true ∧ e.stamp = s.finish ∧ e.seg = ty ∧ ∃ r ∈ rows, r.id = s.end_ ∧ RowIs (typeNames S.ws) r w e := by
  obtain ⟨_, _, _, _, f⟩ := tables_some hd
  obtain ⟨m, c, p, q, r⟩ := f (readsZero_gids h) w hw
  obtain ⟨last, hl, hsh⟩ := hs
  rw [← Segments.trips (n := m)] at hsh
  obtain ⟨pt, out, q1, q2, q3⟩ := auto_segments (ty := ty) (loc := w.loc) (gid := w.gid) hl hsh
  obtain ⟨out', p1, p2⟩ := collateAll_some (own_empty _ _) p hty
  have he : out' = out := by
    have : auto ty w.loc w.gid (Coll.empty.part ty) (ofType ty (w.events.zipIdx m)) = some (pt, out) := q1
    rw [p1] at this
    simp at this; exact this.2
  subst he
  have hfil : (segs.filter fun s => decide (s.gid = w.gid ∧ s.kind = ty)) = out' := by
    have : (segs.filter fun s => decide (s.gid = w.gid ∧ s.kind = ty)) =
        (segs.filter fun s => decide (s.gid = w.gid)).filter fun s => decide (s.kind = ty) := by
      rw [List.filter_filter]
      refine List.filter_congr fun s _ => ?_
      simp [Bool.and_comm]
    rw [this, q, p2]
    simp [Coll.empty]
  refine ⟨by rw [hfil, q2], ?_⟩
  intro s hs hg hk
  have hso : s ∈ out' := by rw [← hfil]; exact List.mem_filter.2 ⟨hs, by simp [hg, hk]⟩
  obtain ⟨_, r2, _, ⟨e, r4, r5, r6⟩, e', r7, r8, r9⟩ := q3 s hso
  have hrow : ∀ e i, (e, i) ∈ w.events.zipIdx m → ∃ r ∈ rows, r.id = i ∧ RowIs (typeNames S.ws) r w e := by
    intro e i hei
    have h1 : rowOf (typeNames S.ws) w (e, i) ∈ rows.filter fun r => decide (r.gid = w.gid) := by
      rw [r]; exact List.mem_map_of_mem hei
    exact ⟨_, (List.mem_filter.1 h1).1, rfl, rowOf_is hw (mem_of_zipIdx hei)⟩
  obtain ⟨m1, m2⟩ := List.mem_filter.1 r4
  obtain ⟨m3, m4⟩ := List.mem_filter.1 r7
  exact ⟨r2, ⟨e, mem_of_zipIdx m1, r6, r5, by simpa using m2, hrow _ _ m1⟩, e', mem_of_zipIdx m3, r9, r8, by simpa using m4, hrow _ _ m3⟩

/-- There are no other segments in the table. -/
theorem C113_no_others {S : St} {rows : List Row} {segs : List Seg} (hd : database S = some (rows, segs)) :
    ∀ s ∈ segs, s.kind ≠ 0 ∧ ∃ w ∈ S.ws, s.gid = w.gid := (tables_some hd).2.2.1

/-- The database is written if and only if the records of each type of each worker are the begin and the end of one segment after the other, with possibly
the begin of one more; otherwise there is an exception. -/
theorem C113_written {S : St} (hr : ∀ w ∈ S.ws, Regular w.events) :
    (database S).isSome ↔ ∀ w ∈ S.ws, ∀ ty, ty ≠ 0 → ∃ sg, Segments ty w.events sg := by
  constructor
  · intro h w hw ty hty
    obtain ⟨t, ht⟩ := Option.isSome_iff_exists.1 h
    obtain ⟨m, hm⟩ := tables_all ht w hw
    obtain ⟨c, hc⟩ := Option.isSome_iff_exists.1 hm
    obtain ⟨out, p, _⟩ := collateAll_some (own_empty _ _) hc hty
    have h1 : (auto ty w.loc w.gid none (ofType ty (w.events.zipIdx m))).isSome := by
      have : auto ty w.loc w.gid none (ofType ty (w.events.zipIdx m)) = some (c.part ty, out) := p
      rw [this]; rfl
    obtain ⟨sg, last, q1, q2⟩ := auto_shape _ (Nat.le_refl _) (fun x hx => by
      obtain ⟨a, b⟩ := List.mem_filter.1 hx
      have hb : x.1.seg = ty := by simpa using b
      exact hr w hw x.1 (mem_of_zipIdx (i := x.2) a) (by omega)) h1
    rw [Segments.trips] at q2
    exact ⟨sg, last, q1, q2⟩
  · intro h
    by_contra hc
    have hn : database S = none := by simpa using hc
    obtain ⟨w, hw, m, p, _⟩ := tables_none.1 hn
    obtain ⟨ty, hty, q⟩ := collateAll_none (own_empty _ _) p
    obtain ⟨sg, last, hl, hsh⟩ := h w hw ty hty
    rw [← Segments.trips (n := m)] at hsh
    obtain ⟨pt, out, q1, _⟩ := auto_segments (ty := ty) (loc := w.loc) (gid := w.gid) hl hsh
    have : auto ty w.loc w.gid none (ofType ty (w.events.zipIdx m)) = none := q
    rw [q1] at this
    simp at this

/-- A segment that begins and ends at the same time: whether there is a database depends on how the sort orders the two records. -/
theorem C113_tie : ∃ fs S S', ReadsZero fs S ∧ ReadsZero fs S' ∧ (database S).isSome ∧ database S' = none := by
  refine ⟨[⟨0, 0, [⟨5, "b", 2, true, false⟩, ⟨5, "e", 2, false, true⟩]⟩],
    ⟨true, 2, [⟨0, 0, 0, [⟨5, "b", 2, true, false⟩, ⟨5, "e", 2, false, true⟩]⟩]⟩,
    ⟨true, 2, [⟨0, 0, 0, [⟨5, "e", 2, false, true⟩, ⟨5, "b", 2, true, false⟩]⟩]⟩, ?_, ?_, by decide, by decide⟩
  · refine ⟨_, _, rfl, by rfl, ?_⟩
    refine ⟨by decide, by decide, rfl, rfl, List.Forall₂.cons ⟨rfl, rfl, rfl, List.Perm.refl _, ?_⟩ List.Forall₂.nil⟩
    unfold Sorted; simp
  · refine ⟨_, _, rfl, by rfl, ?_⟩
    refine ⟨by decide, by decide, rfl, rfl, List.Forall₂.cons ⟨rfl, rfl, rfl, List.Perm.swap _ _ _, ?_⟩ List.Forall₂.nil⟩
    unfold Sorted; simp

/-! Two workers with a segment each, which overlap in time. -/

example : database ⟨true, 4, [⟨0, 0, 0, [⟨1, "b", 2, true, false⟩, ⟨3, "b3", 3, true, false⟩, ⟨5, "e", 2, false, true⟩]⟩,
      ⟨0, 1, 2, [⟨2, "b", 2, true, false⟩, ⟨4, "e", 2, false, true⟩]⟩]⟩ =
    some ([⟨0, some 0, 0, 0, 1⟩, ⟨1, some 1, 0, 0, 3⟩, ⟨2, some 2, 0, 0, 5⟩, ⟨3, some 0, 0, 2, 2⟩, ⟨4, some 2, 0, 2, 4⟩],
      [⟨2, 0, 2, 1, 5, 0, 0⟩, ⟨2, 3, 4, 2, 4, 0, 2⟩]) := by decide

end Dashmm
