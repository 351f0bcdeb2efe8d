import Verif.Proofs.TraceCover

/-!
# C111: how much of a window the segments of a type cover
-/

namespace Dashmm

namespace Trace

theorem coverage_map {ty a b : Nat} {ws : List Wrk} {r : Wrk → List Evt} {q : Wrk → Rat} (h : ∀ w ∈ ws, rangeCoverage (r w) ty a b = some (q w)) :
    coverage ty a b (ws.map fun w => (key w, r w)) = some (ws.map fun w => (key w, q w)) := by
  induction ws with
  | nil => rfl
  | cons w ws ih =>
    rw [List.map_cons, coverage, h w (by simp), ih fun w hw => h w (by simp [hw])]
    rfl

theorem coverage_none {ty a b : Nat} {ws : List Wrk} {r : Wrk → List Evt} {w : Wrk} (hw : w ∈ ws) (h : rangeCoverage (r w) ty a b = none) :
    coverage ty a b (ws.map fun w => (key w, r w)) = none := by
  induction ws with
  | nil => simp at hw
  | cons x ws ih =>
    rw [List.map_cons, coverage]
    rcases List.mem_cons.1 hw with rfl | hw
    · rw [h]
    · rw [ih hw]
      cases rangeCoverage (r x) ty a b <;> rfl

theorem coverage_mem {ty a b : Nat} {ws : List Wrk} {r : Wrk → List Evt} {w : Wrk} (hw : w ∈ ws) {Q : List ((Int × Int) × Rat)}
    (hQ : coverage ty a b (ws.map fun w => (key w, r w)) = some Q) {x : Rat} (h : rangeCoverage (r w) ty a b = some x) : (key w, x) ∈ Q := by
  induction ws generalizing Q with
  | nil => simp at hw
  | cons y ws ih =>
    rw [List.map_cons, coverage] at hQ
    cases h1 : rangeCoverage (r y) ty a b with
    | none => rw [h1] at hQ; simp at hQ
    | some q =>
      cases h2 : coverage ty a b (ws.map fun w => (key w, r w)) with
      | none => rw [h1, h2] at hQ; simp at hQ
      | some qs =>
        rw [h1, h2] at hQ
        simp only [Option.some.injEq] at hQ
        subst hQ
        rcases List.mem_cons.1 hw with rfl | hw
        · rw [h] at h1; cases h1; simp
        · exact List.mem_cons_of_mem _ (ih hw h2)

theorem cut_covered {a b : Nat} {segs : List (Nat × Nat)} (hap : Apart segs) {s : Nat × Nat} (hs : s ∈ segs) (h1 : s.1 < a) (h2 : b ≤ s.2) (hab : a < b) :
    cut a b segs = [] ∧ covered a b segs = b - a := by
  induction segs with
  | nil => simp at hs
  | cons x segs ih =>
    obtain ⟨g1, g2, g3⟩ := apart_cons hap
    rcases List.mem_cons.1 hs with rfl | hs
    · have late : ∀ s' ∈ segs, b ≤ s'.1 ∧ s'.1 ≤ s'.2 := fun s' hs' => by
        have := g2 s' hs'; have := g3.1 s' hs'; omega
      refine ⟨by rw [cut_cons, if_neg (by omega), if_neg (by omega), cut_late late]; rfl, ?_⟩
      have : ∀ l : List (Nat × Nat), (∀ s' ∈ l, b ≤ s'.1 ∧ s'.1 ≤ s'.2) → covered a b l = 0 := by
        intro l hl
        unfold covered
        rw [List.sum_eq_zero]
        intro n hn
        obtain ⟨s', hs', rfl⟩ := List.mem_map.1 hn
        have := hl s' hs'
        unfold overlap; omega
      have h3 := this segs late
      unfold covered at *
      rw [List.map_cons, List.sum_cons, h3, overlap]; omega
    · obtain ⟨p, q⟩ := ih g3 hs
      have := g2 s hs
      refine ⟨by rw [cut_cons, if_neg (by omega), if_neg (by omega), p]; rfl, ?_⟩
      unfold covered at *
      rw [List.map_cons, List.sum_cons, q, overlap]; omega

theorem cut_touch {a c t : Nat} (h0 : a ≤ t) (hc : t < c) {l m : List (Nat × Nat)} {s u : Nat} :
    ∃ A B, cut a c (l ++ (s, t) :: (t, u) :: m) = A ++ (t, false, true) :: (t, true, false) :: B := by
  induction l with
  | nil =>
    have ht : (a ≤ t ∧ t < c) := ⟨h0, hc⟩
    rw [List.nil_append, cut_cons, cut_cons]
    simp only [ht, and_self, if_true, List.cons_append, List.nil_append]
    exact ⟨_, _, rfl⟩
  | cons y l ih =>
    obtain ⟨A, B, e⟩ := ih
    rw [List.cons_append, cut_cons, e]
    exact ⟨_, B, by rw [← List.append_assoc, ← List.append_assoc]⟩

theorem worker_cover {ty a b : Nat} (hab : a < b) {l : List Evt} {segs : List (Nat × Nat)} (hT : Timeline ty l segs) (hap : Apart segs)
    (hno : ∀ s ∈ segs, ¬ (s.1 < a ∧ b ≤ s.2)) :
    rangeCoverage (l.filter (inside a b)) ty a b = some ((covered a b segs : Rat) / ((b : Rat) - a)) := by
  obtain ⟨st, p, q⟩ := loop_init (b := b) hap hno
  rw [rangeCoverage_eq (st := st) (by rw [covLoop_trip, trips_inside hT, p]), q, sum_overlap (Nat.le_of_lt hab) hap.1 hno]
  push_cast
  rfl

end Trace

open Trace

/-- What is wanted: the coverage reported for a worker is the part of the window that its segments of the type cover. It is, if the worker has a record
at the end of the window or later, and none of its segments begins before the window and ends at its end or later; segments are apart. -/
theorem C111_cover_partial {fs : List TFile} (hne : NoEmptyFile fs) {S : St} (h : Reads fs S) {ty a b : Nat} (hab : a < b)
    {W : List ((Int × Int) × List Evt)} (hW : window S a b = .ok W) {segs : Int × Int → List (Nat × Nat)}
    (hT : ∀ w ∈ S.ws, Timeline ty w.events (segs (w.loc, w.wid))) (hap : ∀ k, Apart (segs k))
    (hlast : ∀ w ∈ S.ws, ∃ e ∈ w.events, b ≤ e.stamp) (hno : ∀ k, ∀ s ∈ segs k, ¬ (s.1 < a ∧ b ≤ s.2)) :
    coverage ty a b W = some (W.map fun x => (x.1, (covered a b (segs x.1) : Rat) / ((b : Rat) - a))) := by
  rw [window_eq hne h (Nat.le_of_lt hab)] at hW
  cases hW
  rw [coverage_map (q := fun w => (covered a b (segs (key w)) : Rat) / ((b : Rat) - a))]
  · simp only [List.map_map, Function.comp_def]
  · intro w hw
    have hl := latest_spec (reads_ne hne h hw)
    obtain ⟨e, he, hb⟩ := hlast w hw
    have : min b (latest w.events) = b := by have := hl.2 e he; omega
    rw [this]
    exact worker_cover hab (hT w hw) (hap _) (hno _)

/-- The full statement is false: for a window inside of a segment, which covers all of it, zero is reported. -/
theorem C111_inside_zero {fs : List TFile} (hne : NoEmptyFile fs) {S : St} (h : Reads fs S) {ty a b : Nat} (hab : a < b)
    {W : List ((Int × Int) × List Evt)} (hW : window S a b = .ok W) {Q : List ((Int × Int) × Rat)} (hQ : coverage ty a b W = some Q)
    {w : Wrk} (hw : w ∈ S.ws) {segs : List (Nat × Nat)} (hT : Timeline ty w.events segs) (hap : Apart segs)
    {s : Nat × Nat} (hs : s ∈ segs) (h1 : s.1 < a) (h2 : b ≤ s.2) :
    ((w.loc, w.wid), 0) ∈ Q ∧ covered a b segs = b - a := by
  obtain ⟨p, q⟩ := cut_covered hap hs h1 h2 hab
  refine ⟨?_, q⟩
  rw [window_eq hne h (Nat.le_of_lt hab)] at hW
  cases hW
  refine coverage_mem hw hQ ?_
  have hm : (s.2, false, true) ∈ (w.events.filter fun e => decide (e.seg = ty)).map (fun e => (e.stamp, e.starts, e.ends)) := by
    rw [hT]; exact List.mem_flatMap.2 ⟨s, hs, by simp⟩
  obtain ⟨e, he, ee⟩ := List.mem_map.1 hm
  have hstamp : e.stamp = s.2 := by simpa using congrArg Prod.fst ee
  have hl := latest_spec (reads_ne hne h hw)
  have : min b (latest w.events) = b := by have := hl.2 e (List.mem_filter.1 he).1; omega
  rw [this, rangeCoverage_eq (st := Cov.init a) (by rw [covLoop_trip, trips_inside hT, p]; rfl)]
  simp [Cov.finish, Cov.init]

/-- Nor does it hold for the last segment of a worker, if the end of that segment is its last record and the window goes on after it: what is reported
runs to the end of the window. -/
theorem C111_last_too_long {fs : List TFile} (hne : NoEmptyFile fs) {S : St} (h : Reads fs S) {ty a b : Nat} (hab : a < b)
    {W : List ((Int × Int) × List Evt)} (hW : window S a b = .ok W) {Q : List ((Int × Int) × Rat)} (hQ : coverage ty a b W = some Q)
    {w : Wrk} (hw : w ∈ S.ws) {segs : List (Nat × Nat)} {s : Nat × Nat} (hT : Timeline ty w.events (segs ++ [s])) (hap : Apart (segs ++ [s]))
    (hlast : Latest w.events s.2) (h0 : a ≤ s.1) (h1 : s.1 < s.2) (h2 : s.2 ≤ b) :
    ((w.loc, w.wid), ((covered a b (segs ++ [s]) + (b - s.2) : Nat) : Rat) / ((b : Rat) - a)) ∈ Q := by
  rw [window_eq hne h (Nat.le_of_lt hab)] at hW
  cases hW
  refine coverage_mem hw hQ ?_
  have hl := latest_unique (latest_spec (reads_ne hne h hw)) hlast
  have hmin : min b (latest w.events) = s.2 := by omega
  have hsmall : ∀ s' ∈ segs, s'.2 < s.1 := fun s' hs' => by
    have := List.pairwise_append.1 hap.2
    exact this.2.2 s' hs' s (by simp)
  have hno : ∀ s' ∈ segs ++ [s], ¬ (s'.1 < a ∧ s.2 ≤ s'.2) := by
    intro s' hs'
    rcases List.mem_append.1 hs' with hs' | hs'
    · have := hsmall s' hs'; omega
    · simp at hs'; subst hs'; omega
  obtain ⟨st, p, q⟩ := loop_init (b := b) hap hno
  rw [hmin, rangeCoverage_eq (st := st) (by rw [covLoop_trip, trips_inside hT, p]), q]
  have hsum : ∀ l : List (Nat × Nat), (∀ s' ∈ l, s'.1 ≤ s'.2 ∧ s'.2 < s.1) → (l.map (gain' a s.2 b)).sum = (covered a b l : Int) := by
    intro l hl
    induction l with
    | nil => rfl
    | cons x l ih =>
      have := ih fun s' hs' => hl s' (by simp [hs'])
      have hx := hl x (by simp)
      unfold covered at *
      rw [List.map_cons, List.sum_cons, this, List.map_cons, List.sum_cons]
      have : gain' a s.2 b x = (overlap a b x : Int) := by
        unfold gain' gain overlap; split_ifs <;> omega
      rw [this]; simp
  have e1 : ((segs ++ [s]).map (gain' a s.2 b)).sum = ((covered a b (segs ++ [s]) + (b - s.2) : Nat) : Int) := by
    rw [List.map_append, List.sum_append, hsum segs fun s' hs' => ⟨hap.1 s' (by simp [hs']), hsmall s' hs'⟩]
    have e2 : covered a b (segs ++ [s]) = covered a b segs + overlap a b s := by
      unfold covered; rw [List.map_append, List.sum_append]; simp
    have e3 : ([s].map (gain' a s.2 b)).sum = (b : Int) - s.1 := by
      simp only [List.map_cons, List.map_nil, List.sum_cons, List.sum_nil, Int.add_zero]
      unfold gain' gain; split_ifs <;> omega
    rw [e2, e3, overlap]; omega
  rw [e1]
  push_cast
  rfl

/-- A segment that begins at the very time at which the one before it ends makes an assertion fail: nothing is reported for any worker. -/
theorem C111_touching_aborts {fs : List TFile} (hne : NoEmptyFile fs) {S : St} (h : Reads fs S) {ty a b : Nat} (hab : a < b)
    {W : List ((Int × Int) × List Evt)} (hW : window S a b = .ok W) {w : Wrk} (hw : w ∈ S.ws) {l m : List (Nat × Nat)} {s t u : Nat}
    (hT : Timeline ty w.events (l ++ (s, t) :: (t, u) :: m)) (h0 : a ≤ t) (h1 : t < b) (h2 : ∃ e ∈ w.events, t < e.stamp) :
    coverage ty a b W = none := by
  rw [window_eq hne h (Nat.le_of_lt hab)] at hW
  cases hW
  refine coverage_none hw (covLoop_none ?_)
  have hl := latest_spec (reads_ne hne h hw)
  obtain ⟨e, he, hte⟩ := h2
  have hc : t < min b (latest w.events) := by have := hl.2 e he; omega
  rw [covLoop_trip, trips_inside hT]
  generalize min b (latest w.events) = c at hc
  obtain ⟨A, B, e⟩ := cut_touch (l := l) (m := m) (s := s) (u := u) h0 hc
  rw [e]
  exact tripLoop_stuck A B _

/-! A worker with two segments and a record after them: the window from 4 to 12 is covered for 1 + 2 of its 8 units; the one from 11 to 12 is reported
as not covered at all. -/

example : Timeline 2 [⟨2, "b", 2, true, false⟩, ⟨5, "e", 2, false, true⟩, ⟨10, "b", 2, true, false⟩, ⟨14, "e", 2, false, true⟩, ⟨20, "z", 0, false, false⟩]
    [(2, 5), (10, 14)] := by unfold Timeline; decide

example : Apart [(2, 5), (10, 14)] := by unfold Apart; decide

example : covered 4 12 [(2, 5), (10, 14)] = 3 ∧ covered 11 12 [(2, 5), (10, 14)] = 1 := by decide

example : rangeCoverage [⟨5, "e", 2, false, true⟩, ⟨10, "b", 2, true, false⟩] 2 4 12 = some (3 / 8) := by
  rw [rangeCoverage, if_neg (by simp)]
  norm_num [covLoop, covStep, Cov.init, Cov.finish]

end Dashmm
