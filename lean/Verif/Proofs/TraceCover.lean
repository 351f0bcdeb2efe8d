import Verif.Spec.TraceCover
import Verif.Props.Trace
import Mathlib.Algebra.BigOperators.Group.List.Basic
import Mathlib.Tactic.Ring
import Mathlib.Tactic.Linarith
import Mathlib.Algebra.Order.Field.Rat

/-! Lemmas on the coverage of windows. -/

namespace Dashmm.Trace

/-- The loop on what it looks at only. -/
def tripLoop : Cov → List (Nat × Bool × Bool) → Option Cov
  | c, [] => some c
  | c, (t, s, e) :: l =>
    if s then
      if c.pe < (t : Int) then tripLoop ⟨c.cover, t, c.pe, c.count + 1⟩ l else none
    else if e then
      if (t : Int) ≥ c.ps then tripLoop ⟨c.cover + (t - c.ps), c.ps, t, c.count + 1⟩ l else none
    else none

theorem covLoop_trip (ty : Nat) (l : List Evt) (c : Cov) :
    covLoop ty c l = tripLoop c ((l.filter fun e => decide (e.seg = ty)).map fun e => (e.stamp, e.starts, e.ends)) := by
  induction l generalizing c with
  | nil => rfl
  | cons x l ih =>
    by_cases hx : x.seg = ty
    · rw [List.filter_cons_of_pos (by simpa using hx), List.map_cons, tripLoop, covLoop, covStep, if_pos hx]
      split_ifs <;> simp [ih]
    · rw [List.filter_cons_of_neg (by simpa using hx), covLoop, covStep, if_neg hx]
      exact ih c

/-- What of the segments is in the window. -/
def cut (a c : Nat) (segs : List (Nat × Nat)) : List (Nat × Bool × Bool) :=
  (segs.flatMap fun s => [(s.1, true, false), (s.2, false, true)]).filter fun t => decide (a ≤ t.1 ∧ t.1 < c)

theorem trips_inside {ty : Nat} {l : List Evt} {segs : List (Nat × Nat)} (h : Timeline ty l segs) (a c : Nat) :
    (((l.filter (inside a c)).filter fun e => decide (e.seg = ty)).map fun e => (e.stamp, e.starts, e.ends)) = cut a c segs := by
  unfold cut
  rw [← h, List.filter_map, List.filter_filter, List.filter_filter]
  congr 1
  refine List.filter_congr ?_
  intro x _
  simp only [inside, Function.comp_apply, Bool.and_comm]

theorem cut_cons (a c : Nat) (s : Nat × Nat) (segs : List (Nat × Nat)) :
    cut a c (s :: segs) = (if a ≤ s.1 ∧ s.1 < c then [(s.1, true, false)] else []) ++
      ((if a ≤ s.2 ∧ s.2 < c then [(s.2, false, true)] else []) ++ cut a c segs) := by
  unfold cut
  rw [List.flatMap_cons, List.filter_append, ← List.append_assoc]
  congr 1
  by_cases h1 : a ≤ s.1 ∧ s.1 < c <;> by_cases h2 : a ≤ s.2 ∧ s.2 < c <;> simp [List.filter_cons, h1, h2]

/-- What a segment that begins at `a` or later adds, if the window is cut at `c`. -/
def gain (c b : Nat) (s : Nat × Nat) : Int := if s.2 < c then s.2 - s.1 else if s.1 < c then b - s.1 else 0

theorem apart_cons {s : Nat × Nat} {segs : List (Nat × Nat)} (h : Apart (s :: segs)) :
    s.1 ≤ s.2 ∧ (∀ s' ∈ segs, s.2 < s'.1) ∧ Apart segs := by
  obtain ⟨h1, h2⟩ := h
  obtain ⟨h3, h4⟩ := List.pairwise_cons.1 h2
  exact ⟨h1 s (by simp), h3, fun s' hs' => h1 s' (by simp [hs']), h4⟩

theorem cut_late {a c : Nat} {segs : List (Nat × Nat)} (h : ∀ s ∈ segs, c ≤ s.1 ∧ s.1 ≤ s.2) : cut a c segs = [] := by
  induction segs with
  | nil => rfl
  | cons s segs ih =>
    obtain ⟨h1, h2⟩ := h s (by simp)
    rw [cut_cons, if_neg (by omega), if_neg (by omega), ih fun s hs => h s (by simp [hs])]
    rfl

theorem gain_late {c b : Nat} {segs : List (Nat × Nat)} (h : ∀ s ∈ segs, c ≤ s.1 ∧ s.1 ≤ s.2) : (segs.map (gain c b)).sum = 0 := by
  induction segs with
  | nil => rfl
  | cons s segs ih =>
    obtain ⟨h1, h2⟩ := h s (by simp)
    rw [List.map_cons, List.sum_cons, ih fun s hs => h s (by simp [hs]), gain, if_neg (by omega), if_neg (by omega)]
    rfl

theorem loop_later {a c b : Nat} {segs : List (Nat × Nat)} (hap : Apart segs) {st : Cov} (hst : st.count = 0 ∨ st.ps ≤ st.pe)
    (ha : ∀ s ∈ segs, a ≤ s.1) (hpe : ∀ s ∈ segs, st.pe < (s.1 : Int)) :
    ∃ st', tripLoop st (cut a c segs) = some st' ∧ st'.finish b = st.cover + (segs.map (gain c b)).sum := by
  induction segs generalizing st with
  | nil =>
    refine ⟨st, rfl, ?_⟩
    unfold Cov.finish
    rw [if_neg (by omega)]; simp
  | cons s segs ih =>
    obtain ⟨h1, h2, h3⟩ := apart_cons hap
    have ha0 := ha s (by simp)
    have hp0 := hpe s (by simp)
    rw [cut_cons, List.map_cons, List.sum_cons]
    by_cases hs1 : s.1 < c
    · rw [if_pos ⟨ha0, hs1⟩]
      by_cases hs2 : s.2 < c
      · rw [if_pos ⟨by omega, hs2⟩]
        have e : gain c b s = s.2 - s.1 := by rw [gain, if_pos hs2]
        rw [e]
        obtain ⟨st', p, q⟩ := ih h3 (st := ⟨st.cover + ((s.2 : Int) - s.1), s.1, s.2, st.count + 1 + 1⟩) (Or.inr (by simp only; omega))
          (fun s' hs' => by have := h2 s' hs'; omega) (fun s' hs' => by have := h2 s' hs'; simp only; omega)
        refine ⟨st', ?_, by rw [q]; simp only; ring⟩
        rw [List.cons_append, List.nil_append, List.cons_append, List.nil_append]
        simp only [tripLoop, if_true, Bool.false_eq_true, if_false]
        rw [if_pos hp0, if_pos (by omega)]
        exact p
      · have late : ∀ s' ∈ segs, c ≤ s'.1 ∧ s'.1 ≤ s'.2 := fun s' hs' => by
          have := h2 s' hs'; have := h3.1 s' hs'; omega
        rw [if_neg (by omega), cut_late late, gain_late late]
        refine ⟨⟨st.cover, s.1, st.pe, st.count + 1⟩, ?_, ?_⟩
        · simp only [List.append_nil, List.nil_append, tripLoop, if_true]
          rw [if_pos hp0]
        · unfold Cov.finish
          rw [if_pos ⟨by simp, by simp only; omega⟩, gain, if_neg hs2, if_pos hs1]
          simp
    · have late : ∀ s' ∈ s :: segs, c ≤ s'.1 ∧ s'.1 ≤ s'.2 := fun s' hs' => by
        rcases List.mem_cons.1 hs' with rfl | hs'
        · omega
        · have := h2 s' hs'; have := h3.1 s' hs'; omega
      rw [← cut_cons, ← List.sum_cons, ← List.map_cons, cut_late late, gain_late late]
      refine ⟨st, rfl, ?_⟩
      unfold Cov.finish
      rw [if_neg (by omega)]; simp

/-- What a segment adds. -/
def gain' (a c b : Nat) (s : Nat × Nat) : Int :=
  if s.1 < a then (if a ≤ s.2 ∧ s.2 < c then (s.2 : Int) - a else 0) else gain c b s

theorem loop_init {a c b : Nat} {segs : List (Nat × Nat)} (hap : Apart segs) (hno : ∀ s ∈ segs, ¬ (s.1 < a ∧ c ≤ s.2)) :
    ∃ st', tripLoop (Cov.init a) (cut a c segs) = some st' ∧ st'.finish b = (segs.map (gain' a c b)).sum := by
  have hlater : ∀ (segs : List (Nat × Nat)), (∀ s ∈ segs, a ≤ s.1) → segs.map (gain' a c b) = segs.map (gain c b) := by
    intro segs h
    refine List.map_congr_left fun s hs => ?_
    have := h s hs
    rw [gain', if_neg (by omega)]
  induction segs with
  | nil => exact ⟨_, rfl, by simp [Cov.finish, Cov.init]⟩
  | cons s segs ih =>
    obtain ⟨h1, h2, h3⟩ := apart_cons hap
    by_cases hs : s.1 < a
    · have hn := hno s (by simp)
      rw [cut_cons, if_neg (by omega), List.nil_append, List.map_cons, List.sum_cons]
      by_cases he : a ≤ s.2
      · have hc : s.2 < c := by omega
        rw [if_pos ⟨he, hc⟩]
        obtain ⟨st', p, q⟩ := loop_later (a := a) (c := c) (b := b) h3 (st := ⟨(s.2 : Int) - a, a, s.2, 1⟩) (Or.inr (by simp only; omega))
          (fun s' hs' => by have := h2 s' hs'; omega) (fun s' hs' => by have := h2 s' hs'; simp only; omega)
        refine ⟨st', ?_, ?_⟩
        · rw [List.cons_append, List.nil_append]
          simp only [tripLoop, Cov.init, Bool.false_eq_true, if_false, if_true]
          have hge : (s.2 : Int) ≥ (a : Int) := by omega
          simp only [hge, if_true, Int.zero_add, Nat.zero_add]
          exact p
        · rw [q, hlater segs (fun s' hs' => by have := h2 s' hs'; omega), gain', if_pos hs, if_pos ⟨he, hc⟩]
      · rw [if_neg (by omega), List.nil_append]
        obtain ⟨st', p, q⟩ := ih h3 (fun s' hs' => hno s' (by simp [hs']))
        refine ⟨st', p, ?_⟩
        rw [q, gain', if_pos hs, if_neg (by omega)]; simp
    · have hall : ∀ s' ∈ s :: segs, a ≤ s'.1 := fun s' hs' => by
        rcases List.mem_cons.1 hs' with rfl | hs'
        · omega
        · have := h2 s' hs'; omega
      obtain ⟨st', p, q⟩ := loop_later (a := a) (c := c) (b := b) hap (st := Cov.init a) (Or.inl rfl) hall
        (fun s' hs' => by have := hall s' hs'; simp only [Cov.init]; omega)
      refine ⟨st', p, ?_⟩
      rw [q, hlater _ hall]
      simp [Cov.init]

theorem gain_overlap {a b : Nat} (hab : a ≤ b) {s : Nat × Nat} (h1 : s.1 ≤ s.2) (hno : ¬ (s.1 < a ∧ b ≤ s.2)) :
    gain' a b b s = (overlap a b s : Int) := by
  unfold gain' gain overlap
  split_ifs <;> omega

theorem sum_overlap {a b : Nat} (hab : a ≤ b) {segs : List (Nat × Nat)} (h1 : ∀ s ∈ segs, s.1 ≤ s.2)
    (hno : ∀ s ∈ segs, ¬ (s.1 < a ∧ b ≤ s.2)) : (segs.map (gain' a b b)).sum = (covered a b segs : Int) := by
  induction segs with
  | nil => rfl
  | cons s segs ih =>
    have := ih (fun s hs => h1 s (by simp [hs])) (fun s hs => hno s (by simp [hs]))
    unfold covered at *
    rw [List.map_cons, List.sum_cons, this, gain_overlap hab (h1 s (by simp)) (hno s (by simp))]
    simp

/-- A list with nothing of the type gives zero, like the empty list. -/
theorem rangeCoverage_eq {l : List Evt} {ty a b : Nat} {st : Cov} (h : covLoop ty (Cov.init a) l = some st) :
    rangeCoverage l ty a b = some (((st.finish b : Int) : Rat) / (((b : Int) - (a : Int) : Int) : Rat)) := by
  unfold rangeCoverage
  split_ifs with hl
  · subst hl
    simp only [covLoop, Option.some.injEq] at h
    subst h
    simp [Cov.finish, Cov.init]
  · rw [h]

theorem tripLoop_stuck {x : Nat} (l m : List (Nat × Bool × Bool)) (st : Cov) :
    tripLoop st (l ++ (x, false, true) :: (x, true, false) :: m) = none := by
  induction l generalizing st with
  | nil =>
    simp only [List.nil_append, tripLoop, Bool.false_eq_true, if_false, if_true]
    split_ifs <;> first | rfl | omega
  | cons y l ih =>
    obtain ⟨t, s, e⟩ := y
    rw [List.cons_append, tripLoop]
    split_ifs <;> first | exact ih _ | rfl

theorem covLoop_none {l : List Evt} {ty a b : Nat} (h : covLoop ty (Cov.init a) l = none) : rangeCoverage l ty a b = none := by
  unfold rangeCoverage
  split_ifs with hl
  · subst hl; simp [covLoop] at h
  · rw [h]

end Dashmm.Trace
