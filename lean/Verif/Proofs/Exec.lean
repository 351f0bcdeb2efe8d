import Verif.Spec.Exec
import Mathlib.Data.List.Nodup
import Mathlib.Data.List.Perm.Subperm
/-! The invariant of an execution. -/
namespace Dashmm

variable {ν ε V : Type} [DecidableEq ν] [AddCommMonoid V]

namespace Ev

section
variable (l m : List (Ev ν ε)) (r : ν) (e : ε)
@[simp] theorem started_append : started (l ++ m) = started l ++ started m := by simp [started]
@[simp] theorem triggered_append : triggered (l ++ m) = triggered l ++ triggered m := by
  simp [triggered]
@[simp] theorem applied_append : applied (l ++ m) = applied l ++ applied m := by simp [applied]
@[simp] theorem arrived_append : arrived (l ++ m) = arrived l ++ arrived m := by simp [arrived]
@[simp] theorem started_nil : started ([] : List (Ev ν ε)) = [] := rfl
@[simp] theorem triggered_nil : triggered ([] : List (Ev ν ε)) = [] := rfl
@[simp] theorem applied_nil : applied ([] : List (Ev ν ε)) = [] := rfl
@[simp] theorem arrived_nil : arrived ([] : List (Ev ν ε)) = [] := rfl
@[simp] theorem started_start : started (.start r :: l) = r :: started l := rfl
@[simp] theorem started_trigger : started (.trigger r :: l) = started l := rfl
@[simp] theorem started_apply : started (.apply e :: l) = started l := rfl
@[simp] theorem started_arrive : started (.arrive e :: l) = started l := rfl
@[simp] theorem triggered_start : triggered (.start r :: l) = triggered l := rfl
@[simp] theorem triggered_trigger : triggered (.trigger r :: l) = r :: triggered l := rfl
@[simp] theorem triggered_apply : triggered (.apply e :: l) = triggered l := rfl
@[simp] theorem triggered_arrive : triggered (.arrive e :: l) = triggered l := rfl
@[simp] theorem applied_start : applied (.start r :: l) = applied l := rfl
@[simp] theorem applied_trigger : applied (.trigger r :: l) = applied l := rfl
@[simp] theorem applied_apply : applied (.apply e :: l) = e :: applied l := rfl
@[simp] theorem applied_arrive : applied (.arrive e :: l) = applied l := rfl
@[simp] theorem arrived_start : arrived (.start r :: l) = arrived l := rfl
@[simp] theorem arrived_trigger : arrived (.trigger r :: l) = arrived l := rfl
@[simp] theorem arrived_apply : arrived (.apply e :: l) = arrived l := rfl
@[simp] theorem arrived_arrive : arrived (.arrive e :: l) = e :: arrived l := rfl
end

theorem length_eq (l : List (Ev ν ε)) :
    l.length = (started l).length + (triggered l).length + (applied l).length + (arrived l).length := by
  induction l with
  | nil => rfl
  | cons a l ih => cases a <;> simp <;> omega

end Ev

open Ev ExecState

/-- What has been accumulated along the given edges. -/
def gathered (D : ExecDag ν ε V) (acc : ν → V) (l : List ε) (r : ν) : V :=
  ((l.filter fun e => D.dst e = r).map fun e => D.op e (acc (D.src e))).sum

structure ExecInv (D : ExecDag ν ε V) (s : ExecState ν ε V) : Prop where
  all : (arrived s.log ++ s.net.map Prod.fst ++ s.ready.map Prod.fst ++
    D.edges.filter fun e => !decide (D.src e ∈ started s.log)).Perm D.edges
  app : (applied s.log).Perm (arrived s.log ++ s.net.map Prod.fst)
  cnt : ∀ r, s.cnt r + ((arrived s.log).filter fun e => D.dst e = r).length = D.inCount r
  val : ∀ r, s.acc r = D.base r + gathered D s.acc (arrived s.log) r
  rdy : ∀ p ∈ s.ready, p.2 = s.acc (D.src p.1) ∧ D.src p.1 ∈ started s.log
  flt : ∀ p ∈ s.net, p.2 = D.op p.1 (s.acc (D.src p.1)) ∧ D.src p.1 ∈ started s.log
  arr : ∀ e ∈ arrived s.log, D.src e ∈ started s.log
  sta : ∀ r ∈ started s.log, s.cnt r = 0
  idl : ∀ r ∈ s.idle, r ∈ D.starts
  nod : (s.idle ++ s.trig ++ started s.log).Nodup
  per : (triggered s.log ++ D.starts).Perm (s.idle ++ s.trig ++ started s.log)
  zer : ∀ r, r ∈ triggered s.log ↔ s.cnt r = 0 ∧ D.inCount r ≠ 0
  tri : ∀ r ∈ s.trig, r ∈ triggered s.log

theorem gathered_nil (D : ExecDag ν ε V) (acc : ν → V) (r : ν) : gathered D acc [] r = 0 := rfl

theorem gathered_snoc (D : ExecDag ν ε V) (acc : ν → V) (l : List ε) (e : ε) (r : ν) :
    gathered D acc (l ++ [e]) r =
      gathered D acc l r + if D.dst e = r then D.op e (acc (D.src e)) else 0 := by
  unfold gathered
  by_cases h : D.dst e = r <;> simp [h]

theorem gathered_congr (D : ExecDag ν ε V) {acc acc' : ν → V} {l : List ε}
    (h : ∀ e ∈ l, acc (D.src e) = acc' (D.src e)) (r : ν) :
    gathered D acc l r = gathered D acc' l r := by
  unfold gathered
  congr 1
  apply List.map_congr_left
  intro e he
  rw [h e (List.mem_filter.1 he).1]

theorem execInv_init {D : ExecDag ν ε V} (hD : D.Ok) : ExecInv D (init D) where
  all := by simp [init]
  app := by simp [init]
  cnt := by simp [init]
  val := by intro r; simp [init, gathered]
  rdy := by simp [init]
  flt := by simp [init]
  arr := by simp [init]
  sta := by simp [init]
  idl := by simp [init]
  nod := by simpa [init] using hD.starts_nodup
  per := by simp [init]
  zer := by intro r; simp [init]
  tri := by simp [init]

/-- The edges of a node that starts are split off from those still dormant. -/
theorem dormant_split (D : ExecDag ν ε V) (st : List ν) {r : ν} (hr : r ∉ st) :
    (D.edges.filter fun e => !decide (D.src e ∈ st)).Perm
      (D.outE r ++ D.edges.filter fun e => !decide (D.src e ∈ st ++ [r])) := by
  unfold ExecDag.outE
  induction D.edges with
  | nil => simp
  | cons e l ih =>
    by_cases h1 : D.src e = r
    · have : D.src e ∉ st := by rw [h1]; exact hr
      have h2 : D.src e ∈ st ++ [r] := by simp [h1]
      rw [List.filter_cons_of_pos (by simp [this]), List.filter_cons_of_pos (by simp [h1]),
        List.filter_cons_of_neg (by simp [h2]), List.cons_append]
      exact ih.cons e
    · by_cases h2 : D.src e ∈ st
      · have h3 : D.src e ∈ st ++ [r] := by simp [h2]
        rw [List.filter_cons_of_neg (by simp [h2]), List.filter_cons_of_neg (by simp [h1]),
          List.filter_cons_of_neg (by simp [h3])]
        exact ih
      · have h3 : D.src e ∉ st ++ [r] := by simp [h1, h2]
        rw [List.filter_cons_of_pos (by simp [h2]), List.filter_cons_of_neg (by simp [h1]),
          List.filter_cons_of_pos (by simp [h3])]
        exact (ih.cons e).trans List.perm_middle.symm

/-- A contribution under way is awaited. -/
theorem ExecInv.awaited {D : ExecDag ν ε V} {s : ExecState ν ε V} (h : ExecInv D s)
    {p : ε × V} (hp : p ∈ s.net) : 1 ≤ s.cnt (D.dst p.1) ∧ D.inCount (D.dst p.1) ≠ 0 := by
  have h1 := (h.all.filter fun e => decide (D.dst e = D.dst p.1)).length_eq
  have h2 := h.cnt (D.dst p.1)
  simp only [List.filter_append, List.length_append] at h1
  have h3 : 1 ≤ ((s.net.map Prod.fst).filter fun e => decide (D.dst e = D.dst p.1)).length := by
    rw [Nat.one_le_iff_ne_zero, Ne, List.length_eq_zero_iff, List.filter_eq_nil_iff]
    intro hh
    exact hh p.1 (List.mem_map_of_mem hp) (by simp)
  unfold ExecDag.inCount ExecDag.inE at *
  omega

/-- Starting a node (either kind) keeps the invariant. -/
theorem ExecInv.start {D : ExecDag ν ε V} {s t : ExecState ν ε V} (h : ExecInv D s)
    {r : ν} {x : V} (hx : x = s.acc r) (hc : s.cnt r = 0)
    (hlog : t.log = s.log ++ [.start r]) (hcnt : t.cnt = s.cnt) (hacc : t.acc = s.acc)
    (hnet : t.net = s.net) (hready : t.ready = s.ready ++ (D.outE r).map fun e => (e, x))
    (hidle : ∀ a ∈ t.idle, a ∈ s.idle) (htrig : ∀ a ∈ t.trig, a ∈ s.trig)
    (hperm : (s.idle ++ s.trig).Perm (r :: (t.idle ++ t.trig))) : ExecInv D t := by
  have hperm2 : (s.idle ++ s.trig ++ started s.log).Perm
      (t.idle ++ t.trig ++ (started s.log ++ [r])) := by
    refine (hperm.append_right _).trans ?_
    rw [← List.append_assoc, List.cons_append]
    exact (List.perm_append_singleton _ _).symm
  have hr : r ∉ started s.log := by
    have := hperm2.nodup_iff.1 h.nod
    rw [← List.append_assoc] at this
    have := List.nodup_append.1 this
    intro hm
    exact this.2.2 r (by simp [hm]) r (by simp) rfl
  constructor
  · rw [hlog, hnet, hready]
    simp only [arrived_append, arrived_start, arrived_nil, List.append_nil, List.map_append,
      List.map_map, started_append, started_start, started_nil]
    have e1 : (D.outE r).map (Prod.fst ∘ fun e => (e, x)) = D.outE r := by
      simp [Function.comp_def]
    rw [e1]
    refine List.Perm.trans ?_ h.all
    simp only [List.append_assoc]
    refine List.Perm.append_left _ ?_
    refine List.Perm.append_left _ ?_
    refine List.Perm.append_left _ ?_
    exact (dormant_split D (started s.log) hr).symm
  · rw [hlog, hnet]; simpa using h.app
  · rw [hlog, hcnt]; simpa using h.cnt
  · rw [hlog, hacc]; simpa using h.val
  · rw [hlog, hacc, hready]
    intro p hp
    rcases List.mem_append.1 hp with hp | hp
    · obtain ⟨h1, h2⟩ := h.rdy p hp
      exact ⟨h1, by simp [h2]⟩
    · obtain ⟨e, he, rfl⟩ := List.mem_map.1 hp
      have : D.src e = r := by simpa using (List.mem_filter.1 he).2
      simp [this, hx]
  · rw [hlog, hacc, hnet]
    intro p hp
    obtain ⟨h1, h2⟩ := h.flt p hp
    exact ⟨h1, by simp [h2]⟩
  · rw [hlog]
    intro e he
    have := h.arr e (by simpa using he)
    simp [this]
  · rw [hlog, hcnt]
    intro a ha
    simp only [started_append, started_start, started_nil, List.mem_append, List.mem_singleton] at ha
    rcases ha with ha | rfl
    · exact h.sta a ha
    · exact hc
  · intro a ha; exact h.idl a (hidle a ha)
  · rw [hlog]
    simpa using hperm2.nodup_iff.1 h.nod
  · rw [hlog]
    simp only [triggered_append, triggered_start, triggered_nil, List.append_nil, started_append,
      started_start, started_nil]
    exact h.per.trans hperm2
  · rw [hlog, hcnt]; simpa using h.zer
  · intro a ha
    rw [hlog]
    simpa using h.tri a (htrig a ha)

/-- Accumulating a contribution keeps the invariant. -/
theorem ExecInv.arrive {D : ExecDag ν ε V} (hD : D.Ok) {s t : ExecState ν ε V} (h : ExecInv D s)
    {p q : List (ε × V)} {e : ε} {y : V} (hn : s.net = p ++ (e, y) :: q)
    (hcnt : t.cnt = fun r => if r = D.dst e then s.cnt r - 1 else s.cnt r)
    (hacc : t.acc = fun r => if r = D.dst e then s.acc r + y else s.acc r)
    (hnet : t.net = p ++ q) (hready : t.ready = s.ready) (hidle : t.idle = s.idle)
    (hlog : (s.cnt (D.dst e) - 1 ≠ 0 ∧ t.log = s.log ++ [.arrive e] ∧ t.trig = s.trig) ∨
      (s.cnt (D.dst e) - 1 = 0 ∧ t.log = s.log ++ [.arrive e, .trigger (D.dst e)] ∧
        t.trig = s.trig ++ [D.dst e])) : ExecInv D t := by
  have hmem : (e, y) ∈ s.net := by rw [hn]; simp
  obtain ⟨haw, hin⟩ := h.awaited hmem
  simp only at haw hin
  have hns : D.dst e ∉ started s.log := fun hh => by have := h.sta _ hh; omega
  have hst : started t.log = started s.log := by rcases hlog with ⟨_, h', _⟩ | ⟨_, h', _⟩ <;> simp [h']
  have har : arrived t.log = arrived s.log ++ [e] := by
    rcases hlog with ⟨_, h', _⟩ | ⟨_, h', _⟩ <;> simp [h']
  have hap : applied t.log = applied s.log := by
    rcases hlog with ⟨_, h', _⟩ | ⟨_, h', _⟩ <;> simp [h']
  have hsame : ∀ a, a ∈ started s.log → t.acc a = s.acc a := by
    intro a ha
    rw [hacc]
    simp only
    rw [if_neg]
    rintro rfl; exact hns ha
  obtain ⟨hy, hse⟩ := h.flt _ hmem
  simp only at hy hse
  have hnp : (arrived s.log ++ [e] ++ (p ++ q).map Prod.fst).Perm
      (arrived s.log ++ s.net.map Prod.fst) := by
    rw [hn, List.append_assoc]
    refine List.Perm.append_left _ ?_
    simp only [List.map_append, List.map_cons, List.singleton_append]
    exact List.perm_middle.symm
  constructor
  · rw [hst, har, hnet, hready]
    refine List.Perm.trans ?_ h.all
    exact List.Perm.append_right _ (List.Perm.append_right _ hnp)
  · rw [hap, har, hnet]
    exact h.app.trans hnp.symm
  · intro r
    rw [hcnt, har]
    have := h.cnt r
    simp only [List.filter_append, List.length_append, List.filter_cons, List.filter_nil]
    by_cases hr : r = D.dst e
    · subst hr; simp only [decide_true, if_true, List.length_singleton] at *; omega
    · have : ¬ D.dst e = r := fun h => hr h.symm
      simp only [hr, this, decide_false, if_false] at *
      simpa using h.cnt r
  · intro r
    rw [har, gathered_snoc, gathered_congr D (acc := t.acc) (acc' := s.acc)
      (fun a ha => hsame _ (h.arr a ha)), hsame _ hse]
    rw [hacc]
    simp only
    by_cases hr : r = D.dst e
    · subst hr; rw [if_pos rfl, if_pos rfl, h.val, hy, add_assoc]
    · rw [if_neg hr, if_neg (fun h => hr h.symm), h.val, add_zero]
  · intro a ha
    rw [hready] at ha
    obtain ⟨h1, h2⟩ := h.rdy a ha
    rw [hst]; exact ⟨by rw [hsame _ h2]; exact h1, h2⟩
  · intro a ha
    have ha' : a ∈ s.net := by
      rw [hn]; rw [hnet] at ha
      rcases List.mem_append.1 ha with h | h <;> simp [h]
    obtain ⟨h1, h2⟩ := h.flt a ha'
    rw [hst]; exact ⟨by rw [hsame _ h2]; exact h1, h2⟩
  · intro a ha
    rw [har] at ha; rw [hst]
    rcases List.mem_append.1 ha with ha | ha
    · exact h.arr a ha
    · simp at ha; subst ha; exact hse
  · intro a ha
    rw [hst] at ha
    rw [hcnt]; simp only
    split
    · have := h.sta a ha; omega
    · exact h.sta a ha
  · rw [hidle]; exact h.idl
  · rcases hlog with ⟨hc, hl, ht⟩ | ⟨hc, hl, ht⟩
    · rw [hst, hidle, ht]; exact h.nod
    · rw [hst, hidle, ht]
      have hpn : (s.idle ++ (s.trig ++ [D.dst e]) ++ started s.log).Perm
          (D.dst e :: (s.idle ++ s.trig ++ started s.log)) := by
        rw [← List.append_assoc, List.append_assoc _ [D.dst e]]
        exact List.perm_middle
      rw [hpn.nodup_iff, List.nodup_cons]
      refine ⟨?_, h.nod⟩
      intro hm
      rw [← h.per.mem_iff] at hm
      rcases List.mem_append.1 hm with hm | hm
      · have := ((h.zer _).1 hm).1; omega
      · have := hD.starts_in _ hm
        apply hin; simp [ExecDag.inCount, this]
  · rcases hlog with ⟨hc, hl, ht⟩ | ⟨hc, hl, ht⟩
    · rw [hst, hidle, ht, hl]; simpa using h.per
    · rw [hst, hidle, ht, hl]
      simp only [triggered_append, triggered_arrive, triggered_trigger, triggered_nil]
      have h1 : (triggered s.log ++ [D.dst e] ++ D.starts).Perm
          (D.dst e :: (triggered s.log ++ D.starts)) := by
        rw [List.append_assoc]; exact List.perm_middle
      have h2 : (s.idle ++ (s.trig ++ [D.dst e]) ++ started s.log).Perm
          (D.dst e :: (s.idle ++ s.trig ++ started s.log)) := by
        rw [← List.append_assoc, List.append_assoc _ [D.dst e]]
        exact List.perm_middle
      exact h1.trans ((h.per.cons _).trans h2.symm)
  · intro r
    rw [hcnt]
    rcases hlog with ⟨hc, hl, ht⟩ | ⟨hc, hl, ht⟩
    · rw [hl]
      simp only [triggered_append, triggered_arrive, triggered_nil, List.append_nil]
      rw [h.zer]
      by_cases hr : r = D.dst e
      · subst hr; simp only [if_true]; omega
      · rw [if_neg hr]
    · rw [hl]
      simp only [triggered_append, triggered_arrive, triggered_trigger, triggered_nil,
        List.mem_append, List.mem_singleton]
      rw [h.zer]
      by_cases hr : r = D.dst e
      · subst hr; simp [hc, hin]
      · rw [if_neg hr]; simp [hr]
  · intro a ha
    rcases hlog with ⟨hc, hl, ht⟩ | ⟨hc, hl, ht⟩
    · rw [hl]; rw [ht] at ha; simpa using h.tri a ha
    · rw [hl]; rw [ht] at ha
      rcases List.mem_append.1 ha with ha | ha
      · simp [h.tri a ha]
      · simp at ha; simp [ha]

theorem ExecInv.step {D : ExecDag ν ε V} (hD : D.Ok) {s t : ExecState ν ε V} (h : ExecInv D s)
    (hs : Step D s t) : ExecInv D t := by
  cases hs with
  | @instigate p q r hi =>
    have hr : r ∈ s.idle := by rw [hi]; simp
    have hin := hD.starts_in r (h.idl r hr)
    have hc := h.cnt r
    have hc0 : D.inCount r = 0 := by simp [ExecDag.inCount, hin]
    have hx : D.base r = s.acc r := by
      have hf : (arrived s.log).filter (fun e => decide (D.dst e = r)) = [] := by
        rw [← List.length_eq_zero_iff]; omega
      rw [h.val r, gathered, hf]; simp
    refine h.start (r := r) (x := D.base r) hx (by omega) rfl rfl rfl rfl rfl ?_
      (fun a ha => ha) ?_
    · intro a ha
      rw [hi]
      rcases List.mem_append.1 ha with ha | ha <;> simp [ha]
    · simp only [hi]
      rw [List.append_assoc, List.append_assoc, List.cons_append]
      exact List.perm_middle
  | @spawn p q r hi =>
    have hr : r ∈ s.trig := by rw [hi]; simp
    have htr : r ∈ triggered s.log := h.tri r hr
    refine h.start (r := r) (x := s.acc r) rfl ((h.zer r).1 htr).1 rfl rfl rfl rfl rfl
      (fun a ha => ha) ?_ ?_
    · intro a ha
      rw [hi]
      rcases List.mem_append.1 ha with ha | ha <;> simp [ha]
    · simp only [hi]
      rw [← List.append_assoc, ← List.append_assoc]
      exact List.perm_middle
  | @apply p q e x hi =>
    have hmem : (e, x) ∈ s.ready := by rw [hi]; simp
    obtain ⟨hx, hse⟩ := h.rdy _ hmem
    constructor
    · refine List.Perm.trans ?_ h.all
      simp only [arrived_append, arrived_apply, arrived_nil, List.append_nil, started_append,
        started_apply, started_nil, hi, List.map_append, List.map_cons, List.map_nil]
      refine List.Perm.append_right _ ?_
      rw [List.append_assoc, List.append_assoc, List.append_assoc]
      refine List.Perm.append_left _ ?_
      refine List.Perm.append_left _ ?_
      rw [List.singleton_append]
      exact List.perm_middle.symm
    · simp only [arrived_append, arrived_apply, arrived_nil, List.append_nil, applied_append,
        applied_apply, applied_nil, List.map_append, List.map_cons, List.map_nil]
      rw [← List.append_assoc]
      exact h.app.append_right _
    · simpa using h.cnt
    · simpa using h.val
    · intro a ha
      have : a ∈ s.ready := by
        rw [hi]; rcases List.mem_append.1 ha with ha | ha <;> simp [ha]
      simpa using h.rdy a this
    · intro a ha
      rcases List.mem_append.1 ha with ha | ha
      · simpa using h.flt a ha
      · simp at ha; subst ha; simp only at hx hse; simp [← hx, hse]
    · simpa using h.arr
    · simpa using h.sta
    · simpa using h.idl
    · simpa using h.nod
    · simpa using h.per
    · simpa using h.zer
    · simpa using h.tri
  | @arrive p q e y hn hc =>
    exact h.arrive hD hn rfl rfl rfl rfl rfl (.inl ⟨hc, rfl, rfl⟩)
  | @arriveLast p q e y hn hc =>
    exact h.arrive hD hn rfl rfl rfl rfl rfl (.inr ⟨hc, rfl, rfl⟩)

end Dashmm

namespace Dashmm
variable {ν ε V : Type} [DecidableEq ν] [AddCommMonoid V]
open Ev ExecState

theorem ExecInv.steps {D : ExecDag ν ε V} (hD : D.Ok) {n : Nat} {s t : ExecState ν ε V}
    (hs : Steps D n s t) (h : ExecInv D s) : ExecInv D t := by
  induction hs with
  | refl => exact h
  | tail _ h' ih => exact (ih h).step hD h'

theorem reach_inv {D : ExecDag ν ε V} (hD : D.Ok) {s : ExecState ν ε V} (hs : Reach D s) :
    ExecInv D s := by
  obtain ⟨n, hn⟩ := hs
  exact ExecInv.steps hD hn (execInv_init hD)

/-- Every step is logged. -/
theorem Step.log_lt {D : ExecDag ν ε V} {s t : ExecState ν ε V} (h : Step D s t) :
    s.log.length < t.log.length := by
  cases h <;> simp

theorem Steps.log_le {D : ExecDag ν ε V} {n : Nat} {s t : ExecState ν ε V} (h : Steps D n s t) :
    s.log.length + n ≤ t.log.length := by
  induction h with
  | refl => simp
  | tail _ h' ih => have := Step.log_lt h'; omega

theorem ExecInv.started_nodes {D : ExecDag ν ε V} (hD : D.Ok) {s : ExecState ν ε V}
    (h : ExecInv D s) : ∀ r, r ∈ triggered s.log ++ D.starts → r ∈ D.nodes := by
  intro r hr
  rcases List.mem_append.1 hr with hr | hr
  · have := ((h.zer r).1 hr).2
    unfold ExecDag.inCount at this
    rw [Ne, List.length_eq_zero_iff] at this
    obtain ⟨e, he⟩ := List.exists_mem_of_ne_nil _ this
    have he' := List.mem_filter.1 he
    have : D.dst e = r := by simpa using he'.2
    rw [← this]; exact hD.dsts e he'.1
  · exact hD.starts_sub r hr

theorem ExecInv.log_bound {D : ExecDag ν ε V} (hD : D.Ok) {s : ExecState ν ε V}
    (h : ExecInv D s) : s.log.length ≤ 2 * (D.nodes.length + D.edges.length) := by
  rw [Ev.length_eq]
  have hnd := h.per.nodup_iff.2 h.nod
  have h1 : (triggered s.log ++ D.starts).length ≤ D.nodes.length :=
    (List.subperm_of_subset hnd (h.started_nodes hD)).length_le
  have h2 := h.per.length_eq
  have h3 := h.all.length_eq
  have h4 := h.app.length_eq
  simp only [List.length_append] at h1 h2 h3 h4
  omega

/-- If something is left to do, a step is possible. -/
theorem exists_step {D : ExecDag ν ε V} {s : ExecState ν ε V} (h : ¬ Quiet s) :
    ∃ t, Step D s t := by
  cases hi : s.idle with
  | cons r l => exact ⟨_, .instigate (p := []) hi⟩
  | nil =>
    cases ht : s.trig with
    | cons r l => exact ⟨_, .spawn (p := []) ht⟩
    | nil =>
      cases hr : s.ready with
      | cons a l => exact ⟨_, .apply (p := []) (e := a.1) (x := a.2) hr⟩
      | nil =>
        cases hn : s.net with
        | cons a l =>
          by_cases hc : s.cnt (D.dst a.1) - 1 = 0
          · exact ⟨_, .arriveLast (p := []) (e := a.1) (y := a.2) hn hc⟩
          · exact ⟨_, .arrive (p := []) (e := a.1) (y := a.2) hn hc⟩
        | nil => exact absurd ⟨hi, ht, hr, hn⟩ h

theorem quiet_no_step {D : ExecDag ν ε V} {s t : ExecState ν ε V} (h : Quiet s) : ¬ Step D s t := by
  obtain ⟨h1, h2, h3, h4⟩ := h
  intro hs
  cases hs with
  | instigate h => rw [h1] at h; simp at h
  | spawn h => rw [h2] at h; simp at h
  | apply h => rw [h3] at h; simp at h
  | arrive h => rw [h4] at h; simp at h
  | arriveLast h => rw [h4] at h; simp at h

/-- In a quiet state exactly the edges of the started nodes have arrived. -/
theorem ExecInv.quiet_arrived {D : ExecDag ν ε V} {s : ExecState ν ε V} (h : ExecInv D s)
    (hq : Quiet s) : (arrived s.log).Perm
      (D.edges.filter fun e => decide (D.src e ∈ started s.log)) := by
  have hall := h.all
  rw [hq.2.2.1, hq.2.2.2] at hall
  simp only [List.map_nil, List.append_nil] at hall
  have h1 := hall.filter fun e => decide (D.src e ∈ started s.log)
  rw [List.filter_append] at h1
  have h2 : (arrived s.log).filter (fun e => decide (D.src e ∈ started s.log)) = arrived s.log := by
    rw [List.filter_eq_self]
    intro e he; simpa using h.arr e he
  have h3 : (D.edges.filter fun e => !decide (D.src e ∈ started s.log)).filter
      (fun e => decide (D.src e ∈ started s.log)) = [] := by
    rw [List.filter_eq_nil_iff]
    intro e he
    have := (List.mem_filter.1 he).2
    simpa using this
  rw [h2, h3, List.append_nil] at h1
  exact h1

/-- In a quiet state a node has started iff it is a start, or it has inputs and the sources of all of
them have started. -/
theorem ExecInv.quiet_started {D : ExecDag ν ε V} {s : ExecState ν ε V} (h : ExecInv D s)
    (hq : Quiet s) (r : ν) : r ∈ started s.log ↔
      r ∈ D.starts ∨ (D.inE r ≠ [] ∧ ∀ e ∈ D.inE r, D.src e ∈ started s.log) := by
  have hper := h.per.mem_iff (a := r)
  rw [hq.1, hq.2.1] at hper
  simp only [List.nil_append] at hper
  rw [← hper, List.mem_append, or_comm]
  apply or_congr Iff.rfl
  rw [h.zer]
  have hc := h.cnt r
  have hp := ((h.quiet_arrived hq).filter fun e => decide (D.dst e = r)).length_eq
  rw [List.filter_filter] at hp
  have e1 : (D.edges.filter fun e => decide (D.dst e = r) && decide (D.src e ∈ started s.log)) =
      (D.inE r).filter fun e => decide (D.src e ∈ started s.log) := by
    unfold ExecDag.inE
    rw [List.filter_filter]
    congr 1
    funext e
    rw [Bool.and_comm]
  rw [e1] at hp
  have e2 : D.inCount r ≠ 0 ↔ D.inE r ≠ [] := by
    unfold ExecDag.inCount; rw [Ne, List.length_eq_zero_iff]
  rw [e2, and_comm]
  apply and_congr Iff.rfl
  have e3 : s.cnt r = 0 ↔
      ((D.inE r).filter fun e => decide (D.src e ∈ started s.log)).length = (D.inE r).length := by
    unfold ExecDag.inCount at hc; omega
  rw [e3, List.length_filter_eq_length_iff]
  simp

/-- The value of a node in a quiet state. -/
theorem ExecInv.quiet_val {D : ExecDag ν ε V} {s : ExecState ν ε V} (h : ExecInv D s)
    (hq : Quiet s) (r : ν) : s.acc r = D.base r +
      gathered D s.acc (D.edges.filter fun e => decide (D.src e ∈ started s.log)) r := by
  rw [h.val r]
  congr 1
  unfold gathered
  exact (((h.quiet_arrived hq).filter _).map _).sum_eq

/-- Two quiet states of two DAGs that differ only in the initial contents of nodes without outputs
have started the same nodes and have accumulated the same. -/
theorem quiet_agree {D D' : ExecDag ν ε V} (hD : D.Ok) (hD' : D'.Ok)
    (hn : D'.starts = D.starts) (he : D'.edges = D.edges) (hsrc : D'.src = D.src)
    (hdst : D'.dst = D.dst) (hop : D'.op = D.op)
    (hb : ∀ r, D.outE r ≠ [] → D'.base r = D.base r)
    {s s' : ExecState ν ε V} (hs : Reach D s) (hs' : Reach D' s') (hq : Quiet s) (hq' : Quiet s') :
    (∀ r, r ∈ started s.log ↔ r ∈ started s'.log) ∧
    ∃ G : ν → V, ∀ r, s.acc r = D.base r + G r ∧ s'.acc r = D'.base r + G r := by
  have h := reach_inv hD hs
  have h' := reach_inv hD' hs'
  obtain ⟨rank, hrank⟩ := hD.acyclic
  have hstart : ∀ r, r ∈ started s.log ↔ r ∈ started s'.log := by
    intro r
    induction hk : rank r using Nat.strongRecOn generalizing r with
    | ind k ih =>
      rw [h.quiet_started hq, h'.quiet_started hq']
      have e1 : D'.inE r = D.inE r := by unfold ExecDag.inE; rw [he, hdst]
      rw [e1, hn, hsrc]
      apply or_congr Iff.rfl
      apply and_congr Iff.rfl
      apply forall_congr'
      intro e
      apply imp_congr_right
      intro hee
      have hm := List.mem_filter.1 hee
      have hd : D.dst e = r := by simpa using hm.2
      have := hrank e hm.1
      exact ih (rank (D.src e)) (by rw [hd, hk] at this; exact this) (D.src e) rfl
  refine ⟨hstart, fun r =>
    gathered D s.acc (D.edges.filter fun e => decide (D.src e ∈ started s.log)) r, ?_⟩
  have hfil : (D'.edges.filter fun e => decide (D'.src e ∈ started s'.log)) =
      D.edges.filter fun e => decide (D.src e ∈ started s.log) := by
    rw [he, hsrc]
    apply List.filter_congr
    intro e _
    simp [hstart]
  have hval : ∀ r, D.outE r ≠ [] → s.acc r = s'.acc r := by
    intro r
    induction hk : rank r using Nat.strongRecOn generalizing r with
    | ind k ih =>
      intro ho
      rw [h.quiet_val hq, h'.quiet_val hq', hfil, hb r ho]
      congr 1
      unfold gathered
      rw [hdst, hop, hsrc]
      congr 1
      apply List.map_congr_left
      intro e hee
      have hm := List.mem_filter.1 hee
      have hm' := List.mem_filter.1 hm.1
      have hd : D.dst e = r := by simpa using hm.2
      have := hrank e hm'.1
      rw [ih (rank (D.src e)) (by rw [hd, hk] at this; exact this) (D.src e) rfl]
      intro ho'
      have : e ∈ D.outE (D.src e) := List.mem_filter.2 ⟨hm'.1, by simp⟩
      rw [ho'] at this; simp at this
  intro r
  refine ⟨h.quiet_val hq r, ?_⟩
  rw [h'.quiet_val hq' r, hfil]
  congr 1
  unfold gathered
  rw [hdst, hop, hsrc]
  congr 1
  apply List.map_congr_left
  intro e hee
  have hm' := List.mem_filter.1 (List.mem_filter.1 hee).1
  rw [hval (D.src e)]
  intro ho'
  have : e ∈ D.outE (D.src e) := List.mem_filter.2 ⟨hm'.1, by simp⟩
  rw [ho'] at this; simp at this

/-- A quiet state is complete if every node that is not a start has inputs. -/
theorem quiet_complete {D : ExecDag ν ε V} (hD : D.Ok)
    (hin : ∀ r ∈ D.nodes, r ∉ D.starts → D.inE r ≠ [])
    {s : ExecState ν ε V} (hs : Reach D s) (hq : Quiet s) : ∀ r ∈ D.nodes, r ∈ started s.log := by
  have h := reach_inv hD hs
  obtain ⟨rank, hrank⟩ := hD.acyclic
  intro r
  induction hk : rank r using Nat.strongRecOn generalizing r with
  | ind k ih =>
    intro hr
    rw [h.quiet_started hq]
    by_cases hst : r ∈ D.starts
    · exact .inl hst
    · refine .inr ⟨hin r hr hst, fun e he => ?_⟩
      have hm := List.mem_filter.1 he
      have hd : D.dst e = r := by simpa using hm.2
      have := hrank e hm.1
      exact ih (rank (D.src e)) (by rw [hd, hk] at this; exact this) (D.src e) rfl (hD.srcs e hm.1)

/-- When all nodes have started and nothing is under way, all edges have arrived. -/
theorem quiet_all_arrived {D : ExecDag ν ε V} (hD : D.Ok) {s : ExecState ν ε V} (hs : Reach D s)
    (hq : Quiet s) (hall : ∀ r ∈ D.nodes, r ∈ started s.log) : (arrived s.log).Perm D.edges := by
  have h := (reach_inv hD hs).quiet_arrived hq
  rwa [List.filter_eq_self.2] at h
  intro e he
  simpa using hall _ (hD.srcs e he)

/-- Every operation is computed only after all inputs of its source have arrived. -/
theorem apply_after_inputs {D : ExecDag ν ε V} (hD : D.Ok) {n : Nat} {s : ExecState ν ε V}
    (hs : Steps D n (init D) s) : ∀ pre e post, s.log = pre ++ .apply e :: post →
      ((arrived pre).filter fun d => decide (D.dst d = D.src e)).Perm (D.inE (D.src e)) := by
  generalize hi : init D = i at hs
  induction hs with
  | refl => intro pre e post h; rw [← hi] at h; simp [init] at h
  | @tail n s t u hst hstep ih =>
    subst hi
    have ih := ih rfl
    have h := ExecInv.steps hD hst (execInv_init hD)
    -- what the new events may be
    have key : ∀ (ev : List (Ev ν ε)), u.log = t.log ++ ev →
        (∀ pre' e post', ev = pre' ++ .apply e :: post' →
          ((arrived (t.log ++ pre')).filter fun d => decide (D.dst d = D.src e)).Perm
            (D.inE (D.src e))) →
        ∀ pre e post, u.log = pre ++ .apply e :: post →
          ((arrived pre).filter fun d => decide (D.dst d = D.src e)).Perm (D.inE (D.src e)) := by
      intro ev hu hev pre e post hl
      rw [hu] at hl
      rcases List.append_eq_append_iff.1 hl with ⟨a, h1, h2⟩ | ⟨a, h1, h2⟩
      · rw [h1]; exact hev a e post h2
      · cases a with
        | nil =>
          simp only [List.nil_append, List.append_nil] at h1 h2
          have := hev [] e post h2.symm
          rw [← h1]; simpa using this
        | cons b a =>
          simp only [List.cons_append, List.cons.injEq] at h2
          obtain ⟨rfl, h2⟩ := h2
          exact ih pre e a h1
    cases hstep with
    | instigate hh =>
      refine key _ rfl ?_
      intro pre e post he
      rcases pre with _ | ⟨b, pre⟩ <;> simp at he
    | spawn hh =>
      refine key _ rfl ?_
      intro pre e post he
      rcases pre with _ | ⟨b, pre⟩ <;> simp at he
    | @apply p q e' x hh =>
      refine key _ rfl ?_
      intro pre e post he
      rcases pre with _ | ⟨b, pre⟩
      · simp only [List.nil_append, List.cons.injEq, Ev.apply.injEq] at he
        obtain ⟨rfl, _⟩ := he
        have hmem : (e', x) ∈ t.ready := by rw [hh]; simp
        have hsta := (h.rdy _ hmem).2
        have hc := h.sta _ hsta
        have hcnt := h.cnt (D.src e')
        simp only [List.append_nil]
        have hsub : ((arrived t.log).filter fun d => decide (D.dst d = D.src e')).Subperm
            (D.inE (D.src e')) := by
          unfold ExecDag.inE
          apply List.Subperm.filter
          have : (arrived t.log).Subperm (arrived t.log ++ (t.net.map Prod.fst ++ t.ready.map Prod.fst ++
            D.edges.filter fun e => !decide (D.src e ∈ started t.log))) :=
            (List.sublist_append_left _ _).subperm
          refine this.trans ?_
          rw [← List.append_assoc, ← List.append_assoc]
          exact h.all.subperm
        apply hsub.perm_of_length_le
        unfold ExecDag.inCount at hcnt
        simp only at hc
        omega
      · simp at he
    | arrive hh =>
      refine key _ rfl ?_
      intro pre e post he
      rcases pre with _ | ⟨b, pre⟩ <;> simp at he
    | arriveLast hh =>
      refine key _ rfl ?_
      intro pre e post he
      rcases pre with _ | ⟨b, _ | ⟨b', pre⟩⟩ <;> simp at he

end Dashmm
