import Verif.Spec.Trace
import Mathlib.Data.List.Forall2
import Mathlib.Data.List.Perm.Basic
import Mathlib.Data.List.Pairwise
import Mathlib.Data.Nat.Basic
import Mathlib.Order.Nat
import Mathlib.Algebra.BigOperators.Group.List.Basic
import Mathlib.Tactic.SplitIfs

/-! Lemmas on the trace reader. -/

namespace Dashmm.Trace

/-! ## Windows of one worker -/

theorem sorted_cons {x : Evt} {l : List Evt} : Sorted (x :: l) ↔ (∀ y ∈ l, x.stamp ≤ y.stamp) ∧ Sorted l := List.pairwise_cons

theorem takeWhile_sorted {l : List Evt} (h : Sorted l) (t : Nat) :
    (l.takeWhile fun e => decide (e.stamp < t)) = l.filter fun e => decide (e.stamp < t) := by
  induction l with
  | nil => rfl
  | cons x l ih =>
    obtain ⟨h1, h2⟩ := sorted_cons.1 h
    by_cases hx : x.stamp < t
    · rw [List.takeWhile_cons_of_pos (by simpa using hx), List.filter_cons_of_pos (by simpa using hx), ih h2]
    · rw [List.takeWhile_cons_of_neg (by simpa using hx), List.filter_cons_of_neg (by simpa using hx)]
      symm
      rw [List.filter_eq_nil_iff]
      intro y hy
      have := h1 y hy
      simp; omega

theorem take_part (l : List Evt) (t : Nat) : l.take (part t l) = l.takeWhile fun e => decide (e.stamp < t) := by
  unfold part
  conv_lhs => rw [← List.takeWhile_append_dropWhile (p := fun e : Evt => decide (e.stamp < t)) (l := l)]
  rw [List.takeWhile_append_dropWhile]
  have := List.takeWhile_append_dropWhile (p := fun e : Evt => decide (e.stamp < t)) (l := l)
  generalize hA : (l.takeWhile fun e => decide (e.stamp < t)) = A at *
  generalize (l.dropWhile fun e => decide (e.stamp < t)) = B at *
  rw [← this]
  simp

theorem slice_sorted {l : List Evt} (h : Sorted l) {s e : Nat} (hse : s ≤ e) :
    (l.take (part e l)).drop (part s l) = l.filter (inside s e) := by
  induction l with
  | nil => simp
  | cons x l ih =>
    obtain ⟨h1, h2⟩ := sorted_cons.1 h
    by_cases hx : x.stamp < s
    · have e1 : part e (x :: l) = part e l + 1 := by
        unfold part; rw [List.takeWhile_cons_of_pos (by simp; omega)]; rfl
      have e2 : part s (x :: l) = part s l + 1 := by
        unfold part; rw [List.takeWhile_cons_of_pos (by simpa using hx)]; rfl
      rw [e1, e2, List.take_succ_cons, List.drop_succ_cons, ih h2, List.filter_cons_of_neg (by simp [inside]; omega)]
    · have e2 : part s (x :: l) = 0 := by
        unfold part; rw [List.takeWhile_cons_of_neg (by simpa using hx)]; rfl
      rw [e2, List.drop_zero, take_part, takeWhile_sorted h]
      refine List.filter_congr ?_
      intro y hy
      have : s ≤ y.stamp := by
        rcases List.mem_cons.1 hy with rfl | hy
        · omega
        · have := h1 y hy; omega
      simp [inside, this]

theorem head_min {l : List Evt} (h : Sorted l) {x : Evt} (hx : l.head? = some x) : ∀ y ∈ l, x.stamp ≤ y.stamp := by
  cases l with
  | nil => simp at hx
  | cons z l =>
    simp at hx; subst hx
    intro y hy
    rcases List.mem_cons.1 hy with rfl | hy
    · exact Nat.le_refl _
    · exact (sorted_cons.1 h).1 y hy

theorem last_max {l : List Evt} (h : Sorted l) {x : Evt} (hx : l.getLast? = some x) : ∀ y ∈ l, y.stamp ≤ x.stamp := by
  induction l with
  | nil => simp at hx
  | cons z l ih =>
    intro y hy
    cases l with
    | nil => simp at hx hy; subst hx hy; exact Nat.le_refl _
    | cons w l =>
      have hx' : (w :: l).getLast? = some x := by rw [List.getLast?_cons_cons] at hx; exact hx
      rcases List.mem_cons.1 hy with rfl | hy
      · have h1 := (sorted_cons.1 h).1 x (List.mem_of_getLast? hx')
        exact h1
      · exact ih (sorted_cons.1 h).2 hx' y hy

theorem latest_unique {l : List Evt} {t u : Nat} (h : Latest l t) (h' : Latest l u) : t = u := by
  obtain ⟨⟨e, he, rfl⟩, h2⟩ := h
  obtain ⟨⟨e', he', rfl⟩, h2'⟩ := h'
  exact Nat.le_antisymm (h2' _ he) (h2 _ he')

theorem range_eq {l : List Evt} (h : Sorted l) (hne : l ≠ []) {a b : Nat} (hab : a ≤ b) {t : Nat} (ht : Latest l t) :
    range l a b = .ok (l.filter (inside a (min b t))) := by
  obtain ⟨lo, hlo⟩ : ∃ lo, l.head? = some lo := by cases l with
    | nil => exact absurd rfl hne
    | cons x l => exact ⟨x, rfl⟩
  obtain ⟨hi, hhi⟩ : ∃ hi, l.getLast? = some hi := by
    cases hl : l.getLast? with
    | none => exact absurd (List.getLast?_eq_none_iff.1 hl) hne
    | some x => exact ⟨x, rfl⟩
  have hmax := last_max h hhi
  have hmin := head_min h hlo
  have hth : hi.stamp = t := latest_unique ⟨⟨hi, List.mem_of_getLast? hhi, rfl⟩, hmax⟩ ht
  unfold range
  rw [if_neg (by omega), hlo, hhi]
  simp only [hth]
  split_ifs with h1 h2
  · symm
    congr 1
    rw [List.filter_eq_nil_iff]
    intro y hy; have := hmin y hy; simp [inside]; omega
  · symm
    congr 1
    rw [List.filter_eq_nil_iff]
    intro y hy; have := hmax y hy; simp [inside]; omega
  · congr 1
    have hlt : lo.stamp ≤ t := by have := hmin hi (List.mem_of_getLast? hhi); omega
    rw [slice_sorted h (by omega)]
    refine List.filter_congr ?_
    intro y hy
    have := hmin y hy
    simp only [inside]
    rw [decide_eq_decide]
    omega

theorem latest_exists {l : List Evt} (hne : l ≠ []) : ∃ t, Latest l t := by
  induction l with
  | nil => exact absurd rfl hne
  | cons x l ih =>
    by_cases hl : l = []
    · subst hl; exact ⟨x.stamp, ⟨x, by simp, rfl⟩, by simp⟩
    · obtain ⟨t, ⟨e, he, rfl⟩, h2⟩ := ih hl
      by_cases hc : e.stamp ≤ x.stamp
      · refine ⟨x.stamp, ⟨x, by simp, rfl⟩, fun y hy => ?_⟩
        rcases List.mem_cons.1 hy with rfl | hy
        · exact Nat.le_refl _
        · have := h2 y hy; omega
      · refine ⟨e.stamp, ⟨e, List.mem_cons_of_mem _ he, rfl⟩, fun y hy => ?_⟩
        rcases List.mem_cons.1 hy with rfl | hy
        · omega
        · exact h2 y hy

theorem Latest.perm {l l' : List Evt} (h : l.Perm l') {t : Nat} (ht : Latest l t) : Latest l' t := by
  obtain ⟨⟨e, he, h1⟩, h2⟩ := ht
  exact ⟨⟨e, h.mem_iff.1 he, h1⟩, fun y hy => h2 y (h.mem_iff.2 hy)⟩

/-! ## The maps -/

def key (w : Wrk) : Int × Int := (w.loc, w.wid)

def fkey (f : TFile) : Int × Int := (f.loc, f.wid)

def lt (w w' : Wrk) : Prop := before w.loc w.wid w'.loc w'.wid = true

theorem before_trans {a b c d e f : Int} (h : before a b c d = true) (h' : before c d e f = true) : before a b e f = true := by
  simp [before] at *; omega

theorem before_total {a b c d : Int} (h : ¬ (a = c ∧ b = d)) (h' : ¬ before c d a b = true) : before a b c d = true := by
  simp [before] at *; omega

theorem before_irrefl {a b : Int} : ¬ before a b a b = true := by simp [before]

theorem key_eq_iff {w : Wrk} {f : TFile} : key w = fkey f ↔ w.loc = f.loc ∧ w.wid = f.wid := by
  simp [key, fkey]

theorem insert_mem {g : Nat} {f : TFile} {ws : List Wrk} (h : ws.Pairwise lt) {w : Wrk} (hw : w ∈ insert g f ws) :
    (w ∈ ws ∧ key w ≠ fkey f) ∨ (key w = fkey f ∧ ((∃ w0 ∈ ws, key w0 = fkey f ∧ w.gid = w0.gid ∧ w.events = w0.events ++ f.events) ∨
      ((∀ w0 ∈ ws, key w0 ≠ fkey f) ∧ w.gid = g ∧ w.events = f.events))) := by
  induction ws with
  | nil =>
    simp only [insert, List.mem_singleton] at hw
    subst hw
    right; exact ⟨rfl, Or.inr ⟨by simp, rfl, rfl⟩⟩
  | cons x ws ih =>
    obtain ⟨h1, h2⟩ := List.pairwise_cons.1 h
    unfold insert at hw
    split_ifs at hw with hk hb
    · rcases List.mem_cons.1 hw with rfl | hw
      · right
        exact ⟨key_eq_iff.2 hk, Or.inl ⟨x, by simp, key_eq_iff.2 hk, rfl, rfl⟩⟩
      · left
        refine ⟨List.mem_cons_of_mem _ hw, fun hkw => ?_⟩
        have h3 := h1 w hw
        rw [key_eq_iff] at hkw
        unfold lt at h3
        rw [hkw.1, hkw.2, ← hk.1, ← hk.2] at h3
        exact before_irrefl h3
    · have hno : ∀ w0 ∈ x :: ws, key w0 ≠ fkey f := by
        intro w0 hw0 hkw
        rw [key_eq_iff] at hkw
        rcases List.mem_cons.1 hw0 with rfl | hw0
        · exact hk hkw
        · have h3 := before_trans hb (h1 w0 hw0)
          rw [hkw.1, hkw.2] at h3
          exact before_irrefl h3
      rcases List.mem_cons.1 hw with rfl | hw
      · right; exact ⟨rfl, Or.inr ⟨hno, rfl, rfl⟩⟩
      · exact Or.inl ⟨hw, hno w hw⟩
    · rcases List.mem_cons.1 hw with rfl | hw
      · exact Or.inl ⟨by simp, fun e => hk (key_eq_iff.1 e)⟩
      · rcases ih h2 hw with ⟨a, b⟩ | ⟨a, ⟨w0, b, c⟩ | ⟨b, c⟩⟩
        · exact Or.inl ⟨List.mem_cons_of_mem _ a, b⟩
        · exact Or.inr ⟨a, Or.inl ⟨w0, List.mem_cons_of_mem _ b, c⟩⟩
        · refine Or.inr ⟨a, Or.inr ⟨fun w0 hw0 => ?_, c⟩⟩
          rcases List.mem_cons.1 hw0 with rfl | hw0
          · exact fun e => hk (key_eq_iff.1 e)
          · exact b w0 hw0

theorem insert_keys {g : Nat} {f : TFile} {ws : List Wrk} {k : Int × Int} :
    k ∈ (insert g f ws).map key ↔ k = fkey f ∨ k ∈ ws.map key := by
  induction ws with
  | nil => simp [insert, key, fkey]
  | cons x ws ih =>
    unfold insert
    split_ifs with hk hb
    · have : key x = fkey f := key_eq_iff.2 hk
      simp only [List.map_cons, List.mem_cons]
      rw [this]
      have e : key ⟨x.loc, x.wid, x.gid, x.events ++ f.events⟩ = fkey f := this
      rw [e]
      constructor
      · rintro (h | h) <;> simp [h]
      · rintro (h | h | h) <;> simp [h]
    · simp only [List.map_cons, List.mem_cons]
      exact Iff.rfl
    · simp only [List.map_cons, List.mem_cons]
      rw [ih]
      constructor
      · rintro (h | h | h) <;> simp [h]
      · rintro (h | h | h) <;> simp [h]

theorem insert_sorted {g : Nat} {f : TFile} {ws : List Wrk} (h : ws.Pairwise lt) : (insert g f ws).Pairwise lt := by
  induction ws with
  | nil => simp [insert]
  | cons x ws ih =>
    obtain ⟨h1, h2⟩ := List.pairwise_cons.1 h
    unfold insert
    split_ifs with hk hb
    · exact List.pairwise_cons.2 ⟨fun y hy => h1 y hy, h2⟩
    · refine List.pairwise_cons.2 ⟨fun y hy => ?_, h⟩
      rcases List.mem_cons.1 hy with rfl | hy
      · exact hb
      · exact before_trans hb (h1 y hy)
    · refine List.pairwise_cons.2 ⟨fun y hy => ?_, ih h2⟩
      have hlt : before x.loc x.wid f.loc f.wid = true := before_total hk hb
      rcases insert_mem h2 hy with ⟨a, _⟩ | ⟨a, _⟩
      · exact h1 y a
      · rw [key_eq_iff] at a
        show before _ _ _ _ = true
        rw [a.1, a.2]; exact hlt

theorem insert_gids {g : Nat} {f : TFile} {ws : List Wrk} (h : ws.Pairwise lt) :
    ((insert g f ws).map Wrk.gid).Perm (if known f ws then ws.map Wrk.gid else g :: ws.map Wrk.gid) := by
  induction ws with
  | nil => simp [insert, known]
  | cons x ws ih =>
    obtain ⟨h1, h2⟩ := List.pairwise_cons.1 h
    unfold insert
    by_cases hn : known f (x :: ws) = true
    · rw [if_pos hn]
      split_ifs with hk hb
      · exact List.Perm.refl _
      · exfalso
        simp only [known, List.any_eq_true, decide_eq_true_eq] at hn
        obtain ⟨w0, hw0, hkw⟩ := hn
        rcases List.mem_cons.1 hw0 with rfl | hw0
        · exact hk hkw
        · have h3 := before_trans hb (h1 w0 hw0)
          rw [hkw.1, hkw.2] at h3
          exact before_irrefl h3
      · have hn' : known f ws = true := by simpa [known, hk] using hn
        have := ih h2
        rw [if_pos hn'] at this
        exact this.cons _
    · rw [if_neg hn]
      split_ifs with hk hb
      · exact absurd (by simp [known, hk]) hn
      · exact List.Perm.refl _
      · have hn' : ¬ known f ws = true := by
          intro hc; apply hn
          simp only [known, List.any_cons, Bool.or_eq_true]
          exact Or.inr hc
        have := ih h2
        rw [if_neg hn'] at this
        exact (this.cons x.gid).trans (List.Perm.swap _ _ _)

theorem insert_sum {g : Nat} {f : TFile} {ws : List Wrk} :
    ((insert g f ws).map fun w => w.events.length).sum = (ws.map fun w => w.events.length).sum + f.events.length := by
  induction ws with
  | nil => simp [insert]
  | cons x ws ih =>
    unfold insert
    split_ifs with hk hb
    · simp; omega
    · simp; omega
    · simp only [List.map_cons, List.sum_cons, ih]; omega

/-! ## Adding files -/

structure Inv (fs : List TFile) (S : St) : Prop where
  open_ : S.locked = false
  records : ∀ w ∈ S.ws, w.events = recordsOf fs (key w)
  keys : ∀ k, k ∈ S.ws.map key ↔ ∃ f ∈ fs, fkey f = k
  sorted : S.ws.Pairwise lt
  gids : (S.ws.map Wrk.gid).Nodup
  small : ∀ w ∈ S.ws, w.gid < S.counter
  count : numEvents S = (fs.map fun f => f.events.length).sum

theorem recordsOf_snoc (fs : List TFile) (f : TFile) (k : Int × Int) :
    recordsOf (fs ++ [f]) k = recordsOf fs k ++ if fkey f = k then f.events else [] := by
  unfold recordsOf
  rw [List.filter_append, List.flatMap_append]
  congr 1
  by_cases h : fkey f = k
  · rw [if_pos h, List.filter_cons_of_pos (by simpa [fkey] using h)]; simp
  · rw [if_neg h, List.filter_cons_of_neg (by simpa [fkey] using h)]; simp

theorem recordsOf_none {fs : List TFile} {k : Int × Int} (h : ∀ f ∈ fs, fkey f ≠ k) : recordsOf fs k = [] := by
  unfold recordsOf
  rw [List.filter_eq_nil_iff.2]
  · rfl
  · intro f hf; simpa [fkey] using h f hf

theorem Inv.add {fs : List TFile} {S S' : St} (h : Inv fs S) {f : TFile} (hS : addFile S f = .ok S') : Inv (fs ++ [f]) S' := by
  unfold addFile at hS
  rw [h.open_] at hS
  simp only [Bool.false_eq_true, if_false, Out.ok.injEq] at hS
  subst hS
  have hk : known f S.ws = true ↔ ∃ w ∈ S.ws, key w = fkey f := by
    simp [known, List.any_eq_true, key, fkey]
  refine ⟨rfl, ?_, ?_, insert_sorted h.sorted, ?_, ?_, ?_⟩
  · intro w hw
    rcases insert_mem h.sorted hw with ⟨a, b⟩ | ⟨a, ⟨w0, b, c, _, d⟩ | ⟨b, _, d⟩⟩
    · rw [recordsOf_snoc, if_neg (fun e => b e.symm), List.append_nil]; exact h.records w a
    · rw [recordsOf_snoc, if_pos a.symm, d, h.records w0 b, c, a]
    · rw [recordsOf_snoc, if_pos a.symm, d, recordsOf_none, List.nil_append]
      intro f' hf' e
      have : key w ∈ S.ws.map key := (h.keys _).2 ⟨f', hf', e⟩
      obtain ⟨w0, hw0, e0⟩ := List.mem_map.1 this
      exact b w0 hw0 (e0.trans a)
  · intro k
    rw [insert_keys, h.keys]
    constructor
    · rintro (rfl | ⟨f', hf', rfl⟩)
      · exact ⟨f, by simp, rfl⟩
      · exact ⟨f', by simp [hf'], rfl⟩
    · rintro ⟨f', hf', rfl⟩
      rcases List.mem_append.1 hf' with hf' | hf'
      · exact Or.inr ⟨f', hf', rfl⟩
      · simp at hf'; subst hf'; exact Or.inl rfl
  · rw [(insert_gids h.sorted).nodup_iff]
    split_ifs with hn
    · exact h.gids
    · refine List.nodup_cons.2 ⟨fun hc => ?_, h.gids⟩
      obtain ⟨w, hw, e⟩ := List.mem_map.1 hc
      have := h.small w hw; omega
  · intro w hw
    show w.gid < if known f S.ws = true then S.counter else S.counter + 2
    rcases insert_mem h.sorted hw with ⟨a, b⟩ | ⟨a, ⟨w0, b, c, d, _⟩ | ⟨b, d, _⟩⟩
    · have := h.small w a; split_ifs <;> omega
    · have := h.small w0 b; split_ifs <;> omega
    · rw [if_neg (by rw [hk]; rintro ⟨w0, x, y⟩; exact b w0 x y)]; omega
  · show ((insert S.counter f S.ws).map fun w => w.events.length).sum = _
    rw [insert_sum, List.map_append, List.sum_append]
    have := h.count
    unfold numEvents at this
    rw [this]; simp

theorem Inv.start : Inv [] St.start := by
  constructor <;> simp [St.start, numEvents]

theorem Inv.adds {fs : List TFile} {S S' : St} (h : Inv fs S) {gs : List TFile} (hS : addFiles S gs = .ok S') : Inv (fs ++ gs) S' := by
  induction gs generalizing fs S with
  | nil => simp [addFiles] at hS; subst hS; simpa using h
  | cons g gs ih =>
    have h1 : ∃ S1, addFile S g = .ok S1 := by
      unfold addFile; rw [h.open_]; exact ⟨_, rfl⟩
    obtain ⟨S1, h1⟩ := h1
    rw [addFiles, h1] at hS
    have := ih (h.add h1) hS
    simpa using this

theorem adds_ok {fs : List TFile} {S : St} (h : Inv fs S) (gs : List TFile) : ∃ S', addFiles S gs = .ok S' := by
  induction gs generalizing fs S with
  | nil => exact ⟨S, rfl⟩
  | cons g gs ih =>
    have h1 : ∃ S1, addFile S g = .ok S1 := by
      unfold addFile; rw [h.open_]; exact ⟨_, rfl⟩
    obtain ⟨S1, h1⟩ := h1
    obtain ⟨S', h2⟩ := ih (h.add h1)
    exact ⟨S', by rw [addFiles, h1]; exact h2⟩

/-! ## After finalize -/

theorem lt_keys {w w' : Wrk} (h : lt w w') : key w ≠ key w' := by
  intro e
  simp only [key, Prod.mk.injEq] at e
  unfold lt at h
  rw [e.1, e.2] at h
  exact before_irrefl h

theorem fin_keys {l l' : List Wrk} (h : List.Forall₂ sortedFrom l l') : l'.map key = l.map key := by
  induction h with
  | nil => rfl
  | cons h1 _ ih =>
    simp only [List.map_cons, ih]
    obtain ⟨a, b, _⟩ := h1
    simp [key, a, b]

theorem fin_gids {l l' : List Wrk} (h : List.Forall₂ sortedFrom l l') : l'.map Wrk.gid = l.map Wrk.gid := by
  induction h with
  | nil => rfl
  | cons h1 _ ih =>
    simp only [List.map_cons, ih]
    obtain ⟨_, _, c, _⟩ := h1
    simp [c]

theorem fin_mem {l l' : List Wrk} (h : List.Forall₂ sortedFrom l l') {w' : Wrk} (hw : w' ∈ l') : ∃ w ∈ l, sortedFrom w w' := by
  induction h with
  | nil => simp at hw
  | cons h1 _ ih =>
    rcases List.mem_cons.1 hw with rfl | hw
    · exact ⟨_, List.mem_cons_self, h1⟩
    · obtain ⟨w, a, b⟩ := ih hw
      exact ⟨w, List.mem_cons_of_mem _ a, b⟩

theorem fin_lt {l l' : List Wrk} (h : List.Forall₂ sortedFrom l l') (hs : l.Pairwise lt) : l'.Pairwise lt := by
  induction h with
  | nil => exact List.Pairwise.nil
  | @cons a b l1 l2 h1 h2 ih =>
    obtain ⟨p, q⟩ := List.pairwise_cons.1 hs
    refine List.pairwise_cons.2 ⟨fun y hy => ?_, ih q⟩
    obtain ⟨w, hw, e⟩ := fin_mem h2 hy
    have := p w hw
    unfold lt at *
    rw [h1.1, h1.2.1, e.1, e.2.1]; exact this

theorem ranges_ok {a b : Nat} {ws : List Wrk} {r : Wrk → List Evt} (h : ∀ w ∈ ws, range w.events a b = .ok (r w)) :
    ranges a b ws = .ok (ws.map fun w => (key w, r w)) := by
  induction ws with
  | nil => rfl
  | cons w ws ih =>
    rw [ranges, h w List.mem_cons_self]
    simp only
    rw [ih fun w hw => h w (List.mem_cons_of_mem _ hw)]
    rfl

/-! ## The bounds in time -/

theorem fold_some {β : Type} {f : Nat → Nat → Nat} {g : β → Option Nat} :
    ∀ (l : List β) (r : Nat), (∀ w ∈ l, (g w).isSome) →
      l.foldl (fun r w => match r, g w with
        | some r, some m => some (f r m)
        | _, _ => none) (some r) = some ((l.filterMap g).foldl f r)
  | [], r, _ => rfl
  | w :: l, r, h => by
    obtain ⟨m, hm⟩ := Option.isSome_iff_exists.1 (h w List.mem_cons_self)
    rw [List.foldl_cons, List.filterMap_cons_some hm, List.foldl_cons]
    simp only [hm]
    exact fold_some l _ fun w hw => h w (List.mem_cons_of_mem _ hw)

theorem fold_none {β : Type} {f : Nat → Nat → Nat} {g : β → Option Nat} :
    ∀ (l : List β) (r : Option Nat), (r = none ∨ ∃ w ∈ l, g w = none) →
      l.foldl (fun r w => match r, g w with
        | some r, some m => some (f r m)
        | _, _ => none) r = none
  | [], r, h => by
    rcases h with h | ⟨w, h, _⟩
    · exact h
    · simp at h
  | w :: l, r, h => by
    rw [List.foldl_cons]
    apply fold_none l
    rcases h with rfl | ⟨w', h, e⟩
    · left; rfl
    · rcases List.mem_cons.1 h with rfl | h
      · left; rw [e]; cases r <;> rfl
      · exact Or.inr ⟨w', h, e⟩

theorem foldl_min (l : List Nat) (r : Nat) :
    (l.foldl min r = r ∨ l.foldl min r ∈ l) ∧ l.foldl min r ≤ r ∧ ∀ x ∈ l, l.foldl min r ≤ x := by
  induction l generalizing r with
  | nil => simp
  | cons y l ih =>
    obtain ⟨h1, h2, h3⟩ := ih (min r y)
    rw [List.foldl_cons]
    generalize l.foldl min (min r y) = m at *
    refine ⟨?_, by omega, ?_⟩
    · rcases h1 with h1 | h1
      · rcases Nat.le_total r y with h | h
        · left; omega
        · right; rw [h1, Nat.min_eq_right h]; simp
      · right; simp [h1]
    · intro x hx
      rcases List.mem_cons.1 hx with rfl | hx
      · omega
      · exact h3 x hx

theorem foldl_max (l : List Nat) (r : Nat) :
    (l.foldl max r = r ∨ l.foldl max r ∈ l) ∧ r ≤ l.foldl max r ∧ ∀ x ∈ l, x ≤ l.foldl max r := by
  induction l generalizing r with
  | nil => simp
  | cons y l ih =>
    obtain ⟨h1, h2, h3⟩ := ih (max r y)
    rw [List.foldl_cons]
    generalize l.foldl max (max r y) = m at *
    refine ⟨?_, by omega, ?_⟩
    · rcases h1 with h1 | h1
      · rcases Nat.le_total r y with h | h
        · right; rw [h1, Nat.max_eq_right h]; simp
        · left; omega
      · right; simp [h1]
    · intro x hx
      rcases List.mem_cons.1 hx with rfl | hx
      · omega
      · exact h3 x hx

end Dashmm.Trace
