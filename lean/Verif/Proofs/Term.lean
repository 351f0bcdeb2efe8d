import Verif.Proofs.Schedule
namespace Dashmm
open Ev ExecState

variable {ν ε V : Type} [DecidableEq ν] [AddCommMonoid V]

structure TermInv (D : ExecDag ν ε V) (loc : ν → Nat) (S : Sys ν ε V) (k : Nat) : Prop where
  split : ∃ vis, vis ++ (S.term k).todo = D.watched ∧
    ∀ r ∈ vis, loc r = k → r ∈ (S.term k).waiting ∨ Ev.trigger r ∈ S.ex.log
  wait : ∀ r ∈ (S.term k).waiting, r ∈ D.watched
  rem : (S.term k).remaining = (S.term k).todo.length + (S.term k).waiting.length +
    (if (S.term k).closed then 0 else (S.term k).nskip)
  clo : (S.term k).closed = true → (S.term k).todo = []

theorem Step.log_append {D : ExecDag ν ε V} {s t : ExecState ν ε V} (h : ExecState.Step D s t) :
    ∃ l, t.log = s.log ++ l := by
  cases h <;> exact ⟨_, rfl⟩

@[simp] theorem setTerm_same (S : Sys ν ε V) (k : Nat) (t : TermState ν) :
    (S.setTerm k t).term k = t := by simp [Sys.setTerm]
theorem setTerm_other (S : Sys ν ε V) {k j : Nat} (t : TermState ν) (h : j ≠ k) :
    (S.setTerm k t).term j = S.term j := by simp [Sys.setTerm, h]
@[simp] theorem setTerm_ex (S : Sys ν ε V) (k : Nat) (t : TermState ν) :
    (S.setTerm k t).ex = S.ex := rfl

theorem TermInv.other {D : ExecDag ν ε V} {loc : ν → Nat} {S : Sys ν ε V} {k j : Nat}
    {t : TermState ν} (h : TermInv D loc S j) (hj : j ≠ k) : TermInv D loc (S.setTerm k t) j := by
  obtain ⟨h1, h2, h3, h4⟩ := h
  constructor <;> rw [setTerm_other S t hj] <;> assumption

theorem termInv_step {D : ExecDag ν ε V} {loc : ν → Nat} {n : Nat} {S T : Sys ν ε V}
    (hs : Sys.Step D loc n S T) (h : ∀ k, TermInv D loc S k) : ∀ k, TermInv D loc T k := by
  cases hs with
  | @exec ex' hx =>
    intro k
    obtain ⟨l, hl⟩ := Step.log_append hx
    obtain ⟨⟨vis, h1, h1'⟩, h2, h3, h4⟩ := h k
    refine ⟨⟨vis, h1, fun r hr hk => ?_⟩, h2, h3, h4⟩
    rcases h1' r hr hk with h | h
    · exact .inl h
    · exact .inr (by show _ ∈ ex'.log; rw [hl]; exact List.mem_append_left _ h)
  | @register k r l hk ht ho =>
    intro j
    by_cases hj : j = k
    · subst hj
      obtain ⟨⟨vis, h1, h1'⟩, h2, h3, h4⟩ := h j
      constructor
      · refine ⟨vis ++ [r], by rw [setTerm_same, ← h1, ht]; simp, ?_⟩
        intro a ha hl
        rw [setTerm_same, setTerm_ex]
        rcases List.mem_append.1 ha with ha | ha
        · rcases h1' a ha hl with h | h
          · exact .inl (List.mem_append_left _ h)
          · exact .inr h
        · exact .inl (List.mem_append_right _ ha)
      · intro a ha
        rw [setTerm_same] at ha
        rcases List.mem_append.1 ha with ha | ha
        · exact h2 a ha
        · rw [← h1, ht]; simp at ha; simp [ha]
      · rw [setTerm_same, h3, ht]
        simp only [List.length_append, List.length_cons, List.length_nil]; push_cast; omega
      · rw [setTerm_same]
        intro hc; have := h4 hc; rw [ht] at this; simp at this
    · exact (h j).other hj
  | @skip k r l hk ht ho =>
    intro j
    by_cases hj : j = k
    · subst hj
      obtain ⟨⟨vis, h1, h1'⟩, h2, h3, h4⟩ := h j
      have hcl : (S.term j).closed = false := by
        cases hc : (S.term j).closed with
        | false => rfl
        | true => have := h4 hc; rw [ht] at this; simp at this
      constructor
      · refine ⟨vis ++ [r], by rw [setTerm_same, ← h1, ht]; simp, ?_⟩
        intro a ha hl
        rw [setTerm_same, setTerm_ex]
        rcases List.mem_append.1 ha with ha | ha
        · exact h1' a ha hl
        · simp at ha; subst ha; exact absurd hl ho
      · intro a ha
        rw [setTerm_same] at ha
        exact h2 a ha
      · rw [setTerm_same]
        simp only [hcl] at h3 ⊢
        rw [h3, ht]
        simp only [List.length_cons]; simp; omega
      · rw [setTerm_same]
        intro hc; rw [hcl] at hc; simp at hc
    · exact (h j).other hj
  | @close k hk ht hc =>
    intro j
    by_cases hj : j = k
    · subst hj
      obtain ⟨⟨vis, h1, h1'⟩, h2, h3, h4⟩ := h j
      constructor
      · exact ⟨vis, by rw [setTerm_same]; exact h1, by rw [setTerm_same]; exact h1'⟩
      · rw [setTerm_same]; exact h2
      · rw [setTerm_same]; simp only [hc] at h3; simp at h3 ⊢; omega
      · rw [setTerm_same]; exact fun _ => ht
    · exact (h j).other hj
  | @fire k r p q hk hw ht =>
    intro j
    by_cases hj : j = k
    · subst hj
      obtain ⟨⟨vis, h1, h1'⟩, h2, h3, h4⟩ := h j
      constructor
      · refine ⟨vis, by rw [setTerm_same]; exact h1, ?_⟩
        intro a ha hl
        rw [setTerm_same, setTerm_ex]
        rcases h1' a ha hl with h | h
        · rw [hw] at h
          rcases List.mem_append.1 h with h | h
          · exact .inl (List.mem_append_left _ h)
          · rcases List.mem_cons.1 h with rfl | h
            · exact .inr ht
            · exact .inl (List.mem_append_right _ h)
        · exact .inr h
      · rw [setTerm_same]
        intro a ha
        apply h2 a
        rw [hw]
        rcases List.mem_append.1 ha with ha | ha
        · exact List.mem_append_left _ ha
        · exact List.mem_append_right _ (List.mem_cons_of_mem _ ha)
      · rw [setTerm_same, h3, hw]
        simp only [List.length_append, List.length_cons]; push_cast; omega
      · rw [setTerm_same]; exact h4
    · exact (h j).other hj

theorem termInv_init (D : ExecDag ν ε V) (loc : ν → Nat) (k : Nat) :
    TermInv D loc (Sys.init D) k := by
  constructor <;> simp [Sys.init, TermState.init]

theorem Sys.Steps.term {D : ExecDag ν ε V} {loc : ν → Nat} {n m : Nat} {S : Sys ν ε V}
    (h : Sys.Steps D loc n m S) : ∀ k, TermInv D loc S k := by
  induction h with
  | init => exact termInv_init D loc
  | step _ h' ih => exact termInv_step h' ih

theorem Sys.Steps.reach {D : ExecDag ν ε V} {loc : ν → Nat} {n m : Nat} {S : Sys ν ε V}
    (h : Sys.Steps D loc n m S) : Reach D S.ex := by
  induction h with
  | init => exact ⟨0, .refl _⟩
  | step _ h' ih =>
    cases h' with
    | exec hx => obtain ⟨i, hi⟩ := ih; exact ⟨i + 1, hi.tail hx⟩
    | register => exact ih
    | skip => exact ih
    | close => exact ih
    | fire => exact ih

/-- The LCO of a rank is done only if its nodes have triggered. -/
theorem TermInv.done {D : ExecDag ν ε V} {loc : ν → Nat} {S : Sys ν ε V} {k : Nat}
    (h : TermInv D loc S k) (hd : S.Done k) :
    ∀ r ∈ D.watched, loc r = k → Ev.trigger r ∈ S.ex.log := by
  obtain ⟨⟨vis, h1, h1'⟩, h2, h3, h4⟩ := h
  unfold Sys.Done at hd
  rw [hd] at h3
  have hn : (0 : Int) ≤ (if (S.term k).closed then 0 else ((S.term k).nskip : Int)) := by
    split <;> omega
  have ht : (S.term k).todo = [] := List.length_eq_zero_iff.1 (by omega)
  have hw : (S.term k).waiting = [] := List.length_eq_zero_iff.1 (by omega)
  intro r hr hl
  rw [ht, List.append_nil] at h1
  rcases h1' r (h1 ▸ hr) hl with h | h
  · rw [hw] at h; simp at h
  · exact h

/-- Never more sets than the LCO waits for. -/
theorem TermInv.nonneg {D : ExecDag ν ε V} {loc : ν → Nat} {S : Sys ν ε V} {k : Nat}
    (h : TermInv D loc S k) : 0 ≤ (S.term k).remaining := by
  rw [h.rem]; split <;> omega

/-- Progress of the termination detection. -/
def termLeft (t : TermState ν) : Nat := 2 * t.todo.length + t.waiting.length + if t.closed then 0 else 1

def sysLeft (n : Nat) (S : Sys ν ε V) : Nat := ((List.range n).map fun k => termLeft (S.term k)).sum

theorem sysLeft_set {n k : Nat} (hk : k < n) (S : Sys ν ε V) (t : TermState ν) :
    sysLeft n (S.setTerm k t) + termLeft (S.term k) = sysLeft n S + termLeft t := by
  unfold sysLeft
  induction n with
  | zero => omega
  | succ n ih =>
    simp only [List.range_succ, List.map_append, List.sum_append, List.map_cons, List.map_nil,
      List.sum_cons, List.sum_nil, Nat.add_zero]
    by_cases h : k = n
    · subst h
      have : ((List.range k).map fun j => termLeft ((S.setTerm k t).term j)) =
          (List.range k).map fun j => termLeft (S.term j) := by
        apply List.map_congr_left
        intro j hj
        rw [setTerm_other S t (by have := List.mem_range.1 hj; omega)]
      rw [this, setTerm_same]
      omega
    · have := ih (by omega)
      rw [setTerm_other S t (Ne.symm h)]
      omega

theorem set_progress {n k : Nat} (hk : k < n) {S : Sys ν ε V} {t : TermState ν}
    (h : termLeft t + 1 ≤ termLeft (S.term k)) :
    S.ex.log.length + sysLeft n (S.setTerm k t) + 1 ≤
      (S.setTerm k t).ex.log.length + sysLeft n S := by
  have := sysLeft_set hk S t
  rw [setTerm_ex]; omega

theorem sysStep_progress {D : ExecDag ν ε V} {loc : ν → Nat} {n : Nat} {S T : Sys ν ε V}
    (hs : Sys.Step D loc n S T) :
    S.ex.log.length + sysLeft n T + 1 ≤ T.ex.log.length + sysLeft n S := by
  cases hs with
  | exec hx =>
    have := Step.log_lt hx
    simp only [sysLeft]; omega
  | register hk ht ho =>
    apply set_progress hk
    simp only [termLeft, ht, List.length_cons, List.length_append, List.length_nil]; omega
  | skip hk ht ho =>
    apply set_progress hk
    simp only [termLeft, ht, List.length_cons]; omega
  | close hk ht hc =>
    apply set_progress hk
    simp [termLeft, hc]
  | fire hk hw ht =>
    apply set_progress hk
    simp only [termLeft, hw, List.length_cons, List.length_append]; omega

theorem Sys.Steps.bound {D : ExecDag ν ε V} {loc : ν → Nat} {n m : Nat} {S : Sys ν ε V}
    (h : Sys.Steps D loc n m S) : m + sysLeft n S ≤ S.ex.log.length + sysLeft n (Sys.init D) := by
  induction h with
  | init => simp [Sys.init]
  | step _ h' ih => have := sysStep_progress h'; omega

theorem sysLeft_init (D : ExecDag ν ε V) (n : Nat) :
    sysLeft n (Sys.init D) = n * (2 * D.watched.length + 1) := by
  unfold sysLeft
  simp [Sys.init, TermState.init, termLeft]

/-- If the system is stuck, the execution is quiet and the detection has done all it could. -/
theorem sys_stuck {D : ExecDag ν ε V} {loc : ν → Nat} {n m : Nat} {S : Sys ν ε V}
    (hS : Sys.Steps D loc n m S) (hstuck : ∀ T, ¬ Sys.Step D loc n S T) :
    Quiet S.ex ∧ ∀ k, k < n → (S.term k).todo = [] ∧ (S.term k).closed = true ∧
      ∀ r ∈ (S.term k).waiting, Ev.trigger r ∉ S.ex.log := by
  refine ⟨?_, ?_⟩
  · by_contra hq
    obtain ⟨t, ht⟩ := exists_step (D := D) hq
    exact hstuck _ (.exec ht)
  · intro k hk
    have htodo : (S.term k).todo = [] := by
      cases ht : (S.term k).todo with
      | nil => rfl
      | cons r l =>
        by_cases ho : loc r = k
        · exact absurd (Sys.Step.register hk ht ho) (hstuck _)
        · exact absurd (Sys.Step.skip hk ht ho) (hstuck _)
    refine ⟨htodo, ?_, ?_⟩
    · cases hc : (S.term k).closed with
      | true => rfl
      | false => exact absurd (Sys.Step.close hk htodo hc) (hstuck _)
    · intro r hr ht
      obtain ⟨p, q, hpq⟩ := List.append_of_mem hr
      exact hstuck _ (.fire hk hpq ht)

end Dashmm
