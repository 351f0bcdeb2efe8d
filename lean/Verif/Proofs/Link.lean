import Verif.Model.Link
import Mathlib.Algebra.BigOperators.Group.Finset.Basic
import Mathlib.Data.Finset.Card
import Mathlib.Data.List.Perm.Basic
namespace Dashmm
namespace Link
open Finset

def PC.pastD : PC → Bool
  | .idle | .lockedD | .readD _ => false
  | _ => true

def PC.pastS : PC → Bool
  | .wroteS | .done => true
  | _ => false

def PC.holdsD : PC → Bool
  | .lockedD | .readD _ | .wroteD => true
  | _ => false

def PC.holdsS : PC → Bool
  | .lockedS | .readS _ | .wroteS => true
  | _ => false

def PC.num : PC → Nat
  | .idle => 0 | .lockedD => 1 | .readD _ => 2 | .wroteD => 3 | .between => 4
  | .lockedS => 5 | .readS _ => 6 | .wroteS => 7 | .done => 8

/-- Number of tasks with a property. -/
def cnt (N : Nat) (p : Nat → Bool) : Nat := ((range N).filter fun i => p i = true).card

theorem cnt_congr {N : Nat} {p q : Nat → Bool} (h : ∀ i < N, p i = q i) : cnt N p = cnt N q := by
  unfold cnt
  congr 1
  apply filter_congr
  intro i hi
  rw [h i (mem_range.1 hi)]

theorem cnt_one {N i : Nat} {p q : Nat → Bool} (hi : i < N) (h : ∀ j, j ≠ i → p j = q j) (h1 : p i = false) (h2 : q i = true) :
    cnt N q = cnt N p + 1 := by
  unfold cnt
  have : (range N).filter (fun j => q j = true) = insert i ((range N).filter fun j => p j = true) := by
    ext j
    simp only [mem_filter, mem_range, mem_insert]
    by_cases hj : j = i
    · subst hj; simp [hi, h2]
    · simp [hj, h j hj]
  rw [this, card_insert_of_notMem]
  simp [h1]

/-- Does the op at `i` satisfy `p`? -/
def at' (ops : List Edge) (i : Nat) (p : Edge → Bool) : Bool := ((ops[i]?).map p).getD false

theorem at'_some {ops : List Edge} {i : Nat} {e : Edge} (h : ops[i]? = some e) (p : Edge → Bool) : at' ops i p = p e := by
  unfold at'; rw [h]; rfl

structure Inv (ops : List Edge) (s : State) : Prop where
  count : ∀ r, s.inCount r = cnt ops.length fun i => at' ops i (fun e => e.dst == r) && (s.pc i).pastD
  out : ∀ r e, (s.out r).count e = cnt ops.length fun i => at' ops i (fun e' => e'.src == r && e' == e) && (s.pc i).pastS
  readD : ∀ i n e, ops[i]? = some e → s.pc i = .readD n → n = s.inCount e.dst
  readS : ∀ i l e, ops[i]? = some e → s.pc i = .readS l → l = s.out e.src
  lockD : ∀ i e, ops[i]? = some e → (s.pc i).holdsD = true → s.lock (info e.dst) = some i
  lockS : ∀ i e, ops[i]? = some e → (s.pc i).holdsS = true → s.lock (info e.src) = some i
  holder : ∀ o i, s.lock o = some i → ∃ e, ops[i]? = some e ∧
    ((info e.dst = o ∧ (s.pc i).holdsD = true) ∨ (info e.src = o ∧ (s.pc i).holdsS = true))
  idle : ∀ i, ops[i]? = none → s.pc i = .idle

theorem inv_start (ops : List Edge) : Inv ops start where
  count r := by simp [start, PC.pastD, cnt]
  out r e := by simp [start, PC.pastS, cnt]
  readD := by intro i n e _ h; simp [start] at h
  readS := by intro i n e _ h; simp [start] at h
  lockD := by intro i e _ h; simp [start, PC.holdsD] at h
  lockS := by intro i e _ h; simp [start, PC.holdsS] at h
  holder := by intro o i h; simp [start] at h
  idle := fun _ _ => rfl

@[simp] theorem goto_pc (s : State) (i j : Nat) (p : PC) : (s.goto i p).pc j = if j = i then p else s.pc j := rfl
@[simp] theorem goto_in (s : State) (i : Nat) (p : PC) : (s.goto i p).inCount = s.inCount := rfl
@[simp] theorem goto_out (s : State) (i : Nat) (p : PC) : (s.goto i p).out = s.out := rfl
@[simp] theorem goto_lock (s : State) (i : Nat) (p : PC) : (s.goto i p).lock = s.lock := rfl
@[simp] theorem setLock_pc (s : State) (o : Info) (v) : (setLock s o v).pc = s.pc := rfl
@[simp] theorem setLock_in (s : State) (o : Info) (v) : (setLock s o v).inCount = s.inCount := rfl
@[simp] theorem setLock_out (s : State) (o : Info) (v) : (setLock s o v).out = s.out := rfl
@[simp] theorem setLock_lock (s : State) (o o' : Info) (v) : (setLock s o v).lock o' = if o' = o then v else s.lock o' := rfl

/-- A change of task `i` that is not a write keeps the counts. -/
theorem count_keep {ops : List Edge} {s : State} {i : Nat} {p : PC} (q : Nat → Bool) (f : PC → Bool) (h : f p = f (s.pc i)) :
    cnt ops.length (fun j => q j && f (if j = i then p else s.pc j)) = cnt ops.length fun j => q j && f (s.pc j) := by
  apply cnt_congr
  intro j _
  by_cases hj : j = i
  · subst hj; simp [h]
  · simp [hj]

theorem some_lt {ops : List Edge} {i : Nat} {e : Edge} (h : ops[i]? = some e) : i < ops.length :=
  (List.getElem?_eq_some_iff.1 h).1

theorem inv_step {ops : List Edge} {s s' : State} (h : Inv ops s) (hs : Step ops s s') : Inv ops s' := by
  have some_ne : ∀ {i j : Nat} {e : Edge}, ops[i]? = some e → ops[j]? = none → j ≠ i := by
    intro i j e h1 h2 h3; subst h3; rw [h1] at h2; simp at h2
  cases hs with
  | @lockD i e hi hp hl =>
    have hfree : ∀ j e', ops[j]? = some e' → (s.pc j).holdsD = true → info e'.dst ≠ info e.dst := by
      intro j e' h1 h2 h3; have := h.lockD j e' h1 h2; rw [h3, hl] at this; simp at this
    have hfree' : ∀ j e', ops[j]? = some e' → (s.pc j).holdsS = true → info e'.src ≠ info e.dst := by
      intro j e' h1 h2 h3; have := h.lockS j e' h1 h2; rw [h3, hl] at this; simp at this
    refine ⟨fun r => ?_, fun r e' => ?_, ?_, ?_, ?_, ?_, ?_, ?_⟩
    · simp only [goto_pc, setLock_pc, goto_in, setLock_in]; rw [count_keep _ _ (by rw [hp]; rfl)]; exact h.count r
    · simp only [goto_pc, setLock_pc, goto_out, setLock_out]; rw [count_keep _ _ (by rw [hp]; rfl)]; exact h.out r e'
    · intro j n e' h1 h2
      simp only [goto_pc, setLock_pc] at h2
      split at h2
      · simp at h2
      · exact h.readD j n e' h1 h2
    · intro j n e' h1 h2
      simp only [goto_pc, setLock_pc] at h2
      split at h2
      · simp at h2
      · exact h.readS j n e' h1 h2
    · intro j e' h1 h2
      simp only [goto_pc, setLock_pc, goto_lock, setLock_lock] at h2 ⊢
      by_cases hj : j = i
      · subst hj; rw [hi] at h1; injection h1 with h1; subst h1; simp
      · rw [if_neg hj] at h2; rw [if_neg (hfree j e' h1 h2)]; exact h.lockD j e' h1 h2
    · intro j e' h1 h2
      simp only [goto_pc, setLock_pc, goto_lock, setLock_lock] at h2 ⊢
      by_cases hj : j = i
      · subst hj; simp [PC.holdsS] at h2
      · rw [if_neg hj] at h2; rw [if_neg (hfree' j e' h1 h2)]; exact h.lockS j e' h1 h2
    · intro o j h1
      simp only [goto_pc, setLock_pc, goto_lock, setLock_lock] at h1 ⊢
      by_cases ho : o = info e.dst
      · rw [if_pos ho] at h1
        injection h1 with h1; subst h1
        exact ⟨e, hi, Or.inl ⟨ho.symm, by simp [PC.holdsD]⟩⟩
      · rw [if_neg ho] at h1
        have hne : j ≠ i := by
          rintro rfl
          obtain ⟨e', _, h3 | h3⟩ := h.holder o j h1
          · rw [hp] at h3; simp [PC.holdsD] at h3
          · rw [hp] at h3; simp [PC.holdsS] at h3
        simp only [if_neg hne]
        exact h.holder o j h1
    · intro j hj
      simp only [goto_pc, setLock_pc]
      rw [if_neg (some_ne hi hj)]; exact h.idle j hj
  | @readD i e hi hp =>
    refine ⟨fun r => ?_, fun r e' => ?_, ?_, ?_, ?_, ?_, ?_, ?_⟩
    · simp only [goto_pc, goto_in]; rw [count_keep _ _ (by rw [hp]; rfl)]; exact h.count r
    · simp only [goto_pc, goto_out]; rw [count_keep _ _ (by rw [hp]; rfl)]; exact h.out r e'
    · intro j n e' h1 h2
      simp only [goto_pc, goto_in] at h2 ⊢
      split at h2
      · rename_i hj; subst hj; rw [hi] at h1; injection h1 with h1; subst h1; injection h2 with h2; exact h2.symm
      · exact h.readD j n e' h1 h2
    · intro j n e' h1 h2
      simp only [goto_pc] at h2
      split at h2
      · simp at h2
      · exact h.readS j n e' h1 h2
    · intro j e' h1 h2
      simp only [goto_pc, goto_lock] at h2 ⊢
      by_cases hj : j = i
      · subst hj; exact h.lockD j e' h1 (by rw [hp]; rfl)
      · rw [if_neg hj] at h2; exact h.lockD j e' h1 h2
    · intro j e' h1 h2
      simp only [goto_pc, goto_lock] at h2 ⊢
      by_cases hj : j = i
      · subst hj; simp [PC.holdsS] at h2
      · rw [if_neg hj] at h2; exact h.lockS j e' h1 h2
    · intro o j h1
      simp only [goto_pc, goto_lock] at h1 ⊢
      obtain ⟨e', h2, h3⟩ := h.holder o j h1
      refine ⟨e', h2, ?_⟩
      by_cases hj : j = i
      · subst hj; rw [hp] at h3; simpa [PC.holdsD, PC.holdsS] using h3
      · simpa [hj] using h3
    · intro j hj
      simp only [goto_pc]
      rw [if_neg (some_ne hi hj)]; exact h.idle j hj
  | @writeD i e n hi hp =>
    have hn : n = s.inCount e.dst := h.readD i n e hi hp
    have hlk := h.lockD i e hi (by rw [hp]; rfl)
    refine ⟨fun r => ?_, fun r e' => ?_, ?_, ?_, ?_, ?_, ?_, ?_⟩
    · simp only [goto_pc, goto_in]
      by_cases hr : r = e.dst
      · rw [if_pos hr, hn, ← hr, h.count r]
        symm
        apply cnt_one (some_lt hi)
        · intro j hj; simp [hj]
        · simp [hp, PC.pastD]
        · rw [at'_some hi]; simp [hr, PC.pastD]
      · rw [if_neg hr, h.count r]
        apply cnt_congr
        intro j _
        by_cases hj : j = i
        · subst hj; rw [at'_some hi]
          have : (e.dst == r) = false := by simpa using fun h => hr h.symm
          simp [this]
        · simp [hj]
    · simp only [goto_pc, goto_out]; rw [count_keep _ _ (by rw [hp]; rfl)]; exact h.out r e'
    · intro j n' e' h1 h2
      simp only [goto_pc, goto_in] at h2 ⊢
      split at h2
      · simp at h2
      · rename_i hj
        have hne : e'.dst ≠ e.dst := by
          intro heq
          have := h.lockD j e' h1 (by rw [h2]; rfl)
          rw [heq, hlk] at this
          injection this with this
          exact hj this.symm
        rw [if_neg hne]
        exact h.readD j n' e' h1 h2
    · intro j l e' h1 h2
      simp only [goto_pc] at h2
      split at h2
      · simp at h2
      · exact h.readS j l e' h1 h2
    · intro j e' h1 h2
      simp only [goto_pc, goto_lock] at h2 ⊢
      by_cases hj : j = i
      · subst hj; exact h.lockD j e' h1 (by rw [hp]; rfl)
      · rw [if_neg hj] at h2; exact h.lockD j e' h1 h2
    · intro j e' h1 h2
      simp only [goto_pc, goto_lock] at h2 ⊢
      by_cases hj : j = i
      · subst hj; simp [PC.holdsS] at h2
      · rw [if_neg hj] at h2; exact h.lockS j e' h1 h2
    · intro o j h1
      simp only [goto_pc, goto_lock] at h1 ⊢
      obtain ⟨e', h2, h3⟩ := h.holder o j h1
      refine ⟨e', h2, ?_⟩
      by_cases hj : j = i
      · subst hj; rw [hp] at h3; simpa [PC.holdsD, PC.holdsS] using h3
      · simpa [hj] using h3
    · intro j hj
      simp only [goto_pc]
      rw [if_neg (some_ne hi hj)]; exact h.idle j hj
  | @unlockD i e hi hp =>
    have hlk := h.lockD i e hi (by rw [hp]; rfl)
    refine ⟨fun r => ?_, fun r e' => ?_, ?_, ?_, ?_, ?_, ?_, ?_⟩
    · simp only [goto_pc, setLock_pc, goto_in, setLock_in]; rw [count_keep _ _ (by rw [hp]; rfl)]; exact h.count r
    · simp only [goto_pc, setLock_pc, goto_out, setLock_out]; rw [count_keep _ _ (by rw [hp]; rfl)]; exact h.out r e'
    · intro j n e' h1 h2
      simp only [goto_pc, setLock_pc] at h2
      split at h2
      · simp at h2
      · exact h.readD j n e' h1 h2
    · intro j n e' h1 h2
      simp only [goto_pc, setLock_pc] at h2
      split at h2
      · simp at h2
      · exact h.readS j n e' h1 h2
    · intro j e' h1 h2
      simp only [goto_pc, setLock_pc, goto_lock, setLock_lock] at h2 ⊢
      by_cases hj : j = i
      · subst hj; simp [PC.holdsD] at h2
      · rw [if_neg hj] at h2
        have h3 := h.lockD j e' h1 h2
        rw [if_neg, h3]
        intro heq; rw [heq, hlk] at h3; injection h3 with h3; exact hj h3.symm
    · intro j e' h1 h2
      simp only [goto_pc, setLock_pc, goto_lock, setLock_lock] at h2 ⊢
      by_cases hj : j = i
      · subst hj; simp [PC.holdsS] at h2
      · rw [if_neg hj] at h2
        have h3 := h.lockS j e' h1 h2
        rw [if_neg, h3]
        intro heq; rw [heq, hlk] at h3; injection h3 with h3; exact hj h3.symm
    · intro o j h1
      simp only [goto_pc, setLock_pc, goto_lock, setLock_lock] at h1 ⊢
      by_cases ho : o = info e.dst
      · rw [if_pos ho] at h1; simp at h1
      · rw [if_neg ho] at h1
        have hne : j ≠ i := by
          rintro rfl
          obtain ⟨e', h2, h3 | h3⟩ := h.holder o j h1
          · rw [hi] at h2; injection h2 with h2; subst h2; exact ho h3.1.symm
          · rw [hp] at h3; simp [PC.holdsS] at h3
        simp only [if_neg hne]
        exact h.holder o j h1
    · intro j hj
      simp only [goto_pc, setLock_pc]
      rw [if_neg (some_ne hi hj)]; exact h.idle j hj
  | @lockS i e hi hp hl =>
    have hfree : ∀ j e', ops[j]? = some e' → (s.pc j).holdsD = true → info e'.dst ≠ info e.src := by
      intro j e' h1 h2 h3; have := h.lockD j e' h1 h2; rw [h3, hl] at this; simp at this
    have hfree' : ∀ j e', ops[j]? = some e' → (s.pc j).holdsS = true → info e'.src ≠ info e.src := by
      intro j e' h1 h2 h3; have := h.lockS j e' h1 h2; rw [h3, hl] at this; simp at this
    refine ⟨fun r => ?_, fun r e' => ?_, ?_, ?_, ?_, ?_, ?_, ?_⟩
    · simp only [goto_pc, setLock_pc, goto_in, setLock_in]; rw [count_keep _ _ (by rw [hp]; rfl)]; exact h.count r
    · simp only [goto_pc, setLock_pc, goto_out, setLock_out]; rw [count_keep _ _ (by rw [hp]; rfl)]; exact h.out r e'
    · intro j n e' h1 h2
      simp only [goto_pc, setLock_pc] at h2
      split at h2
      · simp at h2
      · exact h.readD j n e' h1 h2
    · intro j n e' h1 h2
      simp only [goto_pc, setLock_pc] at h2
      split at h2
      · simp at h2
      · exact h.readS j n e' h1 h2
    · intro j e' h1 h2
      simp only [goto_pc, setLock_pc, goto_lock, setLock_lock] at h2 ⊢
      by_cases hj : j = i
      · subst hj; simp [PC.holdsD] at h2
      · rw [if_neg hj] at h2; rw [if_neg (hfree j e' h1 h2)]; exact h.lockD j e' h1 h2
    · intro j e' h1 h2
      simp only [goto_pc, setLock_pc, goto_lock, setLock_lock] at h2 ⊢
      by_cases hj : j = i
      · subst hj; rw [hi] at h1; injection h1 with h1; subst h1; simp
      · rw [if_neg hj] at h2; rw [if_neg (hfree' j e' h1 h2)]; exact h.lockS j e' h1 h2
    · intro o j h1
      simp only [goto_pc, setLock_pc, goto_lock, setLock_lock] at h1 ⊢
      by_cases ho : o = info e.src
      · rw [if_pos ho] at h1
        injection h1 with h1; subst h1
        exact ⟨e, hi, Or.inr ⟨ho.symm, by simp [PC.holdsS]⟩⟩
      · rw [if_neg ho] at h1
        have hne : j ≠ i := by
          rintro rfl
          obtain ⟨e', _, h3 | h3⟩ := h.holder o j h1
          · rw [hp] at h3; simp [PC.holdsD] at h3
          · rw [hp] at h3; simp [PC.holdsS] at h3
        simp only [if_neg hne]
        exact h.holder o j h1
    · intro j hj
      simp only [goto_pc, setLock_pc]
      rw [if_neg (some_ne hi hj)]; exact h.idle j hj
  | @readS i e hi hp =>
    refine ⟨fun r => ?_, fun r e' => ?_, ?_, ?_, ?_, ?_, ?_, ?_⟩
    · simp only [goto_pc, goto_in]; rw [count_keep _ _ (by rw [hp]; rfl)]; exact h.count r
    · simp only [goto_pc, goto_out]; rw [count_keep _ _ (by rw [hp]; rfl)]; exact h.out r e'
    · intro j n e' h1 h2
      simp only [goto_pc] at h2
      split at h2
      · simp at h2
      · exact h.readD j n e' h1 h2
    · intro j n e' h1 h2
      simp only [goto_pc, goto_out] at h2 ⊢
      split at h2
      · rename_i hj; subst hj; rw [hi] at h1; injection h1 with h1; subst h1; injection h2 with h2; exact h2.symm
      · exact h.readS j n e' h1 h2
    · intro j e' h1 h2
      simp only [goto_pc, goto_lock] at h2 ⊢
      by_cases hj : j = i
      · subst hj; simp [PC.holdsD] at h2
      · rw [if_neg hj] at h2; exact h.lockD j e' h1 h2
    · intro j e' h1 h2
      simp only [goto_pc, goto_lock] at h2 ⊢
      by_cases hj : j = i
      · subst hj; exact h.lockS j e' h1 (by rw [hp]; rfl)
      · rw [if_neg hj] at h2; exact h.lockS j e' h1 h2
    · intro o j h1
      simp only [goto_pc, goto_lock] at h1 ⊢
      obtain ⟨e', h2, h3⟩ := h.holder o j h1
      refine ⟨e', h2, ?_⟩
      by_cases hj : j = i
      · subst hj; rw [hp] at h3; simpa [PC.holdsD, PC.holdsS] using h3
      · simpa [hj] using h3
    · intro j hj
      simp only [goto_pc]
      rw [if_neg (some_ne hi hj)]; exact h.idle j hj
  | @writeS i e l hi hp =>
    have hl : l = s.out e.src := h.readS i l e hi hp
    have hlk := h.lockS i e hi (by rw [hp]; rfl)
    refine ⟨fun r => ?_, fun r e' => ?_, ?_, ?_, ?_, ?_, ?_, ?_⟩
    · simp only [goto_pc, goto_in]; rw [count_keep _ _ (by rw [hp]; rfl)]; exact h.count r
    · simp only [goto_pc, goto_out]
      by_cases hr : r = e.src ∧ e' = e
      · obtain ⟨hr, rfl⟩ := hr
        rw [if_pos hr, hl, ← hr, List.count_append, h.out r]
        have : List.count e' [e'] = 1 := by simp
        rw [this]
        symm
        apply cnt_one (some_lt hi)
        · intro j hj; simp [hj]
        · simp [hp, PC.pastS]
        · rw [at'_some hi]; simp [hr, PC.pastS]
      · have hsame : (if r = e.src then l ++ [e] else s.out r).count e' = (s.out r).count e' := by
          by_cases h1 : r = e.src
          · have hne : e' ≠ e := fun h2 => hr ⟨h1, h2⟩
            rw [if_pos h1, hl, ← h1, List.count_append, List.count_eq_zero_of_not_mem (l := [e]) (by simpa using hne)]
            rfl
          · rw [if_neg h1]
        rw [hsame, h.out r]
        apply cnt_congr
        intro j _
        by_cases hj : j = i
        · subst hj
          rw [at'_some hi]
          have : (e.src == r && e == e') = false := by
            by_contra hc
            simp at hc
            exact hr ⟨hc.1.symm, hc.2.symm⟩
          simp [this]
        · simp [hj]
    · intro j n e' h1 h2
      simp only [goto_pc] at h2
      split at h2
      · simp at h2
      · exact h.readD j n e' h1 h2
    · intro j l' e' h1 h2
      simp only [goto_pc, goto_out] at h2 ⊢
      split at h2
      · simp at h2
      · rename_i hj
        have hne : e'.src ≠ e.src := by
          intro heq
          have := h.lockS j e' h1 (by rw [h2]; rfl)
          rw [heq, hlk] at this
          injection this with this
          exact hj this.symm
        rw [if_neg hne]
        exact h.readS j l' e' h1 h2
    · intro j e' h1 h2
      simp only [goto_pc, goto_lock] at h2 ⊢
      by_cases hj : j = i
      · subst hj; simp [PC.holdsD] at h2
      · rw [if_neg hj] at h2; exact h.lockD j e' h1 h2
    · intro j e' h1 h2
      simp only [goto_pc, goto_lock] at h2 ⊢
      by_cases hj : j = i
      · subst hj; exact h.lockS j e' h1 (by rw [hp]; rfl)
      · rw [if_neg hj] at h2; exact h.lockS j e' h1 h2
    · intro o j h1
      simp only [goto_pc, goto_lock] at h1 ⊢
      obtain ⟨e', h2, h3⟩ := h.holder o j h1
      refine ⟨e', h2, ?_⟩
      by_cases hj : j = i
      · subst hj; rw [hp] at h3; simpa [PC.holdsD, PC.holdsS] using h3
      · simpa [hj] using h3
    · intro j hj
      simp only [goto_pc]
      rw [if_neg (some_ne hi hj)]; exact h.idle j hj
  | @unlockS i e hi hp =>
    have hlk := h.lockS i e hi (by rw [hp]; rfl)
    refine ⟨fun r => ?_, fun r e' => ?_, ?_, ?_, ?_, ?_, ?_, ?_⟩
    · simp only [goto_pc, setLock_pc, goto_in, setLock_in]; rw [count_keep _ _ (by rw [hp]; rfl)]; exact h.count r
    · simp only [goto_pc, setLock_pc, goto_out, setLock_out]; rw [count_keep _ _ (by rw [hp]; rfl)]; exact h.out r e'
    · intro j n e' h1 h2
      simp only [goto_pc, setLock_pc] at h2
      split at h2
      · simp at h2
      · exact h.readD j n e' h1 h2
    · intro j n e' h1 h2
      simp only [goto_pc, setLock_pc] at h2
      split at h2
      · simp at h2
      · exact h.readS j n e' h1 h2
    · intro j e' h1 h2
      simp only [goto_pc, setLock_pc, goto_lock, setLock_lock] at h2 ⊢
      by_cases hj : j = i
      · subst hj; simp [PC.holdsD] at h2
      · rw [if_neg hj] at h2
        have h3 := h.lockD j e' h1 h2
        rw [if_neg, h3]
        intro heq; rw [heq, hlk] at h3; injection h3 with h3; exact hj h3.symm
    · intro j e' h1 h2
      simp only [goto_pc, setLock_pc, goto_lock, setLock_lock] at h2 ⊢
      by_cases hj : j = i
      · subst hj; simp [PC.holdsS] at h2
      · rw [if_neg hj] at h2
        have h3 := h.lockS j e' h1 h2
        rw [if_neg, h3]
        intro heq; rw [heq, hlk] at h3; injection h3 with h3; exact hj h3.symm
    · intro o j h1
      simp only [goto_pc, setLock_pc, goto_lock, setLock_lock] at h1 ⊢
      by_cases ho : o = info e.src
      · rw [if_pos ho] at h1; simp at h1
      · rw [if_neg ho] at h1
        have hne : j ≠ i := by
          rintro rfl
          obtain ⟨e', h2, h3 | h3⟩ := h.holder o j h1
          · rw [hp] at h3; simp [PC.holdsD] at h3
          · rw [hi] at h2; injection h2 with h2; subst h2; exact ho h3.1.symm
        simp only [if_neg hne]
        exact h.holder o j h1
    · intro j hj
      simp only [goto_pc, setLock_pc]
      rw [if_neg (some_ne hi hj)]; exact h.idle j hj

theorem inv_reach {ops : List Edge} {k : Nat} {s : State} (h : Reach ops k s) : Inv ops s := by
  induction h with
  | init => exact inv_start ops
  | step _ hs ih => exact inv_step ih hs

/-- Each step moves one task on by one. -/
theorem reach_num {ops : List Edge} {k : Nat} {s : State} (h : Reach ops k s) :
    k = ∑ i ∈ range ops.length, (s.pc i).num := by
  induction h with
  | init => simp [start, PC.num]
  | step h hs ih =>
    rename_i k s s'
    have key : ∀ (t : State) (i : Nat) (e : Edge) (p : PC), ops[i]? = some e → t.pc = s.pc → p.num = (s.pc i).num + 1 →
        k + 1 = ∑ j ∈ range ops.length, ((t.goto i p).pc j).num := by
      intro t i e p hi ht hp
      have hm : i ∈ range ops.length := mem_range.2 (some_lt hi)
      rw [ih, ← add_sum_erase _ (fun j => (s.pc j).num) hm]
      refine Eq.trans ?_ (add_sum_erase _ _ hm)
      simp only [goto_pc, if_true, hp, ht]
      rw [Nat.add_right_comm]
      congr 1
      apply sum_congr rfl
      intro j hj
      rw [if_neg (mem_erase.1 hj).1]
    cases hs with
    | lockD hi hp hl => exact key _ _ _ _ hi rfl (by rw [hp]; rfl)
    | readD hi hp => exact key _ _ _ _ hi rfl (by rw [hp]; rfl)
    | writeD hi hp => exact key _ _ _ _ hi rfl (by rw [hp]; rfl)
    | unlockD hi hp => exact key _ _ _ _ hi rfl (by rw [hp]; rfl)
    | lockS hi hp hl => exact key _ _ _ _ hi rfl (by rw [hp]; rfl)
    | readS hi hp => exact key _ _ _ _ hi rfl (by rw [hp]; rfl)
    | writeS hi hp => exact key _ _ _ _ hi rfl (by rw [hp]; rfl)
    | unlockS hi hp => exact key _ _ _ _ hi rfl (by rw [hp]; rfl)

theorem num_le (p : PC) : p.num ≤ 8 := by cases p <;> simp [PC.num]

/-- A task holding a lock can go on. -/
theorem holder_steps {ops : List Edge} {s : State} {j : Nat} {e : Edge} (he : ops[j]? = some e)
    (h : (s.pc j).holdsD = true ∨ (s.pc j).holdsS = true) : ∃ s', Step ops s s' := by
  cases hp : s.pc j with
  | idle => rw [hp] at h; simp [PC.holdsD, PC.holdsS] at h
  | lockedD => exact ⟨_, .readD he hp⟩
  | readD n => exact ⟨_, .writeD he hp⟩
  | wroteD => exact ⟨_, .unlockD he hp⟩
  | between => rw [hp] at h; simp [PC.holdsD, PC.holdsS] at h
  | lockedS => exact ⟨_, .readS he hp⟩
  | readS l => exact ⟨_, .writeS he hp⟩
  | wroteS => exact ⟨_, .unlockS he hp⟩
  | done => rw [hp] at h; simp [PC.holdsD, PC.holdsS] at h

theorem progress {ops : List Edge} {s : State} (h : Inv ops s) {i : Nat} (hi : i < ops.length) (hd : s.pc i ≠ .done) :
    ∃ s', Step ops s s' := by
  obtain ⟨e, he⟩ : ∃ e, ops[i]? = some e := ⟨ops[i], List.getElem?_eq_getElem hi⟩
  have blocked : ∀ o j, s.lock o = some j → ∃ s', Step ops s s' := by
    intro o j hl
    obtain ⟨e', h1, h2⟩ := h.holder o j hl
    exact holder_steps h1 (h2.imp And.right And.right)
  by_cases hh : (s.pc i).holdsD = true ∨ (s.pc i).holdsS = true
  · exact holder_steps he hh
  · cases hp : s.pc i with
    | idle =>
      cases hl : s.lock (info e.dst) with
      | none => exact ⟨_, .lockD he hp hl⟩
      | some j => exact blocked _ j hl
    | between =>
      cases hl : s.lock (info e.src) with
      | none => exact ⟨_, .lockS he hp hl⟩
      | some j => exact blocked _ j hl
    | done => exact absurd hp hd
    | lockedD => rw [hp] at hh; simp [PC.holdsD] at hh
    | readD n => rw [hp] at hh; simp [PC.holdsD] at hh
    | wroteD => rw [hp] at hh; simp [PC.holdsD] at hh
    | lockedS => rw [hp] at hh; simp [PC.holdsS] at hh
    | readS l => rw [hp] at hh; simp [PC.holdsS] at hh
    | wroteS => rw [hp] at hh; simp [PC.holdsS] at hh

theorem cnt_countP (ops : List Edge) (p : Edge → Bool) : cnt ops.length (fun i => at' ops i p) = ops.countP p := by
  induction ops using List.reverseRecOn with
  | nil => rfl
  | append_singleton l e ih =>
    rw [List.countP_append, ← ih]
    unfold cnt
    rw [List.length_append, List.length_singleton, range_add_one, filter_insert]
    have h1 : at' (l ++ [e]) l.length p = p e := at'_some (by simp) p
    have h2 : ∀ i < l.length, at' (l ++ [e]) i p = at' l i p := by
      intro i hi; unfold at'; rw [List.getElem?_append_left hi]
    have h3 : (range l.length).filter (fun i => at' (l ++ [e]) i p = true) = (range l.length).filter fun i => at' l i p = true := by
      apply filter_congr; intro i hi; rw [h2 i (mem_range.1 hi)]
    simp only [h1, h3]
    by_cases hpe : p e = true
    · rw [if_pos hpe, card_insert_of_notMem (by simp)]; simp [hpe]
    · rw [if_neg hpe]; simp [hpe]

theorem final {ops : List Edge} {s : State} (h : Inv ops s) (hd : ∀ i < ops.length, s.pc i = .done) :
    (∀ r, s.inCount r = ops.countP fun e => e.dst == r) ∧ ∀ r, (s.out r).Perm (ops.filter fun e => e.src == r) := by
  constructor
  · intro r
    rw [h.count r, ← cnt_countP]
    apply cnt_congr
    intro i hi
    rw [hd i hi]; simp [PC.pastD]
  · intro r
    rw [List.perm_iff_count]
    intro e
    rw [h.out r e]
    have : cnt ops.length (fun i => at' ops i (fun e' => e'.src == r && e' == e) && (s.pc i).pastS) =
        cnt ops.length fun i => at' ops i fun e' => e'.src == r && e' == e := by
      apply cnt_congr; intro i hi; rw [hd i hi]; simp [PC.pastS]
    rw [this, cnt_countP, List.count, List.countP_filter]
    apply List.countP_congr
    intro x _
    simp [and_comm]

end Link
end Dashmm
