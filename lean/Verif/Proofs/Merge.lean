import Verif.Model.Merge
import Mathlib.Data.List.Perm.Basic
import Mathlib.Data.List.Nodup
import Mathlib.Algebra.BigOperators.Group.List.Basic
namespace Dashmm
namespace Merge
variable {R : Type} {ts : List (List R)}

/-- The task has counted its points. -/
def PC.past : PC → Bool
  | .counted _ | .spawned | .done => true
  | _ => false

/-- The task holds the lock. -/
def PC.holds : PC → Bool
  | .idle | .done => false
  | _ => true

structure Inv (ts : List (List R)) (n : Nat) (order : List Nat) (s : State R) : Prop where
  len : s.parts.length = n
  safe : s.overrun = false
  nodup : order.Nodup
  mem : ∀ i, i ∈ order ↔ (s.pc i).past = true
  task : ∀ i, s.pc i ≠ .idle → i < ts.length
  holder : ∀ i, (s.pc i).holds = true ↔ s.lock = some i
  first : s.first = (order.flatMap fun i => ts.getD i []).length
  data : s.parts.take s.first = (order.flatMap fun i => ts.getD i []).map some
  here : ∀ i f, s.pc i = .read f → f = s.first
  there : ∀ i, s.pc i = .copied → s.parts.take (s.first + (ts.getD i []).length) =
    ((order.flatMap fun i => ts.getD i []) ++ ts.getD i []).map some
  wait : ∀ i b, s.pc i = .counted b → b = decide (n ≤ s.first) ∧ s.started = 0
  rest : (∀ i b, s.pc i ≠ .counted b) → s.started = if order ≠ [] ∧ n ≤ s.first then 1 else 0

theorem inv_start (n : Nat) : Inv ts n [] (start n : State R) := by
  refine ⟨by simp [start], rfl, by simp, ?_, ?_, ?_, rfl, rfl, ?_, ?_, ?_, ?_⟩
  · intro i; simp [start, PC.past]
  · intro i h; exact absurd rfl h
  · intro i; simp [start, PC.holds]
  · intro i f h; simp [start] at h
  · intro i h; simp [start] at h
  · intro i b h; simp [start] at h
  · intro _; simp [start]

/-- Distinct tasks together hold no more than all. -/
theorem order_le {order : List Nat} (hn : order.Nodup) (hl : ∀ i ∈ order, i < ts.length) :
    (order.flatMap fun i => ts.getD i []).length ≤ ts.flatten.length := by
  have hsub : order.Subperm (List.range ts.length) := List.subperm_of_subset hn (fun i hi => List.mem_range.2 (hl i hi))
  obtain ⟨l, hp, hs⟩ := hsub
  have h1 : (order.flatMap fun i => ts.getD i []).length = (l.flatMap fun i => ts.getD i []).length :=
    (hp.symm.flatMap_right _).length_eq
  have h2 : (l.flatMap fun i => ts.getD i []).Sublist ((List.range ts.length).flatMap fun i => ts.getD i []) := by
    clear h1 hp
    generalize List.range ts.length = m at hs
    induction hs with
    | slnil => exact List.Sublist.refl _
    | cons a h ih => rw [List.flatMap_cons]; exact ih.trans (List.sublist_append_right _ _)
    | cons_cons a h ih => rw [List.flatMap_cons, List.flatMap_cons]; exact (List.Sublist.refl _).append ih
  rw [h1]
  refine Nat.le_trans h2.length_le (Nat.le_of_eq ?_)
  congr 1
  have : (List.range ts.length).flatMap (fun i => ts.getD i []) = ((List.range ts.length).map fun i => ts.getD i []).flatten := by
    rw [List.flatMap_def]
  rw [this]
  congr 1
  apply List.ext_getElem
  · simp
  · intro i h1 h2
    simp only [List.getElem_map, List.getElem_range, List.getD_eq_getElem?_getD]
    rw [List.getElem?_eq_getElem h2]; rfl

theorem range_flat : (List.range ts.length).flatMap (fun i => ts.getD i []) = ts.flatten := by
  rw [List.flatMap_def]
  congr 1
  apply List.ext_getElem
  · simp
  · intro i h1 h2
    simp only [List.getElem_map, List.getElem_range, List.getD_eq_getElem?_getD]
    rw [List.getElem?_eq_getElem h2]; rfl

theorem inv_step {n : Nat} {order : List Nat} {s s' : State R} (hn : n = ts.flatten.length) (hne : ∀ t ∈ ts, t ≠ [])
    (h : Inv ts n order s) (hs : Step ts s s') : ∃ order', Inv ts n order' s' := by
  have hol : ∀ i ∈ order, i < ts.length := fun i hi => h.task i (by
    intro hh
    have := (h.mem i).1 hi
    rw [hh] at this; simp [PC.past] at this)
  -- a task that has not counted fits
  have hfit : ∀ i, i < ts.length → (s.pc i).past = false → s.first + (ts.getD i []).length ≤ n := by
    intro i hi hp
    have hni : i ∉ order := fun hh => by rw [(h.mem i).1 hh] at hp; simp at hp
    have := order_le (ts := ts) (order := i :: order) (List.nodup_cons.2 ⟨hni, h.nodup⟩) (by
      intro j hj
      rcases List.mem_cons.1 hj with rfl | hj
      · exact hi
      · exact hol j hj)
    rw [List.flatMap_cons, List.length_append, ← h.first] at this
    omega
  have huniq : ∀ i j, (s.pc i).holds = true → (s.pc j).holds = true → i = j := by
    intro i j hi hj
    have a := (h.holder i).1 hi
    have b := (h.holder j).1 hj
    rw [a] at b; exact Option.some.inj b
  cases hs with
  | @lock i hi hp hl =>
    have hnone : ∀ j, (s.pc j).holds = false := by
      intro j
      by_contra hh
      have := (h.holder j).1 (by simpa using hh)
      rw [hl] at this; simp at this
    refine ⟨order, ⟨h.len, h.safe, h.nodup, ?_, ?_, ?_, h.first, h.data, ?_, ?_, ?_, ?_⟩⟩
    · intro j
      simp only [State.goto]
      by_cases hj : j = i
      · subst hj; rw [if_pos rfl, h.mem, hp]; simp [PC.past]
      · rw [if_neg hj]; exact h.mem j
    · intro j
      simp only [State.goto]
      by_cases hj : j = i
      · subst hj; intro _; exact hi
      · rw [if_neg hj]; exact h.task j
    · intro j
      simp only [State.goto]
      by_cases hj : j = i
      · subst hj; simp [PC.holds]
      · rw [if_neg hj, hnone j]; simp [Ne.symm hj]
    · intro j f
      simp only [State.goto]
      by_cases hj : j = i
      · subst hj; simp
      · rw [if_neg hj]; exact h.here j f
    · intro j
      simp only [State.goto]
      by_cases hj : j = i
      · subst hj; simp
      · rw [if_neg hj]; exact h.there j
    · intro j b
      simp only [State.goto]
      by_cases hj : j = i
      · subst hj; simp
      · rw [if_neg hj]; exact h.wait j b
    · intro hh
      simp only [State.goto] at hh ⊢
      apply h.rest
      intro j b hb
      have := hnone j
      rw [hb] at this; simp [PC.holds] at this
  | @read i hp =>
    have hti := h.task i (by rw [hp]; simp)
    refine ⟨order, ⟨h.len, h.safe, h.nodup, ?_, ?_, ?_, h.first, h.data, ?_, ?_, ?_, ?_⟩⟩
    · intro j
      simp only [State.goto]
      by_cases hj : j = i
      · subst hj; rw [if_pos rfl, h.mem, hp]; simp [PC.past]
      · rw [if_neg hj]; exact h.mem j
    · intro j
      simp only [State.goto]
      by_cases hj : j = i
      · subst hj; intro _; exact hti
      · rw [if_neg hj]; exact h.task j
    · intro j
      simp only [State.goto]
      by_cases hj : j = i
      · subst hj; rw [if_pos rfl, ← h.holder, hp]; simp [PC.holds]
      · rw [if_neg hj]; exact h.holder j
    · intro j f
      simp only [State.goto]
      by_cases hj : j = i
      · subst hj; simp; intro hh; exact hh.symm
      · rw [if_neg hj]; exact h.here j f
    · intro j
      simp only [State.goto]
      by_cases hj : j = i
      · subst hj; simp
      · rw [if_neg hj]; exact h.there j
    · intro j b
      simp only [State.goto]
      by_cases hj : j = i
      · subst hj; simp
      · rw [if_neg hj]; exact h.wait j b
    · intro _
      simp only [State.goto]
      apply h.rest
      intro j b hb
      have := huniq i j (by rw [hp]; rfl) (by rw [hb]; rfl)
      subst this; rw [hp] at hb; simp at hb
  | @copy i f hp =>
    have hti := h.task i (by rw [hp]; simp)
    have hf := h.here i f hp
    subst hf
    have hle := hfit i hti (by rw [hp]; rfl)
    have hlenp : (copyTo s.parts s.first (ts.getD i [])).length = n := by
      unfold copyTo
      rw [List.length_append, List.length_append, List.length_take, List.length_map, List.length_drop, h.len]
      omega
    have htake : (copyTo s.parts s.first (ts.getD i [])).take s.first = s.parts.take s.first := by
      unfold copyTo
      rw [List.append_assoc, List.take_append_of_le_length (by rw [List.length_take, h.len]; omega), List.take_take]
      simp
    refine ⟨order, ⟨hlenp, ?_, h.nodup, ?_, ?_, ?_, h.first, ?_, ?_, ?_, ?_, ?_⟩⟩
    · simp only [State.goto, h.safe, h.len, Bool.false_or, decide_eq_false_iff_not]; omega
    · intro j
      simp only [State.goto]
      by_cases hj : j = i
      · subst hj; rw [if_pos rfl, h.mem, hp]; simp [PC.past]
      · rw [if_neg hj]; exact h.mem j
    · intro j
      simp only [State.goto]
      by_cases hj : j = i
      · subst hj; intro _; exact hti
      · rw [if_neg hj]; exact h.task j
    · intro j
      simp only [State.goto]
      by_cases hj : j = i
      · subst hj; rw [if_pos rfl, ← h.holder, hp]; simp [PC.holds]
      · rw [if_neg hj]; exact h.holder j
    · simp only [State.goto]; rw [htake]; exact h.data
    · intro j f
      simp only [State.goto]
      by_cases hj : j = i
      · subst hj; simp
      · rw [if_neg hj]; exact h.here j f
    · intro j
      simp only [State.goto]
      by_cases hj : j = i
      · subst hj
        intro _
        unfold copyTo
        rw [List.take_append_of_le_length (by rw [List.length_append, List.length_take, List.length_map, h.len]; omega)]
        rw [List.take_of_length_le (by rw [List.length_append, List.length_take, List.length_map, h.len]; omega)]
        rw [h.data, List.map_append]
      · rw [if_neg hj]
        intro hh
        exact absurd (huniq i j (by rw [hp]; rfl) (by rw [hh]; rfl)).symm hj
    · intro j b
      simp only [State.goto]
      by_cases hj : j = i
      · subst hj; simp
      · rw [if_neg hj]; exact h.wait j b
    · intro _
      simp only [State.goto]
      apply h.rest
      intro j b hb
      have := huniq i j (by rw [hp]; rfl) (by rw [hb]; rfl)
      subst this; rw [hp] at hb; simp at hb
  | @count i hp =>
    have hti := h.task i (by rw [hp]; simp)
    have hle := hfit i hti (by rw [hp]; rfl)
    have hni : i ∉ order := fun hh => by
      have := (h.mem i).1 hh
      rw [hp] at this; simp [PC.past] at this
    have hflat : ((order ++ [i]).flatMap fun i => ts.getD i []) = (order.flatMap fun i => ts.getD i []) ++ ts.getD i [] := by simp
    have hpos : 0 < (ts.getD i []).length := by
      rw [List.getD_eq_getElem?_getD, List.getElem?_eq_getElem hti]
      exact List.length_pos_iff.2 (hne _ (List.getElem_mem hti))
    refine ⟨order ++ [i], ⟨h.len, h.safe, ?_, ?_, ?_, ?_, ?_, ?_, ?_, ?_, ?_, ?_⟩⟩
    · rw [List.nodup_append]
      refine ⟨h.nodup, by simp, ?_⟩
      intro a ha b hb
      rw [List.mem_singleton.1 hb]
      rintro rfl; exact hni ha
    · intro j
      simp only [State.goto]
      by_cases hj : j = i
      · subst hj; simp [PC.past]
      · rw [if_neg hj, List.mem_append, List.mem_singleton, ← h.mem]; simp [hj]
    · intro j
      simp only [State.goto]
      by_cases hj : j = i
      · subst hj; intro _; exact hti
      · rw [if_neg hj]; exact h.task j
    · intro j
      simp only [State.goto]
      by_cases hj : j = i
      · subst hj; rw [if_pos rfl, ← h.holder, hp]; simp [PC.holds]
      · rw [if_neg hj]; exact h.holder j
    · simp only [State.goto]; rw [hflat, List.length_append, ← h.first]
    · simp only [State.goto]; rw [hflat]; exact h.there i hp
    · intro j f
      simp only [State.goto]
      by_cases hj : j = i
      · subst hj; simp
      · rw [if_neg hj]
        intro hh
        exact absurd (huniq i j (by rw [hp]; rfl) (by rw [hh]; rfl)).symm hj
    · intro j
      simp only [State.goto]
      by_cases hj : j = i
      · subst hj; simp
      · rw [if_neg hj]
        intro hh
        exact absurd (huniq i j (by rw [hp]; rfl) (by rw [hh]; rfl)).symm hj
    · intro j b
      simp only [State.goto]
      by_cases hj : j = i
      · subst hj
        intro hb
        rw [if_pos rfl] at hb
        injection hb with hb
        refine ⟨by rw [← hb, h.len], ?_⟩
        rw [h.rest (by
          intro k b hb
          have := huniq j k (by rw [hp]; rfl) (by rw [hb]; rfl)
          subst this; rw [hp] at hb; simp at hb)]
        rw [if_neg (by rintro ⟨_, hh⟩; omega)]
      · rw [if_neg hj]
        intro hh
        exact absurd (huniq i j (by rw [hp]; rfl) (by rw [hh]; rfl)).symm hj
    · intro hh
      exact absurd (by simp [State.goto]) (hh i (decide (s.parts.length ≤ s.first + (ts.getD i []).length)))
  | @spawn i full hp =>
    have hti := h.task i (by rw [hp]; simp)
    obtain ⟨w1, w2⟩ := h.wait i full hp
    have hmi : i ∈ order := (h.mem i).2 (by rw [hp]; rfl)
    have hno : order ≠ [] := by rintro rfl; simp at hmi
    refine ⟨order, ⟨h.len, h.safe, h.nodup, ?_, ?_, ?_, h.first, h.data, ?_, ?_, ?_, ?_⟩⟩
    · intro j
      simp only [State.goto]
      by_cases hj : j = i
      · subst hj; rw [if_pos rfl, h.mem, hp]; simp [PC.past]
      · rw [if_neg hj]; exact h.mem j
    · intro j
      simp only [State.goto]
      by_cases hj : j = i
      · subst hj; intro _; exact hti
      · rw [if_neg hj]; exact h.task j
    · intro j
      simp only [State.goto]
      by_cases hj : j = i
      · subst hj; rw [if_pos rfl, ← h.holder, hp]; simp [PC.holds]
      · rw [if_neg hj]; exact h.holder j
    · intro j f
      simp only [State.goto]
      by_cases hj : j = i
      · subst hj; simp
      · rw [if_neg hj]; exact h.here j f
    · intro j
      simp only [State.goto]
      by_cases hj : j = i
      · subst hj; simp
      · rw [if_neg hj]; exact h.there j
    · intro j b
      simp only [State.goto]
      by_cases hj : j = i
      · subst hj; simp
      · rw [if_neg hj]
        intro hh
        exact absurd (huniq i j (by rw [hp]; rfl) (by rw [hh]; rfl)).symm hj
    · intro _
      simp only [State.goto]
      rw [w1, w2]
      by_cases hn : n ≤ s.first
      · simp [hn, hno]
      · simp [hn]
  | @unlock i hp =>
    have hti := h.task i (by rw [hp]; simp)
    refine ⟨order, ⟨h.len, h.safe, h.nodup, ?_, ?_, ?_, h.first, h.data, ?_, ?_, ?_, ?_⟩⟩
    · intro j
      simp only [State.goto]
      by_cases hj : j = i
      · subst hj; rw [if_pos rfl, h.mem, hp]; simp [PC.past]
      · rw [if_neg hj]; exact h.mem j
    · intro j
      simp only [State.goto]
      by_cases hj : j = i
      · subst hj; intro _; exact hti
      · rw [if_neg hj]; exact h.task j
    · intro j
      simp only [State.goto]
      by_cases hj : j = i
      · subst hj; simp [PC.holds]
      · rw [if_neg hj]
        have : ¬ (s.pc j).holds = true := fun hh => hj (huniq i j (by rw [hp]; rfl) hh).symm
        simp [this]
    · intro j f
      simp only [State.goto]
      by_cases hj : j = i
      · subst hj; simp
      · rw [if_neg hj]; exact h.here j f
    · intro j
      simp only [State.goto]
      by_cases hj : j = i
      · subst hj; simp
      · rw [if_neg hj]; exact h.there j
    · intro j b
      simp only [State.goto]
      by_cases hj : j = i
      · subst hj; simp
      · rw [if_neg hj]; exact h.wait j b
    · intro _
      simp only [State.goto]
      apply h.rest
      intro j b hb
      have := huniq i j (by rw [hp]; rfl) (by rw [hb]; rfl)
      subst this; rw [hp] at hb; simp at hb

theorem inv_reach {n : Nat} {s : State R} (hn : n = ts.flatten.length) (hne : ∀ t ∈ ts, t ≠ []) (h : Reach ts n s) :
    ∃ order, Inv ts n order s := by
  induction h with
  | init => exact ⟨[], inv_start n⟩
  | step _ hs ih => obtain ⟨o, ho⟩ := ih; exact inv_step hn hne ho hs

/-- A full cell: every task has counted. -/
theorem inv_full {n : Nat} {order : List Nat} {s : State R} (hn : n = ts.flatten.length) (hne : ∀ t ∈ ts, t ≠ [])
    (h : Inv ts n order s) (hf : n ≤ s.first) : ∀ i, i < ts.length → i ∈ order := by
  intro i hi
  by_contra hni
  have hol : ∀ i ∈ order, i < ts.length := fun i hi => h.task i (by
    intro hh
    have := (h.mem i).1 hi
    rw [hh] at this; simp [PC.past] at this)
  have := order_le (ts := ts) (order := i :: order) (List.nodup_cons.2 ⟨hni, h.nodup⟩) (by
    intro j hj
    rcases List.mem_cons.1 hj with rfl | hj
    · exact hi
    · exact hol j hj)
  rw [List.flatMap_cons, List.length_append, ← h.first] at this
  have hpos : 0 < (ts.getD i []).length := by
    rw [List.getD_eq_getElem?_getD, List.getElem?_eq_getElem hi]
    exact List.length_pos_iff.2 (hne _ (List.getElem_mem hi))
  omega

theorem inv_all {n : Nat} {order : List Nat} {s : State R} (hn : n = ts.flatten.length)
    (h : Inv ts n order s) (hall : ∀ i, i < ts.length → i ∈ order) :
    s.first = n ∧ s.parts.Perm (ts.flatten.map some) := by
  have hp : order.Perm (List.range ts.length) := by
    rw [List.perm_ext_iff_of_nodup h.nodup List.nodup_range]
    intro i
    rw [List.mem_range]
    refine ⟨fun hi => h.task i ?_, hall i⟩
    intro hh
    have := (h.mem i).1 hi
    rw [hh] at this; simp [PC.past] at this
  have hpf : (order.flatMap fun i => ts.getD i []).Perm ts.flatten := by
    have := hp.flatMap_right (fun i => ts.getD i [])
    rwa [range_flat] at this
  have hf : s.first = n := by rw [h.first, hpf.length_eq, hn]
  refine ⟨hf, ?_⟩
  have := h.data
  rw [hf, ← h.len, List.take_length] at this
  rw [this]
  exact hpf.map some

end Merge
end Dashmm
