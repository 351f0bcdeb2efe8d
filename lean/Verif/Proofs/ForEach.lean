import Verif.Model.ForEach
import Verif.Proofs.Chunks
import Mathlib.Data.List.Perm.Basic
import Mathlib.Algebra.BigOperators.Group.List.Basic
import Mathlib.Tactic.Ring
namespace Dashmm

namespace ForEach

/-- The records of a task. -/
def Task.range (t : Task) : Nat × Nat := (t.data, t.data + t.count)

/-- Number of chunks of a task. -/
def nch (chunk count : Nat) : Nat :=
  if count % chunk ≠ 0 then count / chunk + 1 else count / chunk

theorem nch_spec {chunk : Nat} (hc : 0 < chunk) (count : Nat) :
    count ≤ nch chunk count * chunk ∧ nch chunk count * chunk < count + chunk := by
  have h1 := Nat.div_add_mod count chunk
  have h2 := Nat.mod_lt count hc
  have h3 : chunk * (count / chunk) = (count / chunk) * chunk := Nat.mul_comm _ _
  unfold nch
  split
  · rw [Nat.add_mul]; omega
  · omega

theorem nch_unique {chunk count k : Nat} (hc : 0 < chunk) (h1 : count ≤ k * chunk)
    (h2 : k * chunk < count + chunk) : nch chunk count = k := by
  obtain ⟨h3, h4⟩ := nch_spec hc count
  rcases Nat.lt_trichotomy (nch chunk count) k with h | h | h
  · have : (nch chunk count + 1) * chunk ≤ k * chunk := Nat.mul_le_mul_right _ h
    rw [Nat.add_mul] at this
    omega
  · exact h
  · have : (k + 1) * chunk ≤ nch chunk count * chunk := Nat.mul_le_mul_right _ h
    rw [Nat.add_mul] at this
    omega

theorem spawn_some {chunk : Nat} (hc : 0 < chunk) {t t1 t2 : Task} (h : spawn chunk t = some (t1, t2)) :
    t1.data = t.data ∧ 0 < t1.count ∧ t2.data = t.data + t1.count ∧ 0 < t2.count ∧
      t1.count + t2.count = t.count ∧
      nch chunk t1.count + nch chunk t2.count = nch chunk t.count := by
  unfold spawn at h
  split at h
  · cases h
  · rename_i hlt
    have hn : (if t.count % chunk ≠ 0 then t.count / chunk + 1 else t.count / chunk)
      = nch chunk t.count := rfl
    rw [hn] at h
    simp only [Option.some.injEq, Prod.mk.injEq] at h
    obtain ⟨rfl, rfl⟩ := h
    obtain ⟨h1, h2⟩ := nch_spec hc t.count
    have h3 : 2 ≤ nch chunk t.count := by
      rcases Nat.lt_or_ge (nch chunk t.count) 2 with h | h
      · have : nch chunk t.count * chunk ≤ 1 * chunk := Nat.mul_le_mul_right _ (by omega)
        omega
      · exact h
    have h4 : 1 ≤ nch chunk t.count / 2 := by omega
    have h5 : 1 * chunk ≤ nch chunk t.count / 2 * chunk := Nat.mul_le_mul_right _ h4
    have h6 : (nch chunk t.count / 2 + 1) * chunk ≤ nch chunk t.count * chunk :=
      Nat.mul_le_mul_right _ (by omega)
    rw [Nat.add_mul] at h6
    simp only
    refine ⟨trivial, by omega, trivial, by omega, by omega, ?_⟩
    have e1 : nch chunk (nch chunk t.count / 2 * chunk) = nch chunk t.count / 2 :=
      nch_unique hc (by omega) (by omega)
    have e2 : nch chunk (t.count - nch chunk t.count / 2 * chunk)
        = nch chunk t.count - nch chunk t.count / 2 := by
      apply nch_unique hc <;> rw [Nat.sub_mul] <;> omega
    rw [e1, e2]
    omega

theorem spawn_none {chunk : Nat} {t : Task} : spawn chunk t = none ↔ t.count ≤ chunk := by
  unfold spawn
  split <;> simp <;> omega

structure FInv {T : Type} (g : T → T) (chunk : Nat) (mem : List T) (s : St T) : Prop where
  tile : ∃ L : List Task, L.Perm (s.pool ++ s.calls) ∧ Tiles 0 mem.length (L.map Task.range)
  small : ∀ t ∈ s.calls, t.count ≤ chunk
  sets : s.sets = s.calls.length
  count : s.sets + (s.pool.map fun t => nch chunk t.count).sum = nch chunk mem.length
  len : s.mem.length = mem.length
  done : ∀ i, (∃ t ∈ s.calls, t.data ≤ i ∧ i < t.data + t.count) → s.mem[i]? = mem[i]?.map g
  todo : ∀ i, (¬ ∃ t ∈ s.calls, t.data ≤ i ∧ i < t.data + t.count) → s.mem[i]? = mem[i]?

theorem FInv.start {T : Type} (g : T → T) (chunk : Nat) {mem : List T} (hm : mem ≠ []) :
    FInv g chunk mem (start mem) := by
  have : 0 < mem.length := List.length_pos_iff.2 hm
  refine ⟨⟨[⟨0, mem.length⟩], by simp [ForEach.start], ?_⟩, ?_, ?_, ?_, ?_, ?_, ?_⟩
  all_goals simp [ForEach.start, Tiles, Task.range]
  omega

theorem FInv.step {T : Type} {g : T → T} {chunk : Nat} (hc : 0 < chunk) {mem : List T} {s s' : St T}
    (h : FInv g chunk mem s) (hst : Step (List.map g) chunk s s') : FInv g chunk mem s' := by
  obtain ⟨⟨L, hL, hT⟩, small, sets, count, len, done, todo⟩ := h
  cases hst with
  | @leaf a b t calls st m hn =>
    have hp : List.Perm (a ++ t :: b ++ calls) (t :: (a ++ b ++ calls)) := by
      simpa using (List.perm_middle (a := t) (l₁ := a) (l₂ := b ++ calls))
    have hp2 : List.Perm (a ++ t :: b ++ calls) (a ++ b ++ (calls ++ [t])) := by
      refine hp.trans ?_
      rw [← List.append_assoc]
      exact (List.perm_append_singleton t _).symm
    -- the task is disjoint from the calls made
    have hpw := hT.pairwise.imp (S := fun p q : Nat × Nat => p.2 ≤ q.1 ∨ q.2 ≤ p.1) (fun h => .inl h)
    have hpw2 : ((t :: (a ++ b ++ calls)).map Task.range).Pairwise
        (fun p q => p.2 ≤ q.1 ∨ q.2 ≤ p.1) :=
      ((hL.trans hp).map Task.range).pairwise hpw (fun h => h.symm)
    rw [List.map_cons, List.pairwise_cons] at hpw2
    have hdisj : ∀ u ∈ calls, t.data + t.count ≤ u.data ∨ u.data + u.count ≤ t.data := by
      intro u hu
      exact hpw2.1 u.range (List.mem_map.2 ⟨u, by simp [hu], rfl⟩)
    have htb := hT.bound (c := t.range)
      (List.mem_map.2 ⟨t, (hL.trans hp).mem_iff.2 (by simp), rfl⟩)
    simp only [Task.range] at htb
    simp only at len done todo count sets
    have hnc : nch chunk t.count = 1 := nch_unique hc
      (by have := spawn_none.1 hn; omega) (by omega)
    have hm1 : ∀ i, (m.take t.data ++ ((m.drop t.data).take t.count).map g ++ m.drop (t.data + t.count))[i]?
        = if t.data ≤ i ∧ i < t.data + t.count then m[i]?.map g else m[i]? := by
      intro i
      have l1 : (m.take t.data).length = t.data := by simp; omega
      have l2 : (((m.drop t.data).take t.count).map g).length = t.count := by simp; omega
      by_cases c1 : i < t.data
      · rw [List.append_assoc, List.getElem?_append_left (by omega), if_neg (by omega)]
        simp [c1]
      · by_cases c2 : i < t.data + t.count
        · rw [if_pos (by omega), List.append_assoc, List.getElem?_append_right (by omega),
            List.getElem?_append_left (by omega), l1, List.getElem?_map,
            List.getElem?_take_of_lt (by omega), List.getElem?_drop]
          congr 2
          omega
        · rw [if_neg (by omega), List.getElem?_append_right (by simp; omega)]
          rw [List.getElem?_drop]
          congr 1
          simp
          omega
    refine ⟨⟨L, hL.trans hp2, hT⟩, ?_, ?_, ?_, ?_, ?_, ?_⟩
    · intro u hu
      rcases List.mem_append.1 hu with hu | hu
      · exact small u hu
      · rw [List.mem_singleton.1 hu]; exact spawn_none.1 hn
    · simp only [List.length_append, List.length_singleton]; omega
    · simp only [List.map_append, List.map_cons, List.sum_append, List.sum_cons] at count ⊢
      omega
    · simp; omega
    · intro i ⟨u, hu, hi⟩
      simp only
      rw [hm1 i]
      simp only [List.mem_append, List.mem_singleton] at hu
      rcases hu with hu | rfl
      · have := hdisj u hu
        rw [if_neg (by omega)]
        exact done i ⟨u, hu, hi⟩
      · rw [if_pos hi]
        congr 1
        apply todo
        rintro ⟨v, hv, hvi⟩
        have := hdisj v hv
        omega
    · intro i hi
      simp only
      rw [hm1 i, if_neg, todo i]
      · rintro ⟨u, hu, hui⟩
        exact hi ⟨u, by simp [hu], hui⟩
      · intro h
        exact hi ⟨t, by simp, h⟩
  | @split a b t t1 t2 calls st m hsp =>
    obtain ⟨e1, e2, e3, e4, e5, e6⟩ := spawn_some hc hsp
    obtain ⟨La, Lb, rfl⟩ : ∃ La Lb, L = La ++ t :: Lb := List.append_of_mem
      (hL.mem_iff.2 (by simp))
    refine ⟨⟨La ++ t1 :: t2 :: Lb, ?_, ?_⟩, small, sets, ?_, len, done, todo⟩
    · have h1 : List.Perm (t :: (La ++ Lb)) (t :: (a ++ (b ++ calls))) :=
        List.perm_middle.symm.trans (hL.trans (by
          simpa using (List.perm_middle (a := t) (l₁ := a) (l₂ := b ++ calls))))
      have h2 := h1.cons_inv
      have h3 : List.Perm (La ++ t1 :: t2 :: Lb) (t1 :: t2 :: (La ++ Lb)) :=
        List.perm_middle.trans (List.perm_middle.cons t1)
      have h4 : List.Perm (a ++ t1 :: t2 :: (b ++ calls)) (t1 :: t2 :: (a ++ (b ++ calls))) :=
        List.perm_middle.trans (List.perm_middle.cons t1)
      refine h3.trans (((h2.cons t2).cons t1).trans ?_)
      simpa using h4.symm
    · have := hT
      simp only [List.map_append, List.map_cons] at this ⊢
      have h2 : t1.range = (t.data, t.data + t1.count) := by simp [Task.range, e1]
      have h3 : t2.range = (t.data + t1.count, t.data + t.count) := by
        simp [Task.range, e3]; omega
      rw [h2, h3]
      exact Tiles.split (by omega) (by omega) this
    · simp only [List.map_append, List.map_cons, List.sum_append, List.sum_cons] at count ⊢
      omega

theorem reach_inv {T : Type} {g : T → T} {chunk : Nat} (hc : 0 < chunk) {mem : List T} (hm : mem ≠ [])
    {s : St T} (h : Reach (List.map g) chunk mem s) : FInv g chunk mem s := by
  induction h with
  | start => exact FInv.start g chunk hm
  | step _ hst ih => exact ih.step hc hst

theorem chunking_spec {total over : Nat} (ht : 0 < total) :
    0 < (chunking total over).1 ∧
      (chunking total over).2 = nch (chunking total over).1 total := by
  unfold chunking
  simp only
  split
  · simp [nch, Nat.mod_one]
  · rename_i h
    exact ⟨Nat.pos_of_ne_zero h, rfl⟩

/-- Sum of the measure of the pending tasks decreases. -/
def fmeas {T : Type} (s : St T) : Nat := (s.pool.map fun t => 2 * t.count - 1).sum

theorem FInv.pool_pos {T : Type} {g : T → T} {chunk : Nat} {mem : List T} {s : St T}
    (h : FInv g chunk mem s) {t : Task} (ht : t ∈ s.pool) : 0 < t.count := by
  obtain ⟨L, hL, hT⟩ := h.tile
  have := hT.bound (c := t.range) (List.mem_map.2 ⟨t, hL.mem_iff.2 (by simp [ht]), rfl⟩)
  simp only [Task.range] at this
  omega

theorem FInv.decreases {T : Type} {g : T → T} {chunk : Nat} (hc : 0 < chunk) {mem : List T}
    {s s' : St T} (h : FInv g chunk mem s) (hst : Step (List.map g) chunk s s') :
    fmeas s' < fmeas s := by
  cases hst with
  | @leaf a b t calls st m hn =>
    have := h.pool_pos (t := t) (by simp)
    simp [fmeas]
    omega
  | @split a b t t1 t2 calls st m hsp =>
    obtain ⟨e1, e2, e3, e4, e5, e6⟩ := spawn_some hc hsp
    simp [fmeas]
    omega

end ForEach
end Dashmm
