import Verif.Model.Hilbert
import Mathlib.Tactic.Ring
import Mathlib.Tactic.Linarith
namespace Dashmm
namespace Hilbert

variable {counts : List Nat}

theorem cumulative_zero : cumulative counts 0 = 0 := by simp [cumulative]

theorem cumulative_succ (i : Nat) : cumulative counts (i + 1) = cumulative counts i + counts.getD i 0 := by
  unfold cumulative
  by_cases h : i < counts.length
  · rw [List.take_succ_eq_append_getElem h, List.sum_append]
    simp [h]
  · rw [List.take_of_length_le (by omega), List.take_of_length_le (by omega)]
    simp [h]

theorem cumulative_mono {i j : Nat} (h : i ≤ j) : cumulative counts i ≤ cumulative counts j := by
  induction h with
  | refl => exact Nat.le_refl _
  | step _ ih => rw [cumulative_succ]; omega

theorem splitter_spec {target : Nat} (h : target ≤ cumulative counts counts.length) :
    splitter counts target ≤ counts.length ∧ target ≤ cumulative counts (splitter counts target) ∧
    ∀ i, i < splitter counts target → cumulative counts i < target := by
  unfold splitter
  have hlt : (List.range (counts.length + 1)).findIdx
      (fun i => !decide (cumulative counts i < target)) < (List.range (counts.length + 1)).length := by
    apply List.findIdx_lt_length_of_exists
    exact ⟨counts.length, by simp, by simp; omega⟩
  refine ⟨by simpa [Nat.lt_succ_iff] using hlt, ?_, ?_⟩
  · have := List.findIdx_getElem (w := hlt)
    simpa using this
  · intro i hi
    have := List.not_of_lt_findIdx hi
    simpa using this

theorem splitter_zero : splitter counts 0 = 0 := by
  have h := splitter_spec (counts := counts) (target := 0) (Nat.zero_le _)
  by_contra hne
  have := h.2.2 0 (Nat.pos_of_ne_zero hne)
  omega

/-- The number of leading cells before the cut nearest to the target. -/
def nearest (counts : List Nat) (target : Nat) : Nat :=
  let p := splitter counts target
  if cumulative counts p - target < target - cumulative counts (p - 1) then p else p - 1

theorem splitter_pos {target : Nat} (h0 : 0 < target) (h : target ≤ cumulative counts counts.length) :
    0 < splitter counts target := by
  obtain ⟨_, h2, _⟩ := splitter_spec h
  by_contra hne
  have : splitter counts target = 0 := by omega
  rw [this, cumulative_zero] at h2
  omega

theorem cut_eq {share s : Nat} (h : share * s ≤ cumulative counts counts.length) :
    cut counts share s =
      if share * s = 0 then none
      else if nearest counts (share * s) = 0 then none else some (nearest counts (share * s) - 1) := by
  by_cases h0 : share * s = 0
  · rw [if_pos h0]
    unfold cut
    simp only [h0, splitter_zero]
    simp
  · rw [if_neg h0]
    obtain ⟨h1, h2, h3⟩ := splitter_spec h
    have hp := splitter_pos (Nat.pos_of_ne_zero h0) h
    have h4 := h3 (splitter counts (share * s) - 1) (by omega)
    unfold cut nearest
    simp only
    generalize splitter counts (share * s) = p at *
    generalize cumulative counts p = U at *
    generalize cumulative counts (p - 1) = L at *
    generalize share * s = t at *
    rw [if_neg (by omega), if_neg (by omega), if_neg (by omega)]
    by_cases hlt : U - t < t - L
    · have e : (if (U : Int) - t < t - L then (p : Int) else p - 1) = p := if_pos (by omega)
      rw [if_pos hlt, e, if_neg (by omega), if_neg (by omega)]
      congr 1
      omega
    · have e : (if (U : Int) - t < t - L then (p : Int) else p - 1) = p - 1 := if_neg (by omega)
      rw [if_neg hlt, e]
      by_cases h5 : p - 1 = 0
      · rw [if_pos h5, if_pos (by omega)]
      · rw [if_neg h5, if_neg (by omega)]
        congr 1
        omega

theorem nearest_le {target : Nat} (h : target ≤ cumulative counts counts.length) :
    nearest counts target ≤ counts.length := by
  have := (splitter_spec h).1
  unfold nearest
  simp only
  split <;> omega

/-- Signed distance from a target, as a natural number. -/
def dist (a b : Nat) : Nat := (a - b) + (b - a)

theorem nearest_best {target : Nat} (h0 : 0 < target) (h : target ≤ cumulative counts counts.length)
    (i : Nat) : dist (cumulative counts (nearest counts target)) target ≤ dist (cumulative counts i) target := by
  obtain ⟨h1, h2, h3⟩ := splitter_spec h
  have hp := splitter_pos h0 h
  have h4 := h3 (splitter counts target - 1) (by omega)
  unfold nearest dist
  simp only
  rcases Nat.lt_or_ge i (splitter counts target) with hi | hi
  · have := cumulative_mono (counts := counts) (i := i) (j := splitter counts target - 1) (by omega)
    split <;> omega
  · have := cumulative_mono (counts := counts) hi
    split <;> omega

theorem nearest_mono {t t' : Nat} (h0 : 0 < t) (htt : t ≤ t')
    (h : t' ≤ cumulative counts counts.length) : nearest counts t ≤ nearest counts t' := by
  obtain ⟨a1, a2, a3⟩ := splitter_spec (counts := counts) (target := t) (by omega)
  obtain ⟨b1, b2, b3⟩ := splitter_spec h
  have hp := splitter_pos (counts := counts) h0 (by omega)
  have hp' := splitter_pos (counts := counts) (target := t') (by omega) h
  have hle : splitter counts t ≤ splitter counts t' := by
    by_contra hc
    have := a3 (splitter counts t') (by omega)
    omega
  unfold nearest
  simp only
  rcases Nat.lt_or_ge (splitter counts t) (splitter counts t') with hlt | hge
  · split <;> split <;> omega
  · have he : splitter counts t = splitter counts t' := by omega
    rw [he]
    have := a3 (splitter counts t' - 1) (by omega)
    split <;> split <;> omega

theorem share_le (np s : Nat) (hs : s ≤ np) :
    cumulative counts counts.length / np * s ≤ cumulative counts counts.length :=
  (Nat.mul_le_mul_left _ hs).trans (Nat.div_mul_le_self _ _)

/-- The first cut decides whether all cuts are defined. -/
theorem nearest_pos_iff {share s : Nat} (hs : 0 < s) (hsh : 0 < share)
    (h : share * s ≤ cumulative counts counts.length) (hc : counts.getD 0 0 < 2 * share) :
    0 < nearest counts (share * s) := by
  have h1 : share ≤ share * s := Nat.le_mul_of_pos_right _ hs
  have h0 : 0 < share * s := by omega
  obtain ⟨a1, a2, a3⟩ := splitter_spec h
  have hp := splitter_pos h0 h
  have hc1 : cumulative counts 1 = counts.getD 0 0 := by
    rw [cumulative_succ, cumulative_zero, Nat.zero_add]
  unfold nearest
  simp only
  by_cases hp1 : splitter counts (share * s) = 1
  · rw [hp1, Nat.sub_self, cumulative_zero]
    rw [hp1] at a2
    rw [if_pos (by omega)]
    omega
  · split <;> omega

theorem nearest_zero {share : Nat} (hsh : 0 < share)
    (h : share ≤ cumulative counts counts.length) (hc : 2 * share ≤ counts.getD 0 0) :
    nearest counts share = 0 := by
  obtain ⟨a1, a2, a3⟩ := splitter_spec h
  have hc1 : cumulative counts 1 = counts.getD 0 0 := by
    rw [cumulative_succ, cumulative_zero, Nat.zero_add]
  have hp := splitter_pos hsh h
  have hp1 : splitter counts share = 1 := by
    by_contra hne
    have := a3 1 (by omega)
    omega
  unfold nearest
  simp only
  rw [hp1, Nat.sub_self, cumulative_zero, if_neg (by omega)]

theorem mapM_some {α β : Type} {f : α → Option β} {g : α → β} {l : List α}
    (h : ∀ a ∈ l, f a = some (g a)) : l.mapM f = some (l.map g) := by
  induction l with
  | nil => rfl
  | cons a l ih =>
    rw [List.mapM_cons, h a (by simp), ih fun b hb => h b (by simp [hb])]
    rfl

theorem mapM_none {α β : Type} {f : α → Option β} {l : List α} {a : α} (ha : a ∈ l)
    (h : f a = none) : l.mapM f = none := by
  induction l with
  | nil => cases ha
  | cons b l ih =>
    rw [List.mapM_cons]
    rcases List.mem_cons.1 ha with rfl | ha
    · rw [h]; rfl
    · rw [ih ha]
      cases f b <;> rfl

/-- When the code computes cuts. -/
def Splittable (counts : List Nat) (np : Nat) : Prop :=
  np ≤ 1 ∨ (0 < cumulative counts counts.length / np ∧
    counts.getD 0 0 < 2 * (cumulative counts counts.length / np))

theorem cuts_some {np : Nat} (h : Splittable counts np) :
    cuts counts np = some ((List.range (np - 1)).map
      (fun s => nearest counts (cumulative counts counts.length / np * (s + 1)) - 1)
      ++ [counts.length - 1]) := by
  have key : ((List.range (np - 1)).mapM fun s =>
      cut counts (cumulative counts counts.length / np) (s + 1)) = some ((List.range (np - 1)).map
      (fun s => nearest counts (cumulative counts counts.length / np * (s + 1)) - 1)) := by
    apply mapM_some
    intro s hs
    have hs := List.mem_range.1 hs
    rcases h with h | ⟨h1, h2⟩
    · omega
    · have hle := share_le (counts := counts) np (s + 1) (by omega)
      have hpos := nearest_pos_iff (counts := counts) (Nat.succ_pos s) h1 hle h2
      rw [cut_eq hle, if_neg, if_neg (by simp at hpos; omega)]
      have := Nat.le_mul_of_pos_right (cumulative counts counts.length / np) (Nat.succ_pos s)
      simp at this
      omega
  unfold cuts
  simp only [key]
  rfl

theorem cuts_none {np : Nat} (hnp : 0 < np) (h : ¬ Splittable counts np) : cuts counts np = none := by
  unfold Splittable at h
  rw [not_or, not_and_or] at h
  obtain ⟨h1, h2⟩ := h
  have key : ((List.range (np - 1)).mapM fun s =>
      cut counts (cumulative counts counts.length / np) (s + 1)) = none := by
    apply mapM_none (a := 0) (List.mem_range.2 (by omega))
    have hle := share_le (counts := counts) np (0 + 1) (by omega)
    rw [cut_eq hle]
    by_cases h0 : cumulative counts counts.length / np = 0
    · rw [if_pos (by rw [h0])]
    · rw [if_neg (by simpa using h0), if_pos]
      rw [Nat.zero_add, Nat.mul_one]
      rw [Nat.zero_add, Nat.mul_one] at hle
      have hp := Nat.pos_of_ne_zero h0
      refine nearest_zero hp hle ?_
      rcases h2 with h2 | h2
      · exact absurd hp h2
      · exact Nat.le_of_not_lt h2
  unfold cuts
  simp only [key]
  rfl

/-! ### Filling in the ranks -/

theorem foldl_set_length (l : List Nat) (i : Nat) (r : List Nat) :
    (l.foldl (fun r j => r.set j i) r).length = r.length := by
  induction l generalizing r with
  | nil => rfl
  | cons a l ih => rw [List.foldl_cons, ih]; simp

theorem foldl_set_get (l : List Nat) (i : Nat) (r : List Nat) (j : Nat) (hj : j < r.length) :
    (l.foldl (fun r j => r.set j i) r).getD j 0 = if j ∈ l then i else r.getD j 0 := by
  induction l generalizing r with
  | nil => simp
  | cons a l ih =>
    rw [List.foldl_cons, ih (r.set a i) (by simpa using hj)]
    by_cases hm : j ∈ l
    · simp [hm]
    · by_cases ha : j = a
      · subst ha
        simp [hm, hj]
      · have : a ≠ j := fun h => ha h.symm
        simp [hm, ha, List.getD_eq_getElem?_getD, List.getElem?_set_ne this]

theorem fill_length (r : List Nat) (i b e : Nat) : (fill r i b e).length = r.length :=
  foldl_set_length _ _ _

theorem fill_get (r : List Nat) (i b e j : Nat) (hj : j < r.length) :
    (fill r i b e).getD j 0 = if b ≤ j ∧ j ≤ e then i else r.getD j 0 := by
  unfold fill
  rw [foldl_set_get _ _ _ _ hj]
  simp only [List.mem_range'_1]
  have : (b ≤ j ∧ j < b + (e + 1 - b)) ↔ (b ≤ j ∧ j ≤ e) := by omega
  simp [this]

/-- The prefix of the loop over ranks. -/
def assignTo (ret cs : List Nat) (k : Nat) : List Nat :=
  (List.range k).foldl
    (fun r i => fill r i (if i = 0 then 0 else cs.getD (i - 1) 0 + 1) (cs.getD i 0)) ret

theorem assignTo_succ (ret cs : List Nat) (k : Nat) :
    assignTo ret cs (k + 1)
      = fill (assignTo ret cs k) k (if k = 0 then 0 else cs.getD (k - 1) 0 + 1) (cs.getD k 0) := by
  unfold assignTo
  rw [List.range_succ, List.foldl_append]
  rfl

theorem assignTo_length (ret cs : List Nat) (k : Nat) : (assignTo ret cs k).length = ret.length := by
  induction k with
  | zero => rfl
  | succ k ih => rw [assignTo_succ, fill_length, ih]

theorem assignTo_get (ret cs : List Nat) (hs : ∀ i j, i ≤ j → j < cs.length → cs.getD i 0 ≤ cs.getD j 0)
    (k : Nat) (hk : k ≤ cs.length) (j : Nat) (hj : j < ret.length) (hjk : ∃ i, i < k ∧ j ≤ cs.getD i 0) :
    (assignTo ret cs k).getD j 0 < k ∧ ∀ i, i < k →
      ((assignTo ret cs k).getD j 0 ≤ i ↔ j ≤ cs.getD i 0) := by
  induction k with
  | zero => obtain ⟨i, hi, _⟩ := hjk; omega
  | succ k ih =>
    rw [assignTo_succ, fill_get _ _ _ _ _ (by rw [assignTo_length]; exact hj)]
    by_cases hprev : ∃ i, i < k ∧ j ≤ cs.getD i 0
    · have ih := ih (by omega) hprev
      obtain ⟨i0, hi0, hj0⟩ := hprev
      have h1 : cs.getD i0 0 ≤ cs.getD (k - 1) 0 := hs _ _ (by omega) (by omega)
      rw [if_neg]
      · refine ⟨by omega, ?_⟩
        intro i hi
        by_cases hik : i < k
        · exact ih.2 i hik
        · have : i = k := by omega
          subst this
          have : cs.getD i0 0 ≤ cs.getD i 0 := hs _ _ (by omega) (by omega)
          constructor <;> intro _ <;> omega
      · rw [if_neg (by omega)]
        omega
    · obtain ⟨i, hi, hji⟩ := hjk
      have hik : i = k := by
        by_contra hne
        exact hprev ⟨i, by omega, hji⟩
      subst hik
      have hb : (if i = 0 then 0 else cs.getD (i - 1) 0 + 1) ≤ j := by
        split
        · omega
        · by_contra hlt
          exact hprev ⟨i - 1, by omega, by omega⟩
      rw [if_pos ⟨hb, hji⟩]
      refine ⟨by omega, ?_⟩
      intro i' hi'
      constructor
      · intro hle
        have : i' = i := by omega
        rw [this]; exact hji
      · intro hle
        by_contra hlt
        exact hprev ⟨i', by omega, hle⟩

/-- What the cuts look like. -/
structure CutsOk (len np : Nat) (cs : List Nat) : Prop where
  length : cs.length = np
  mono : ∀ i j, i ≤ j → j < np → cs.getD i 0 ≤ cs.getD j 0
  last : cs.getD (np - 1) 0 = len - 1

theorem cuts_ok {np : Nat} (hnp : 0 < np) (hlen : 0 < counts.length) (h : Splittable counts np) :
    CutsOk counts.length np ((List.range (np - 1)).map
      (fun s => nearest counts (cumulative counts counts.length / np * (s + 1)) - 1)
      ++ [counts.length - 1]) := by
  have hl : ((List.range (np - 1)).map
      (fun s => nearest counts (cumulative counts counts.length / np * (s + 1)) - 1)).length = np - 1 := by
    simp
  have hget : ∀ i, i < np - 1 → ((List.range (np - 1)).map
      (fun s => nearest counts (cumulative counts counts.length / np * (s + 1)) - 1)
      ++ [counts.length - 1]).getD i 0
      = nearest counts (cumulative counts counts.length / np * (i + 1)) - 1 := by
    intro i hi
    rw [List.getD_eq_getElem?_getD, List.getElem?_append_left (by omega)]
    simp [hi]
  have hlast : ((List.range (np - 1)).map
      (fun s => nearest counts (cumulative counts counts.length / np * (s + 1)) - 1)
      ++ [counts.length - 1]).getD (np - 1) 0 = counts.length - 1 := by
    rw [List.getD_eq_getElem?_getD, List.getElem?_append_right (by omega)]
    simp
  refine ⟨by simp; omega, ?_, hlast⟩
  intro i j hij hj
  by_cases hj' : j < np - 1
  · rw [hget i (by omega), hget j hj']
    rcases h with h | ⟨h1, _⟩
    · omega
    · have hm := nearest_mono (counts := counts)
        (t := cumulative counts counts.length / np * (i + 1))
        (t' := cumulative counts counts.length / np * (j + 1))
        (Nat.mul_pos h1 (Nat.succ_pos i)) (Nat.mul_le_mul_left _ (by omega))
        (share_le np (j + 1) (by omega))
      omega
  · have hj2 : j = np - 1 := by omega
    subst hj2
    rw [hlast]
    by_cases hi : i < np - 1
    · rw [hget i hi]
      have := nearest_le (counts := counts) (share_le np (i + 1) (by omega))
      omega
    · have : i = np - 1 := by omega
      rw [this, hlast]

theorem partition_spec {np : Nat} (hnp : 0 < np) (hlen : 0 < counts.length)
    (h : Splittable counts np) :
    ∃ rm, partition counts np = some rm ∧ rm.length = counts.length ∧
      (∀ j, j < counts.length → rm.getD j 0 < np) ∧
      (∀ j j', j ≤ j' → j' < counts.length → rm.getD j 0 ≤ rm.getD j' 0) ∧
      (∀ j, j < counts.length → ∀ s, 0 < s → s < np →
        (rm.getD j 0 < s ↔ j < nearest counts (cumulative counts counts.length / np * s))) := by
  have hok := cuts_ok hnp hlen h
  generalize hcs : ((List.range (np - 1)).map
      (fun s => nearest counts (cumulative counts counts.length / np * (s + 1)) - 1)
      ++ [counts.length - 1]) = cs at hok
  have hcuts := cuts_some h
  rw [hcs] at hcuts
  have hget : ∀ j, j < counts.length →
      (assignTo (List.replicate counts.length 0) cs np).getD j 0 < np ∧ ∀ i, i < np →
      ((assignTo (List.replicate counts.length 0) cs np).getD j 0 ≤ i ↔ j ≤ cs.getD i 0) := by
    intro j hj
    apply assignTo_get _ cs (fun i j hij hj => hok.mono i j hij (by rw [hok.length] at hj; exact hj))
      np (by rw [hok.length]) j (by simpa using hj)
    exact ⟨np - 1, by omega, by rw [hok.last]; omega⟩
  refine ⟨assignTo (List.replicate counts.length 0) cs np, ?_, ?_, ?_, ?_, ?_⟩
  · unfold partition
    rw [hcuts]
    rfl
  · rw [assignTo_length]; simp
  · exact fun j hj => (hget j hj).1
  · intro j j' hjj hj'
    obtain ⟨h1, h2⟩ := hget j' hj'
    have h3 := (h2 _ h1).1 (Nat.le_refl _)
    exact ((hget j (by omega)).2 _ h1).2 (by omega)
  · intro j hj s hs0 hs
    obtain ⟨_, h2⟩ := hget j hj
    have h3 := h2 (s - 1) (by omega)
    have hc : cs.getD (s - 1) 0 + 1 = nearest counts (cumulative counts counts.length / np * s) := by
      rw [← hcs, List.getD_eq_getElem?_getD, List.getElem?_append_left (by simp; omega)]
      have hs1 : s - 1 < np - 1 := by omega
      have hs2 : s - 1 + 1 = s := by omega
      simp only [List.getElem?_map, List.getElem?_range hs1, Option.map_some, Option.getD_some, hs2]
      rcases h with h | ⟨ha, hb⟩
      · omega
      · have := nearest_pos_iff (counts := counts) hs0 ha (share_le np s (by omega)) hb
        omega
    omega

theorem partition_none {np : Nat} (hnp : 0 < np) (h : ¬ Splittable counts np) :
    partition counts np = none := by
  unfold partition
  rw [cuts_none hnp h]
  rfl

end Hilbert
end Dashmm
