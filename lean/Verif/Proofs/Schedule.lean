import Verif.Proofs.Chunks
import Verif.Model.Schedule
import Verif.Spec.Chunks
import Verif.Proofs.Exec
import Mathlib.Tactic.Ring
namespace Dashmm

/-! ### Chunks -/

theorem Tiles.append : ∀ {l m : List (Nat × Nat)} {lo mid hi : Nat},
    Tiles lo mid l → Tiles mid hi m → Tiles lo hi (l ++ m)
  | [], _, _, _, _, h, h' => by cases h; exact h'
  | _ :: _, _, _, _, _, ⟨h1, h2, h3⟩, h' => ⟨h1, h2, h3.append h'⟩

theorem Tiles.flatten {α : Type} (data : List α) : ∀ {l : List (Nat × Nat)} {lo hi : Nat},
    Tiles lo hi l → l.flatMap (sliceOf data) = (data.drop lo).take (hi - lo)
  | [], lo, hi, h => by cases h; simp
  | c :: l, lo, hi, ⟨h1, h2, h3⟩ => by
    rw [List.flatMap_cons, h3.flatten data, sliceOf, h1]
    have := h3.le
    have e : hi - lo = (c.2 - lo) + (hi - c.2) := by omega
    rw [e, List.take_add, List.drop_drop]
    congr 3
    omega

theorem startLoop_tiles (count delta : Nat) (hd : 0 < delta) :
    ∀ start, start ≤ count → Tiles start count (startLoop count delta start) := by
  intro start
  induction hk : count - start using Nat.strongRecOn generalizing start with
  | ind k ih =>
    intro hs
    rw [startLoop]
    split
    · rename_i h
      refine ⟨rfl, ?_, ?_⟩
      · simp only; split <;> omega
      · simp only
        by_cases h' : start + delta > count
        · rw [if_pos h', startLoop, dif_neg (by omega)]
          rfl
        · rw [if_neg h']
          exact ih _ (by omega) _ rfl (by omega)
    · rename_i h
      show start = count
      omega

theorem startChunks_tiles (count workers : Nat) : Tiles 0 count (startChunks count workers) := by
  unfold startChunks
  by_cases hc : count = 0
  · subst hc
    rw [startLoop, dif_neg (by omega)]; rfl
  · apply startLoop_tiles _ _ _ _ (Nat.zero_le _)
    split
    · omega
    · exact Nat.pos_of_ne_zero (by assumption)

/-- Consecutive ranges of equal length. -/
theorem tiles_range (d : Nat) (hd : 0 < d) (off : Nat) : ∀ n,
    Tiles off (off + n * d) ((List.range n).map fun i => (off + i * d, off + i * d + d)) := by
  intro n
  induction n with
  | zero => simp [Tiles]
  | succ n ih =>
    rw [List.range_succ, List.map_append]
    refine ih.append ⟨rfl, ?_, ?_⟩
    · simp only; omega
    · show _ = _; simp only; ring

theorem resetChunks_tiles (count workers : Nat) (hw : 0 < workers) :
    Tiles 0 count (resetChunks count workers) := by
  unfold resetChunks
  have h1 := tiles_range (count / workers + 1) (Nat.succ_pos _) 0 (count % workers)
  simp only [Nat.zero_add] at h1
  have hmod := Nat.mod_lt count hw
  have hdm := Nat.div_add_mod count workers
  by_cases hd : count / workers = 0
  · simp only [hd, ne_eq, not_true, if_false, List.append_nil]
    rw [hd] at h1 hdm
    simp only [Nat.zero_add, Nat.mul_one, Nat.mul_zero] at h1 hdm
    rw [hdm] at h1
    simpa [hdm] using h1
  · have h2 := tiles_range (count / workers) (Nat.pos_of_ne_zero hd) ((count / workers + 1) * (count % workers))
      (workers - count % workers)
    have e : (count / workers + 1) * (count % workers) +
        (workers - count % workers) * (count / workers) = count := by
      conv_rhs => rw [← hdm]
      generalize count / workers = q
      generalize count % workers = m at hmod
      obtain ⟨k, rfl⟩ := Nat.exists_eq_add_of_le (Nat.le_of_lt hmod)
      rw [Nat.add_sub_cancel_left]
      ring
    rw [e] at h2
    simp only [ne_eq, hd, not_false_eq_true, if_true]
    refine Tiles.append ?_ h2
    rw [Nat.mul_comm]
    exact h1

theorem resetSets_eq (count workers : Nat) (hw : 0 < workers) :
    resetSets count workers = workers := by
  have hmod := Nat.mod_lt count hw
  unfold resetSets resetChunks
  by_cases hd : count / workers = 0
  · simp [hd]; omega
  · simp [hd]; omega

theorem localCount_eq {α : Type} {isLocal : α → Bool} {A B : List α}
    (hA : ∀ a ∈ A, isLocal a = true) (hB : ∀ b ∈ B, isLocal b = false) :
    (A ++ B).take (localCount isLocal (A ++ B)) = A := by
  have h : (A ++ B).takeWhile isLocal = A := by
    rw [List.takeWhile_append_of_pos hA]
    cases B with
    | nil => simp
    | cons b B => rw [List.takeWhile_cons, hB b (by simp)]; simp
  rw [localCount, h]
  simp

/-! ### Grouping -/

theorem edgeRuns_flatten {ε : Type} (loc : ε → Nat) (l : List ε) :
    (edgeRuns loc l).flatMap Prod.snd = l := by
  induction hk : l.length using Nat.strongRecOn generalizing l with
  | ind k ih =>
    cases l with
    | nil => rw [edgeRuns]; rfl
    | cons e es =>
      rw [edgeRuns, List.flatMap_cons, ih _ _ _ rfl]
      · simp
      · have := (List.dropWhile_sublist (p := fun d => loc d == loc e) (l := es)).length_le
        simp only [List.length_cons] at hk
        omega

theorem edgeRuns_mem {ε : Type} (loc : ε → Nat) (l : List ε) :
    ∀ b ∈ edgeRuns loc l, b.2 ≠ [] ∧ ∀ e ∈ b.2, loc e = b.1 := by
  induction hk : l.length using Nat.strongRecOn generalizing l with
  | ind k ih =>
    cases l with
    | nil => rw [edgeRuns]; simp
    | cons e es =>
      rw [edgeRuns]
      intro b hb
      rcases List.mem_cons.1 hb with rfl | hb
      · refine ⟨by simp, ?_⟩
        intro d hd
        rcases List.mem_cons.1 hd with rfl | hd
        · rfl
        · have := List.all_takeWhile (p := fun d => loc d == loc e) (l := es)
          rw [List.all_eq_true] at this
          simpa using this d hd
      · refine ih _ ?_ _ rfl b hb
        have := (List.dropWhile_sublist (p := fun d => loc d == loc e) (l := es)).length_le
        simp only [List.length_cons] at hk
        omega

theorem edgeRuns_lt {ε : Type} (loc : ε → Nat) (l : List ε)
    (hs : l.Pairwise fun a b => loc a ≤ loc b) :
    (edgeRuns loc l).Pairwise fun a b => a.1 < b.1 := by
  induction hk : l.length using Nat.strongRecOn generalizing l with
  | ind k ih =>
    cases l with
    | nil => rw [edgeRuns]; simp
    | cons e es =>
      rw [edgeRuns]
      rw [List.pairwise_cons] at hs
      have hsub := (List.dropWhile_sublist (p := fun d => loc d == loc e) (l := es))
      have hlen := hsub.length_le
      simp only [List.length_cons] at hk
      refine List.pairwise_cons.2 ⟨?_, ih _ (by omega) _ (hs.2.sublist hsub) rfl⟩
      intro b hb
      obtain ⟨hne, hall⟩ := edgeRuns_mem loc _ b hb
      obtain ⟨d, hd⟩ := List.exists_mem_of_ne_nil _ hne
      have hd' : d ∈ es.dropWhile fun d => loc d == loc e := by
        rw [← edgeRuns_flatten loc (es.dropWhile fun d => loc d == loc e)]
        exact List.mem_flatMap.2 ⟨b, hb, hd⟩
      have hdl := hall d hd
      -- the first dropped element is larger, and so are all after it
      have hs' := hs.2.sublist hsub
      cases hdrop : es.dropWhile fun d => loc d == loc e with
      | nil => rw [hdrop] at hd'; simp at hd'
      | cons a t =>
        have ha : ¬ ((fun d => loc d == loc e) a = true) := by
          have := List.head_dropWhile_not (fun d => loc d == loc e) (l := es) (by rw [hdrop]; simp)
          simpa [hdrop] using this
        have ha' : loc e < loc a := by
          have h1 : a ∈ es := hsub.subset (by rw [hdrop]; simp)
          have := hs.1 a h1
          simp at ha
          omega
        rw [hdrop] at hs' hd'
        rcases List.mem_cons.1 hd' with rfl | h
        · simp only; omega
        · have := (List.pairwise_cons.1 hs').1 d h
          simp only; omega

/-- Every run has exactly the edges to its rank. -/
theorem edgeRuns_filter {ε : Type} (loc : ε → Nat) (l : List ε)
    (hs : l.Pairwise fun a b => loc a ≤ loc b) :
    ∀ b ∈ edgeRuns loc l, b.2 = l.filter fun e => decide (loc e = b.1) := by
  intro b hb
  conv_rhs => rw [← edgeRuns_flatten loc l]
  have hlt := edgeRuns_lt loc l hs
  have hm := edgeRuns_mem loc l
  generalize edgeRuns loc l = rs at hb hlt hm
  induction rs with
  | nil => simp at hb
  | cons c rs ih =>
    rw [List.pairwise_cons] at hlt
    rw [List.flatMap_cons, List.filter_append]
    rcases List.mem_cons.1 hb with rfl | hb
    · have h1 : b.2.filter (fun e => decide (loc e = b.1)) = b.2 := by
        rw [List.filter_eq_self]; intro e he; simpa using (hm b (by simp)).2 e he
      have h2 : (rs.flatMap Prod.snd).filter (fun e => decide (loc e = b.1)) = [] := by
        rw [List.filter_eq_nil_iff]
        intro e he
        obtain ⟨c, hc, hec⟩ := List.mem_flatMap.1 he
        have := hlt.1 c hc
        have := (hm c (by simp [hc])).2 e hec
        simp; omega
      rw [h1, h2, List.append_nil]
    · have h1 : c.2.filter (fun e => decide (loc e = b.1)) = [] := by
        rw [List.filter_eq_nil_iff]
        intro e he
        have := hlt.1 b hb
        have := (hm c (by simp)).2 e he
        simp; omega
      rw [h1, List.nil_append]
      exact ih hb hlt.2 (fun c hc => hm c (by simp [hc]))

end Dashmm
