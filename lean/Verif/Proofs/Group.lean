import Verif.Model.Grid
import Verif.Proofs.Partition
import Mathlib.Data.List.Count
import Mathlib.Algebra.BigOperators.Group.List.Basic
namespace Dashmm
namespace Grid
open Hilbert (cumulative cumulative_zero cumulative_succ cumulative_mono)

variable {R : Type} [Inhabited R]

/-- The records of a cell, in their order. -/
def ofCell {R : Type} (recs : List R) (gid : List Nat) (c : Nat) : List R :=
  ((recs.zip gid).filter fun p => p.2 = c).map Prod.fst

/-- Number of earlier points in the same cell. -/
def earlier (gid : List Nat) (i c : Nat) : Nat := (gid.take i).countP (· = c)

/-- Final place of a point. -/
def place (count gid : List Nat) (i : Nat) : Nat :=
  cumulative count (gid.getD i 0) + earlier gid i (gid.getD i 0)

theorem earlier_zero (gid : List Nat) (c : Nat) : earlier gid 0 c = 0 := by simp [earlier]

theorem earlier_succ (gid : List Nat) {i : Nat} (hi : i < gid.length) (c : Nat) :
    earlier gid (i + 1) c = earlier gid i c + if gid.getD i 0 = c then 1 else 0 := by
  unfold earlier
  rw [List.take_succ_eq_append_getElem hi, List.countP_append]
  simp [hi, List.countP_cons]

theorem earlier_mono (gid : List Nat) {i j : Nat} (h : i ≤ j) (c : Nat) : earlier gid i c ≤ earlier gid j c :=
  List.Sublist.countP_le (List.take_sublist_take_left h)

theorem earlier_all (gid : List Nat) {n : Nat} (hn : gid.length ≤ n) (c : Nat) :
    earlier gid n c = gid.countP (· = c) := by
  unfold earlier; rw [List.take_of_length_le hn]

theorem getD_set (l : List Nat) (i j v : Nat) : (l.set i v).getD j 0 = if i = j ∧ i < l.length then v else l.getD j 0 := by
  simp only [List.getD_eq_getElem?_getD, List.getElem?_set]
  by_cases h : i = j
  · subst h
    by_cases h2 : i < l.length
    · simp [h2]
    · simp [h2]
  · simp [h]

/-! ### offsets -/

theorem startOffsets_aux (dim3 : Nat) (count : List Nat) (k : Nat) (hk : k + 1 ≤ dim3) :
    ((List.range' 1 k).foldl
      (fun o i => o.set i (o.getD (i - 1) 0 + count.getD (i - 1) 0)) (List.replicate dim3 0)).length = dim3 ∧
    ∀ c, c ≤ k → ((List.range' 1 k).foldl
      (fun o i => o.set i (o.getD (i - 1) 0 + count.getD (i - 1) 0)) (List.replicate dim3 0)).getD c 0
        = cumulative count c := by
  induction k with
  | zero =>
    refine ⟨by simp, ?_⟩
    intro c hc
    have : c = 0 := by omega
    subst this
    rw [cumulative_zero]
    cases dim3 <;> simp
  | succ k ih =>
    obtain ⟨h1, h2⟩ := ih (by omega)
    rw [List.range'_concat, List.foldl_append]
    simp only [List.foldl_cons, List.foldl_nil]
    refine ⟨by rw [List.length_set, h1], ?_⟩
    intro c hc
    rw [getD_set, h1]
    by_cases he : 1 + 1 * k = c
    · rw [if_pos ⟨he, by omega⟩]
      have : 1 + 1 * k - 1 = k := by omega
      rw [this, h2 k (Nat.le_refl _), ← he, ← cumulative_succ]
      congr 1; omega
    · rw [if_neg (fun h => he h.1)]
      exact h2 c (by omega)

theorem startOffsets_spec (dim3 : Nat) (count : List Nat) (h : 0 < dim3) :
    (startOffsets dim3 count).length = dim3 ∧
    ∀ c, c < dim3 → (startOffsets dim3 count).getD c 0 = cumulative count c := by
  obtain ⟨h1, h2⟩ := startOffsets_aux dim3 count (dim3 - 1) (by omega)
  exact ⟨h1, fun c hc => h2 c (by omega)⟩

theorem finalPlaces_aux (dim3 : Nat) (count gid : List Nat) (h0 : 0 < dim3)
    (hg : ∀ g ∈ gid, g < dim3) (k : Nat) (hk : k ≤ gid.length) :
    let a := (List.range k).foldl (fun a i =>
        let g := a.1.getD i 0
        (a.1.set i (a.2.getD g 0), a.2.set g (a.2.getD g 0 + 1)))
      (gid, startOffsets dim3 count)
    a.1.length = gid.length ∧ a.2.length = dim3 ∧
    (∀ i, i < k → a.1.getD i 0 = place count gid i) ∧
    (∀ i, k ≤ i → a.1.getD i 0 = gid.getD i 0) ∧
    (∀ c, c < dim3 → a.2.getD c 0 = cumulative count c + earlier gid k c) := by
  obtain ⟨s1, s2⟩ := startOffsets_spec dim3 count h0
  induction k with
  | zero =>
    refine ⟨rfl, s1, by omega, fun _ _ => rfl, ?_⟩
    intro c hc
    rw [earlier_zero]
    exact s2 c hc
  | succ k ih =>
    obtain ⟨h1, h2, h3, h4, h5⟩ := ih (by omega)
    rw [List.range_succ, List.foldl_append]
    simp only [List.foldl_cons, List.foldl_nil]
    generalize (List.range k).foldl (fun a i =>
        let g := a.1.getD i 0
        (a.1.set i (a.2.getD g 0), a.2.set g (a.2.getD g 0 + 1)))
      (gid, startOffsets dim3 count) = a at h1 h2 h3 h4 h5
    have hgk : a.1.getD k 0 = gid.getD k 0 := h4 k (Nat.le_refl _)
    have hlt : gid.getD k 0 < dim3 := by
      have : gid.getD k 0 = gid[k] := by simp [show k < gid.length by omega]
      rw [this]; exact hg _ (List.getElem_mem _)
    refine ⟨by rw [List.length_set, h1], by rw [List.length_set, h2], ?_, ?_, ?_⟩
    · intro i hi
      rw [getD_set]
      by_cases he : k = i
      · subst he
        rw [if_pos ⟨rfl, by omega⟩, hgk, h5 _ hlt]
        rfl
      · rw [if_neg (fun h => he h.1)]
        exact h3 i (by omega)
    · intro i hi
      rw [getD_set, if_neg (by omega)]
      exact h4 i (by omega)
    · intro c hc
      rw [getD_set, hgk, earlier_succ gid (by omega), h2]
      by_cases he : gid.getD k 0 = c
      · rw [if_pos ⟨he, hlt⟩, if_pos he, ← he, h5 _ hlt]; omega
      · rw [if_neg (fun h => he h.1), if_neg he, h5 c hc]; omega

/-! ### the target order -/

theorem filter_place {α : Type} (p : α → Bool) : ∀ (l : List α) (i : Nat) (h : i < l.length), p l[i] = true →
    (l.filter p)[(l.take i).countP p]? = some l[i] := by
  intro l
  induction l with
  | nil => intro i h; simp at h
  | cons a l ih =>
    intro i h hp
    cases i with
    | zero =>
      have : p a = true := by simpa using hp
      simp [this]
    | succ i =>
      have hi : i < l.length := by simpa using h
      have hp' : p l[i] = true := by simpa using hp
      have := ih i hi hp'
      by_cases ha : p a = true
      · simp [List.filter_cons, ha, List.countP_cons, this]
      · simp [List.filter_cons, ha, List.countP_cons, this]

theorem flatMap_get {α : Type} (f : Nat → List α) (w : List Nat) (n : Nat)
    (hw : ∀ c, c < n → (f c).length = w.getD c 0) :
    ((List.range n).flatMap f).length = cumulative w n ∧
    ∀ c m, c < n → m < w.getD c 0 →
      ((List.range n).flatMap f)[cumulative w c + m]? = (f c)[m]? := by
  induction n with
  | zero => refine ⟨by simp [cumulative], by omega⟩
  | succ n ih =>
    obtain ⟨h1, h2⟩ := ih fun c hc => hw c (by omega)
    rw [List.range_succ, List.flatMap_append]
    refine ⟨?_, ?_⟩
    · rw [List.length_append, h1, cumulative_succ, ← hw n (by omega)]; simp
    · intro c m hc hm
      by_cases he : c = n
      · subst he
        rw [List.getElem?_append_right (by omega), h1]
        simp
      · have hlt : c + 1 ≤ n := by omega
        have := cumulative_mono (counts := w) hlt
        rw [cumulative_succ] at this
        rw [List.getElem?_append_left (by omega)]
        exact h2 c m (by omega) hm

theorem zip_take_countP (recs : List R) (gid : List Nat) (hl : recs.length = gid.length) (c i : Nat) :
    ((recs.zip gid).take i).countP (fun p => decide (p.2 = c)) = earlier gid i c := by
  unfold earlier
  induction gid generalizing recs i with
  | nil =>
    have : recs = [] := List.length_eq_zero_iff.1 (by simpa using hl)
    subst this; simp
  | cons g gid ih =>
    cases recs with
    | nil => simp at hl
    | cons r recs =>
      cases i with
      | zero => simp
      | succ i =>
        have := ih recs (by simpa using hl) i
        simp only [List.zip_cons_cons, List.take_succ_cons, List.countP_cons, this]

theorem ofCell_length (recs : List R) (gid : List Nat) (hl : recs.length = gid.length) (c : Nat) :
    (ofCell recs gid c).length = gid.countP (· = c) := by
  rw [ofCell, List.length_map, ← List.countP_eq_length_filter, ← earlier_all gid (Nat.le_refl _) c,
    ← zip_take_countP recs gid hl c]
  rw [List.take_of_length_le (by simp [hl])]

section
variable {recs : List R} {gid count : List Nat} {dim3 : Nat} (hl : recs.length = gid.length)
  (hg : ∀ g ∈ gid, g < dim3) (hc : ∀ c, c < dim3 → count.getD c 0 = gid.countP (· = c))
include hl hg hc

theorem gid_lt {i : Nat} (hi : i < gid.length) : gid.getD i 0 < dim3 := by
  have : gid.getD i 0 = gid[i] := by simp [hi]
  rw [this]; exact hg _ (List.getElem_mem _)

theorem earlier_lt {i : Nat} (hi : i < gid.length) :
    earlier gid i (gid.getD i 0) < count.getD (gid.getD i 0) 0 := by
  rw [hc _ (gid_lt hl hg hc hi)]
  have h1 := earlier_succ gid hi (gid.getD i 0)
  rw [if_pos rfl] at h1
  have h2 := earlier_mono gid (i := i + 1) (j := gid.length) (by omega) (gid.getD i 0)
  rw [earlier_all gid (Nat.le_refl _)] at h2
  omega

theorem sorted_get {i : Nat} (hi : i < gid.length) :
    ((List.range dim3).flatMap (ofCell recs gid))[place count gid i]? = recs[i]? := by
  have hw : ∀ c, c < dim3 → (ofCell recs gid c).length = count.getD c 0 := by
    intro c h; rw [ofCell_length recs gid hl, hc c h]
  obtain ⟨_, h2⟩ := flatMap_get (ofCell recs gid) count dim3 hw
  rw [place, h2 _ _ (gid_lt hl hg hc hi) (earlier_lt hl hg hc hi), ofCell, List.getElem?_map,
    ← zip_take_countP recs gid hl]
  have hz : i < (recs.zip gid).length := by simp; omega
  rw [filter_place (fun p : R × Nat => decide (p.2 = gid.getD i 0)) (recs.zip gid) i hz (by simp [hi])]
  simp

theorem place_inj {i j : Nat} (hi : i < gid.length) (hj : j < gid.length)
    (h : place count gid i = place count gid j) : i = j := by
  have hlti := earlier_lt hl hg hc hi
  have hltj := earlier_lt hl hg hc hj
  unfold place at h
  rcases Nat.lt_trichotomy (gid.getD i 0) (gid.getD j 0) with h1 | h1 | h1
  · have := cumulative_mono (counts := count) h1
    rw [Nat.succ_eq_add_one, cumulative_succ] at this
    omega
  · rw [h1] at h
    by_contra hne
    rcases Nat.lt_or_gt_of_ne hne with hlt | hlt
    · have a := earlier_succ gid hi (gid.getD i 0)
      rw [if_pos rfl, h1] at a
      have b := earlier_mono gid hlt (gid.getD j 0)
      rw [Nat.succ_eq_add_one] at b
      omega
    · have a := earlier_succ gid hj (gid.getD j 0)
      rw [if_pos rfl] at a
      have b := earlier_mono gid hlt (gid.getD j 0)
      rw [Nat.succ_eq_add_one] at b
      omega
  · have := cumulative_mono (counts := count) h1
    rw [Nat.succ_eq_add_one, cumulative_succ] at this
    omega

end

theorem total_countP (gid : List Nat) (dim3 : Nat) (hg : ∀ g ∈ gid, g < dim3) :
    ((List.range dim3).map fun c => gid.countP (· = c)).sum = gid.length := by
  induction gid with
  | nil => simp
  | cons g gid ih =>
    have hg' := hg g (by simp)
    have h1 : ((List.range dim3).map fun c => (g :: gid).countP (· = c)).sum
        = ((List.range dim3).map fun c => gid.countP (· = c)).sum
          + ((List.range dim3).map fun c => if g = c then 1 else 0).sum := by
      rw [← List.sum_map_add]
      congr 1
      apply List.map_congr_left
      intro c _
      rw [List.countP_cons]
      simp
    have h2 : ((List.range dim3).map fun c => if g = c then 1 else 0).sum = 1 := by
      have : ∀ n, ((List.range n).map fun c => if g = c then 1 else 0).sum = if g < n then 1 else 0 := by
        intro n
        induction n with
        | zero => simp
        | succ n ih =>
          rw [List.range_succ, List.map_append, List.sum_append, ih]
          by_cases h : g = n
          · subst h; simp
          · simp only [List.map_cons, List.map_nil, List.sum_cons, List.sum_nil, if_neg h]
            by_cases h' : g < n
            · rw [if_pos h', if_pos (by omega)]; rfl
            · rw [if_neg h', if_neg (by omega)]; rfl
      rw [this, if_pos hg']
    rw [h1, h2, ih fun x hx => hg x (by simp [hx]), List.length_cons]

theorem cumulative_total (count gid : List Nat) (dim3 : Nat) (hg : ∀ g ∈ gid, g < dim3)
    (hc : ∀ c, c < dim3 → count.getD c 0 = gid.countP (· = c)) :
    cumulative count dim3 = gid.length := by
  rw [← total_countP gid dim3 hg]
  have : ∀ n, cumulative count n = ((List.range n).map fun c => count.getD c 0).sum := by
    intro n
    induction n with
    | zero => simp [cumulative]
    | succ n ih => rw [cumulative_succ, List.range_succ, List.map_append, List.sum_append, ih]; simp
  rw [this]
  congr 1
  apply List.map_congr_left
  intro c h
  exact hc c (List.mem_range.1 h)

/-! ### the in-place rearrangement -/

/-- Invariant of the rearrangement: what is at `k` belongs at the place noted for `k`. -/
structure Arranging (T : List R) (a : List R × List Nat) : Prop where
  len : a.1.length = T.length
  lenG : a.2.length = T.length
  lt : ∀ k, k < T.length → a.2.getD k 0 < T.length
  inj : ∀ k l, k < T.length → l < T.length → a.2.getD k 0 = a.2.getD l 0 → k = l
  at_place : ∀ k, k < T.length → T[a.2.getD k 0]? = a.1[k]?

/-- Number of points already in place. -/
def fixedPts (n : Nat) (g : List Nat) : Nat := (List.range n).countP fun k => g.getD k 0 = k

section
variable {T : List R} {a : List R × List Nat} {i : Nat}

theorem swapStep_eq : swapStep i a =
    ((a.1.set (a.2.getD i 0) (a.1.getD i default)).set i (a.1.getD (a.2.getD i 0) default),
     (a.2.set (a.2.getD i 0) (a.2.getD i 0)).set i (a.2.getD (a.2.getD i 0) 0)) := rfl

theorem swapStep_gid (h : Arranging T a) (hi : i < T.length) (hne : a.2.getD i 0 ≠ i) (k : Nat) :
    (swapStep i a).2.getD k 0 =
      if k = i then a.2.getD (a.2.getD i 0) 0 else if k = a.2.getD i 0 then k else a.2.getD k 0 := by
  have hj := h.lt i hi
  rw [swapStep_eq]
  simp only
  rw [getD_set, List.length_set, h.lenG]
  by_cases h1 : k = i
  · rw [if_pos ⟨h1.symm, hi⟩, if_pos h1]
  · rw [if_neg (fun h => h1 h.1.symm), if_neg h1, getD_set, h.lenG]
    by_cases h2 : k = a.2.getD i 0
    · rw [if_pos ⟨h2.symm, hj⟩, if_pos h2, ← h2]
    · rw [if_neg (fun h => h2 h.1.symm), if_neg h2]

theorem swapStep_arranging (h : Arranging T a) (hi : i < T.length) (hne : a.2.getD i 0 ≠ i) :
    Arranging T (swapStep i a) := by
  have hj := h.lt i hi
  have hg := swapStep_gid h hi hne
  refine ⟨by rw [swapStep_eq]; simp [h.len], by rw [swapStep_eq]; simp [h.lenG], ?_, ?_, ?_⟩
  · intro k hk
    rw [hg]
    split
    · exact h.lt _ hj
    · split
      · exact hk
      · exact h.lt k hk
  · intro k l hk hl hkl
    rw [hg, hg] at hkl
    have key := h.inj
    by_cases k1 : k = i <;> by_cases l1 : l = i
    · omega
    · rw [if_pos k1, if_neg l1] at hkl
      by_cases l2 : l = a.2.getD i 0
      · rw [if_pos l2] at hkl
        have := key _ _ hj hi (by rw [hkl, l2])
        exact absurd this hne
      · rw [if_neg l2] at hkl
        have := key _ _ hj hl hkl
        omega
    · rw [if_neg k1, if_pos l1] at hkl
      by_cases k2 : k = a.2.getD i 0
      · rw [if_pos k2] at hkl
        have := key _ _ hj hi (by rw [← hkl, k2])
        exact absurd this hne
      · rw [if_neg k2] at hkl
        have := key _ _ hk hj hkl
        omega
    · rw [if_neg k1, if_neg l1] at hkl
      by_cases k2 : k = a.2.getD i 0 <;> by_cases l2 : l = a.2.getD i 0
      · omega
      · rw [if_pos k2, if_neg l2] at hkl
        have := key _ _ hi hl (by rw [← hkl, k2])
        omega
      · rw [if_neg k2, if_pos l2] at hkl
        have := key _ _ hk hi (by rw [hkl, l2])
        omega
      · rw [if_neg k2, if_neg l2] at hkl
        exact key _ _ hk hl hkl
  · intro k hk
    rw [hg]
    have hlen := h.len
    have gi : a.1[i]? = some (a.1.getD i default) := by
      rw [List.getD_eq_getElem?_getD, List.getElem?_eq_getElem (by omega)]; rfl
    have gj : a.1[a.2.getD i 0]? = some (a.1.getD (a.2.getD i 0) default) := by
      generalize a.2.getD i 0 = j at hj
      rw [List.getD_eq_getElem?_getD, List.getElem?_eq_getElem (by omega)]; rfl
    rw [swapStep_eq]
    simp only
    rw [List.getElem?_set]
    by_cases k1 : k = i
    · subst k1
      rw [if_pos rfl, if_pos rfl, if_pos (by rw [List.length_set]; omega), h.at_place _ hj, gj]
    · rw [if_neg k1, if_neg (Ne.symm k1), List.getElem?_set]
      by_cases k2 : k = a.2.getD i 0
      · rw [if_pos k2, if_pos k2.symm, if_pos (by omega), k2, h.at_place i hi, gi]
      · rw [if_neg k2, if_neg (Ne.symm k2), h.at_place k hk]

theorem countP_mono_lt {α : Type} {p q : α → Bool} : ∀ {l : List α} {x : α}, x ∈ l →
    (∀ y ∈ l, p y = true → q y = true) → p x = false → q x = true → l.countP p < l.countP q := by
  intro l
  induction l with
  | nil => intro x hx; simp at hx
  | cons b l ih =>
    intro x hx hpq hp hq
    rw [List.countP_cons, List.countP_cons]
    have hle : l.countP p ≤ l.countP q := List.countP_mono_left fun y hy => hpq y (by simp [hy])
    rcases List.mem_cons.1 hx with rfl | hx
    · simp [hp, hq]; omega
    · have := ih hx (fun y hy => hpq y (by simp [hy])) hp hq
      have hb : p b = true → q b = true := hpq b (by simp)
      by_cases hpb : p b = true
      · simp [hpb, hb hpb]; omega
      · simp [hpb]; split <;> omega

theorem swapStep_fixed (h : Arranging T a) (hi : i < T.length) (hne : a.2.getD i 0 ≠ i) :
    fixedPts T.length a.2 < fixedPts T.length (swapStep i a).2 := by
  have hj := h.lt i hi
  have hg := swapStep_gid h hi hne
  unfold fixedPts
  apply countP_mono_lt (x := a.2.getD i 0) (by simpa using hj)
  · intro k hk hp
    rw [decide_eq_true_eq] at hp ⊢
    rw [hg]
    have hk1 : k ≠ i := by
      intro e; rw [e] at hp; exact hne hp
    rw [if_neg hk1]
    split
    · rfl
    · exact hp
  · rw [decide_eq_false_iff_not]
    intro e
    exact hne (h.inj _ _ hj hi e)
  · rw [decide_eq_true_eq, hg, if_neg hne, if_pos rfl]

theorem swapStep_perm (h : Arranging T a) (hi : i < T.length) : (swapStep i a).1.Perm a.1 := by
  have hj := h.lt i hi
  have hlen := h.len
  rw [swapStep_eq]
  simp only
  have e1 : a.1.getD i default = a.1[i]'(by omega) := by simp [show i < a.1.length by omega]
  have e2 : a.1.getD (a.2.getD i 0) default = a.1[a.2.getD i 0]'(by omega) := by
    rw [List.getD_eq_getElem?_getD, List.getElem?_eq_getElem (by omega)]; rfl
  rw [e1, e2]
  exact List.set_set_perm (by omega) (by omega)

theorem fixedPts_le (n : Nat) (g : List Nat) : fixedPts n g ≤ n := by
  have := List.countP_le_length (p := fun k => decide (g.getD k 0 = k)) (l := List.range n)
  simpa [fixedPts] using this

theorem settle_spec : ∀ (fuel : Nat) (a : List R × List Nat), Arranging T a → i < T.length →
    T.length - fixedPts T.length a.2 ≤ fuel →
    ∃ b, settle i fuel a = some b ∧ Arranging T b ∧ b.1.Perm a.1 ∧ b.2.getD i 0 = i ∧
      ∀ k, k < T.length → a.2.getD k 0 = k → b.2.getD k 0 = k := by
  intro fuel
  induction fuel with
  | zero =>
    intro a h hi hf
    have hle := fixedPts_le T.length a.2
    have hfix : a.2.getD i 0 = i := by
      by_contra hne
      have h1 := swapStep_fixed h hi hne
      have h2 := fixedPts_le T.length (swapStep i a).2
      omega
    refine ⟨a, ?_, h, .refl _, hfix, fun _ _ h => h⟩
    rw [settle, if_neg (by simpa using hfix)]
  | succ fuel ih =>
    intro a h hi hf
    by_cases hne : a.2.getD i 0 = i
    · refine ⟨a, ?_, h, .refl _, hne, fun _ _ h => h⟩
      rw [settle, if_neg (by simpa using hne)]
    · have h1 := swapStep_fixed h hi hne
      obtain ⟨b, e, hb, hp, hbi, hk⟩ := ih (swapStep i a) (swapStep_arranging h hi hne) hi (by omega)
      refine ⟨b, by rw [settle, if_pos hne, e], hb, hp.trans (swapStep_perm h hi), hbi, ?_⟩
      intro k hkT hfix
      apply hk k hkT
      rw [swapStep_gid h hi hne]
      have hk1 : k ≠ i := by intro e; rw [e] at hfix; exact hne hfix
      rw [if_neg hk1]
      split
      · rfl
      · exact hfix

theorem settleAll_spec (fuel : Nat) (hf : T.length ≤ fuel) (a : List R × List Nat) (h : Arranging T a)
    (n : Nat) (hn : n ≤ T.length) :
    ∃ b, (List.range n).foldlM (fun a i => settle i fuel a) a = some b ∧ Arranging T b ∧
      b.1.Perm a.1 ∧ ∀ k, k < n → b.2.getD k 0 = k := by
  induction n with
  | zero => exact ⟨a, rfl, h, .refl _, by omega⟩
  | succ n ih =>
    obtain ⟨b, e, hb, hp, hk⟩ := ih (by omega)
    obtain ⟨c, e', hc, hp', hn', hk'⟩ := settle_spec (i := n) fuel b hb (by omega) (by omega)
    refine ⟨c, ?_, hc, hp'.trans hp, ?_⟩
    · rw [List.range_succ, List.foldlM_append, e]
      simp [e']
    · intro k hkn
      by_cases hkn' : k = n
      · rw [hkn', hn']
      · exact hk' k (by omega) (hk k (by omega))

theorem arranged (h : Arranging T a) (hk : ∀ k, k < T.length → a.2.getD k 0 = k) : a.1 = T := by
  apply List.ext_getElem?
  intro k
  by_cases hlt : k < T.length
  · have := h.at_place k hlt
    rw [hk k hlt] at this
    exact this.symm
  · rw [List.getElem?_eq_none (by rw [h.len]; omega), List.getElem?_eq_none (by omega)]

end

/-! ### the whole function -/

theorem fixOffsets (count o : List Nat) (n : Nat) (hn : n ≤ o.length) :
    ((List.range n).foldl (fun o i => o.set i (o.getD i 0 - count.getD i 0)) o).length = o.length ∧
    ∀ c, ((List.range n).foldl (fun o i => o.set i (o.getD i 0 - count.getD i 0)) o).getD c 0
      = if c < n then o.getD c 0 - count.getD c 0 else o.getD c 0 := by
  induction n with
  | zero => exact ⟨rfl, by simp⟩
  | succ n ih =>
    obtain ⟨h1, h2⟩ := ih (by omega)
    rw [List.range_succ, List.foldl_append]
    simp only [List.foldl_cons, List.foldl_nil]
    refine ⟨by rw [List.length_set, h1], ?_⟩
    intro c
    rw [getD_set, h1, h2, h2, if_neg (by omega : ¬ n < n)]
    by_cases he : n = c
    · subst he
      rw [if_pos ⟨rfl, by omega⟩, if_pos (by omega)]
    · rw [if_neg (fun h => he h.1)]
      by_cases hc : c < n
      · rw [if_pos hc, if_pos (by omega)]
      · rw [if_neg hc, if_neg (by omega)]

theorem groupPoints_spec {recs : List R} {gid count : List Nat} {dim3 fuel : Nat} (h0 : 0 < dim3)
    (hl : recs.length = gid.length) (hg : ∀ g ∈ gid, g < dim3)
    (hc : ∀ c, c < dim3 → count.getD c 0 = gid.countP (· = c)) (hf : recs.length ≤ fuel) :
    ∃ out offs, groupPoints fuel recs dim3 gid count = some (out, offs) ∧ out.Perm recs ∧
      out = (List.range dim3).flatMap (ofCell recs gid) ∧ offs.length = dim3 ∧
      ∀ c, c < dim3 → offs.getD c 0 = cumulative count c := by
  have hfin := finalPlaces_aux dim3 count gid h0 hg gid.length (Nat.le_refl _)
  simp only at hfin
  have hfp : finalPlaces recs.length gid (startOffsets dim3 count)
      = (List.range gid.length).foldl (fun a i =>
        let g := a.1.getD i 0
        (a.1.set i (a.2.getD g 0), a.2.set g (a.2.getD g 0 + 1)))
      (gid, startOffsets dim3 count) := by rw [finalPlaces, hl]
  rw [← hfp] at hfin
  obtain ⟨f1, f2, f3, _, f5⟩ := hfin
  have hlenT : ((List.range dim3).flatMap (ofCell recs gid)).length = recs.length := by
    rw [(flatMap_get (ofCell recs gid) count dim3 (fun c h => by
      rw [ofCell_length recs gid hl, hc c h])).1, cumulative_total count gid dim3 hg hc, hl]
  have harr : Arranging ((List.range dim3).flatMap (ofCell recs gid))
      (recs, (finalPlaces recs.length gid (startOffsets dim3 count)).1) := by
    refine ⟨hlenT.symm, ?_, ?_, ?_, ?_⟩
    · simp only; rw [hlenT, f1, hl]
    · intro k hk
      simp only
      rw [hlenT, hl] at hk
      rw [f3 k hk]
      have hs := sorted_get hl hg hc hk
      rw [List.getElem?_eq_getElem (by omega : k < recs.length)] at hs
      exact (List.getElem?_eq_some_iff.1 hs).1
    · intro k l hk hl' h
      rw [hlenT, hl] at hk hl'
      simp only at h
      rw [f3 k hk, f3 l hl'] at h
      exact place_inj hl hg hc hk hl' h
    · intro k hk
      rw [hlenT, hl] at hk
      simp only
      rw [f3 k hk]
      exact sorted_get hl hg hc hk
  obtain ⟨b, e, hb, hp, hk⟩ := settleAll_spec fuel (by omega) _ harr recs.length (by omega)
  have hbT := arranged hb (by rw [hlenT]; exact hk)
  obtain ⟨o1, o2⟩ := fixOffsets count (finalPlaces recs.length gid (startOffsets dim3 count)).2 dim3
    (by omega)
  refine ⟨b.1, _, ?_, hp, hbT, o1.trans f2, ?_⟩
  · unfold groupPoints
    simp only
    rw [e]
    rfl
  · intro c hcl
    rw [o2, if_pos hcl, f5 c hcl, earlier_all gid (Nat.le_refl _), hc c hcl]
    omega

end Grid
end Dashmm
