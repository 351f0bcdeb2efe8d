import Verif.Model.Distro
import Verif.Spec.Distro
import Mathlib.Tactic
/-! Helper lemmas: one pass of a distribution policy over a sorted list. -/
namespace Dashmm
namespace Distro

variable {ranks : Nat} {w : Edge → Int} {es : List Edge}

theorem getD_set_eq {l : List Int} {i : Nat} (h : i < l.length) (v : Int) (j : Nat) :
    (l.set i v).getD j 0 = if j = i then v else l.getD j 0 := by
  simp only [List.getD_eq_getElem?_getD, List.getElem?_set]
  by_cases hj : j = i
  · subst hj; simp [h]
  · rw [if_neg (fun e => hj e.symm), if_neg hj]

/-- Weight of the edges of a list to a rank. -/
def wsum (w : Edge → Int) (loc : Ref → Int) (out : List Edge) (v : Int) : Int :=
  ((out.filter fun e => loc e.dst = v).map w).sum

theorem fillBins_go (loc : Ref → Int) : ∀ (out : List Edge) (bins : List Int), bins.length = ranks →
    (∀ e ∈ out, 0 ≤ loc e.dst ∧ loc e.dst < ranks) →
    ∃ b, out.foldlM (fun bins e =>
      if 0 ≤ loc e.dst ∧ loc e.dst < ranks then
        some (bins.set (loc e.dst).toNat (bins.getD (loc e.dst).toNat 0 + w e))
      else none) bins = some b ∧ b.length = ranks ∧
      ∀ v, v < ranks → b.getD v 0 = bins.getD v 0 + wsum w loc out (v : Int) := by
  intro out
  induction out with
  | nil => intro bins hb _; exact ⟨bins, rfl, hb, fun v _ => by simp [wsum]⟩
  | cons e out ih =>
    intro bins hb hr
    obtain ⟨h1, h2⟩ := hr e (by simp)
    obtain ⟨b, e1, e2, e3⟩ := ih (bins.set (loc e.dst).toNat (bins.getD (loc e.dst).toNat 0 + w e))
      (by simpa using hb) (fun e' he' => hr e' (by simp [he']))
    refine ⟨b, ?_, e2, ?_⟩
    · rw [List.foldlM_cons, if_pos ⟨h1, h2⟩]; exact e1
    · intro v hv
      rw [e3 v hv, getD_set_eq (by omega)]
      unfold wsum
      by_cases hh : loc e.dst = (v : Int)
      · have : v = (loc e.dst).toNat := by omega
        rw [if_pos this, List.filter_cons_of_pos (by simpa using hh), ← this]
        simp only [List.map_cons, List.sum_cons]
        ring
      · have : v ≠ (loc e.dst).toNat := by omega
        rw [if_neg this, List.filter_cons_of_neg (by simpa using hh)]

theorem fillBins_spec {loc : Ref → Int} {out : List Edge}
    (hr : ∀ e ∈ out, 0 ≤ loc e.dst ∧ loc e.dst < ranks) :
    ∃ b, fillBins ranks w loc out = some b ∧ ∀ v, v < ranks → b.getD v 0 = wsum w loc out (v : Int) := by
  obtain ⟨b, e1, _, e3⟩ := fillBins_go (w := w) loc out (List.replicate ranks 0) (by simp) hr
  refine ⟨b, e1, fun v hv => ?_⟩
  rw [e3 v hv]
  simp [List.getD_eq_getElem?_getD, hv]

theorem findMax_go (bins : List Int) : ∀ n : Nat,
    let a := (List.range' 1 n).foldl
      (fun a i => if bins.getD i 0 > a.1 then (bins.getD i 0, i) else a) (bins.getD 0 0, 0)
    a.2 ≤ n ∧ a.1 = bins.getD a.2 0 ∧ (∀ u ≤ n, bins.getD u 0 ≤ bins.getD a.2 0) ∧
      ∀ u < a.2, bins.getD u 0 < bins.getD a.2 0 := by
  intro n
  induction n with
  | zero => simp
  | succ n ih =>
    simp only [List.range'_1_concat, List.foldl_append, List.foldl_cons, List.foldl_nil] at ih ⊢
    generalize (List.range' 1 n).foldl
      (fun a i => if bins.getD i 0 > a.1 then (bins.getD i 0, i) else a) (bins.getD 0 0, 0) = a at ih ⊢
    obtain ⟨h1, h2, h3, h4⟩ := ih
    split
    · rename_i hgt
      rw [h2, Nat.add_comm] at hgt
      refine ⟨by simp; omega, rfl, ?_, ?_⟩
      · intro u hu
        simp only
        rcases Nat.lt_or_ge u (n + 1) with h | h
        · have := h3 u (by omega); rw [Nat.add_comm]; omega
        · have : u = 1 + n := by omega
          rw [this]
      · intro u hu
        simp only at hu ⊢
        have := h3 u (by omega); rw [Nat.add_comm]; omega
    · rename_i hgt
      rw [h2, Nat.add_comm] at hgt
      refine ⟨by omega, h2, ?_, h4⟩
      intro u hu
      rcases Nat.lt_or_ge u (n + 1) with h | h
      · exact h3 u (by omega)
      · have : u = n + 1 := by omega
        subst this; omega

theorem findMax_spec (hr : 1 ≤ ranks) {bins : List Int} {W : Int → Int}
    (hW : ∀ v, v < ranks → bins.getD v 0 = W (v : Int)) :
    FirstHeaviest ranks W ((findMax ranks bins).2 : Int) := by
  obtain ⟨h1, _, h3, h4⟩ := findMax_go bins (ranks - 1)
  have e : (findMax ranks bins) = (List.range' 1 (ranks - 1)).foldl
      (fun a i => if bins.getD i 0 > a.1 then (bins.getD i 0, i) else a) (bins.getD 0 0, 0) := rfl
  rw [← e] at h1 h3 h4
  have hlt : (findMax ranks bins).2 < ranks := by omega
  refine ⟨by omega, by omega, ?_, ?_⟩
  · intro u hu1 hu2
    have := h3 u.toNat (by omega)
    rw [hW _ (by omega), hW _ hlt] at this
    simpa [Int.toNat_of_nonneg hu1] using this
  · intro u hu1 hu2
    have := h4 u.toNat (by omega)
    rw [hW _ (by omega), hW _ hlt] at this
    simpa [Int.toNat_of_nonneg hu1] using this

theorem wsum_filter (loc : Ref → Int) (r : Ref) (v : Int) :
    wsum w loc (es.filter fun e => e.src = r) v = weightTo w es loc r v := by
  unfold wsum weightTo
  rw [List.filter_filter]
  congr 2
  apply List.filter_congr
  intro e _
  simp [Bool.and_comm]

theorem weightTo_congr {loc loc' : Ref → Int} {r : Ref} (h : ∀ e ∈ es, e.src = r → loc e.dst = loc' e.dst)
    (v : Int) : weightTo w es loc r v = weightTo w es loc' r v := by
  unfold weightTo
  congr 2
  apply List.filter_congr
  intro e he
  by_cases hs : e.src = r
  · simp [h e he hs]
  · simp [hs]

/-- A pass over a list of nodes, where the nodes that satisfy `p` are placed. -/
def pass (ranks : Nat) (w : Edge → Int) (es : List Edge) (p : Ref → Bool) (ord : List Ref)
    (loc : Ref → Int) : Option (Ref → Int) :=
  ord.foldlM (fun loc r => if p r then computeLocality ranks w es loc r else some loc) loc

/-- What a pass achieves. -/
structure Passed (ranks : Nat) (w : Edge → Int) (es : List Edge) (p : Ref → Bool) (ord : List Ref)
    (loc loc' : Ref → Int) : Prop where
  kept : ∀ r, 0 ≤ loc r → loc' r = loc r
  other : ∀ r, ¬ (r ∈ ord ∧ p r = true) → loc' r = loc r
  placed : ∀ r ∈ ord, p r = true → 0 ≤ loc' r
  range : ∀ r, 0 ≤ loc' r → loc' r < ranks
  heavy : ∀ r ∈ ord, p r = true → loc r < 0 → FirstHeaviest ranks (weightTo w es loc' r) (loc' r)

theorem pass_ok (hr : 1 ≤ ranks) {p : Ref → Bool} {color : Ref → Int} : ∀ (ord : List Ref) (loc : Ref → Int),
    ord.Pairwise (fun a b => color b ≤ color a) →
    (∀ r, 0 ≤ loc r → loc r < ranks) →
    (∀ r ∈ ord, p r = true → loc r < 0 → ∀ e ∈ es, e.src = r →
      0 ≤ loc e.dst ∨ (e.dst ∈ ord ∧ p e.dst = true ∧ color r < color e.dst)) →
    ∃ loc', pass ranks w es p ord loc = some loc' ∧ Passed ranks w es p ord loc loc' := by
  intro ord
  induction ord with
  | nil =>
    intro loc _ hrange _
    exact ⟨loc, rfl, fun _ _ => rfl, fun _ _ => rfl, by simp, hrange, by simp⟩
  | cons r ord ih =>
    intro loc hsort hrange hready
    rw [List.pairwise_cons] at hsort
    by_cases hp : p r = true ∧ loc r < 0
    · obtain ⟨hp, hneg⟩ := hp
      have hout : ∀ e ∈ es, e.src = r → 0 ≤ loc e.dst := by
        intro e he hs
        rcases hready r (by simp) hp hneg e he hs with h | ⟨h1, h2, h3⟩
        · exact h
        · rcases List.mem_cons.1 h1 with h | h
          · rw [h] at h3; omega
          · have := hsort.1 _ h; omega
      obtain ⟨b, hb1, hb2⟩ := fillBins_spec (w := w) (loc := loc) (out := es.filter fun e => e.src = r)
        (ranks := ranks) (fun e he => by
          simp only [List.mem_filter, decide_eq_true_eq] at he
          have := hout e he.1 he.2
          exact ⟨this, hrange _ this⟩)
      have hF : FirstHeaviest ranks (weightTo w es loc r) ((findMax ranks b).2 : Int) :=
        findMax_spec hr (fun v hv => by rw [hb2 v hv, wsum_filter])
      set v : Int := ((findMax ranks b).2 : Int) with hv
      let loc1 : Ref → Int := fun q => if q = r then v else loc q
      have hstep : computeLocality ranks w es loc r = some loc1 := by
        unfold computeLocality
        rw [if_neg (by omega), hb1]; rfl
      have hne : ∀ q, 0 ≤ loc q → loc1 q = loc q := by
        intro q hq
        have : q ≠ r := by rintro rfl; omega
        simp [loc1, this]
      have hpos : ∀ q, 0 ≤ loc q → 0 ≤ loc1 q := fun q hq => by rw [hne q hq]; exact hq
      obtain ⟨loc', h1, h2⟩ := ih loc1 hsort.2 (by
          intro q hq
          by_cases hqr : q = r
          · simp only [loc1, hqr, if_true] at hq ⊢; exact hF.lt
          · simp only [loc1, hqr, if_false] at hq ⊢; exact hrange q hq) (by
          intro q hq hpq hq1 e he hs
          have hqr : q ≠ r := by
            rintro rfl
            simp only [loc1, if_true] at hq1
            have := hF.nonneg; omega
          have hq0 : loc q < 0 := by simpa [loc1, hqr] using hq1
          rcases hready q (by simp [hq]) hpq hq0 e he hs with h | ⟨h1, h2, h3⟩
          · exact .inl (hpos _ h)
          · rcases List.mem_cons.1 h1 with h | h
            · left; rw [h]; simp only [loc1, if_true]; exact hF.nonneg
            · exact .inr ⟨h, h2, h3⟩)
      have hr1 : loc1 r = v := by simp [loc1]
      have hr' : loc' r = v := by rw [h2.kept r (by rw [hr1]; exact hF.nonneg), hr1]
      refine ⟨loc', ?_, ?_⟩
      · unfold pass at h1 ⊢
        rw [List.foldlM_cons, if_pos hp, hstep]; exact h1
      · refine ⟨?_, ?_, ?_, h2.range, ?_⟩
        · intro q hq
          rw [h2.kept q (hpos q hq), hne q hq]
        · intro q hq
          have hqr : q ≠ r := by rintro rfl; exact hq ⟨by simp, hp⟩
          rw [h2.other q (fun h => hq ⟨by simp [h.1], h.2⟩)]
          simp [loc1, hqr]
        · intro q hq hpq
          rcases List.mem_cons.1 hq with rfl | hq
          · rw [hr']; exact hF.nonneg
          · exact h2.placed q hq hpq
        · intro q hq hpq hneg'
          by_cases hqr : q = r
          · subst hqr
            have : weightTo w es loc' q = weightTo w es loc q := by
              funext u
              apply weightTo_congr
              intro e he hs
              rw [h2.kept _ (hpos _ (hout e he hs)), hne _ (hout e he hs)]
            rw [this, hr']; exact hF
          · rcases List.mem_cons.1 hq with h | hq
            · exact absurd h hqr
            · exact h2.heavy q hq hpq (by simpa [loc1, hqr] using hneg')
    · have hstep : (if p r = true then computeLocality ranks w es loc r else some loc) = some loc := by
        by_cases h : p r = true
        · rw [if_pos h, computeLocality, if_pos]
          by_contra hc
          exact hp ⟨h, by omega⟩
        · rw [if_neg h]
      obtain ⟨loc', h1, h2⟩ := ih loc hsort.2 hrange (by
        intro q hq hpq hneg e he hs
        rcases hready q (by simp [hq]) hpq hneg e he hs with h | ⟨h1, h2, h3⟩
        · exact .inl h
        · rcases List.mem_cons.1 h1 with h | h
          · left
            by_contra hc
            rw [h] at h2 hc
            exact hp ⟨h2, by omega⟩
          · exact .inr ⟨h, h2, h3⟩)
      refine ⟨loc', ?_, ?_⟩
      · unfold pass at h1 ⊢
        rw [List.foldlM_cons, hstep]; exact h1
      · refine ⟨h2.kept, ?_, ?_, h2.range, ?_⟩
        · intro q hq
          exact h2.other q (fun h => hq ⟨by simp [h.1], h.2⟩)
        · intro q hq hpq
          rcases List.mem_cons.1 hq with rfl | hq
          · have : 0 ≤ loc q := by
              by_contra hc
              exact hp ⟨hpq, by omega⟩
            rw [h2.kept q this]; exact this
          · exact h2.placed q hq hpq
        · intro q hq hpq hneg
          rcases List.mem_cons.1 hq with rfl | hq
          · exact absurd ⟨hpq, hneg⟩ hp
          · exact h2.heavy q hq hpq hneg

/-- The first heaviest rank is unique. -/
theorem firstHeaviest_unique {W : Int → Int} {u v : Int} (hu : FirstHeaviest ranks W u)
    (hv : FirstHeaviest ranks W v) : u = v := by
  rcases lt_trichotomy u v with h | h | h
  · have := hv.first u hu.nonneg h
    have := hu.largest v hv.nonneg hv.lt
    omega
  · exact h
  · have := hu.first v hv.nonneg h
    have := hv.largest u hu.nonneg hu.lt
    omega

theorem weightTo_perm {es es' : List Edge} (h : es.Perm es') (loc : Ref → Int) (r : Ref) (v : Int) :
    weightTo w es loc r v = weightTo w es' loc r v := by
  unfold weightTo
  exact ((h.filter _).map _).sum_eq

end Distro
end Dashmm
