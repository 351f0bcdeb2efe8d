import Verif.Spec.ArrayLife
import Mathlib.Tactic.Abel
/-
# What an array allocates and gives back
-/
namespace Dashmm.ArrayLife

theorem free_cons (x : Res) (l : Multiset Res) : free (some x) (x ::ₘ l) = some l := by
  simp [free]

theorem free_add (x : Res) (l : Multiset Res) : free (some x) (l + {x}) = some l := by
  rw [add_comm, Multiset.singleton_add, free_cons]

theorem allocRank_spec (k : Nat) (luck : Luck) (count : Nat → Nat) (given : Nat → Bool) (r : Nat) (live : Multiset Res) :
    (allocRank k luck count given r live).1 = live + (allocRank k luck count given r live).2.1.owned := by
  unfold allocRank
  cases hg : given r <;> by_cases hc : count r = 0 <;> cases hl : luck.segment r <;>
    simp [hc, new, Slot.owned, ← Multiset.singleton_add, add_comm, add_left_comm]
  abel

theorem allocRanks_spec (k : Nat) (luck : Luck) (count : Nat → Nat) (given : Nat → Bool) :
    ∀ (rs : List Nat) (s : State) (code : Int), rs.Nodup →
      (allocRanks k luck count given rs s code).1.live =
        s.live + (rs.map fun r => ((allocRanks k luck count given rs s code).1.slot r).owned).sum ∧
      (∀ q, q ∉ rs → (allocRanks k luck count given rs s code).1.slot q = s.slot q) ∧
      (allocRanks k luck count given rs s code).1.handle = s.handle ∧
      (allocRanks k luck count given rs s code).1.next = s.next ∧
      (∀ q ∈ rs, (allocRanks k luck count given rs s code).1.slot q = (allocRank k luck count given q 0).2.1) ∧
      (allocRanks k luck count given rs s code).2 = rs.foldl (fun c r => max c (allocRank k luck count given r 0).2.2) code
  | [], s, code, _ => by simp [allocRanks]
  | r :: rs, s, code, hnd => by
    obtain ⟨hr, hnd⟩ := List.nodup_cons.1 hnd
    have hind : ∀ live, (allocRank k luck count given r live).2 = (allocRank k luck count given r 0).2 := by
      intro live; unfold allocRank; simp only; split_ifs <;> rfl
    obtain ⟨h1, h2, h3, h4, h5, h6⟩ := allocRanks_spec k luck count given rs
      { s with live := (allocRank k luck count given r s.live).1
               slot := fun q => if q = r then (allocRank k luck count given r s.live).2.1 else s.slot q }
      (max code (allocRank k luck count given r s.live).2.2) hnd
    rw [allocRanks]
    simp only
    refine ⟨?_, ?_, h3, h4, ?_, ?_⟩
    · rw [h1, List.map_cons, List.sum_cons, h2 r hr]
      simp only [if_true]
      rw [← add_assoc, ← allocRank_spec]
    · intro q hq
      rw [List.mem_cons, not_or] at hq
      rw [h2 q hq.2]; exact if_neg hq.1
    · intro q hq
      rcases List.mem_cons.1 hq with rfl | hq
      · rw [h2 q hr]; simp only [if_true]; rw [hind]
      · exact h5 q hq
    · rw [h6, List.foldl_cons, hind]

theorem release_spec (p : Option Res) (l X : Multiset Res) (h : l = X + p.elim 0 ({·})) : release p l = some X := by
  cases p with
  | none => rw [Option.elim_none, add_zero] at h; rw [release, h]
  | some x => rw [Option.elim_some] at h; rw [release, h, free_add]

theorem destroyRanks_spec : ∀ (rs : List Nat) (s : State) (X : Multiset Res),
    s.live = X + (rs.map fun r => (s.slot r).owned).sum → destroyRanks rs s = some { s with live := X }
  | [], s, X, h => by
    simp only [List.map_nil, List.sum_nil, add_zero] at h
    rw [destroyRanks, ← h]
  | r :: rs, s, X, h => by
    rw [List.map_cons, List.sum_cons] at h
    set Z := (rs.map fun r => (s.slot r).owned).sum with hZ
    rw [destroyRanks, release_spec _ _ (X + Z + (s.slot r).manager.elim 0 ({·})) (by rw [h, Slot.owned]; abel), Option.bind_eq_bind,
      Option.bind_some, release_spec _ _ (X + Z) rfl]
    exact destroyRanks_spec rs { s with live := X + Z } X rfl

theorem setRanks_spec (id : Nat) : ∀ (rs : List Nat) (s : State) (X : Multiset Res), rs.Nodup →
    s.live = X + (rs.map fun r => (s.slot r).owned).sum → ∃ s', setRanks id rs s = some s' ∧
      s'.live = X + (rs.map fun r => (s'.slot r).owned).sum ∧ s'.handle = s.handle ∧ s'.next = s.next ∧
      (∀ q, q ∉ rs → s'.slot q = s.slot q) ∧ (∀ q ∈ rs, s'.slot q = ⟨(s.slot q).data, some (.manager id q)⟩)
  | [], s, X, _, h => ⟨s, rfl, h, rfl, rfl, fun _ _ => rfl, by simp⟩
  | r :: rs, s, X, hnd, h => by
    obtain ⟨hr, hnd⟩ := List.nodup_cons.1 hnd
    rw [List.map_cons, List.sum_cons] at h
    set Z := (rs.map fun r => (s.slot r).owned).sum with hZ
    have hfree : release (s.slot r).manager s.live = some (X + (s.slot r).data.elim 0 ({·}) + Z) :=
      release_spec _ _ _ (by rw [h, Slot.owned]; abel)
    set s₁ : State := { s with live := new (.manager id r) (X + (s.slot r).data.elim 0 ({·}) + Z)
                               slot := fun q => if q = r then ⟨(s.slot q).data, some (.manager id r)⟩ else s.slot q } with hs₁
    have hZ' : (rs.map fun q => (s₁.slot q).owned).sum = Z := by
      rw [hZ]
      refine congrArg List.sum (List.map_congr_left fun q hq => ?_)
      have : q ≠ r := fun e => hr (e ▸ hq)
      simp [hs₁, this]
    obtain ⟨s', h1, h2, h3, h4, h5, h6⟩ := setRanks_spec id rs s₁ (X + ({Res.manager id r} + (s.slot r).data.elim 0 ({·}))) hnd (by
      rw [hZ']; simp only [hs₁, new, ← Multiset.singleton_add]; abel)
    refine ⟨s', ?_, ?_, h3, h4, ?_, ?_⟩
    · rw [setRanks, hfree]; exact h1
    · rw [h2, List.map_cons, List.sum_cons, h5 r hr]
      have : (s₁.slot r).owned = {Res.manager id r} + (s.slot r).data.elim 0 ({·}) := by
        simp only [hs₁, if_true, Slot.owned]; rw [add_comm]; rfl
      rw [this]; abel
    · intro q hq
      rw [List.mem_cons, not_or] at hq
      rw [h5 q hq.2]; simp [hs₁, hq.1]
    · intro q hq
      rcases List.mem_cons.1 hq with rfl | hq
      · rw [h5 q hr]; simp [hs₁]
      · rw [h6 q hq]
        have : q ≠ r := fun e => hr (e ▸ hq)
        simp [hs₁, this]

theorem allocMeta_ok (k : Nat) (luck : Luck) (live : Multiset Res) (h1 : luck.metadata = true) (h2 : luck.reducer = true) :
    allocMeta k luck live = if luck.retcode then
      some (live + {Res.metadata k} + {Res.reducer k} + {Res.retcode k}, some (.metadata k), some (.reducer k), some (.retcode k), kSuccess)
    else some (live, none, none, none, kAllocationError) := by
  unfold allocMeta
  cases h3 : luck.retcode
  · simp [h1, h2, new, free]
  · simp [h1, h2, new, ← Multiset.singleton_add, add_comm, add_left_comm]

theorem free_any (x : Res) (l r : Multiset Res) (h : l = r + {x}) : free (some x) l = some r := by rw [h, free_add]

/-- The number of the rank that decides the return code. -/
theorem foldl_max_le (f : Nat → Int) : ∀ (rs : List Nat) (c : Int), c ≤ rs.foldl (fun c r => max c (f r)) c ∧
    (∀ r ∈ rs, f r ≤ rs.foldl (fun c r => max c (f r)) c) ∧
    (rs.foldl (fun c r => max c (f r)) c = c ∨ ∃ r ∈ rs, rs.foldl (fun c r => max c (f r)) c = f r)
  | [], c => by simp
  | r :: rs, c => by
    obtain ⟨h1, h2, h3⟩ := foldl_max_le f rs (max c (f r))
    rw [List.foldl_cons]
    refine ⟨(le_max_left _ _).trans h1, ?_, ?_⟩
    · intro q hq
      rcases List.mem_cons.1 hq with rfl | hq
      · exact (le_max_right _ _).trans h1
      · exact h2 q hq
    · rcases h3 with h3 | ⟨q, hq, h3⟩
      · rcases max_choice c (f r) with h | h
        · left; rw [h3, h]
        · right; exact ⟨r, List.mem_cons_self, by rw [h3, h]⟩
      · right; exact ⟨q, List.mem_cons_of_mem _ hq, h3⟩

/-- Whether the segment of a rank cannot be allocated. -/
def fails (luck : Luck) (count : Nat → Nat) (given : Nat → Bool) (r : Nat) : Bool := count r != 0 && !given r && !luck.segment r

theorem allocRank_code (k : Nat) (luck : Luck) (count : Nat → Nat) (given : Nat → Bool) (r : Nat) :
    (allocRank k luck count given r 0).2.2 = if fails luck count given r then kAllocationError else kSuccess := by
  unfold allocRank fails
  cases given r <;> by_cases hc : count r = 0 <;> cases luck.segment r <;> simp [hc]

theorem codes_eq (k : Nat) (luck : Luck) (count : Nat → Nat) (given : Nat → Bool) (n : Nat) :
    ((List.range n).foldl (fun c r => max c (allocRank k luck count given r 0).2.2) 0 ≠ kSuccess) ↔
      ∃ r < n, fails luck count given r = true := by
  obtain ⟨h1, h2, h3⟩ := foldl_max_le (fun r => (allocRank k luck count given r 0).2.2) (List.range n) 0
  constructor
  · intro h
    rcases h3 with h3 | ⟨r, hr, h3⟩
    · exact absurd h3 h
    · refine ⟨r, List.mem_range.1 hr, ?_⟩
      rw [h3, allocRank_code] at h
      by_contra hf
      rw [if_neg hf] at h
      exact h rfl
  · rintro ⟨r, hr, hf⟩
    have := h2 r (List.mem_range.2 hr)
    simp only [allocRank_code, hf, if_true] at this
    intro h
    simp only [allocRank_code] at h
    rw [h] at this
    exact absurd this (by decide)

/-- `allocate` on an empty array when the metadata and the first LCO can be had. -/
theorem allocate_eq (n : Nat) (luck : Luck) (count : Nat → Nat) (given : Nat → Bool) (s : State) (hs : s.handle = none)
    (h1 : luck.metadata = true) (h2 : luck.reducer = true) :
    if luck.retcode then ∃ s', allocate n luck count given s =
        some (s', if ∃ r < n, fails luck count given r = true then kAllocationError else kSuccess) ∧
      s'.handle = some s.next ∧ s'.next = s.next + 1 ∧
      s'.live = s.live + s'.owned n ∧ (∀ r < n, s'.slot r = (allocRank s.next luck count given r 0).2.1)
    else allocate n luck count given s = some ({ s with next := s.next + 1 }, kAllocationError) := by
  have hm := allocMeta_ok s.next luck s.live h1 h2
  cases h3 : luck.retcode
  · rw [h3] at hm
    simp only [Bool.false_eq_true, if_false] at hm ⊢
    unfold allocate
    simp [hs, hm, kAllocationError, kSuccess]
  · rw [h3] at hm
    simp only [if_true] at hm ⊢
    set s₀ : State := { s with live := s.live + {Res.metadata s.next} + {Res.reducer s.next} + {Res.retcode s.next}
                               next := s.next + 1, handle := some s.next } with hs₀
    obtain ⟨g1, g2, g3, g4, g5, g6⟩ := allocRanks_spec s.next luck count given (List.range n) s₀ 0 List.nodup_range
    set out := allocRanks s.next luck count given (List.range n) s₀ 0 with hout
    set Z := ((List.range n).map fun r => (out.1.slot r).owned).sum with hZ
    have hlive : out.1.live = (s.live + {Res.metadata s.next} + Z + {Res.retcode s.next}) + {Res.reducer s.next} := by
      rw [g1]; simp only [hs₀]; abel
    refine ⟨{ out.1 with live := s.live + {Res.metadata s.next} + Z }, ?_, g3, g4, ?_, ?_⟩
    · unfold allocate
      simp only [hs, Option.isSome_none, Bool.false_eq_true, if_false, hm, Option.bind_eq_bind, Option.bind_some, ne_eq, not_true_eq_false,
        Nat.add_sub_cancel]
      rw [← hs₀, ← hout]
      simp only [hlive, free_add, Option.bind_some, Option.pure_def]
      rw [g6]
      congr 2
      exact if_congr (codes_eq s.next luck count given n) rfl rfl
    · rw [State.owned]
      simp only [g3, hs₀]
      rw [add_assoc]
    · intro r hr
      exact g5 r (List.mem_range.2 hr)

end Dashmm.ArrayLife
