import Verif.Proofs.ArrayLife
/-
# C89: what an array allocates and gives back
-/
namespace Dashmm
open ArrayLife

theorem setManager_eq (n : Nat) (s : State) (k : Nat) (hk : s.handle = some k) :
    setManager n s = setRanks s.next (List.range n) { s with next := s.next + 1 } := by
  cases s
  simp only at hk
  subst hk
  rfl

/-- **C89, one call.** Whatever fails (but for the one allocation of `C89_reducer_failure_leaks`): the call returns, frees nothing twice, and everything
that is allocated afterwards is owned by the array. -/
theorem C89_call_partial (n : Nat) (base : Multiset Res) (s : State) (c : Call) (h : Accounted n base s) (ha : c.Allowed s) (hl : c.Lucky) :
    ∃ s', c.run n s = some s' ∧ Accounted n base s' := by
  cases c with
  | allocate luck count given =>
    simp only [Call.run]
    cases hh : s.handle with
    | some k => exact ⟨s, by simp [allocate, hh], h⟩
    | none =>
      have hb : s.live = base := by rw [h, State.owned, hh, add_zero]
      cases hm : luck.metadata with
      | false =>
        refine ⟨{ s with next := s.next + 1 }, by simp [allocate, hh, allocMeta, hm, kAllocationError, kSuccess], ?_⟩
        simpa [Accounted, State.owned, hh] using h
      | true =>
        have := allocate_eq n luck count given s hh hm (hl hm)
        split at this
        · obtain ⟨s', h1, _, _, h4, _⟩ := this
          exact ⟨s', by rw [h1]; rfl, by rw [Accounted, h4, hb]⟩
        · refine ⟨{ s with next := s.next + 1 }, by rw [this]; rfl, ?_⟩
          simpa [Accounted, State.owned, hh] using h
  | destroy =>
    obtain ⟨k, hk⟩ := Option.isSome_iff_exists.1 ha
    rw [Accounted, State.owned, hk, ← add_assoc] at h
    refine ⟨{ s with live := base, handle := none }, ?_, by simp [Accounted, State.owned]⟩
    simp [Call.run, destroy, hk, destroyRanks_spec _ s _ h, free_add]
  | setManager =>
    obtain ⟨k, hk⟩ := Option.isSome_iff_exists.1 ha
    rw [Accounted, State.owned, hk, ← add_assoc] at h
    obtain ⟨s', h1, h2, h3, _, _, _⟩ := setRanks_spec s.next (List.range n) { s with next := s.next + 1 } _ List.nodup_range h
    refine ⟨s', by rw [Call.run, setManager_eq n s k hk, h1], ?_⟩
    rw [Accounted, h2, State.owned, h3, hk, add_assoc]

/-- **C89, all histories.** A program that calls `allocate`, `set_manager` and `destroy` in any order (the latter two on an array that is allocated) never frees anything twice, and
whenever the array is destroyed, nothing is left. -/
theorem C89_history_partial (n : Nat) (base : Multiset Res) : ∀ (calls : List Call) (s : State), Accounted n base s →
    (∀ pre c post s', calls = pre ++ c :: post → pre.foldlM (Call.run n) s = some s' → c.Allowed s' ∧ c.Lucky) →
    ∃ s', calls.foldlM (Call.run n) s = some s' ∧ Accounted n base s' ∧ (s'.handle = none → s'.live = base)
  | [], s, h, _ => ⟨s, rfl, h, fun h0 => by rw [h, State.owned, h0, add_zero]⟩
  | c :: rest, s, h, hc => by
    obtain ⟨ha, hl⟩ := hc [] c rest s rfl rfl
    obtain ⟨s₁, h1, h2⟩ := C89_call_partial n base s c h ha hl
    obtain ⟨s', h3, h4⟩ := C89_history_partial n base rest s₁ h2 fun pre c' post s' e hp =>
      hc (c :: pre) c' post s' (by rw [e, List.cons_append]) (by rw [List.foldlM_cons, h1]; exact hp)
    exact ⟨s', by rw [List.foldlM_cons, h1]; exact h3, h4⟩

/-- **C89, results of `allocate`.** On an empty array, when the metadata and the LCOs can be allocated: every rank gets `kAllocationError` if the segment of one of them cannot be allocated,
`kSuccess` otherwise; in both cases the array is not empty afterwards. -/
theorem C89_allocate_result (n : Nat) (luck : Luck) (count : Nat → Nat) (given : Nat → Bool) (s : State) (hs : s.handle = none)
    (h1 : luck.metadata = true) (h2 : luck.reducer = true) (h3 : luck.retcode = true) :
    ∃ s', allocate n luck count given s = some (s', if ∃ r < n, count r ≠ 0 ∧ given r = false ∧ luck.segment r = false then kAllocationError
      else kSuccess) ∧ s'.handle.isSome ∧
      (∀ r < n, (s'.slot r).manager.isSome ∧ ((s'.slot r).data.isSome ↔ given r = true ∨ (count r ≠ 0 ∧ luck.segment r = true))) := by
  have := allocate_eq n luck count given s hs h1 h2
  rw [h3, if_pos rfl] at this
  obtain ⟨s', h4, h5, _, _, h7⟩ := this
  refine ⟨s', ?_, by rw [h5]; rfl, fun r hr => ?_⟩
  · rw [h4]
    congr 2
    refine if_congr ?_ rfl rfl
    simp [fails, and_assoc]
  · rw [h7 r hr]
    unfold allocRank
    cases given r <;> by_cases hc : count r = 0 <;> cases luck.segment r <;> simp [hc]

/-- **C89, an array that is allocated is left alone.** -/
theorem C89_allocate_twice (n : Nat) (luck : Luck) (count : Nat → Nat) (given : Nat → Bool) (s : State) (hs : s.handle.isSome) :
    allocate n luck count given s = some (s, kDomainError) := by
  simp [allocate, hs]

/-- **C89, what is false: all or nothing.** If the segment of one rank cannot be allocated, `allocate` fails but leaves an array behind: `valid()` is true, what the other ranks got stays
allocated, and `allocate` cannot be tried again before `destroy`. -/
theorem C89_failed_allocate_leaves_array (n : Nat) (luck : Luck) (count : Nat → Nat) (given : Nat → Bool) (s : State) (hs : s.handle = none)
    (h1 : luck.metadata = true) (h2 : luck.reducer = true) (h3 : luck.retcode = true)
    (r : Nat) (hr : r < n) (hc : count r ≠ 0) (hg : given r = false) (hf : luck.segment r = false) :
    ∃ s', allocate n luck count given s = some (s', kAllocationError) ∧ s'.handle.isSome ∧ s.live < s'.live ∧
      ∀ luck', allocate n luck' count given s' = some (s', kDomainError) := by
  have := allocate_eq n luck count given s hs h1 h2
  rw [h3, if_pos rfl] at this
  obtain ⟨s', h4, h5, _, h6, _⟩ := this
  rw [if_pos ⟨r, hr, by simp [fails, hc, hg, hf]⟩] at h4
  refine ⟨s', h4, by rw [h5]; rfl, ?_, fun luck' => C89_allocate_twice n luck' count given s' (by rw [h5]; rfl)⟩
  rw [h6, State.owned, h5]
  show s.live < s.live + ({Res.metadata s.next} + _)
  rw [← add_assoc]
  refine lt_of_lt_of_le ?_ (Multiset.le_add_right _ _)
  rw [add_comm, Multiset.singleton_add]
  exact Multiset.lt_cons_self _ _

/-- **C89, what is false.** If the LCO for the counts cannot be allocated, the handler goes on: the second LCO, if it is allocated, is never deleted; if it is not, null pointers are freed. -/
theorem C89_reducer_failure_leaks (n : Nat) (luck : Luck) (count : Nat → Nat) (given : Nat → Bool) (s : State) (hs : s.handle = none)
    (h1 : luck.metadata = true) (h2 : luck.reducer = false) :
    allocate n luck count given s = if luck.retcode then
      some ({ s with live := Res.retcode s.next ::ₘ s.live, next := s.next + 1 }, kAllocationError) else none := by
  cases h3 : luck.retcode <;> simp [allocate, hs, allocMeta, h1, h2, h3, new, free, kAllocationError, kSuccess]

/-! ### A case that meets the hypotheses -/

/-- Three ranks, one without records, one with a segment of its own; the manager is set twice; one more allocation fails on a rank and is destroyed. -/
example : let s₀ : State := ⟨0, 0, none, fun _ => ⟨none, none⟩⟩
    let good : Luck := ⟨true, true, true, fun _ => true⟩
    let bad : Luck := ⟨true, true, true, fun r => r != 2⟩
    let count : Nat → Nat := fun r => if r = 1 then 0 else 5
    let given : Nat → Bool := fun r => r == 0
    ∃ s', [Call.allocate good count given, .setManager, .setManager, .destroy, .allocate bad count given, .destroy].foldlM (Call.run 3) s₀ = some s' ∧
      s'.live = 0 := by
  intro s₀ good bad count given
  have h0 : Accounted 3 0 s₀ := rfl
  obtain ⟨s₁, h1, e1, _⟩ := C89_allocate_result 3 good count given s₀ rfl rfl rfl rfl
  obtain ⟨s₁', g1, a1⟩ := C89_call_partial 3 0 s₀ (.allocate good count given) h0 trivial (fun _ => rfl)
  have : s₁' = s₁ := by simp only [Call.run, h1, Option.map_some, Option.some.injEq] at g1; exact g1.symm
  subst this
  obtain ⟨s₂, g2, a2⟩ := C89_call_partial 3 0 s₁' .setManager a1 e1 trivial
  have e2 : s₂.handle = s₁'.handle := by
    obtain ⟨k, hk⟩ := Option.isSome_iff_exists.1 e1
    have a1' := a1
    rw [Accounted, State.owned, hk, ← add_assoc] at a1'
    obtain ⟨s', h1, h2, h3, _⟩ := setRanks_spec s₁'.next (List.range 3) { s₁' with next := s₁'.next + 1 } _ List.nodup_range a1'
    rw [Call.run, setManager_eq 3 s₁' k hk, h1, Option.some.injEq] at g2
    rw [← g2, h3]
  obtain ⟨s₃, g3, a3⟩ := C89_call_partial 3 0 s₂ .setManager a2 (by rw [Call.Allowed, e2]; exact e1) trivial
  have e3 : s₃.handle = s₂.handle := by
    obtain ⟨k, hk⟩ := Option.isSome_iff_exists.1 (e2 ▸ e1 : s₂.handle.isSome)
    have a2' := a2
    rw [Accounted, State.owned, hk, ← add_assoc] at a2'
    obtain ⟨s', h1, h2, h3, _⟩ := setRanks_spec s₂.next (List.range 3) { s₂ with next := s₂.next + 1 } _ List.nodup_range a2'
    rw [Call.run, setManager_eq 3 s₂ k hk, h1, Option.some.injEq] at g3
    rw [← g3, h3]
  obtain ⟨s₄, g4, a4⟩ := C89_call_partial 3 0 s₃ .destroy a3 (by rw [Call.Allowed, e3, e2]; exact e1) trivial
  have e4 : s₄.handle = none := by
    simp only [Call.run, destroy, Option.bind_eq_bind, Option.bind_eq_some_iff, Option.pure_def, Option.some.injEq] at g4
    obtain ⟨_, _, _, _, _, _, rfl⟩ := g4
    rfl
  obtain ⟨s₅, h5, e5, _⟩ := C89_failed_allocate_leaves_array 3 bad count given s₄ e4 rfl rfl rfl 2 (by decide) (by decide) rfl rfl
  obtain ⟨s₅', g5, a5⟩ := C89_call_partial 3 0 s₄ (.allocate bad count given) a4 trivial (fun _ => rfl)
  have : s₅' = s₅ := by simp only [Call.run, h5, Option.map_some, Option.some.injEq] at g5; exact g5.symm
  subst this
  obtain ⟨s₆, g6, a6⟩ := C89_call_partial 3 0 s₅' .destroy a5 e5 trivial
  have e6 : s₆.handle = none := by
    simp only [Call.run, destroy, Option.bind_eq_bind, Option.bind_eq_some_iff, Option.pure_def, Option.some.injEq] at g6
    obtain ⟨_, _, _, _, _, _, rfl⟩ := g6
    rfl
  refine ⟨s₆, ?_, ?_⟩
  · simp [List.foldlM_cons, g1, g2, g3, g4, g5, g6]
  · rw [a6, State.owned, e6, add_zero]

end Dashmm
