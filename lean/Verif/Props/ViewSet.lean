import Verif.Proofs.ViewSet
/-!
Properties of `ViewSet` serialization (C06, C07).

`ViewSet.serialize v (m, b)` is `none` when an assertion fails, otherwise the resulting memory and
buffer; `ViewSet.interpret m b` likewise.
-/
namespace Dashmm

/-- The view sets the platform can represent: view sizes fit `size_t`, the count fits `int`. -/
def ViewSet.Representable (v : ViewSet) : Prop :=
  v.views.length < 2 ^ 31 ∧ ∀ w ∈ v.views, w.data.length < 2 ^ 64

instance (v : ViewSet) : Decidable v.Representable := by
  unfold ViewSet.Representable; infer_instance

/-- Specification: the view set ends in a view without data. -/
def ViewSet.EndsEmpty (v : ViewSet) : Prop := ∃ w, v.views.getLast? = some w ∧ w.data = []

theorem ViewSet.endsEmpty_iff (v : ViewSet) :
    v.EndsEmpty ↔ (ViewSet.chunks v).getLast? = some [] := by
  unfold EndsEmpty chunks
  rcases List.eq_nil_or_concat v.views with h | ⟨ws, w, h⟩
  · simp [h, headChunks, dataChunks, fixedChunks, leBytes]
  · simp [h, dataChunks]

theorem ViewSet.bytes_ge (v : ViewSet) : 40 ≤ v.bytes := by simp only [bytes]; omega

theorem ViewSet.serialize_some (v : ViewSet) (m : Mem) (base total : Nat)
    (hfit : v.bytes ≤ total) (hl : v.bytes < total ∨ ¬ v.EndsEmpty) :
    v.serialize (m, Buffer.new base total) =
      some (ViewSet.after (m, Buffer.new base total) (ViewSet.chunks v)) := by
  rw [serialize_eq]
  apply writeAll_some
  · rw [chunks_flatten_length]; exact hfit
  · right
    rw [chunks_flatten_length]
    rcases hl with h | h
    · left; exact h
    · right; rwa [endsEmpty_iff] at h
  · right; have := v.bytes_ge; simp only [Buffer.new]; omega

/-- C06: `bytes()` is exactly what `serialize` writes: whenever it completes in a buffer that holds
at least `bytes()` bytes, the cursor has moved by exactly `bytes()` and nothing outside those bytes
changed; and it does complete unless the buffer is exact and the last view is empty. -/
theorem C06_viewset_bytes_exact (v : ViewSet) (m : Mem) (base total : Nat)
    (hfit : v.bytes ≤ total) :
    (∀ s, v.serialize (m, Buffer.new base total) = some s →
      s.2.offset = base + v.bytes ∧ s.2.remain = total - v.bytes ∧
      ∀ a, (a < base ∨ base + v.bytes ≤ a) → s.1 a = m a) ∧
    ((v.serialize (m, Buffer.new base total)).isSome ↔ v.bytes < total ∨ ¬ v.EndsEmpty) := by
  by_cases hl : v.bytes < total ∨ ¬ v.EndsEmpty
  · rw [v.serialize_some m base total hfit hl]
    refine ⟨?_, by simp [hl]⟩
    intro s hs
    simp only [Option.some.injEq] at hs
    subst hs
    simp only [ViewSet.after, ViewSet.chunks_flatten_length, Buffer.new]
    refine ⟨trivial, trivial, ?_⟩
    intro a ha
    apply Mem.store_out
    rw [ViewSet.chunks_flatten_length]
    exact ha
  · have h2 : v.serialize (m, Buffer.new base total) = none := by
      rw [ViewSet.serialize_eq]
      have hl' : ¬ v.bytes < total ∧ v.EndsEmpty := by
        constructor
        · exact fun h => hl (Or.inl h)
        · exact Classical.byContradiction fun h => hl (Or.inr h)
      apply ViewSet.writeAll_none
      · rw [ViewSet.chunks_flatten_length]; simp only [Buffer.new]; omega
      · exact (ViewSet.endsEmpty_iff v).1 hl'.2
    rw [h2]
    simp [hl]

example : (⟨[⟨3, [1, 2]⟩, ⟨0, []⟩, ⟨1, [9]⟩], 2, 1, 2, 3, 4⟩ : ViewSet).bytes = 79 := by decide

/-- C07, refuted at full strength: there is a representable view set for which `serialize` into the
buffer of exactly `bytes()` bytes (as `ExpansionLCO::contribute` allocates) trips an assertion,
namely one whose last view has no data. -/
theorem C07_viewset_round_trip_fails_for_empty_tail :
    ∃ v : ViewSet, v.Representable ∧
      ∀ m base, v.serialize (m, Buffer.new base v.bytes) = none := by
  refine ⟨⟨[⟨0, []⟩], 0, 0, 0, 0, 0⟩, by decide, fun m base => ?_⟩
  have h := (C06_viewset_bytes_exact ⟨[⟨0, []⟩], 0, 0, 0, 0, 0⟩ m base _ (Nat.le_refl _)).2
  rw [← Option.not_isSome_iff_eq_none, h]
  intro hh
  rcases hh with hh | hh
  · omega
  · exact hh ⟨⟨0, []⟩, rfl, rfl⟩

/-- Memory that holds what `serialize` writes is interpreted as the view set. -/
theorem ViewSet.interpret_holds (v : ViewSet) (hv : v.Representable) {m' : Mem} {base total : Nat} (hfit : v.bytes ≤ total)
    (hl : v.bytes < total ∨ ¬ v.EndsEmpty) (hh : ViewSet.Holds m' base (ViewSet.chunks v).flatten) :
    ViewSet.interpret m' (Buffer.new base total) = some (v, ViewSet.skip (Buffer.new base total) v.bytes) := by
  have hlen := ViewSet.chunks_flatten_length v
  have hb40 := v.bytes_ge
  simp only [ViewSet.chunks, ViewSet.fixedChunks, List.cons_append, List.nil_append, 
    List.flatten_cons, List.flatten_append] at hh hlen
  simp only [List.length_append, leBytes_length] at hlen
  simp only [ViewSet.holds_append, leBytes_length] at hh
  obtain ⟨a1, a2, a3, a4, a5, a6, a7, a8⟩ := hh
  unfold ViewSet.interpret
  simp only [Option.bind_eq_bind]
  rw [ViewSet.readA_le (b := Buffer.new base total) (by omega) (by simp only [Buffer.new]; omega)
    (by have := v.role.isLt; omega) a1]
  simp only [Option.bind_some]
  rw [ViewSet.readA_le (by omega) (by simp only [Buffer.new]; omega)
    (by have := hv.1; omega) a2]
  simp only [Option.bind_some]
  rw [ViewSet.readA_le (by omega) (by simp only [Buffer.new]; omega)
    (by have := v.cx.isLt; omega) a3]
  simp only [Option.bind_some]
  rw [ViewSet.readA_le (by omega) (by simp only [Buffer.new]; omega)
    (by have := v.cy.isLt; omega) a4]
  simp only [Option.bind_some]
  rw [ViewSet.readA_le (by omega) (by simp only [Buffer.new]; omega)
    (by have := v.cz.isLt; omega) a5]
  simp only [Option.bind_some]
  rw [ViewSet.readA_le (by omega) (by simp only [Buffer.new]; omega)
    (by have := v.scale.isLt; omega) a6]
  simp only [Option.bind_some, hv.1, if_true]
  rw [ViewSet.interpretHeads_spec _ _ _ hv.2 (by simp only [Buffer.new]; omega) a7]
  simp only [Option.bind_some]
  have hlast : (ViewSet.dataChunks v.views).getLast? ≠ some [] ∨ v.bytes < total := by
    rcases hl with h | h
    · right; exact h
    · left
      intro hd
      apply h
      unfold ViewSet.EndsEmpty
      simp only [ViewSet.dataChunks, List.getLast?_map, Option.map_eq_some_iff] at hd
      exact hd
  have hhl : (ViewSet.headChunks v.views).flatten.length = v.bytes - 40 -
      (ViewSet.dataChunks v.views).flatten.length := by omega
  rw [ViewSet.interpretData_spec]
  · simp only [Option.bind_some, BitVec.ofNat_toNat, BitVec.setWidth_eq, Option.some.injEq,
      Prod.mk.injEq, true_and]
    simp only [ViewSet.skip, Buffer.new, Buffer.mk.injEq, true_and]
    omega
  · simp only [ViewSet.skip, Buffer.new]; omega
  · by_cases hvs : v.views = []
    · left; exact hvs
    · right
      simp only [ViewSet.skip, Buffer.new]
      rcases hlast with h | h
      · intro hz
        have hz' : (ViewSet.dataChunks v.views).flatten.length = 0 := by omega
        simp only [List.length_eq_zero_iff, List.flatten_eq_nil_iff] at hz'
        apply h
        have hne : ViewSet.dataChunks v.views ≠ [] := by simp [ViewSet.dataChunks, hvs]
        rw [List.getLast?_eq_some_getLast hne, hz' _ (List.getLast_mem hne)]
      · omega
  · right
    rcases hlast with h | h
    · right; exact h
    · left; simp only [ViewSet.skip, Buffer.new]; omega
  · simp only [ViewSet.skip, Buffer.new] at *
    exact a8

/-- C07, proved part: in any buffer that holds `bytes()` bytes, a representable view set round-trips
(same role, centre, scale, and views in order with the same contents), no assertion fails, and the
reader stops where the writer stopped — provided the last view has data or the buffer is larger than
`bytes()`.  Missing from the full property: exactly the case refuted above. -/
theorem C07_viewset_round_trip_partial (v : ViewSet) (hv : v.Representable) (m : Mem)
    (base total : Nat) (hfit : v.bytes ≤ total) (hl : v.bytes < total ∨ ¬ v.EndsEmpty) :
    ∃ s, v.serialize (m, Buffer.new base total) = some s ∧
      ViewSet.interpret s.1 (Buffer.new base total) = some (v, s.2) := by
  refine ⟨_, v.serialize_some m base total hfit hl, ?_⟩
  have hh : ViewSet.Holds (ViewSet.after (m, Buffer.new base total) (ViewSet.chunks v)).1 base (ViewSet.chunks v).flatten :=
    Mem.load_store_same _ _ _
  rw [v.interpret_holds hv hfit hl hh]
  simp [ViewSet.after, ViewSet.skip, ViewSet.chunks_flatten_length v]

/-- Non-vacuity for C07: three views (one of them empty, but not the last). -/
example : (⟨[⟨3, [1, 2]⟩, ⟨0, []⟩, ⟨1, [9]⟩], 2, 1, 2, 3, 4⟩ : ViewSet).Representable ∧
    ¬ (⟨[⟨3, [1, 2]⟩, ⟨0, []⟩, ⟨1, [9]⟩], 2, 1, 2, 3, 4⟩ : ViewSet).EndsEmpty :=
  ⟨by decide, by simp [ViewSet.EndsEmpty]⟩

end Dashmm
