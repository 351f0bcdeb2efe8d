import Verif.Proofs.Ndebug
import Verif.Props.Methods

/-! C55: what happens when the library is compiled with `NDEBUG`. -/

namespace Dashmm

/-- C55 holds of the direct method: compiled with `NDEBUG` it is the same method, so it builds the
same DAGs. The property is false of the other methods (next theorems). -/
theorem C55_direct_unaffected_partial (unif : Nat) (same : Bool) (s t : Fin 8 → Oct)
    (acts : List Act) : Runs (createProg Direct.ndebug unif same s t) acts ↔
      Runs (createProg Direct unif same s t) acts := by
  rw [Direct_ndebug]

/-- C55 fails for every method that uses expansions: compiled with `NDEBUG`, no DAG has a primary or
intermediate node at all. -/
theorem C55_no_expansions (m : Method) {unif : Nat} {same : Bool} {s t : Fin 8 → Oct}
    {acts : List Act} (hr : Runs (createProg m.ndebug unif same s t) acts) :
    ∀ r ∈ nodesOf acts, r.kind = .parts := ndebug_parts hr

/-- C55 fails for Barnes-Hut, for all trees: an edge is made to a node that does not exist (the code
dereferences a null pointer); with assertions compiled in, this never happens (`C38`). -/
theorem C55_bh_breaks (mac : Index → Index → Bool) {unif : Nat} {same : Bool} {s t : Fin 8 → Oct}
    {acts : List Act} (hr : Runs (createProg (BH mac).ndebug unif same s t) acts) {i : Index}
    (hi : i ∈ leaves Index.root (.node s)) :
    ∃ e ∈ edgesOf acts, e.dst = ⟨.src, i, .normal⟩ ∧ e.dst ∉ nodesOf acts := by
  refine ⟨⟨.StoM, ⟨.src, i, .parts⟩, ⟨.src, i, .normal⟩⟩, ?_, rfl, ?_⟩
  · apply link_of_leaf hr hi
    rintro n rfl
    simp [Method.ndebug, BH, Act.inAssert, Act.StoM]
  · intro h; have := ndebug_parts hr _ h; simp at this

/-- C55 fails for FMM whenever some source leaf is at level 2 or below. -/
theorem C55_fmm_breaks {unif : Nat} {same : Bool} {s t : Fin 8 → Oct}
    {acts : List Act} (hr : Runs (createProg FMM.ndebug unif same s t) acts) {i : Index}
    (hi : i ∈ leaves Index.root (.node s)) (h2 : 2 ≤ i.level) :
    ∃ e ∈ edgesOf acts, e.dst = ⟨.src, i, .normal⟩ ∧ e.dst ∉ nodesOf acts := by
  refine ⟨⟨.StoM, ⟨.src, i, .parts⟩, ⟨.src, i, .normal⟩⟩, ?_, rfl, ?_⟩
  · apply link_of_leaf hr hi
    rintro n rfl
    simp [Method.ndebug, FMM, Act.inAssert, Act.StoM, h2]
  · intro h; have := ndebug_parts hr _ h; simp at this

/-- C55 fails for FMM97 whenever some source leaf is at level 2 or below. -/
theorem C55_fmm97_breaks {unif : Nat} {same : Bool} {s t : Fin 8 → Oct}
    {acts : List Act} (hr : Runs (createProg FMM97.ndebug unif same s t) acts) {i : Index}
    (hi : i ∈ leaves Index.root (.node s)) (h2 : 2 ≤ i.level) :
    ∃ e ∈ edgesOf acts, e.dst = ⟨.src, i, .normal⟩ ∧ e.dst ∉ nodesOf acts := by
  refine ⟨⟨.StoM, ⟨.src, i, .parts⟩, ⟨.src, i, .normal⟩⟩, ?_, rfl, ?_⟩
  · apply link_of_leaf hr hi
    rintro n rfl
    simp [Method.ndebug, FMM97, Act.inAssert, Act.StoM, h2]
  · intro h; have := ndebug_parts hr _ h; simp at this

/-- A tree with leaves at level 2 and below. -/
example : ∃ i ∈ leaves Index.root (.node exA), 2 ≤ i.level := by decide +kernel

end Dashmm
