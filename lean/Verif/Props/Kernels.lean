import Verif.Proofs.Kernels
import Verif.Props.Distro
/-!
C87: which built-in method may be used with which built-in expansion.
-/
namespace Dashmm

/-- The pairs of method and expansion that work. -/
inductive Compatible : Method → Expansion → Prop
  | direct (k : Expansion) : Compatible Direct k
  | bh (mac : Index → Index → Bool) (k : Expansion) (hk : k ≠ .helmholtz) : Compatible (BH mac) k
  | fmm : Compatible FMM .laplace
  | fmm97_laplace : Compatible FMM97 .laplace
  | fmm97_yukawa : Compatible FMM97 .yukawa
  | fmm97_helmholtz : Compatible FMM97 .helmholtz

theorem Compatible.builtin {m : Method} {k : Expansion} (h : Compatible m k) : Builtin m := by
  cases h <;> first | exact .direct | exact .bh _ | exact .fmm | exact .fmm97

section
variable {unif : Nat} {same : Bool} {s t : Fin 8 → Oct} {acts : List Act}

/-- With a compatible pair, on trees of at most 21 levels below the root and, for Helmholtz, a domain
whose scale is more than a half, whatever the points: every edge of the DAG is served, none meets a
null pointer, a failing assertion or the end of a table, and every one of them contributes.  (Laplace
and the centre-of-mass expansions need neither of the two conditions.) -/
theorem C87_compatible_served {m : Method} {k : Expansion} (h : Compatible m k) {scale0 : ℝ}
    (hdeep : k = .yukawa ∨ k = .helmholtz →
      (∀ n, Under (rootNode s) n → n.ix.level ≤ 21) ∧ (∀ n, Under (rootNode t) n → n.ix.level ≤ 21))
    (hscale : k = .helmholtz → 1 / 2 < scale0 ∧ scale0 ≤ 1)
    (hr : Runs (createProg m unif same s t) acts) :
    k.serveAll (unitLevel scale0) (edgesOf acts) = some (edgesOf acts).length := by
  have S := h.builtin.shape hr
  apply serveAll_eq
  intro e he
  have hu : k = .helmholtz → inTable (unitLevel scale0) = true := fun hk => by
    rw [unitLevel_one (hscale hk).1 (hscale hk).2]; rfl
  cases h with
  | direct k =>
    have ho := Direct_ops hr e he; simp at ho
    rcases k with _ | _ | _ | _ | _
    · exact serve_laplace _ e
    · obtain ⟨h1, h2⟩ := S.level (hdeep (by simp)).1 (hdeep (by simp)).2 he
      exact serve_tables (by simp) hu h1 h2 (by simp [ho]) (by simp [ho]) (by simp [ho]) (by simp [ho])
    · obtain ⟨h1, h2⟩ := S.level (hdeep (by simp)).1 (hdeep (by simp)).2 he
      exact serve_tables (by simp) hu h1 h2 (by simp [ho]) (by simp [ho]) (by simp [ho]) (by simp [ho])
    · exact serve_com (by simp) _ (by simp [ho])
    · exact serve_com (by simp) _ (by simp [ho])
  | bh mac k hk =>
    have ho := BH_ops hr e he
    rcases k with _ | _ | _ | _ | _
    · exact serve_laplace _ e
    · obtain ⟨h1, h2⟩ := S.level (hdeep (by simp)).1 (hdeep (by simp)).2 he
      refine serve_tables (by simp) hu h1 h2 ?_ (by simp) (by simp) ?_ <;> intro h <;> simp [h] at ho
    · exact absurd rfl hk
    · exact serve_com (by simp) _ (by simpa using ho)
    · exact serve_com (by simp) _ (by simpa using ho)
  | fmm => exact serve_laplace _ e
  | fmm97_laplace => exact serve_laplace _ e
  | fmm97_yukawa =>
    obtain ⟨h1, h2⟩ := S.level (hdeep (by simp)).1 (hdeep (by simp)).2 he
    have ho := FMM97_ops hr e he
    refine serve_tables (by simp) hu h1 h2 (fun h => by simp [h] at ho) (by simp) (by simp) fun h => ?_
    have := (FMM97_edge_levels hr S he).2.2 h; omega
  | fmm97_helmholtz =>
    obtain ⟨h1, h2⟩ := S.level (hdeep (by simp)).1 (hdeep (by simp)).2 he
    have ho := FMM97_ops hr e he
    obtain ⟨l1, l2, l3⟩ := FMM97_edge_levels hr S he
    refine serve_tables (by simp) hu h1 h2 (fun h => by simp [h] at ho) (fun _ h => ?_) (fun _ h => ?_) fun h => ?_
    · exact l1 h
    · have := l2 h; omega
    · have := l3 h; omega

/-- The operations the documentation asks of an expansion (basic.tex:740-810) are enough … -/
theorem C87_direct_operations (hr : Runs (createProg Direct unif same s t) acts) :
    ∀ e ∈ edgesOf acts, e.op = .StoT := by
  intro e he; simpa using Direct_ops hr e he

theorem C87_bh_operations {mac : Index → Index → Bool} (hr : Runs (createProg (BH mac) unif same s t) acts) :
    ∀ e ∈ edgesOf acts, e.op ∈ [Op.StoT, .StoM, .MtoM, .MtoT] := by
  intro e he; have := BH_ops hr e he; simp at this ⊢; tauto

theorem C87_fmm_operations (hr : Runs (createProg FMM unif same s t) acts) :
    ∀ e ∈ edgesOf acts, e.op ∈ [Op.StoT, .StoM, .StoL, .MtoM, .MtoL, .MtoT, .LtoL, .LtoT] := by
  intro e he; have := FMM_ops hr e he; simp at this ⊢; tauto

/-- … and FMM97 does not need `MtoL`, which the documentation asks for. -/
theorem C87_fmm97_operations (hr : Runs (createProg FMM97 unif same s t) acts) :
    ∀ e ∈ edgesOf acts, e.op ∈ [Op.StoT, .StoM, .StoL, .MtoM, .MtoT, .LtoL, .LtoT, .MtoI, .ItoI, .ItoL] := by
  intro e he; have := FMM97_ops hr e he; simp at this ⊢; tauto

/-- An evaluation of FMM that translates a multipole expansion into a local one dereferences a null
pointer unless the expansion is `Laplace`. -/
theorem C87_fmm_needs_MtoL {k : Expansion} (hk : k ≠ .laplace) {e : Edge} (he : e ∈ edgesOf acts)
    (hop : e.op = .MtoL) (u : ℤ) : k.serveAll u (edgesOf acts) = none := by
  apply serveAll_none k u he
  have : k.answer u e = .null := by
    cases k <;> simp_all [Expansion.answer, yukawaAnswer, helmholtzAnswer, comAnswer]
  rw [Expansion.serve, this]

/-- `Helmholtz` cannot be used with BH at all: if there is any source, the first translation of a
multipole expansion from a child of the root fails an assertion. -/
theorem C87_bh_helmholtz_aborts {mac : Index → Index → Bool} (hs : ∃ i, s i ≠ .nil)
    (hr : Runs (createProg (BH mac) unif same s t) acts) (u : ℤ) :
    Expansion.helmholtz.serveAll u (edgesOf acts) = none := by
  obtain ⟨i, hi⟩ := hs
  obtain ⟨c, hc⟩ : ∃ c, s i = .node c := by cases h : s i <;> simp_all
  have hk : (⟨Index.root.child i, c⟩ : TNode) ∈ (rootNode s).kids := mem_kids.2 ⟨i, hc, rfl⟩
  refine serveAll_none _ u (BH_MtoM hr (.refl _) hk) ?_
  have hl : (Index.root.child i).level = 1 := rfl
  simp only [Expansion.serve, Expansion.answer, helmholtzAnswer, hl, guarded]
  cases Expansion.helmholtz.construct false u <;> simp

/-- The tables of `Yukawa` and `Helmholtz` end with level 21, so that a deeper tree of sources is
read outside of them, with FMM97 as with BH. -/
theorem C87_too_deep {m : Method} {k : Expansion} (hk : k = .yukawa ∨ k = .helmholtz)
    (hm : m = FMM97 ∨ ∃ mac, m = BH mac) {n : TNode} (hn : Under (rootNode s) n) (hl : 21 < n.ix.level)
    (hr : Runs (createProg m unif same s t) acts) (u : ℤ) :
    k.serveAll u (edgesOf acts) = none := by
  obtain ⟨n, hn, -, hl⟩ := hn.ancestor (l := 22) (by simp [rootNode, Index.root]) hl
  rcases hn.last with h | ⟨j, hj, hb⟩
  · rw [← h] at hl; simp [rootNode, Index.root] at hl
  have hlj := kid_level hb
  have he : (⟨.MtoM, ⟨.src, n.ix, .normal⟩, ⟨.src, j.ix, .normal⟩⟩ : Edge) ∈ edgesOf acts := by
    rcases hm with rfl | ⟨mac, rfl⟩
    · exact FMM97_MtoM hr hj (by omega) hb
    · exact BH_MtoM hr hj hb
  refine serveAll_none _ u he ?_
  have ht : inTable ((22 : ℕ) : ℤ) = false := rfl
  rcases hk with rfl | rfl
  · simp only [Expansion.serve, Expansion.answer, yukawaAnswer, hl, guarded, ht]; simp
  · simp only [Expansion.serve, Expansion.answer, helmholtzAnswer, hl, guarded, ht]
    cases Expansion.helmholtz.construct false u <;> simp

/-- With FMM97 and `Helmholtz`, a domain with `omega * size ≤ 1 / 2` makes every translation of a
multipole expansion read before the beginning of the table, because the result is first made with the
scale 1. -/
theorem C87_helmholtz_small_scale {n k : TNode} (hn : Under (rootNode s) n) (hl : 2 ≤ n.ix.level) (hk : k ∈ n.kids)
    (hr : Runs (createProg FMM97 unif same s t) acts) {scale0 : ℝ} (h0 : 0 < scale0) (h1 : scale0 ≤ 1 / 2) :
    Expansion.helmholtz.serveAll (unitLevel scale0) (edgesOf acts) = none := by
  refine serveAll_none _ _ (FMM97_MtoM hr hn hl hk) ?_
  have hu : inTable (unitLevel scale0) = false := by
    have := unitLevel_neg h0 h1
    simp [inTable]; omega
  simp only [Expansion.serve, Expansion.answer, helmholtzAnswer, Expansion.construct, guarded, hu]
  simp

end

/-- A source tree with leaves at levels 1 and 4. -/
def opSrc : Fin 8 → Oct := fun k =>
  if k = 0 then chain [0, 0, 0] else if k = 7 then chain [] else if k = 3 then chain [3, 3, 3] else .nil
/-- A target tree with leaves at levels 1 and 4. -/
def opTgt : Fin 8 → Oct := fun k =>
  if k = 0 then chain [0, 0, 0] else if k = 7 then chain [0, 7, 7] else if k = 3 then chain [] else .nil

theorem mem_ops {m : Method} {s t : Fin 8 → Oct} {acts : List Act} (hr : Runs (createProg m 1 false s t) acts)
    {o : Op} (h : ((createDag m 1 false s t).any fun a => match a with | .link e => e.op == o | .add _ => false) = true) :
    ∃ e ∈ edgesOf acts, e.op = o := by
  obtain ⟨a, ha, h⟩ := List.any_eq_true.1 h
  cases a with
  | add r => simp at h
  | link e => exact ⟨e, List.mem_filterMap.2 ⟨_, (runs_perm hr).mem_iff.2 ha, rfl⟩, by simpa using h⟩

/-- None of these lists can be shortened: on these two trees every operation of the list occurs. -/
theorem C87_operations_needed :
    (∀ acts, Runs (createProg (BH wellSep) 1 false opSrc opTgt) acts →
      ∀ o ∈ [Op.StoT, .StoM, .MtoM, .MtoT], ∃ e ∈ edgesOf acts, e.op = o) ∧
    (∀ acts, Runs (createProg FMM 1 false opSrc opTgt) acts →
      ∀ o ∈ [Op.StoT, .StoM, .StoL, .MtoM, .MtoL, .MtoT, .LtoL, .LtoT], ∃ e ∈ edgesOf acts, e.op = o) ∧
    (∀ acts, Runs (createProg FMM97 1 false opSrc opTgt) acts →
      ∀ o ∈ [Op.StoT, .StoM, .StoL, .MtoM, .MtoT, .LtoL, .LtoT, .MtoI, .ItoI, .ItoL],
        ∃ e ∈ edgesOf acts, e.op = o) := by
  refine ⟨fun acts hr o ho => mem_ops hr ?_, fun acts hr o ho => mem_ops hr ?_, fun acts hr o ho => mem_ops hr ?_⟩
  · revert o; decide +kernel
  · revert o; decide +kernel
  · revert o; decide +kernel

/-- `Yukawa`, which the documentation (basic.tex:852) calls compatible with every method, and
`Helmholtz` crash with FMM on these trees, on every schedule; so do the centre-of-mass expansions. -/
theorem C87_fmm_only_laplace {acts : List Act} (hr : Runs (createProg FMM 1 false opSrc opTgt) acts)
    {k : Expansion} (hk : k ≠ .laplace) (u : ℤ) : k.serveAll u (edgesOf acts) = none := by
  obtain ⟨e, he, ho⟩ := C87_operations_needed.2.1 acts hr .MtoL (by simp)
  exact C87_fmm_needs_MtoL hk he ho u

/-- The centre-of-mass expansions crash with FMM97. -/
theorem C87_fmm97_not_com {acts : List Act} (hr : Runs (createProg FMM97 1 false opSrc opTgt) acts)
    {k : Expansion} (hk : k = .laplaceCOM ∨ k = .laplaceCOMAcc) (u : ℤ) : k.serveAll u (edgesOf acts) = none := by
  obtain ⟨e, he, ho⟩ := C87_operations_needed.2.2 acts hr .MtoI (by simp)
  apply serveAll_none k u he
  rcases hk with rfl | rfl <;> simp [Expansion.serve, Expansion.answer, comAnswer, ho]

theorem opSrc_level : ∀ n, Under (rootNode opSrc) n → n.ix.level ≤ 21 := fun n hn => by
  have := hn.level_height
  have h : (rootNode opSrc).height = 5 := by decide +kernel
  have h0 : (rootNode opSrc).ix.level = 0 := rfl
  rw [h, h0] at this; omega

theorem opTgt_level : ∀ n, Under (rootNode opTgt) n → n.ix.level ≤ 21 := fun n hn => by
  have := hn.level_height
  have h : (rootNode opTgt).height = 5 := by decide +kernel
  have h0 : (rootNode opTgt).ix.level = 0 := rfl
  rw [h, h0] at this; omega

/-- Non-vacuity: there is such a run, with a served DAG of more than twenty edges, for Helmholtz with
`omega * size = 3 / 4`, which crashes with `omega * size = 1 / 4`. -/
example : ∃ acts, Runs (createProg FMM97 1 false opSrc opTgt) acts ∧
    Expansion.helmholtz.serveAll (unitLevel (3 / 4)) (edgesOf acts) = some (edgesOf acts).length ∧
    20 < (edgesOf acts).length ∧ Expansion.helmholtz.serveAll (unitLevel (1 / 4)) (edgesOf acts) = none := by
  refine ⟨_, createDag_runs .., C87_compatible_served .fmm97_helmholtz (fun _ => ⟨opSrc_level, opTgt_level⟩)
    (fun _ => by norm_num) (createDag_runs ..), by decide +kernel, ?_⟩
  have h1 : (⟨(Index.root.child 0).child 0, fun k => if k = 0 then chain [0] else .nil⟩ : TNode) ∈
      (⟨Index.root.child 0, fun k => if k = 0 then chain [0, 0] else .nil⟩ : TNode).kids :=
    mem_kids.2 ⟨0, rfl, rfl⟩
  exact C87_helmholtz_small_scale (.down (mem_kids.2 ⟨0, rfl, rfl⟩) (.down h1 (.refl _)))
    (by simp [Index.child]) (k := ⟨((Index.root.child 0).child 0).child 0, _⟩) (mem_kids.2 ⟨0, rfl, rfl⟩)
    (createDag_runs ..) (by norm_num) (by norm_num)

theorem chain_deep (j : ℕ) : ∀ ix : Index, ∃ c, chain (List.replicate j 0) = .node c ∧
    ∃ n, Under ⟨ix, c⟩ n ∧ n.ix.level = ix.level + j := by
  induction j with
  | zero => intro ix; exact ⟨_, rfl, _, .refl _, rfl⟩
  | succ j ih =>
    intro ix
    obtain ⟨c, hc, n, hn, hl⟩ := ih (ix.child 0)
    refine ⟨_, rfl, n, .down (mem_kids.2 ⟨0, ?_, rfl⟩) hn, by rw [hl]; simp [Index.child]; omega⟩
    simpa using hc

/-- Non-vacuity: a tree with 22 levels below the root. -/
example (acts : List Act)
    (hr : Runs (createProg FMM97 1 false (fun k => if k = 0 then chain (List.replicate 21 0) else .nil) opTgt) acts) :
    Expansion.yukawa.serveAll (unitLevel 1) (edgesOf acts) = none := by
  obtain ⟨c, hc, n, hn, hl⟩ := chain_deep 21 (Index.root.child 0)
  have : Under (rootNode fun k => if k = 0 then chain (List.replicate 21 0) else .nil) n :=
    .down (mem_kids.2 ⟨0, by simpa [rootNode] using hc, rfl⟩) hn
  exact C87_too_deep (.inl rfl) (.inl rfl) this (by simp [hl, Index.child, Index.root]) hr _

end Dashmm
