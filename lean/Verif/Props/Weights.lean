import Verif.Model.Weights
import Verif.Props.Kernels
import Verif.Props.ExpMem
import Verif.Props.Distro
/-!
C100: the weights of the edges, and what they decide.
-/
namespace Dashmm
open Distro ExpMem

/-- The weight of every edge of an evaluation is read inside of the table; all weights are 1 but those of `M->I`, which are 6, and
`I->I`. -/
theorem C100_in_range {m : Method} {k : Expansion} (h : Compatible m k) {unif : Nat} {same : Bool} {s t : Fin 8 → Oct}
    {acts : List Act} (hr : Runs (createProg m unif same s t) acts) {e : Edge} (he : e ∈ edgesOf acts) :
    ∃ w, weightEstimate k e.op e.src.ix e.dst.ix = some w ∧ edgeWeight k e = w ∧ 0 ≤ w ∧ w ≤ 6 ∧
      (e.op = .MtoI → w = 6) ∧ (e.op ≠ .MtoI → e.op ≠ .ItoI → w = 1) := by
  suffices ∃ w, weightEstimate k e.op e.src.ix e.dst.ix = some w ∧ 0 ≤ w ∧ w ≤ 6 ∧
      (e.op = .MtoI → w = 6) ∧ (e.op ≠ .MtoI → e.op ≠ .ItoI → w = 1) by
    obtain ⟨w, h1, h2⟩ := this
    exact ⟨w, h1, by rw [edgeWeight, h1]; rfl, h2⟩
  by_cases hM : e.op = .MtoI
  · rw [hM]
    cases h with
    | direct => have := Direct_ops hr e he; simp [hM] at this
    | bh => have := BH_ops hr e he; simp [hM] at this
    | fmm => have := FMM_ops hr e he; simp [hM] at this
    | _ => exact ⟨6, rfl, by decide, by decide, fun _ => rfl, fun hn => absurd rfl hn⟩
  by_cases ho : e.op = .ItoI
  · have hm : m = FMM97 := by
      cases h with
      | direct => have := Direct_ops hr e he; simp [ho] at this
      | bh => have := BH_ops hr e he; simp [ho] at this
      | fmm => have := FMM_ops hr e he; simp [ho] at this
      | _ => rfl
    subst hm
    obtain ⟨tags, h1, h2, h3, _⟩ := C94_ItoI_tags hr he ho
    rw [ho]
    cases k <;> simp only [weightEstimate, countTags, h1] <;> simp
    omega
  · cases k <;> cases hop : e.op <;> simp_all [weightEstimate]

/-- With Laplace the weight of an `I->I` edge is the number of views that the edge carries, one to three. -/
theorem C100_laplace {unif : Nat} {same : Bool} {s t : Fin 8 → Oct} {acts : List Act}
    (hr : Runs (createProg FMM97 unif same s t) acts) {e : Edge} (he : e ∈ edgesOf acts) (ho : e.op = .ItoI) :
    ∃ tags idx, mergeTags ((e.src.ix.x : Int) - 2 * e.dst.ix.x) ((e.src.ix.y : Int) - 2 * e.dst.ix.y)
        ((e.src.ix.z : Int) - 2 * e.dst.ix.z) = some tags ∧
      resultViews .laplace .ItoI tags = some idx ∧ edgeWeight .laplace e = idx.length ∧ 1 ≤ idx.length ∧ idx.length ≤ 3 := by
  obtain ⟨tags, h1, h2, h3, _⟩ := C94_ItoI_tags hr he ho
  refine ⟨tags, tags, h1, rfl, ?_, List.length_pos_iff.2 h2, h3⟩
  simp [edgeWeight, ho, weightEstimate, countTags, h1]

/-- With Yukawa and Helmholtz the count is lost: every `I->I` edge has weight 0, though it carries something. -/
theorem C100_count_lost {k : Expansion} (hk : k = .yukawa ∨ k = .helmholtz) {unif : Nat} {same : Bool}
    {s t : Fin 8 → Oct} {acts : List Act} (hr : Runs (createProg FMM97 unif same s t) acts) {e : Edge}
    (he : e ∈ edgesOf acts) (ho : e.op = .ItoI) :
    weightEstimate k e.op e.src.ix e.dst.ix = some 0 ∧ 1 ≤ edgeWeight .laplace e := by
  obtain ⟨tags, h1, h2, h3, _⟩ := C94_ItoI_tags hr he ho
  refine ⟨?_, ?_⟩
  · rcases hk with rfl | rfl <;> simp [ho, weightEstimate, countTags, h1]
  · have := List.length_pos_iff.2 h2
    simp [edgeWeight, ho, weightEstimate, countTags, h1]
    omega

namespace Distro

theorem follows_congr {ranks : Nat} {nodes : List Ref} {es : List Edge} {w w' : Edge → Int} {before loc : Ref → Int}
    (hw : ∀ e ∈ es, e.src ∈ nodes → before e.src < 0 → w e = w' e) (h : FollowsWork ranks nodes es w before loc) :
    FollowsWork ranks nodes es w' before loc := by
  intro r hr hb
  have : weightTo w es loc r = weightTo w' es loc r := by
    funext v
    unfold weightTo
    congr 1
    apply List.map_congr_left
    intro e he
    obtain ⟨h1, h2⟩ := List.mem_filter.1 he
    simp only [decide_eq_true_eq] at h2
    obtain ⟨rfl, _⟩ := h2
    exact hw e h1 hr hb
  rw [← this]
  exact h r hr hb

/-- `FMM97Distro` has places for all nodes but the intermediate ones of the target tree. -/
theorem fmm97_unplaced {m : Method} {unif : Nat} {same : Bool} {s t : Fin 8 → Oct} {acts : List Act} {ranks : Nat}
    {rankOf : Nat → Nat} {L : Labels} (sh : Shape m unif same s t acts)
    (hL : LabelsOk ranks m unif same fmm97Policy rankOf s t fmm97Color L) {r : Ref} (hr' : r ∈ nodesOf acts)
    (hneg : L.loc r < 0) : r.side = .tgt ∧ r.kind = .interm := by
  by_contra h
  refine absurd hneg (not_lt.2 ?_)
  by_cases hk : r.kind = .parts
  · exact (sh.parts hL hr' hk).2
  obtain ⟨sd, ix, k⟩ := r
  simp only at h hk
  cases sd with
  | src =>
    obtain ⟨n, hu, hx, h1⟩ := sh.src _ hr' rfl
    simp only at hx; subst hx
    cases k with
    | parts => exact absurd rfl hk
    | normal => exact hL.srcLoc n hu _ (place unif rankOf n.ix) (by simp [fmm97Policy])
    | interm => exact hL.srcLoc n hu _ (place unif rankOf n.ix) (by simp [fmm97Policy])
  | tgt =>
    obtain ⟨n, p, c, hv, hx, h1, h2⟩ := sh.tgt _ hr' rfl
    simp only at hx; subst hx
    cases k with
    | parts => exact absurd rfl hk
    | interm => simp at h
    | normal =>
      cases hrf : refine m unif same n c with
      | true => exact hL.tgtLoc n p c hv hrf _ (place unif rankOf n.ix) (by simp [fmm97Policy])
      | false => exact (hL.tgtLeaf n p c hv hrf .normal (by simp)).2

end Distro

section
variable {unif : Nat} {same : Bool} {s t : Fin 8 → Oct} (hs : ∀ x ∈ leaves Index.root (.node s), unif ≤ x.level)
  {ranks : Nat} (hr : 1 ≤ ranks) {rankOf : Nat → Nat} (hro : ∀ i < 8 ^ unif, rankOf i < ranks)
include hs hr hro

/-- **C100.** FMM97 with its policy: whichever of the three kernels, every intermediate node of the target tree goes to the
first of the ranks that hold most of the local expansions it feeds; all other nodes had a place. -/
theorem C100_fmm97_majority {k : Expansion} (hk : Compatible FMM97 k) {acts : List Act}
    (hrun : Runs (createProg FMM97 unif same s t) acts) {l : List (Option Setting)}
    (hl : l.Perm (allSettings FMM97 unif same fmm97Policy rankOf s t)) :
    ∃ L, applyAll l = some L ∧
      (∀ r ∈ nodesOf acts, L.loc r < 0 → r.side = .tgt ∧ r.kind = .interm ∧
        ∀ e ∈ edgesOf acts, e.src = r → e.op = .ItoL) ∧
      ∀ ordT, SortedByColor L.color (collectDag acts s t).targetNodes ordT →
      ∃ loc, fmm97Compute ranks (edgeWeight k) (collectDag acts s t).edges ordT L.loc = some loc ∧
        GoodPlacement ranks (nodesOf acts) (edgesOf acts) (gridRank unif rankOf) L.loc loc ∧
        FollowsWork ranks (nodesOf acts) (edgesOf acts) (fun _ => 1) L.loc loc := by
  have sh := FMM97_shape hrun
  obtain ⟨L, h1, hL⟩ := labels_ok hr hro hs fmm97Policy_ok hl
  have hout : ∀ r ∈ nodesOf acts, L.loc r < 0 → r.side = .tgt ∧ r.kind = .interm ∧
      ∀ e ∈ edgesOf acts, e.src = r → e.op = .ItoL := by
    intro r h2 h3
    obtain ⟨h4, h5⟩ := fmm97_unplaced sh hL h2 h3
    refine ⟨h4, h5, ?_⟩
    rintro e he rfl
    cases sh.edge e he with
    | cross h _ _ => rw [h] at h4; cases h4
    | ItoL => rfl
    | _ => simp at h4 h5
  refine ⟨L, h1, hout, fun ordT hT => ?_⟩
  obtain ⟨loc, e1, g, f⟩ := fmm97_place (w := edgeWeight k) sh hr hL hT
  refine ⟨loc, e1, g, follows_congr ?_ f⟩
  intro e he hn hneg
  have ho := (hout _ hn hneg).2.2 e he rfl
  obtain ⟨w, _, e2, _, _, _, e3⟩ := C100_in_range hk hrun he
  rw [e2, e3 (by simp [ho]) (by simp [ho])]

/-- **C100.** Direct, Barnes-Hut and FMM with their policy, whichever kernel goes with them: every node without a place goes to
the first of the ranks to which most of its edges lead. -/
theorem C100_bh_majority {m : Method} {k : Expansion} (hk : Compatible m k) (hm : m ≠ FMM97) {acts : List Act}
    (hrun : Runs (createProg m unif same s t) acts) {l : List (Option Setting)}
    (hl : l.Perm (allSettings m unif same bhPolicy rankOf s t)) :
    ∃ L, applyAll l = some L ∧ ∀ ordT ordS,
      SortedByColor L.color (collectDag acts s t).targetNodes ordT →
      SortedByColor L.color (collectDag acts s t).sourceNodes ordS →
      ∃ loc, bhCompute ranks (edgeWeight k) (collectDag acts s t).edges ordT ordS L.loc = some loc ∧
        GoodPlacement ranks (nodesOf acts) (edgesOf acts) (gridRank unif rankOf) L.loc loc ∧
        FollowsWork ranks (nodesOf acts) (edgesOf acts) (fun _ => 1) L.loc loc := by
  have hops : ∀ e ∈ edgesOf acts, e.op ≠ .MtoI ∧ e.op ≠ .ItoI := by
    intro e he
    cases hk with
    | direct => have := Direct_ops hrun e he; constructor <;> intro h <;> simp [h] at this
    | bh => have := BH_ops hrun e he; constructor <;> intro h <;> simp [h] at this
    | fmm => have := FMM_ops hrun e he; constructor <;> intro h <;> simp [h] at this
    | _ => exact absurd rfl hm
  obtain ⟨L, h1, hL⟩ := C47_bh_policy hk.builtin hs hr hro hrun (edgeWeight k) hl
  refine ⟨L, h1, fun ordT ordS hT hS => ?_⟩
  obtain ⟨loc, e1, g, f⟩ := hL ordT ordS hT hS
  refine ⟨loc, e1, g, follows_congr ?_ f⟩
  intro e he _ _
  obtain ⟨w, _, e2, _, _, _, e3⟩ := C100_in_range hk hrun he
  rw [e2, e3 (hops e he).1 (hops e he).2]

/-- **C100.** The three kernels of FMM97 place every node alike, so the lost count does no harm. -/
theorem C100_same_for_all_kernels {k k' : Expansion} (hk : Compatible FMM97 k) (hk' : Compatible FMM97 k')
    {acts acts' : List Act} (hrun : Runs (createProg FMM97 unif same s t) acts)
    (hrun' : Runs (createProg FMM97 unif same s t) acts') {l l' : List (Option Setting)}
    (hl : l.Perm (allSettings FMM97 unif same fmm97Policy rankOf s t))
    (hl' : l'.Perm (allSettings FMM97 unif same fmm97Policy rankOf s t))
    {L L' : Labels} (hL : applyAll l = some L) (hL' : applyAll l' = some L') {ordT ordT' : List Ref}
    (hT : SortedByColor L.color (collectDag acts s t).targetNodes ordT)
    (hT' : SortedByColor L'.color (collectDag acts' s t).targetNodes ordT') {loc loc' : Ref → Int}
    (hc : fmm97Compute ranks (edgeWeight k) (collectDag acts s t).edges ordT L.loc = some loc)
    (hc' : fmm97Compute ranks (edgeWeight k') (collectDag acts' s t).edges ordT' L'.loc = some loc') :
    ∀ r ∈ nodesOf acts, loc r = loc' r := by
  obtain ⟨L1, e1, _, h1⟩ := C100_fmm97_majority hs hr hro hk hrun hl
  obtain ⟨L2, e2, _, h2⟩ := C100_fmm97_majority hs hr hro hk' hrun' hl'
  cases Option.some.inj (e1.symm.trans hL)
  cases Option.some.inj (e2.symm.trans hL')
  obtain ⟨a, ea, ga, fa⟩ := h1 ordT hT
  obtain ⟨b, eb, gb, fb⟩ := h2 ordT' hT'
  cases Option.some.inj (ea.symm.trans hc)
  cases Option.some.inj (eb.symm.trans hc')
  have hp : acts.Perm acts' := (runs_perm hrun).trans (runs_perm hrun').symm
  have hn : ∀ r, r ∈ nodesOf acts ↔ r ∈ nodesOf acts' := fun r => by
    rw [mem_nodesOf, mem_nodesOf, hp.mem_iff]
  have sh := FMM97_shape hrun
  obtain ⟨H, hH⟩ := sh.ranked
  obtain ⟨M1, m1, q1⟩ := labels_ok hr hro hs fmm97Policy_ok hl
  obtain ⟨M2, m2, q2⟩ := labels_ok hr hro hs fmm97Policy_ok hl'
  cases Option.some.inj (m1.symm.trans hL)
  cases Option.some.inj (m2.symm.trans hL')
  have hLL := labels_unique q1 q2
  exact follows_unique (hp.filterMap _) (fun e he => (sh.ends e he).2) hH ga.kept
    (by rw [hLL]; exact gb.kept) fa
    (fun r hr hb => fb r ((hn r).1 hr) (by rw [← hLL]; exact hb))

end

/-- The hypotheses hold for the example trees with uniform level 2 and three ranks; the DAG has `I->I` edges, and nodes without
a place. -/
example : (∀ x ∈ leaves Index.root (.node exA), 2 ≤ x.level) ∧ (∀ i < 8 ^ 2, i % 3 < 3) ∧
    Runs (createProg FMM97 2 false exA exB) (createDag FMM97 2 false exA exB) ∧
    (∃ e ∈ edgesOf (createDag FMM97 2 false exA exB), e.op = .ItoI ∧ 2 ≤ edgeWeight .laplace e ∧ edgeWeight .yukawa e = 0) ∧
    (applyAll (allSettings FMM97 2 false fmm97Policy (· % 3) exA exB)).map (fun L =>
      (nodesOf (createDag FMM97 2 false exA exB)).any fun r => decide (L.loc r < 0)) = some true :=
  ⟨by decide +kernel, fun i _ => Nat.mod_lt _ (by omega), createDag_runs _ _ _ _ _, by decide +kernel, by decide +kernel⟩

end Dashmm
