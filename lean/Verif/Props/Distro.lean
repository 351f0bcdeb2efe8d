import Verif.Proofs.DistroPolicy
import Verif.Props.Methods
/-!
C47: every DAG node is placed on exactly one existing rank.
C56: all ranks compute the same placement, although each builds the DAG and sorts its nodes on its own.
-/
namespace Dashmm
open Distro

/-- The methods of the library. -/
inductive Builtin : Method → Prop
  | direct : Builtin Direct
  | bh (mac : Index → Index → Bool) : Builtin (BH mac)
  | fmm : Builtin FMM
  | fmm97 : Builtin FMM97

theorem Builtin.shape {m : Method} (hm : Builtin m) {unif : Nat} {same : Bool} {s t : Fin 8 → Oct}
    {acts : List Act} (hr : Runs (createProg m unif same s t) acts) : Shape m unif same s t acts := by
  cases hm with
  | direct => exact Direct_shape hr
  | bh mac => exact BH_shape hr
  | fmm => exact FMM_shape hr
  | fmm97 => exact FMM97_shape hr

section
variable {m : Method} (hm : Builtin m)
  -- the trees: every source leaf is at or below the uniform level
  {unif : Nat} {same : Bool} {s t : Fin 8 → Oct} (hs : ∀ x ∈ leaves Index.root (.node s), unif ≤ x.level)
  -- the ranks and who owns which cell of the uniform grid
  {ranks : Nat} (hr : 1 ≤ ranks) {rankOf : Nat → Nat} (hro : ∀ i < 8 ^ unif, rankOf i < ranks)
  -- what the tasks that make the DAG do, in any order
  {acts : List Act} (hrun : Runs (createProg m unif same s t) acts)
include hm hs hr hro hrun

/-- `BHDistro` (used by Direct, BH and FMM): no assertion fails, and the placement is good. -/
theorem C47_bh_policy (w : Edge → Int) {l : List (Option Setting)}
    (hl : l.Perm (allSettings m unif same bhPolicy rankOf s t)) :
    ∃ L, applyAll l = some L ∧ ∀ ordT ordS,
      SortedByColor L.color (collectDag acts s t).targetNodes ordT →
      SortedByColor L.color (collectDag acts s t).sourceNodes ordS →
      ∃ loc, bhCompute ranks w (collectDag acts s t).edges ordT ordS L.loc = some loc ∧
        GoodPlacement ranks (nodesOf acts) (edgesOf acts) (gridRank unif rankOf) L.loc loc ∧
        FollowsWork ranks (nodesOf acts) (edgesOf acts) w L.loc loc := by
  obtain ⟨L, h1, hL⟩ := labels_ok hr hro hs bhPolicy_ok hl
  exact ⟨L, h1, fun _ _ hT hS => bh_place (hm.shape hrun) hr hL hT hS⟩

/-- `FMM97Distro` (used by FMM97). -/
theorem C47_fmm97_policy (w : Edge → Int) {l : List (Option Setting)}
    (hl : l.Perm (allSettings m unif same fmm97Policy rankOf s t)) :
    ∃ L, applyAll l = some L ∧ ∀ ordT,
      SortedByColor L.color (collectDag acts s t).targetNodes ordT →
      ∃ loc, fmm97Compute ranks w (collectDag acts s t).edges ordT L.loc = some loc ∧
        GoodPlacement ranks (nodesOf acts) (edgesOf acts) (gridRank unif rankOf) L.loc loc ∧
        FollowsWork ranks (nodesOf acts) (edgesOf acts) w L.loc loc := by
  obtain ⟨L, h1, hL⟩ := labels_ok hr hro hs fmm97Policy_ok hl
  exact ⟨L, h1, fun _ hT => fmm97_place (hm.shape hrun) hr hL hT⟩

/-- `SingleLocality` with an existing rank. -/
theorem C47_single_policy {v : Int} (hv : 0 ≤ v) (hvr : v < ranks) {l : List (Option Setting)}
    (hl : l.Perm (allSettings m unif same noPolicy rankOf s t)) :
    ∃ L, applyAll l = some L ∧
      GoodPlacement ranks (nodesOf acts) (edgesOf acts) (gridRank unif rankOf) L.loc
        (singleCompute v (collectDag acts s t) L.loc) := by
  obtain ⟨L, h1, hL⟩ := labels_ok hr hro hs noPolicy_ok hl
  exact ⟨L, h1, single_place (hm.shape hrun) hv hvr hL⟩

/-- `RandomDistro`, whatever the random numbers are. -/
theorem C47_random_policy {rng : Nat → Int} (hv : ∀ i, 0 ≤ rng i ∧ rng i < ranks)
    {l : List (Option Setting)} (hl : l.Perm (allSettings m unif same noPolicy rankOf s t)) :
    ∃ L, applyAll l = some L ∧ ∃ loc, randomCompute rng (collectDag acts s t) L.loc = some loc ∧
      GoodPlacement ranks (nodesOf acts) (edgesOf acts) (gridRank unif rankOf) L.loc loc := by
  obtain ⟨L, h1, hL⟩ := labels_ok hr hro hs noPolicy_ok hl
  exact ⟨L, h1, random_place (hm.shape hrun) hv hL⟩

variable {acts' : List Act} (hrun' : Runs (createProg m unif same s t) acts')
include hrun'

/-- With `BHDistro` two ranks that schedule their tasks and sort their nodes differently place every
DAG node on the same rank. -/
theorem C56_bh_policy {w : Edge → Int} {l l' : List (Option Setting)}
    (hl : l.Perm (allSettings m unif same bhPolicy rankOf s t))
    (hl' : l'.Perm (allSettings m unif same bhPolicy rankOf s t))
    {L L' : Labels} (hL : applyAll l = some L) (hL' : applyAll l' = some L')
    {ordT ordS ordT' ordS' : List Ref}
    (hT : SortedByColor L.color (collectDag acts s t).targetNodes ordT)
    (hS : SortedByColor L.color (collectDag acts s t).sourceNodes ordS)
    (hT' : SortedByColor L'.color (collectDag acts' s t).targetNodes ordT')
    (hS' : SortedByColor L'.color (collectDag acts' s t).sourceNodes ordS')
    {loc loc' : Ref → Int}
    (hc : bhCompute ranks w (collectDag acts s t).edges ordT ordS L.loc = some loc)
    (hc' : bhCompute ranks w (collectDag acts' s t).edges ordT' ordS' L'.loc = some loc') :
    (∀ r, r ∈ nodesOf acts ↔ r ∈ nodesOf acts') ∧ ∀ r ∈ nodesOf acts, loc r = loc' r := by
  obtain ⟨L1, e1, h1⟩ := labels_ok hr hro hs bhPolicy_ok hl
  obtain ⟨L2, e2, h2⟩ := labels_ok hr hro hs bhPolicy_ok hl'
  cases Option.some.inj (e1.symm.trans hL)
  cases Option.some.inj (e2.symm.trans hL')
  obtain ⟨a, ea, ga, fa⟩ := bh_place (w := w) (hm.shape hrun) hr h1 hT hS
  obtain ⟨b, eb, gb, fb⟩ := bh_place (w := w) (hm.shape hrun') hr h2 hT' hS'
  cases Option.some.inj (ea.symm.trans hc)
  cases Option.some.inj (eb.symm.trans hc')
  have hp : acts.Perm acts' := (runs_perm hrun).trans (runs_perm hrun').symm
  have hn : ∀ r, r ∈ nodesOf acts ↔ r ∈ nodesOf acts' := fun r => by
    rw [mem_nodesOf, mem_nodesOf, hp.mem_iff]
  refine ⟨hn, ?_⟩
  have sh := hm.shape hrun
  obtain ⟨H, hH⟩ := sh.ranked
  exact follows_unique (hp.filterMap _) (fun e he => (sh.ends e he).2) hH ga.kept
    (by rw [labels_unique h1 h2]; exact gb.kept) fa
    (fun r hr hb => fb r ((hn r).1 hr) (by rw [← labels_unique h1 h2]; exact hb))

/-- The same for `FMM97Distro`. -/
theorem C56_fmm97_policy {w : Edge → Int} {l l' : List (Option Setting)}
    (hl : l.Perm (allSettings m unif same fmm97Policy rankOf s t))
    (hl' : l'.Perm (allSettings m unif same fmm97Policy rankOf s t))
    {L L' : Labels} (hL : applyAll l = some L) (hL' : applyAll l' = some L')
    {ordT ordT' : List Ref}
    (hT : SortedByColor L.color (collectDag acts s t).targetNodes ordT)
    (hT' : SortedByColor L'.color (collectDag acts' s t).targetNodes ordT')
    {loc loc' : Ref → Int}
    (hc : fmm97Compute ranks w (collectDag acts s t).edges ordT L.loc = some loc)
    (hc' : fmm97Compute ranks w (collectDag acts' s t).edges ordT' L'.loc = some loc') :
    (∀ r, r ∈ nodesOf acts ↔ r ∈ nodesOf acts') ∧ ∀ r ∈ nodesOf acts, loc r = loc' r := by
  obtain ⟨L1, e1, h1⟩ := labels_ok hr hro hs fmm97Policy_ok hl
  obtain ⟨L2, e2, h2⟩ := labels_ok hr hro hs fmm97Policy_ok hl'
  cases Option.some.inj (e1.symm.trans hL)
  cases Option.some.inj (e2.symm.trans hL')
  obtain ⟨a, ea, ga, fa⟩ := fmm97_place (w := w) (hm.shape hrun) hr h1 hT
  obtain ⟨b, eb, gb, fb⟩ := fmm97_place (w := w) (hm.shape hrun') hr h2 hT'
  cases Option.some.inj (ea.symm.trans hc)
  cases Option.some.inj (eb.symm.trans hc')
  have hp : acts.Perm acts' := (runs_perm hrun).trans (runs_perm hrun').symm
  have hn : ∀ r, r ∈ nodesOf acts ↔ r ∈ nodesOf acts' := fun r => by
    rw [mem_nodesOf, mem_nodesOf, hp.mem_iff]
  refine ⟨hn, ?_⟩
  have sh := hm.shape hrun
  obtain ⟨H, hH⟩ := sh.ranked
  exact follows_unique (hp.filterMap _) (fun e he => (sh.ends e he).2) hH ga.kept
    (by rw [labels_unique h1 h2]; exact gb.kept) fa
    (fun r hr hb => fb r ((hn r).1 hr) (by rw [← labels_unique h1 h2]; exact hb))

/-- The same for `SingleLocality` and, with the same seed on all ranks, `RandomDistro`. -/
theorem C56_other_policies {l l' : List (Option Setting)}
    (hl : l.Perm (allSettings m unif same noPolicy rankOf s t))
    (hl' : l'.Perm (allSettings m unif same noPolicy rankOf s t))
    {L L' : Labels} (hL : applyAll l = some L) (hL' : applyAll l' = some L') (v : Int) (rng : Nat → Int) :
    singleCompute v (collectDag acts s t) L.loc = singleCompute v (collectDag acts' s t) L'.loc ∧
    randomCompute rng (collectDag acts s t) L.loc = randomCompute rng (collectDag acts' s t) L'.loc := by
  obtain ⟨L1, e1, h1⟩ := labels_ok hr hro hs noPolicy_ok hl
  obtain ⟨L2, e2, h2⟩ := labels_ok hr hro hs noPolicy_ok hl'
  cases Option.some.inj (e1.symm.trans hL)
  cases Option.some.inj (e2.symm.trans hL')
  have hp : acts.Perm acts' := (runs_perm hrun).trans (runs_perm hrun').symm
  have hn : ∀ r, r ∈ nodesOf acts ↔ r ∈ nodesOf acts' := fun r => by
    rw [mem_nodesOf, mem_nodesOf, hp.mem_iff]
  have hI : ∀ sd, ownInternals (nodesOf acts) sd = ownInternals (nodesOf acts') sd := by
    intro sd; funext ix; simp only [ownInternals, hn]
  have hT : ∀ sd, ownTerminals (nodesOf acts) sd = ownTerminals (nodesOf acts') sd := by
    intro sd; funext ix; simp only [ownTerminals, hn]
  rw [labels_unique h1 h2]
  unfold singleCompute randomCompute collectDag
  simp only [hI, hT, and_self]
end

/-! ### Examples -/

/-- A sorted rearrangement always exists. -/
example (color : Ref → Int) (l : List Ref) : ∃ ord, SortedByColor color l ord := by
  refine ⟨l.mergeSort (fun a b => decide (color b ≤ color a)), List.mergeSort_perm _ _, ?_⟩
  have := List.pairwise_mergeSort (le := fun a b => decide (color b ≤ color a)) (l := l)
    (by intro a b c h1 h2; simp only [decide_eq_true_eq] at *; omega)
    (by intro a b; simp only [Bool.or_eq_true, decide_eq_true_eq]; omega)
  simpa using this

/-- The hypotheses hold for the example trees with uniform level 2, three ranks and a cyclic
assignment of the cells. -/
example : (∀ x ∈ leaves Index.root (.node exA), 2 ≤ x.level) ∧ (∀ i < 8 ^ 2, i % 3 < 3) ∧
    Runs (createProg FMM 2 false exA exB) (createDag FMM 2 false exA exB) :=
  ⟨by decide +kernel, fun i _ => Nat.mod_lt _ (by omega), createDag_runs _ _ _ _ _⟩

/-- In that run some nodes have no place before the policy is applied, and the policy succeeds. -/
example :
    ((applyAll (allSettings FMM 2 false bhPolicy (· % 3) exA exB)).map fun L =>
      ((nodesOf (createDag FMM 2 false exA exB)).countP (fun r => L.loc r < 0),
       (nodesOf (createDag FMM 2 false exA exB)).countP (fun r => L.loc r ≥ 0),
       (bhCompute 3 (fun _ => 1) (edgesOf (createDag FMM 2 false exA exB))
          ((collectDag (createDag FMM 2 false exA exB) exA exB).targetNodes.insertionSort
            (fun a b => L.color b ≤ L.color a))
          ((collectDag (createDag FMM 2 false exA exB) exA exB).sourceNodes.insertionSort
            (fun a b => L.color b ≤ L.color a)) L.loc).isSome)) =
    some (4, 8, true) := by
  decide +kernel

end Dashmm
