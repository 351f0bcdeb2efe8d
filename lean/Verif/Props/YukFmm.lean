import Verif.Proofs.YukGain
import Verif.Proofs.Kernels
import Verif.Props.YukExec

/-!
# C102: evaluations with the Yukawa kernel and FMM97
-/

namespace Dashmm

open Lap Harm Bessel Yuk
open scoped Nat

theorem yukFmmDag_ok (D : YukFmm) {acts : List Act} (h1 : NoAssertionFails acts) (h2 : Ranked (edgesOf acts)) : (yukFmmDag D acts).Ok :=
  let h := methodDag_ok h1 h2
  ⟨h.nodup, h.srcs, h.dsts, h.starts_sub, h.starts_nodup, h.starts_in, h.acyclic⟩

section Edges

variable {unif : Nat} {same : Bool} {s t : Fin 8 → Oct} {acts : List Act} {D : YukFmm} {δ : ℝ} {ε G : ℕ → ℝ}

/-- The targets' directions are as computed, seen from every box. -/
abbrev seen (D : YukFmm) (acts : List Act) (x : Point ℝ) : Prop := ∀ r ∈ nodesOf acts, Regular (x.sub (D.center r.ix))

theorem fmm97_src_yukEdge (hA : FAcc D δ) (hp : D.Placed s) (hc : D.Clear acts) (hlev : ∀ r ∈ nodesOf acts, r.ix.level ≤ 21) {lo : ℕ} {n : TNode}
    (hu : Under (rootNode s) n) {e : Edge} (hends : e.src ∈ nodesOf acts ∧ e.dst ∈ nodesOf acts) (h : SrcAct lo n (.link e)) :
    FmmEdge D δ ε G (seen D acts) (edgesOf acts) e := by
  generalize hx : Act.link e = x at h
  cases h with
  | parts => cases hx
  | normal => cases hx
  | interm => cases hx
  | StoM hl =>
    cases hx
    have r1 : (⟨.src, n.ix, .normal⟩ : Ref) ∈ nodesOf acts := hends.2
    have h1 := hc.srcs _ r1 _ hends.1 rfl rfl
    exact .StoM (.StoM hA.acc (hp.srcs _ (mem_leaves.2 ⟨n, hu, hl, rfl⟩)) h1 fun x hx => hx ⟨.src, n.ix, .normal⟩ r1)
  | @MtoM k hk =>
    obtain ⟨i, -, hi⟩ := mem_kids.1 hk
    have hki : k.ix = n.ix.child i := by rw [hi]
    cases hx
    have h21 : k.ix.level ≤ 21 := hlev _ hends.1
    rw [hki] at h21 ⊢
    exact .MtoM i (.MtoM hA.acc i h21)
  | MtoI => cases hx; exact .MtoI (hlev _ hends.1)

/-- What the range of the Bessel functions asks of the targets and sources of an edge. -/
def InRangeK (D : YukFmm) (e : Edge) : Prop :=
  (e.op = .MtoT → ∀ x ∈ D.tgts e.dst.ix, 10⁻¹ ^ 200 ≤ D.lam * (x.sub (D.center e.src.ix)).norm ∧ D.lam * (x.sub (D.center e.src.ix)).norm < 10 ^ 8) ∧
  (e.op = .StoL → ∀ q ∈ D.srcs e.src.ix,
    10⁻¹ ^ 200 ≤ D.lam * (q.pos.sub (D.center e.dst.ix)).norm ∧ D.lam * (q.pos.sub (D.center e.dst.ix)).norm < 10 ^ 8)

theorem fmm97_visit_yukEdge (hA : FAcc D δ) (hp : D.Placed s) (hc : D.Clear acts) (hp1 : 1 ≤ D.p) (hp18 : D.p ≤ 18)
    (hlev : ∀ r ∈ nodesOf acts, r.ix.level ≤ 21) {n : TNode} {e : Edge} (he : e ∈ edgesOf acts)
    (hends : e.src ∈ nodesOf acts ∧ e.dst ∈ nodesOf acts) (hno : e.op ≠ .MtoL) (hK : InRangeK D e) (h : FmmVisitAct s n (.link e)) :
    FmmEdge D δ ε G (seen D acts) (edgesOf acts) e := by
  have hsz := hA.acc.size
  generalize hx : Act.link e = x at h
  cases h with
  | parts => cases hx
  | normal => cases hx
  | LtoL h3 =>
    cases hx
    have h21 : n.ix.level ≤ 21 := hlev _ hends.2
    have e1 := Index.child_parent n.ix (by omega)
    have hlt : n.ix.whichChild < 8 := by unfold Index.whichChild; simp only; omega
    have := FmmEdge.LtoL (D := D) (δ := δ) (ε := ε) (G := G) (T := seen D acts) (edges := edgesOf acts) (a := n.ix.parent) ⟨n.ix.whichChild, hlt⟩
      (by rw [Index.parent_eq]; simp only; omega) fun t ht => ht ⟨.tgt, n.ix.parent, .normal⟩ hends.1
    simp only [e1] at this
    exact this
  | LtoT h2 =>
    cases hx
    exact .LtoT fun q hq => ⟨fun r hr => hc.tgts r hr _ hends.2 rfl rfl q hq, hp.tgts _ q hq, hc.tgts _ hends.1 _ hends.2 rfl rfl q hq⟩
  | loop h =>
    have hsep := (h.separated e hx.symm).2
    cases h with
    | StoTbig hu hl hlt hw => cases hx; exact .StoT he
    | StoTsmall hu hl hlt hw => cases hx; exact .StoT he
    | MtoL hu hl hw => cases hx; exact absurd rfl hno
    | @StoL i hu hl hlt hw =>
      cases hx
      have hpos : 0 < D.dom.sizeFromLevel n.ix.level := size_pos D.dom hsz _
      have hd : ∀ q ∈ D.srcs i.ix, D.reach n.ix.level ≤ (q.pos.sub (D.center n.ix)).norm := fun q hq =>
        sep_point hsz hlt.le (separated_symm.1 (hsep (by simp)).1) (hp.srcs _ (mem_leaves.2 ⟨_, hu, hl, rfl⟩) q hq)
      refine .StoL he (hc.srcs _ hends.2 _ hends.1 rfl rfl) hd ?_
      refine C86_local_returns D.p hp1 hp18 D.lam D.dom.size hA.lam hsz n.ix.level _ _ fun q hq => ⟨?_, hK.2 rfl q hq⟩
      refine le_trans ?_ (hd q hq)
      show D.dom.size / 2 ^ n.ix.level / 4 ≤ 3 / 2 * D.dom.sizeFromLevel n.ix.level
      have : D.dom.sizeFromLevel n.ix.level = D.dom.size / 2 ^ n.ix.level := rfl
      rw [← this]; linarith
    | @MtoT i hu hl hw =>
      cases hx
      have hpos : 0 < D.dom.sizeFromLevel i.ix.level := size_pos D.dom hsz _
      refine .MtoT he fun x hx => ?_
      have hd : 3 / 2 * D.dom.sizeFromLevel i.ix.level ≤ (x.sub (D.center i.ix)).norm := sep_point hsz hl (hsep (by simp)).1 (hp.tgts _ x hx)
      have hreg : ∀ r ∈ nodesOf acts, Regular (x.sub (D.center r.ix)) := fun r hr => hc.tgts r hr _ hends.2 rfl rfl x hx
      have s3 := sqrt3_hi
      refine ⟨hreg, hreg ⟨.src, i.ix, .normal⟩ hends.1, ?_, fun M => ?_⟩
      · refine lt_of_lt_of_le ?_ hd
        show √3 / 2 * (D.dom.size / 2 ^ i.ix.level) < 3 / 2 * (D.dom.size / 2 ^ i.ix.level)
        exact mul_lt_mul_of_pos_right (by linarith) hpos
      · obtain ⟨g1, g2⟩ := hK.1 rfl x hx
        refine C86_multipole_returns D.p hp18 D.lam D.dom.size hA.lam hsz _ _ _ (le_trans ?_ hd) g1 g2 M
        show D.dom.sizeFromLevel i.ix.level / 4 ≤ _
        linarith

theorem fmm97_yukEdge (hr : Runs (createProg FMM97 unif same s t) acts) (hA : FAcc D δ) (hp : D.Placed s) (hc : D.Clear acts) (hp1 : 1 ≤ D.p)
    (hp18 : D.p ≤ 18) (hlev : ∀ r ∈ nodesOf acts, r.ix.level ≤ 21) (hK : ∀ e ∈ edgesOf acts, InRangeK D e)
    (hw : ∀ e ∈ edgesOf acts, e.op = .ItoI → Yukawa.WavesAccurate D.table D.plane D.dom D.lam D.p e.src.ix.level (ε e.src.ix.level) (G e.src.ix.level))
    {e : Edge} (he : e ∈ edgesOf acts) : FmmEdge D δ ε G (seen D acts) (edgesOf acts) e := by
  have hends := edge_ends (FMM97_safe hr) he
  have hsep := (FMM97_separation hr he).2.2
  have hno : e.op ≠ .MtoL := fun h => by have := FMM97_ops hr e he; rw [h] at this; simp at this
  rcases createDag_mem (mem_edges_createDag hr he) with ⟨n, hu, ha⟩ | ⟨n, p, c, hv, ha⟩
  · exact fmm97_src_yukEdge hA hp hc hlev hu hends (FMM97_src_act n _ ha)
  · have h := FMM97_visit_act (FMM97_cons hv (F97Ok_root s t)).cons _ ha
    generalize hx : Act.link e = x at h
    cases h with
    | fmm h => subst hx; exact fmm97_visit_yukEdge hA hp hc hp1 hp18 hlev he hends hno (hK e he) h
    | interm => cases hx
    | ItoL h2 =>
      cases hx
      have h21 : n.ix.level ≤ 21 := hlev _ hends.2
      have e1 := Index.child_parent n.ix (by omega)
      have hlt : n.ix.whichChild < 8 := by unfold Index.whichChild; simp only; omega
      have := FmmEdge.ItoL (D := D) (δ := δ) (ε := ε) (G := G) (T := seen D acts) (edges := edgesOf acts) (a := n.ix.parent) ⟨n.ix.whichChild, hlt⟩
        (by rw [Index.parent_eq]; simp only; omega)
      simp only [e1] at this
      exact this
    | @ItoI k hM =>
      cases hx
      have hn : Yukawa.NearParent n.ix k.ix := hsep rfl
      have h21 : k.ix.level ≤ 21 := hlev _ hends.1
      have hw' := hw _ he rfl
      have hl : k.ix.level = n.ix.level + 1 := hn.1
      rw [hl] at h21
      simp only at hw'
      rw [hl] at hw'
      exact .ItoI he h21 hw' hn fun t ht => ht ⟨.src, k.ix, .interm⟩ hends.1

end Edges

/-- **C102** FMM97 with the Yukawa kernel, end to end: for all trees with at most 21 levels, all sources and targets in their boxes, clear of the
centres (and within the range of the Bessel functions), for each of the tables of plane waves the program ships, for any number of ranks, any
placement of the DAG nodes and any schedule: if the plane waves of each level used are accurate to `ε` and grow by at most `G`, then, when
the evaluation has finished, every target holds what it held at first plus its potential, up to an error of at most that of the ways `W` its
contributions take. Each leaf takes one way, which the DAG has: directly; through the multipole expansion of an ancestor; through the local
expansion of an ancestor of the target's leaf; or through both, and the plane waves between them. -/
theorem C102_fmm97_accuracy {unif : Nat} {same : Bool} {s t : Fin 8 → Oct} {acts : List Act}
    (hr : Runs (createProg FMM97 unif same s t) acts) {D : YukFmm} (hp : D.Placed s) (hc : D.Clear acts) (hlam : 0 < D.lam)
    (hp1 : 1 ≤ D.p) (hp18 : D.p ≤ 18) {δ : ℝ} (hδ0 : 10⁻¹ ^ 17 ≤ δ) (hδ : δ ≤ 1 / 2) (hF : AccurateI D.table δ)
    {dg : ℤ} (hT : Waves.waveBase dg = some D.plane)
    (hlev : ∀ r ∈ nodesOf acts, r.ix.level ≤ 21) (hK : ∀ e ∈ edgesOf acts, InRangeK D e) {ε G : ℕ → ℝ}
    (hw : ∀ e ∈ edgesOf acts, e.op = .ItoI → Yukawa.WavesAccurate D.table D.plane D.dom D.lam D.p e.src.ix.level (ε e.src.ix.level) (G e.src.ix.level))
    {loc : Ref → Nat} {n k : Nat} {S : Sys Ref Edge YukFmmVal} (hS : Sys.Steps (yukFmmDag D acts) loc n k S)
    (hl : ∀ r ∈ (yukFmmDag D acts).watched, loc r < n) (hd : ∀ k < n, S.Done k)
    {r : Ref} (hn : r ∈ nodesOf acts) (hs : r.side = .tgt) (hk : r.kind = .parts) :
    ∃ W : List (Index × Way), (W.map Prod.fst).Perm (leaves Index.root (.node s)) ∧ (∀ y ∈ W, Way.Ok (edgesOf acts) r.ix y.1 y.2) ∧
      ∀ i x, (D.tgts r.ix)[i]? = some x → ∃ v : ℝ, (S.ex.acc r).2.2 i = (v : WithTop ℝ) ∧
        |v - D.phi r.ix i - Yukawa.potential D.lam (D.all s) x| ≤ (W.map (D.fmmError δ ε G r.ix x)).sum := by
  have h1 := FMM97_safe hr
  have h2 := FMM97_ranked hr
  have hD := yukFmmDag_ok D h1 h2
  have hv := (reach_inv hD hS.reach).complete_val hD (all_triggered hS hl hd)
  obtain ⟨P, hP, -⟩ := exists_unique_evaluation h2.acyclic
  have hA : FAcc D δ := ⟨⟨hp.size, hδ0, hδ, hF⟩, hlam, dg, hT⟩
  exact fmm_eval_targets (N := S.ex.acc) rfl (leaves_nodup ⟨Index.root, s⟩) hA h2.acyclic
    (fun e he => fmm97_yukEdge hr hA hp hc hp1 hp18 hlev hK hw he) hv hP hs hk (FMM97_delivers unif same s t acts P hr hP r hn hs hk)

/-- **C102** The hypothesis on the plane waves can be met at every level the tables have: with functions `i_n` that are accurate, each of the
tables the program ships has some accuracy and some growth. -/
theorem C102_waves_have_accuracy (F : Bessel.Table) (δ : ℝ) (hδ0 : 10⁻¹ ^ 17 ≤ δ) (hδ : δ ≤ 1 / 2) (hF : AccurateI F δ) {dg : ℤ} {T : PlaneTable}
    (hT : Waves.waveBase dg = some T) (d : Domain ℝ) (hs : 0 < d.size) (lam : ℝ) (hl : 0 < lam) (p lev : ℕ) (hlev : lev ≤ 21) :
    ∃ ε G : ℝ, 0 ≤ ε ∧ 0 ≤ G ∧ Yukawa.WavesAccurate F T d lam p lev ε G :=
  exists_waves_accurate F δ hδ0 hδ hF hT d hs lam hl p lev hlev

/-! ### A case -/

section Example

/-- `exYuk` with the plane waves for three digits. -/
noncomputable def exYukFmm : YukFmm := { exYuk with plane := Lap.table3 }

theorem exists_yukFmm_done (D : YukFmm) {acts : List Act} (h1 : NoAssertionFails acts) (h2 : Ranked (edgesOf acts))
    (hf : ∀ r ∈ nodesOf acts, ¬ (r.side = .src ∧ r.kind = .parts) → ∃ e ∈ edgesOf acts, e.dst = r)
    {loc : Ref → Nat} {n : Nat} (hl : ∀ r, loc r < n) :
    ∃ m S, Sys.Steps (yukFmmDag D acts) loc n m S ∧ ∀ k < n, S.Done k :=
  exists_done (yukFmmDag_ok D h1 h2) ((C44_completes_iff (yukFmmDag_ok D h1 h2) fun r _ => hl r).2 fun r hr hs =>
    hf r hr fun h => hs (List.mem_filter.2 ⟨hr, by simpa using h⟩))

/-- C102: FMM97 on two ranks, three digits. The first leaf contributes to the target of the second through plane waves at the level 2 and two
translations of local expansions. -/
example : ∃ k S, Sys.Steps (yukFmmDag exYukFmm (createDag FMM97 2 true exFar exFar)) (fun r => r.ix.level % 2) 2 k S ∧
    (∀ k < 2, S.Done k) ∧ ∃ (ε G : ℕ → ℝ) (W : List (Index × Way)), (W.map Prod.fst).Perm [⟨0, 0, 0, 2⟩, ⟨15, 15, 15, 4⟩] ∧
      (⟨0, 0, 0, 2⟩, Way.waves ⟨0, 0, 0, 2⟩ ⟨3, 3, 3, 2⟩) ∈ W ∧
      ∃ v : ℝ, (S.ex.acc ⟨.tgt, ⟨15, 15, 15, 4⟩, .parts⟩).2.2 0 = (v : WithTop ℝ) ∧
        |v - Yukawa.potential 1 (exYuk.all exFar) ⟨151 / 10, 152 / 10, 157 / 10⟩| ≤
          (W.map (exYuk.fmmError (10⁻¹ ^ 17) ε G ⟨15, 15, 15, 4⟩ ⟨151 / 10, 152 / 10, 157 / 10⟩)).sum := by
  have hr := createDag_runs FMM97 2 true exFar exFar
  obtain ⟨k, S, hS, hd⟩ := exists_yukFmm_done exYukFmm (FMM97_safe hr) (FMM97_ranked hr) (by decide +kernel)
    (loc := fun r => r.ix.level % 2) (n := 2) (fun r => Nat.mod_lt _ (by omega))
  refine ⟨k, S, hS, hd, ?_⟩
  have hw : ∀ lev, ∃ e : ℝ × ℝ, lev ≤ 21 → Yukawa.WavesAccurate exactI Lap.table3 exYuk.dom 1 9 lev e.1 e.2 := by
    intro lev
    by_cases h : lev ≤ 21
    · obtain ⟨ε, G, -, -, h1⟩ := C102_waves_have_accuracy exactI (10⁻¹ ^ 17) le_rfl (by norm_num) exactI_accurate (dg := 3) rfl exYuk.dom
        exYuk_placed.size 1 one_pos 9 lev h
      exact ⟨(ε, G), fun _ => h1⟩
    · exact ⟨(0, 0), fun h' => absurd h' h⟩
  choose e he using hw
  have hl : leaves Index.root (.node exFar) = [⟨0, 0, 0, 2⟩, ⟨15, 15, 15, 4⟩] := by decide +kernel
  have hlev : ∀ r ∈ nodesOf (createDag FMM97 2 true exFar exFar), r.ix.level ≤ 21 := by decide +kernel
  have hno : ∀ e ∈ edgesOf (createDag FMM97 2 true exFar exFar), e.op ≠ .MtoT ∧ e.op ≠ .StoL := by decide +kernel
  obtain ⟨W, hW, hok, h⟩ := C102_fmm97_accuracy hr (D := exYukFmm) exYuk_placed (exYuk_clear (by decide +kernel)) one_pos (by decide) (by decide)
    (δ := 10⁻¹ ^ 17) le_rfl (by norm_num) exactI_accurate (dg := 3) rfl hlev
    (fun e he => ⟨fun h => absurd h (hno e he).1, fun h => absurd h (hno e he).2⟩) (ε := fun l => (e l).1) (G := fun l => (e l).2)
    (fun x hx _ => he _ (hlev _ (edge_ends (FMM97_safe hr) hx).1)) hS (fun r _ => Nat.mod_lt _ (by omega)) hd
    (r := ⟨.tgt, ⟨15, 15, 15, 4⟩, .parts⟩) (by decide +kernel) rfl rfl
  rw [hl] at hW
  obtain ⟨v, hv, hv'⟩ := h 0 ⟨151 / 10, 152 / 10, 157 / 10⟩ (by simp [exYukFmm, exYuk, exLap])
  refine ⟨_, _, W, hW, ?_, v, hv, by simpa [exYukFmm, exYuk] using hv'⟩
  have hm : (⟨0, 0, 0, 2⟩ : Index) ∈ W.map Prod.fst := hW.mem_iff.2 (by simp)
  obtain ⟨⟨x, w⟩, hxw, hx⟩ := List.mem_map.1 hm
  have hx' : x = ⟨0, 0, 0, 2⟩ := hx
  rw [hx'] at hxw
  have hk := hok _ hxw
  cases w with
  | direct => exact absurd hk (by show ¬ _ ∈ _; decide +kernel)
  | far a => exact absurd rfl (hno _ hk.2).1
  | near b => exact absurd rfl (hno _ hk.2).2
  | waves a b =>
    have h2 : ∀ e ∈ edgesOf (createDag FMM97 2 true exFar exFar), e.op = .ItoI → e.src.ix.level = 2 := by decide +kernel
    obtain ⟨⟨-, ka⟩, ⟨-, kb⟩, kl, -, ke⟩ := hk
    have ha : a.level = 2 := h2 _ ke rfl
    rw [ha] at ka
    rw [← kl, ha] at kb
    have ea : a = ⟨0, 0, 0, 2⟩ := by rw [← ka]; rfl
    have eb : b = ⟨3, 3, 3, 2⟩ := by rw [← kb]; rfl
    rw [ea, eb] at hxw
    exact hxw

end Example

end Dashmm
