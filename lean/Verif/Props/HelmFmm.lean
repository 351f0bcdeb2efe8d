import Verif.Proofs.HelmGain
import Verif.Props.HelmPlane
import Verif.Props.YukFmm
import Verif.Props.Route

/-!
# C106: evaluations with the Helmholtz kernel and FMM97
-/

namespace Dashmm

open Lap Harm Bessel
open Helm (FAcc FmmEdge)
open scoped Nat

theorem helmFmmDag_ok (D : HelmFmm) {acts : List Act} (h1 : NoAssertionFails acts) (h2 : Ranked (edgesOf acts)) : (helmFmmDag D acts).Ok :=
  let h := methodDag_ok h1 h2
  ⟨h.nodup, h.srcs, h.dsts, h.starts_sub, h.starts_nodup, h.starts_in, h.acyclic⟩

section Edges

variable {unif : Nat} {same : Bool} {s t : Fin 8 → Oct} {acts : List Act} {D : HelmFmm} {ε : ℝ} {δ G : ℕ → ℝ}

/-- The targets' directions are as computed, seen from every box. -/
abbrev seenH (D : HelmFmm) (acts : List Act) (x : Point ℝ) : Prop := ∀ r ∈ nodesOf acts, Regular (x.sub (D.center r.ix))

theorem fmm97_src_helmEdge (hp : D.Placed s) (hc : D.Clear acts) (hlev : ∀ r ∈ nodesOf acts, r.ix.level ≤ 21) {lo : ℕ} {n : TNode}
    (hu : Under (rootNode s) n) {e : Edge} (hends : e.src ∈ nodesOf acts ∧ e.dst ∈ nodesOf acts) (hR : D.InRange ε e)
    (h3 : e.op = .MtoM → 3 ≤ e.src.ix.level) (h : SrcAct lo n (.link e)) :
    FmmEdge D ε δ G (seenH D acts) (edgesOf acts) e := by
  generalize hx : Act.link e = x at h
  cases h with
  | parts => cases hx
  | normal => cases hx
  | interm => cases hx
  | StoM hl =>
    cases hx
    have r1 : (⟨.src, n.ix, .normal⟩ : Ref) ∈ nodesOf acts := hends.2
    have h1 := hc.srcs _ r1 _ hends.1 rfl rfl
    exact .StoM (hp.srcs _ (mem_leaves.2 ⟨n, hu, hl, rfl⟩)) h1 (fun x hx => hx ⟨.src, n.ix, .normal⟩ r1) hR
  | @MtoM k hk =>
    obtain ⟨i, -, hi⟩ := mem_kids.1 hk
    have hki : k.ix = n.ix.child i := by rw [hi]
    cases hx
    have h21 : k.ix.level ≤ 21 := hlev _ hends.1
    have h3 : 3 ≤ k.ix.level := h3 rfl
    rw [hki] at h21 h3 hR ⊢
    exact .MtoM i (by have : (n.ix.child i).level = n.ix.level + 1 := rfl; omega) h21 hR
  | MtoI => cases hx; exact .MtoI (hlev _ hends.1)

theorem fmm97_visit_helmEdge (hsz : 0 < D.dom.size) (hp : D.Placed s) (hc : D.Clear acts)
    (hlev : ∀ r ∈ nodesOf acts, r.ix.level ≤ 21) {n : TNode} {e : Edge} (he : e ∈ edgesOf acts)
    (hends : e.src ∈ nodesOf acts ∧ e.dst ∈ nodesOf acts) (hno : e.op ≠ .MtoL) (hR : D.InRange ε e)
    (h2 : e.op = .LtoL → 2 ≤ e.src.ix.level) (h : FmmVisitAct s n (.link e)) :
    FmmEdge D ε δ G (seenH D acts) (edgesOf acts) e := by
  generalize hx : Act.link e = x at h
  cases h with
  | parts => cases hx
  | normal => cases hx
  | LtoL h3 =>
    cases hx
    have h21 : n.ix.level ≤ 21 := hlev _ hends.2
    have e1 := Index.child_parent n.ix (by omega)
    have hlt : n.ix.whichChild < 8 := by unfold Index.whichChild; simp only; omega
    have := FmmEdge.LtoL (D := D) (ε := ε) (δ := δ) (G := G) (T := seenH D acts) (edges := edgesOf acts) (a := n.ix.parent) ⟨n.ix.whichChild, hlt⟩
      (h2 rfl) (by rw [Index.parent_eq]; simp only; omega) (fun t ht => ht ⟨.tgt, n.ix.parent, .normal⟩ hends.1)
    simp only [e1] at this
    exact this hR
  | LtoT h2 =>
    cases hx
    exact .LtoT (fun q hq => ⟨fun r hr => hc.tgts r hr _ hends.2 rfl rfl q hq, hp.tgts _ q hq, hc.tgts _ hends.1 _ hends.2 rfl rfl q hq⟩) hR
  | loop h =>
    have hsep := (h.separated e hx.symm).2
    cases h with
    | StoTbig hu hl hlt hw => cases hx; exact .StoT he
    | StoTsmall hu hl hlt hw => cases hx; exact .StoT he
    | MtoL hu hl hw => cases hx; exact absurd rfl hno
    | @StoL i hu hl hlt hw =>
      cases hx
      have hd : ∀ q ∈ D.srcs i.ix, D.reach n.ix.level ≤ (q.pos.sub (D.center n.ix)).norm := fun q hq =>
        sep_point hsz hlt.le (separated_symm.1 (hsep (by simp)).1) (hp.srcs _ (mem_leaves.2 ⟨_, hu, hl, rfl⟩) q hq)
      exact .StoL he (hc.srcs _ hends.2 _ hends.1 rfl rfl) hd hR
    | @MtoT i hu hl hw =>
      cases hx
      have hpos : 0 < D.dom.sizeFromLevel i.ix.level := size_pos D.dom hsz _
      refine .MtoT he (fun x hx => ?_) hR
      have hd : 3 / 2 * D.dom.sizeFromLevel i.ix.level ≤ (x.sub (D.center i.ix)).norm := sep_point hsz hl (hsep (by simp)).1 (hp.tgts _ x hx)
      have hreg : ∀ r ∈ nodesOf acts, Regular (x.sub (D.center r.ix)) := fun r hr => hc.tgts r hr _ hends.2 rfl rfl x hx
      have s3 := sqrt3_hi
      refine ⟨hreg, hreg ⟨.src, i.ix, .normal⟩ hends.1, lt_of_lt_of_le ?_ hd⟩
      show √3 / 2 * (D.dom.size / 2 ^ i.ix.level) < 3 / 2 * (D.dom.size / 2 ^ i.ix.level)
      exact mul_lt_mul_of_pos_right (by linarith) hpos

theorem fmm97_helmEdge (hr : Runs (createProg FMM97 unif same s t) acts) (hp : D.Placed s) (hc : D.Clear acts)
    (hlev : ∀ r ∈ nodesOf acts, r.ix.level ≤ 21) (hR : ∀ e ∈ edgesOf acts, D.InRange ε e)
    (hw : ∀ e ∈ edgesOf acts, e.op = .ItoI → Helm.WavesAccurate D.plane D.prop D.dom D.om D.p e.src.ix.level (δ e.src.ix.level) (G e.src.ix.level))
    {e : Edge} (he : e ∈ edgesOf acts) : FmmEdge D ε δ G (seenH D acts) (edgesOf acts) e := by
  have hends := edge_ends (FMM97_safe hr) he
  have hsep := (FMM97_separation hr he).2.2
  have hlv := C103_fmm97_levels unif same s t acts hr e he
  have hno : e.op ≠ .MtoL := fun h => by have := FMM97_ops hr e he; rw [h] at this; simp at this
  rcases createDag_mem (mem_edges_createDag hr he) with ⟨n, hu, ha⟩ | ⟨n, p, c, hv, ha⟩
  · exact fmm97_src_helmEdge hp hc hlev hu hends (hR e he) hlv.1 (FMM97_src_act n _ ha)
  · have h := FMM97_visit_act (FMM97_cons hv (F97Ok_root s t)).cons _ ha
    generalize hx : Act.link e = x at h
    cases h with
    | fmm h => subst hx; exact fmm97_visit_helmEdge hp.size hp hc hlev he hends hno (hR e he) hlv.2 h
    | interm => cases hx
    | ItoL h2 =>
      cases hx
      have h21 : n.ix.level ≤ 21 := hlev _ hends.2
      have e1 := Index.child_parent n.ix (by omega)
      have hlt : n.ix.whichChild < 8 := by unfold Index.whichChild; simp only; omega
      have := FmmEdge.ItoL (D := D) (ε := ε) (δ := δ) (G := G) (T := seenH D acts) (edges := edgesOf acts) (a := n.ix.parent) ⟨n.ix.whichChild, hlt⟩
        (by rw [Index.parent_eq]; simp only; omega)
      simp only [e1] at this
      exact this
    | @ItoI k hM =>
      cases hx
      have hn : Yukawa.NearParent n.ix k.ix := hsep rfl
      have h21 : k.ix.level ≤ 21 := hlev _ hends.1
      have hw' := hw _ he rfl
      have hl : k.ix.level = n.ix.level + 1 := hn.1
      rw [hl] at h21
      simp only at hw'
      rw [hl] at hw'
      exact .ItoI he h21 hw' hn fun t ht => ht ⟨.src, k.ix, .interm⟩ hends.1

end Edges

/-- **C106** FMM97 with the Helmholtz kernel, end to end: for all frequencies the program has tables for (`ω ≤ 10`, or the domain is no longer than
an eighth of `1 / ω`), all trees with at most 21 levels, all sources and targets in their boxes, clear of the centres, for each of the tables of plane waves
the program ships and any rule for the propagating waves, for any number of ranks, any placement of the DAG nodes and any schedule: if the spherical Bessel and
Hankel functions the program computes on each edge hold up to a relative error of `ε`, and the plane waves of each level used are accurate to `δ` and
grow by at most `G`, then, when the evaluation has finished, every target holds what it held at first plus its field, up to an error of at most that of
the ways `W` its contributions take. Each leaf takes one way, which the DAG has: directly; through the multipole expansion of an ancestor; through the
local expansion of an ancestor of the target's leaf; or through both, and the plane waves between them. -/
theorem C106_fmm97_accuracy {unif : Nat} {same : Bool} {s t : Fin 8 → Oct} {acts : List Act}
    (hr : Runs (createProg FMM97 unif same s t) acts) {D : HelmFmm} (hp : D.Placed s) (hc : D.Clear acts) (hom : 0 < D.om)
    (hlow : D.om ≤ 10 ∨ D.om * D.dom.size ≤ 1 / 8) {dg : ℤ} (hT : Waves.waveBase dg = some D.plane)
    (hQ : ∀ k < D.prop.s, 0 ≤ D.prop.x k ∧ D.prop.x k ≤ Real.pi)
    (hlev : ∀ r ∈ nodesOf acts, r.ix.level ≤ 21) {ε : ℝ} (hε : 0 ≤ ε) (hR : ∀ e ∈ edgesOf acts, D.InRange ε e) {δ G : ℕ → ℝ}
    (hw : ∀ e ∈ edgesOf acts, e.op = .ItoI → Helm.WavesAccurate D.plane D.prop D.dom D.om D.p e.src.ix.level (δ e.src.ix.level) (G e.src.ix.level))
    {loc : Ref → Nat} {n k : Nat} {S : Sys Ref Edge HelmVal} (hS : Sys.Steps (helmFmmDag D acts) loc n k S)
    (hl : ∀ r ∈ (helmFmmDag D acts).watched, loc r < n) (hd : ∀ k < n, S.Done k)
    {r : Ref} (hn : r ∈ nodesOf acts) (hs : r.side = .tgt) (hk : r.kind = .parts) :
    ∃ W : List (Index × Way), (W.map Prod.fst).Perm (leaves Index.root (.node s)) ∧ (∀ y ∈ W, Way.Ok (edgesOf acts) r.ix y.1 y.2) ∧
      ∀ i x, (D.tgts r.ix)[i]? = some x → ∃ v : ℂ, (S.ex.acc r).2.2.2 i = (v : WithTop ℂ) ∧
        ‖v - D.phi r.ix i - Helm.field D.om (D.all s) x‖ ≤ (W.map (D.fmmError ε δ G r.ix x)).sum := by
  have h1 := FMM97_safe hr
  have h2 := FMM97_ranked hr
  have hD := helmFmmDag_ok D h1 h2
  have hv := (reach_inv hD hS.reach).complete_val hD (all_triggered hS hl hd)
  obtain ⟨P, hP, -⟩ := exists_unique_evaluation h2.acyclic
  have hA : FAcc D ε := ⟨hp.size, hom, hlow, ⟨dg, hT⟩, hQ, hε⟩
  exact Helm.fmm_eval_targets (N := S.ex.acc) rfl (leaves_nodup ⟨Index.root, s⟩) hA h2.acyclic
    (fun e he => fmm97_helmEdge hr hp hc hlev hR hw he) hv hP hs hk (FMM97_delivers unif same s t acts P hr hP r hn hs hk)

/-- **C106** The hypothesis on the plane waves can be met at every level the tables have: each of the tables the program ships, with any rule for the
propagating waves, has some accuracy and some growth. -/
theorem C106_waves_have_accuracy {dg : ℤ} {T : PlaneTable} (hT : Waves.waveBase dg = some T) (Q : Helm.PropRule)
    (hQ : ∀ k < Q.s, 0 ≤ Q.x k ∧ Q.x k ≤ Real.pi) (d : Domain ℝ) (hs : 0 < d.size) (om : ℝ) (ho : 0 < om) (hlow : om ≤ 10 ∨ om * d.size ≤ 1 / 8)
    (p lev : ℕ) (hlev : lev ≤ 21) :
    ∃ δ G : ℝ, 0 ≤ δ ∧ 0 ≤ G ∧ Helm.WavesAccurate T Q d om p lev δ G :=
  Helm.exists_waves_accurate hT Q hQ d hs om ho hlow p lev hlev

section Functions

open Filter

theorem near_ev (p : ℕ) (err c : ℕ → ℝ) (hc : ∀ n ≤ p, 0 < c n) : ∀ᶠ ε in atTop, ∀ n ≤ p, err n ≤ ε * c n := by
  have h : ∀ᶠ ε in atTop, ∀ n ∈ Set.Iic p, err n ≤ ε * c n := by
    refine (eventually_all_finite (Set.finite_Iic p)).2 fun n hn => ?_
    filter_upwards [eventually_ge_atTop (err n / c n)] with ε hε
    exact (div_le_iff₀ (hc n hn)).1 hε
  exact h

theorem list_ev {α : Type} (l : List α) {P : ℝ → α → Prop} (h : ∀ q ∈ l, ∀ᶠ ε in atTop, P ε q) : ∀ᶠ ε in atTop, ∀ q ∈ l, P ε q :=
  (eventually_all_finite (List.finite_toSet l)).2 h

theorem nearJ_ev (J : Table) (p : ℕ) (x scale : ℝ) (hx : 0 < x) (hs : 0 < scale) :
    ∀ᶠ ε in atTop, Helm.NearJ p x scale (Helm.errJ ε scale x) (jnScaled J p x scale) :=
  near_ev p (fun n => |jnScaled J p x scale n - sphJ n x / scale ^ n|) (fun n => (x / scale) ^ n / ((2 * n + 1)‼ : ℕ)) fun n _ => by
    have : (0 : ℝ) < ((2 * n + 1)‼ : ℕ) := by exact_mod_cast Nat.doubleFactorial_pos _
    positivity

theorem nearH_ev (J Y : Table) (p : ℕ) (x scale : ℝ) (hx : 0 < x) (hs : 0 < scale) :
    ∀ᶠ ε in atTop, Helm.NearH p x scale (Helm.errH ε scale x) (Helm.hn J Y p x scale) :=
  near_ev p (fun n => ‖Helm.hn J Y p x scale n - scale ^ n * Helm.sphH n x‖) (fun n => scale ^ n * ((2 * n - 1)‼ : ℕ) / x ^ (n + 1)) fun n _ => by
    have : (0 : ℝ) < ((2 * n - 1)‼ : ℕ) := by exact_mod_cast Nat.doubleFactorial_pos _
    positivity

theorem goodTab_ev (J : Table) (p : ℕ) (x : ℝ) : ∀ᶠ ε in atTop, Helm.GoodTab J p ε x := by
  have := near_ev (2 * p) (fun n => |jnScaled J (2 * p) x x n - sphJ n x / x ^ n|) (fun n => 1 / ((2 * n + 1)‼ : ℕ)) fun n _ => by
    have : (0 : ℝ) < ((2 * n + 1)‼ : ℕ) := by exact_mod_cast Nat.doubleFactorial_pos _
    positivity
  filter_upwards [this] with ε hε n hn
  exact (hε n hn).trans_eq (mul_one_div _ _)

/-- **C106** The hypothesis on the functions can be met, whatever the tables of the Bessel functions are: as the sources and targets are clear of the centres,
there is an `ε` up to which they hold on every edge. -/
theorem C106_functions_have_accuracy {unif : Nat} {same : Bool} {s t : Fin 8 → Oct} {acts : List Act}
    (hr : Runs (createProg FMM97 unif same s t) acts) {D : HelmFmm} (hp : D.Placed s) (hc : D.Clear acts) (hom : 0 < D.om) :
    ∃ ε, 0 ≤ ε ∧ ∀ e ∈ edgesOf acts, D.InRange ε e := by
  have hsc : ∀ ix, 0 < D.scale ix := fun ix => helm_scaleOf_pos D.dom.size D.om hp.size hom ix.level
  have hpos : ∀ {v : Point ℝ}, Regular v → 0 < D.om * v.norm := fun h => mul_pos hom (lt_trans (by positivity) h.1)
  have key : ∀ᶠ ε in atTop, ∀ e ∈ edgesOf acts, D.InRange ε e := by
    refine list_ev _ fun e he => ?_
    obtain ⟨hs, hd⟩ := edge_ends (FMM97_safe hr) he
    obtain ⟨k1, k2, k3⟩ := Route.ends_of ((Distro.FMM97_shape hr).edge e he)
    have a1 : ∀ᶠ ε in atTop, e.op = .StoM → ∀ q ∈ D.srcs e.src.ix, let x := D.om * (q.pos.sub (D.center e.dst.ix)).norm
        Helm.NearJ D.p x (D.scale e.dst.ix) (Helm.errJ ε (D.scale e.dst.ix) x) (jnScaled D.J D.p x (D.scale e.dst.ix)) := by
      by_cases h : e.op = .StoM
      · have hk := k3.2 (.inl h)
        filter_upwards [list_ev (D.srcs e.src.ix) fun q hq => nearJ_ev D.J D.p _ _ (hpos (hc.srcs _ hd _ hs hk.1 hk.2 q hq)) (hsc e.dst.ix)] with ε hε _
        exact hε
      · exact Eventually.of_forall fun ε h' => absurd h' h
    have a2 : ∀ᶠ ε in atTop, e.op = .StoL → ∀ q ∈ D.srcs e.src.ix, let x := D.om * (q.pos.sub (D.center e.dst.ix)).norm
        Helm.NearH D.p x (D.scale e.dst.ix) (Helm.errH ε (D.scale e.dst.ix) x) (Helm.hn D.J D.Y D.p x (D.scale e.dst.ix)) := by
      by_cases h : e.op = .StoL
      · have hk := k3.2 (.inr (.inl h))
        filter_upwards [list_ev (D.srcs e.src.ix) fun q hq => nearH_ev D.J D.Y D.p _ _ (hpos (hc.srcs _ hd _ hs hk.1 hk.2 q hq)) (hsc e.dst.ix)] with ε hε _
        exact hε
      · exact Eventually.of_forall fun ε h' => absurd h' h
    have a3 : ∀ᶠ ε in atTop, e.op = .MtoT → ∀ t ∈ D.tgts e.dst.ix, let x := D.om * (t.sub (D.center e.src.ix)).norm
        Helm.NearH D.p x (D.scale e.src.ix) (Helm.errH ε (D.scale e.src.ix) x) (Helm.hn D.J D.Y D.p x (D.scale e.src.ix)) := by
      by_cases h : e.op = .MtoT
      · rw [h] at k1 k2
        filter_upwards [list_ev (D.tgts e.dst.ix) fun q hq => nearH_ev D.J D.Y D.p _ _ (hpos (hc.tgts _ hs _ hd k1 k2 q hq)) (hsc e.src.ix)] with ε hε _
        exact hε
      · exact Eventually.of_forall fun ε h' => absurd h' h
    have a4 : ∀ᶠ ε in atTop, e.op = .LtoT → ∀ t ∈ D.tgts e.dst.ix, let x := D.om * (t.sub (D.center e.src.ix)).norm
        Helm.NearJ D.p x (D.scale e.src.ix) (Helm.errJ ε (D.scale e.src.ix) x) (jnScaled D.J D.p x (D.scale e.src.ix)) := by
      by_cases h : e.op = .LtoT
      · rw [h] at k1 k2
        filter_upwards [list_ev (D.tgts e.dst.ix) fun q hq => nearJ_ev D.J D.p _ _ (hpos (hc.tgts _ hs _ hd k1 k2 q hq)) (hsc e.src.ix)] with ε hε _
        exact hε
      · exact Eventually.of_forall fun ε h' => absurd h' h
    filter_upwards [a1, a2, a3, a4, goodTab_ev D.J D.p (D.om * Yukawa.childShift D.dom.size e.src.ix.level),
      goodTab_ev D.J D.p (D.om * Yukawa.childShift D.dom.size e.dst.ix.level)] with ε h1 h2 h3 h4 h5 h6
    exact ⟨h1, h2, h3, h4, fun _ => h5, fun _ => h6⟩
  obtain ⟨ε, h1, h2⟩ := ((eventually_ge_atTop 0).and key).exists
  exact ⟨ε, h1, h2⟩

end Functions

/-! ### A case -/

section Example

/-- The input of `exLap`, with a low frequency, exact tables and the plane waves for three digits. -/
noncomputable def exHelmFmm : HelmFmm where
  dom := ⟨⟨0, 0, 0⟩, 16⟩
  om := 10⁻¹ ^ 5
  p := 9
  J := exactJ
  Y := exactY
  plane := Lap.table3
  prop := exGauss
  srcs := (exLap 9).srcs
  tgts := (exLap 9).tgts
  phi _ i := i

theorem exHelmFmm_placed : exHelmFmm.Placed exFar := ⟨(exLap_placed 9).size, (exLap_placed 9).srcs, (exLap_placed 9).tgts⟩

theorem exHelmFmm_clear {acts : List Act} (h : ∀ r ∈ nodesOf acts, r.ix ∈ exBoxes) : exHelmFmm.Clear acts :=
  ⟨(exLap_clear 9 h).srcs, (exLap_clear 9 h).tgts⟩

theorem exists_helmFmm_done (D : HelmFmm) {acts : List Act} (h1 : NoAssertionFails acts) (h2 : Ranked (edgesOf acts))
    (hf : ∀ r ∈ nodesOf acts, ¬ (r.side = .src ∧ r.kind = .parts) → ∃ e ∈ edgesOf acts, e.dst = r)
    {loc : Ref → Nat} {n : Nat} (hl : ∀ r, loc r < n) :
    ∃ m S, Sys.Steps (helmFmmDag D acts) loc n m S ∧ ∀ k < n, S.Done k :=
  exists_done (helmFmmDag_ok D h1 h2) ((C44_completes_iff (helmFmmDag_ok D h1 h2) fun r _ => hl r).2 fun r hr hs =>
    hf r hr fun h => hs (List.mem_filter.2 ⟨hr, by simpa using h⟩))

theorem exHelm_scale (ix : Index) : exHelmFmm.scale ix = 10⁻¹ ^ 5 * (16 / 2 ^ ix.level) := by
  show Helm.scaleOf 16 (10⁻¹ ^ 5) ix.level = _
  rw [Helm.scaleOf, Helm.scale0, if_neg (by norm_num)]; ring

theorem exHelm_near {v : Point ℝ} {ix : Index} (h1 : 4 / 2 ^ ix.level ≤ v.norm) (h2 : v.norm ≤ 10) (h0 : 0 < v.norm) :
    Helm.NearJ 9 (10⁻¹ ^ 5 * v.norm) (exHelmFmm.scale ix) (Helm.errJ (10⁻¹ ^ 16) (exHelmFmm.scale ix) (10⁻¹ ^ 5 * v.norm))
      (jnScaled exactJ 9 (10⁻¹ ^ 5 * v.norm) (exHelmFmm.scale ix)) := by
  have hs : 0 < exHelmFmm.scale ix := by rw [exHelm_scale]; positivity
  refine small_near exactJ _ _ (by positivity) ?_ hs ?_
  · calc (10⁻¹ : ℝ) ^ 5 * v.norm ≤ 10⁻¹ ^ 5 * 10 := by gcongr
      _ = 10⁻¹ ^ 4 := by norm_num
  · rw [exHelm_scale, mul_div_mul_left _ _ (by positivity), le_div_iff₀ (by positivity)]
    refine le_trans (le_of_eq ?_) h1
    ring

theorem exHelm_box (l : ℕ) (h3 : 3 ≤ l) : Helm.GoodTab exactJ 9 (10⁻¹ ^ 16) (10⁻¹ ^ 5 * Yukawa.childShift 16 l) := by
  have hc : Yukawa.childShift 16 l ≤ 2 := by
    unfold Yukawa.childShift
    have s3 := sqrt3_hi
    have : (16 : ℝ) / 2 ^ l ≤ 2 := by
      rw [div_le_iff₀ (by positivity)]
      have : (2 : ℝ) ^ 3 ≤ 2 ^ l := pow_le_pow_right₀ (by norm_num) h3
      linarith
    have h0 : (0 : ℝ) ≤ 16 / 2 ^ l := by positivity
    nlinarith
  have hc0 : 0 < Yukawa.childShift 16 l := by unfold Yukawa.childShift; positivity
  have h := C103_small_box exactJ 9 (10⁻¹ ^ 5 * Yukawa.childShift 16 l) (by positivity) (by
    calc (10⁻¹ : ℝ) ^ 5 * Yukawa.childShift 16 l ≤ 10⁻¹ ^ 5 * 2 := by gcongr
      _ ≤ 10⁻¹ ^ 4 := by norm_num)
  intro i hi
  refine (h i hi).trans (div_le_div_of_nonneg_right ?_ (by positivity))
  rw [show (4 * 9 + 1)‼ = 8200794532637891559375 by decide +kernel]
  have h3 : (10⁻¹ : ℝ) ^ 300 ≤ 10⁻¹ ^ 40 := pow_le_pow_of_le_one (by norm_num) (by norm_num) (by norm_num)
  generalize (10⁻¹ : ℝ) ^ 300 = z at h3
  calc (10⁻¹ : ℝ) ^ 17 + 2 * z * (8200794532637891559375 : ℕ) ≤ 10⁻¹ ^ 17 + 2 * 10⁻¹ ^ 40 * (8200794532637891559375 : ℕ) := by gcongr
    _ ≤ _ := by norm_num

/-- C106: FMM97 on two ranks, three digits. The first leaf contributes to the target of the second through plane waves at the level 2 and two
translations of local expansions; the functions hold up to `10⁻¹⁶`. -/
example : ∃ k S, Sys.Steps (helmFmmDag exHelmFmm (createDag FMM97 2 true exFar exFar)) (fun r => r.ix.level % 2) 2 k S ∧
    (∀ k < 2, S.Done k) ∧ ∃ (δ G : ℕ → ℝ) (W : List (Index × Way)), (W.map Prod.fst).Perm [⟨0, 0, 0, 2⟩, ⟨15, 15, 15, 4⟩] ∧
      (⟨0, 0, 0, 2⟩, Way.waves ⟨0, 0, 0, 2⟩ ⟨3, 3, 3, 2⟩) ∈ W ∧
      ∃ v : ℂ, (S.ex.acc ⟨.tgt, ⟨15, 15, 15, 4⟩, .parts⟩).2.2.2 0 = (v : WithTop ℂ) ∧
        ‖v - Helm.field (10⁻¹ ^ 5) (exHelmFmm.all exFar) ⟨151 / 10, 152 / 10, 157 / 10⟩‖ ≤
          (W.map (exHelmFmm.fmmError (10⁻¹ ^ 16) δ G ⟨15, 15, 15, 4⟩ ⟨151 / 10, 152 / 10, 157 / 10⟩)).sum := by
  have hr := createDag_runs FMM97 2 true exFar exFar
  obtain ⟨k, S, hS, hd⟩ := exists_helmFmm_done exHelmFmm (FMM97_safe hr) (FMM97_ranked hr) (by decide +kernel)
    (loc := fun r => r.ix.level % 2) (n := 2) (fun r => Nat.mod_lt _ (by omega))
  refine ⟨k, S, hS, hd, ?_⟩
  have ho : (0 : ℝ) < 10⁻¹ ^ 5 := by positivity
  have hQ : ∀ k < exGauss.s, 0 ≤ exGauss.x k ∧ exGauss.x k ≤ Real.pi := by
    intro k _
    have := Real.pi_gt_three
    show 0 ≤ (if k = 0 then (1 / 3 : ℝ) else 5 / 4) ∧ (if k = 0 then (1 / 3 : ℝ) else 5 / 4) ≤ Real.pi
    split_ifs <;> constructor <;> linarith
  have hw : ∀ lev, ∃ e : ℝ × ℝ, lev ≤ 21 → Helm.WavesAccurate Lap.table3 exGauss exHelmFmm.dom (10⁻¹ ^ 5) 9 lev e.1 e.2 := by
    intro lev
    by_cases h : lev ≤ 21
    · obtain ⟨ε, G, -, -, h1⟩ := C106_waves_have_accuracy (dg := 3) (T := Lap.table3) rfl exGauss hQ exHelmFmm.dom exHelmFmm_placed.size (10⁻¹ ^ 5) ho
        (.inl (by norm_num)) 9 lev h
      exact ⟨(ε, G), fun _ => h1⟩
    · exact ⟨(0, 0), fun h' => absurd h' h⟩
  choose e he using hw
  have hl : leaves Index.root (.node exFar) = [⟨0, 0, 0, 2⟩, ⟨15, 15, 15, 4⟩] := by decide +kernel
  have hlev : ∀ r ∈ nodesOf (createDag FMM97 2 true exFar exFar), r.ix.level ≤ 21 := by decide +kernel
  have hno : ∀ e ∈ edgesOf (createDag FMM97 2 true exFar exFar), (e.op ≠ .MtoT ∧ e.op ≠ .StoL) ∧
      ((e.op = .StoM ∨ e.op = .LtoT) → e.src.ix = e.dst.ix) ∧ (e.op = .MtoM → 3 ≤ e.src.ix.level) ∧ (e.op = .LtoL → 3 ≤ e.dst.ix.level) := by decide +kernel
  have c2 : exHelmFmm.center ⟨0, 0, 0, 2⟩ = ⟨2, 2, 2⟩ := by
    simp only [HelmFmm.center, Domain.centerFromIndex, Domain.sizeFromLevel, exHelmFmm, Point.mk.injEq]; norm_num
  have c4 : exHelmFmm.center ⟨15, 15, 15, 4⟩ = ⟨31 / 2, 31 / 2, 31 / 2⟩ := by
    simp only [HelmFmm.center, Domain.centerFromIndex, Domain.sizeFromLevel, exHelmFmm, Point.mk.injEq]; norm_num
  have bnd : ∀ {v : Point ℝ} {a : ℝ}, 0 < a → a ^ 2 ≤ v.x * v.x + v.y * v.y + v.z * v.z → v.x * v.x + v.y * v.y + v.z * v.z ≤ 10 ^ 2 →
      a ≤ v.norm ∧ v.norm ≤ 10 ∧ 0 < v.norm := by
    intro v a ha h1 h2
    have h3 : a ≤ v.norm := Real.le_sqrt_of_sq_le h1
    exact ⟨h3, norm_le_of (by norm_num) h2, ha.trans_le h3⟩
  have hsrc : ∀ ix, ∀ q ∈ exHelmFmm.srcs ix, 4 / 2 ^ ix.level ≤ (q.pos.sub (exHelmFmm.center ix)).norm ∧
      (q.pos.sub (exHelmFmm.center ix)).norm ≤ 10 ∧ 0 < (q.pos.sub (exHelmFmm.center ix)).norm := by
    intro ix q hq
    simp only [exHelmFmm, exLap] at hq
    split_ifs at hq with h1 h2
    · obtain rfl := List.mem_singleton.1 hq
      rw [h1, c2]
      exact bnd (by norm_num) (by simp only [Point.sub]; norm_num) (by simp only [Point.sub]; norm_num)
    · obtain rfl := List.mem_singleton.1 hq
      rw [h2, c4]
      exact bnd (by norm_num) (by simp only [Point.sub]; norm_num) (by simp only [Point.sub]; norm_num)
    · simp at hq
  have htgt : ∀ ix, ∀ q ∈ exHelmFmm.tgts ix, 4 / 2 ^ ix.level ≤ (q.sub (exHelmFmm.center ix)).norm ∧
      (q.sub (exHelmFmm.center ix)).norm ≤ 10 ∧ 0 < (q.sub (exHelmFmm.center ix)).norm := by
    intro ix q hq
    simp only [exHelmFmm, exLap] at hq
    split_ifs at hq with h1 h2
    · rw [h1, c2]
      simp only [List.mem_cons, List.not_mem_nil, or_false] at hq
      rcases hq with rfl | rfl <;> exact bnd (by norm_num) (by simp only [Point.sub]; norm_num) (by simp only [Point.sub]; norm_num)
    · obtain rfl := List.mem_singleton.1 hq
      rw [h2, c4]
      exact bnd (by norm_num) (by simp only [Point.sub]; norm_num) (by simp only [Point.sub]; norm_num)
    · simp at hq
  have hR : ∀ e ∈ edgesOf (createDag FMM97 2 true exFar exFar), exHelmFmm.InRange (10⁻¹ ^ 16) e := by
    intro e he
    obtain ⟨⟨n1, n2⟩, n3, n4, n5⟩ := hno e he
    refine ⟨fun h q hq => ?_, fun h => absurd h n2, fun h => absurd h n1, fun h q hq => ?_, fun h => exHelm_box _ (n4 h), fun h => exHelm_box _ (n5 h)⟩
    · rw [n3 (.inl h)] at hq
      obtain ⟨b1, b2, b3⟩ := hsrc _ q hq
      exact exHelm_near b1 b2 b3
    · rw [n3 (.inr h)]
      obtain ⟨b1, b2, b3⟩ := htgt _ q hq
      exact exHelm_near b1 b2 b3
  obtain ⟨W, hW, hok, h⟩ := C106_fmm97_accuracy hr (D := exHelmFmm) exHelmFmm_placed (exHelmFmm_clear (by decide +kernel)) ho (.inl (by
      show (10⁻¹ : ℝ) ^ 5 ≤ 10; norm_num)) (dg := 3) rfl hQ hlev (ε := 10⁻¹ ^ 16) (by positivity) hR (δ := fun l => (e l).1) (G := fun l => (e l).2)
    (fun x hx _ => he _ (hlev _ (edge_ends (FMM97_safe hr) hx).1)) hS (fun r _ => Nat.mod_lt _ (by omega)) hd
    (r := ⟨.tgt, ⟨15, 15, 15, 4⟩, .parts⟩) (by decide +kernel) rfl rfl
  rw [hl] at hW
  obtain ⟨v, hv, hv'⟩ := h 0 ⟨151 / 10, 152 / 10, 157 / 10⟩ (by simp [exHelmFmm, exLap])
  have e0 : exHelmFmm.phi ⟨15, 15, 15, 4⟩ 0 = 0 := by simp [exHelmFmm]
  rw [e0, sub_zero] at hv'
  refine ⟨_, _, W, hW, ?_, v, hv, hv'⟩
  have hm : (⟨0, 0, 0, 2⟩ : Index) ∈ W.map Prod.fst := hW.mem_iff.2 (by simp)
  obtain ⟨⟨x, w⟩, hxw, hx⟩ := List.mem_map.1 hm
  have hx' : x = ⟨0, 0, 0, 2⟩ := hx
  rw [hx'] at hxw
  have hk := hok _ hxw
  cases w with
  | direct => exact absurd hk (by show ¬ _ ∈ _; decide +kernel)
  | far a => exact absurd rfl (hno _ hk.2).1.1
  | near b => exact absurd rfl (hno _ hk.2).1.2
  | waves a b =>
    have h2 : ∀ e ∈ edgesOf (createDag FMM97 2 true exFar exFar), e.op = .ItoI → e.src.ix.level = 2 := by decide +kernel
    obtain ⟨⟨-, ka⟩, ⟨-, kb⟩, kl, -, ke⟩ := hk
    have ha : a.level = 2 := h2 _ ke rfl
    rw [ha] at ka
    rw [← kl, ha] at kb
    have ea : a = ⟨0, 0, 0, 2⟩ := by rw [← ka]; rfl
    have eb : b = ⟨3, 3, 3, 2⟩ := by rw [← kb]; rfl
    rw [ea, eb] at hxw
    exact hxw

end Example

end Dashmm
