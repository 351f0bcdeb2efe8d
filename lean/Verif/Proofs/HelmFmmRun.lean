import Verif.Proofs.HelmFmmEdge

/-!
An evaluation with the Helmholtz kernel and FMM97: all edges, all nodes.
-/

namespace Dashmm.Helm

open Finset Harm Lap Bessel Wave Waves
open scoped Nat
open YukFmm (arrays ofArrays ofMade)
open Yuk hiding boxVal levViews sixL iVal oneBox_eq box_spec RelM RelL RelS RelI FRelT FRel FAcc FmmEdge FGood sizeAt grow stepErr mToM_error mToM_bd lToL_error lToL_bd boxVal_lin boxVal_none levViews_lin sixL_lin sixL_congr iVal_spec multipole_error local_error toTargets_some radius_pos radius_double reach_pos downError_child sizeAt_child fmmError_child relL_down relL_waves fmm_edge_rel fmm_dst_not_start fmm_eval_rel fmm_eval_targets

noncomputable section

variable {D : HelmFmm} {ε : ℝ} {δ G : ℕ → ℝ} {T : Point ℝ → Prop} {edges : List Edge}

theorem field_flatMap (om : ℝ) (t : Point ℝ) (f : Index → List Src) : ∀ X : List Index,
    field om (X.flatMap f) t = (X.map fun x => field om (f x) t).sum
  | [] => rfl
  | x :: X => by
    have ih := field_flatMap om t f X
    simp only [field, List.flatMap_cons, List.map_append, List.sum_append, List.map_cons, List.sum_cons] at ih ⊢
    rw [ih]

theorem entries_lv (hA : FAcc D ε) (ix : Index) :
    D.entries ix = ((lv D.plane D.prop D.dom.size D.om ix.level).1.nexp, (lv D.plane D.prop D.dom.size D.om ix.level).2.nexp) := by
  rw [HelmFmm.entries, wavesAt_lv D.plane D.prop hA.om hA.size hA.low]

theorem relT_far (hA : FAcc D ε) {a b : Index} (hE : (⟨.MtoT, ⟨.src, a, .normal⟩, ⟨.tgt, b, .parts⟩⟩ : Edge) ∈ edges)
    (ht : ∀ t ∈ D.tgts b, T t ∧ Regular (t.sub (D.center a)) ∧ D.radius a.level < (t.sub (D.center a)).norm)
    (h : D.InRange ε ⟨.MtoT, ⟨.src, a, .normal⟩, ⟨.tgt, b, .parts⟩⟩) {v : WithTop Coef} {π : Index → ℕ} (hm : RelM D ε T a v π) :
    FRelT D ε δ G edges b (D.toTargets b fun t => Option.bind v fun M => mToT D.J D.Y D.om D.p (D.center a) (D.scale a) M t) π := by
  obtain ⟨M, X, e1, p1, c1, a1, b1, v1⟩ := hm
  refine ⟨X.map fun y => (y, .far a), fun y => ?_, fun y hy => ?_, fun i t hit => ?_⟩
  · rw [List.map_map, ← c1 y]
    congr 1
    exact List.map_id _
  · obtain ⟨z, hz, rfl⟩ := List.mem_map.1 hy
    exact ⟨a1 z hz, hE⟩
  · obtain ⟨h1, h2, h3⟩ := ht t (List.mem_of_getElem? hit)
    have hcl := clear_of_regular h2
    have hr0 := (radius_pos hA.size a.level).trans h3
    refine ⟨evalM D.p M (azi (t.sub (D.center a))) (ctheta (t.sub (D.center a))) (hn D.J D.Y D.p (D.om * (t.sub (D.center a)).norm) (D.scale a)), ?_, ?_⟩
    · refine (toTargets_some D hit).trans ?_
      rw [e1]
      show mToT D.J D.Y D.om D.p (D.center a) (D.scale a) M t = _
      rw [mToT, ephi_eq _ hcl.ne]; rfl
    · have h4 := evalM_near D.om (D.scale a) D.p M p1 _ hcl _ _ (h.MtoT rfl t (List.mem_of_getElem? hit))
      have h5 := far_cost hA.om (scale_pos hA a) hr0 hA.err M ((multipoleSize_iff _ _ _ hA.om (scale_pos hA a) _ _ _).2 b1)
      have h6 := v1 t h1 h3
      rw [valM_exact hA a M p1 t h2] at h6
      have e2 : ((X.map fun x => (x, Way.far a)).map (D.fmmError ε δ G b t)).sum =
          (X.map fun x => D.pathError ε x t (x.level - a.level)).sum +
          (X.map fun x => D.sizeUp ε x (x.level - a.level)).sum * farCost D.p D.om ε (D.radius a.level) (t.sub (D.center a)).norm := by
        rw [List.map_map]
        exact map_sum_add_mul _ _ _ _ _ fun y _ => rfl
      rw [e2, List.map_map]
      refine le_trans (le_of_eq ?_) ((norm_add_le _ _).trans (add_le_add h6 (h4.trans h5)))
      congr 1
      simp only [Function.comp_def]; ring

theorem relT_near (hA : FAcc D ε) {a : Index} (ht : ∀ t ∈ D.tgts a, T t ∧ InCube D.dom a t ∧ Regular (t.sub (D.center a)))
    (h : D.InRange ε ⟨.LtoT, ⟨.tgt, a, .normal⟩, ⟨.tgt, a, .parts⟩⟩) {v : WithTop LCoef} {π : Index → ℕ} (hm : RelL D ε δ G T edges a v π) :
    FRelT D ε δ G edges a (D.toTargets a fun t => Option.bind v fun L => lToT D.J D.om D.p (D.center a) (D.scale a) L t) π := by
  obtain ⟨C, W, e1, c1, a1, b1, v1⟩ := hm
  refine ⟨W, c1, fun y hy => (a1 y hy).1, fun i t hit => ?_⟩
  obtain ⟨h1, h2, h3⟩ := ht t (List.mem_of_getElem? hit)
  have hcl := clear_of_regular h3
  refine ⟨evalL D.p C (azi (t.sub (D.center a))) (ctheta (t.sub (D.center a))) (jnScaled D.J D.p (D.om * (t.sub (D.center a)).norm) (D.scale a)), ?_, ?_⟩
  · refine (toTargets_some D hit).trans ?_
    rw [e1]
    show lToT D.J D.om D.p (D.center a) (D.scale a) C t = _
    rw [lToT, ephi_eq _ hcl.ne]; rfl
  · have h4 := evalL_near D.om (D.scale a) D.p C _ hcl _ _ (h.LtoT rfl t (List.mem_of_getElem? hit))
    have h5 := near_cost (scale_pos hA a) (norm_nonneg' (t.sub (D.center a))) hA.err C b1
    have h6 := v1 t h1 h3 h2
    rw [map_sum_add_mul W (sizeAt D ε G a) (D.reachError ε δ G a t) (D.fmmError ε δ G a t) (nearCost D.p ε (D.reach a.level) (t.sub (D.center a)).norm)
      fun y hy => by rw [HelmFmm.fmmError, evalError_land (a1 y hy).2]]
    refine le_trans (le_of_eq ?_) ((norm_add_le _ _).trans (add_le_add h6 (h4.trans h5)))
    congr 1
    rw [valL]; ring

theorem fmm_edge_rel (hA : FAcc D ε) {e : Edge} (he : FmmEdge D ε δ G T edges e) {x : HelmVal} {P : Prov} (hx : FGood D ε δ G T edges e.src x P) :
    FRel D ε δ G T edges e.dst (D.op e x) (contrib e P) := by
  have hπ : ∀ e : Edge, e.op ≠ .MtoI → e.op ≠ .ItoI → e.op ≠ .ItoL → contrib e P 0 = P 0 := by
    intro e h1 h2 h3
    funext y
    unfold contrib
    split <;> first | contradiction | simp
  have hA' := hA
  obtain ⟨hsz, hl, hom, ⟨dg, hT0⟩, hQ, hε⟩ := hA'
  cases he with
  | @StoM a hin hr hT h =>
    show RelM D ε T a _ (contrib _ P 0)
    rw [hπ _ (by simp) (by simp) (by simp), hx.1 rfl rfl]
    exact relM_leaf hA hin hr hT h
  | @MtoM a c h2 h21 h =>
    have hm : RelM D ε T (a.child c) x.1 (P 0) := hx.2 (by simp)
    show RelM D ε T a _ (contrib _ P 0)
    rw [hπ _ (by simp) (by simp) (by simp)]
    exact relM_up hA c h2 h21 (h.MtoM rfl) hm
  | @StoT a b hE =>
    show FRelT D ε δ G edges b _ (contrib _ P 0)
    rw [hπ _ (by simp) (by simp) (by simp), hx.1 rfl rfl]
    refine ⟨[(a, .direct)], count_single a, fun y hy => ?_, fun i t ht => ?_⟩
    · rw [List.mem_singleton.1 hy]; exact hE
    · refine ⟨field D.om (D.srcs a) t, (toTargets_some D ht).trans (C88_direct_exact D.om hl _ t), ?_⟩
      simp [HelmFmm.fmmError, HelmFmm.reachError, HelmFmm.evalError]
  | @MtoT a b hE ht h =>
    show FRelT D ε δ G edges b _ (contrib _ P 0)
    rw [hπ _ (by simp) (by simp) (by simp)]
    exact relT_far hA hE ht h (hx.2 (by simp))
  | @StoL a b hE hr hd h =>
    show RelL D ε δ G T edges b _ (contrib _ P 0)
    rw [hπ _ (by simp) (by simp) (by simp), hx.1 rfl rfl]
    exact relL_near hA hE hr hd h
  | @LtoL a c h2 h21 hT h =>
    have hm : RelL D ε δ G T edges a x.2.1 (P 0) := hx.2 (by simp)
    show RelL D ε δ G T edges (a.child c) _ (contrib _ P 0)
    rw [hπ _ (by simp) (by simp) (by simp)]
    exact relL_down hA c h2 h21 hT (h.LtoL rfl) hm
  | @LtoT a ht h =>
    show FRelT D ε δ G edges a _ (contrib _ P 0)
    rw [hπ _ (by simp) (by simp) (by simp)]
    exact relT_near hA ht h (hx.2 (by simp))
  | @MtoI a h21 =>
    have hm : RelM D ε T a x.1 (P 0) := hx.2 (by simp)
    have hm' := hm
    obtain ⟨M, X, e1, -⟩ := hm'
    show RelS D ε T a (Option.bind x.1 _) (contrib _ P)
    rw [e1] at hm ⊢
    refine ⟨P 0, M, fun i hi => ?_, ?_, hm⟩
    · funext y; simp [contrib, hi]
    · show (mToI D.plane D.prop D.dom.size D.om D.p (D.scale a) M).map _ = _
      rw [show D.scale a = scaleOf D.dom.size D.om a.level from rfl, mToI_views hT0 D.prop hQ hsz hl hom a.level h21 D.p M]
      rfl
  | @ItoI k n hE h21 hw hn hT =>
    obtain ⟨ρ, M, hρ, e1, hm⟩ : RelS D ε T k x.2.2.1 P := hx.2 (by simp)
    have hkl : k.level = n.level + 1 := hn.1
    obtain ⟨vs, h1, h2, h3⟩ := box_spec hT0 D.prop hsz hl hom n h21 D.p k hn M
    show RelI D ε δ G T edges n (Option.bind x.2.2.1 _) (contrib _ P)
    refine ⟨(ofMade vs.1, ofMade vs.2), ?_, fun _ c hc => ?_⟩
    · rw [e1]
      show Option.bind (iToI D.plane D.prop D.dom.size D.om (scaleOf D.dom.size D.om k.level) _ _ _
        (arrays (D.entries k).1 (ofArrays (views D.plane D.prop D.dom.size D.om D.p k.level M).1),
         arrays (D.entries k).2 (ofArrays (views D.plane D.prop D.dom.size D.om D.p k.level M).2))) _ = _
      have hv := views_length D.plane D.prop D.dom.size D.om D.p k.level M
      rw [entries_lv hA, arrays_ofArrays _ hv.1, arrays_ofArrays _ hv.2, hkl, h1]
      show (if vs.1.all (fun q => q.2.length ≤ (D.entries n).1) && vs.2.all (fun q => q.2.length ≤ (D.entries n).2) then
        some (ofMade vs.1, ofMade vs.2) else none) = _
      rw [entries_lv hA, if_pos (Bool.and_eq_true_iff.2 ⟨List.all_eq_true.2 fun q hq => decide_eq_true (h2.1 q hq),
        List.all_eq_true.2 fun q hq => decide_eq_true (h2.2 q hq)⟩)]
      rfl
    · rw [taken_contrib hn.2.1 hn.2.2.1 hn.2.2.2 hρ hc, h3 c hc]
      split_ifs with hf
      · exact relL_waves hA hE h21 hw hn hT hm hc ((farOct_separated hkl hc).1 hf)
      · rw [oneVal, boxVal_none _ _ _ _ _ _ _ D.p c _ _ _ hn.2.1 hn.2.2.1 hn.2.2.2 hc (by
          unfold farOct at hf
          rw [Bool.or_eq_true, Bool.or_eq_true, decide_eq_true_iff, decide_eq_true_iff, decide_eq_true_iff,
            not_or, not_or] at hf
          unfold octX octY octZ at hf
          refine ⟨?_, ?_, ?_⟩ <;> rw [abs_le] <;> omega) M]
        exact RelL.zero _
  | @ItoL a c h21 =>
    obtain ⟨E, e1, r1⟩ : RelI D ε δ G T edges a x.2.2.1 P := hx.2 (by simp)
    have e : contrib ⟨.ItoL, ⟨.tgt, a, .interm⟩, ⟨.tgt, a.child c, .normal⟩⟩ P 0 = taken c P := by
      funext y; simp [contrib, taken, toChild_child a c c.2]
    show RelL D ε δ G T edges (a.child c) (Option.bind x.2.2.1 _) (contrib _ P 0)
    rw [e, e1]
    have := r1 h21 c c.2
    rw [show ((iv D.plane D.prop D.dom.size D.om a.level c E : LCoef) : WithTop LCoef) = _ from
      ((iv_spec hT0 D.prop hsz hl hom a.level h21 c c.2).1 E).symm] at this
    show RelL D ε δ G T edges (a.child c) (iToL D.plane D.prop D.dom.size D.om (scaleOf D.dom.size D.om a.level) (toChild (a.child c))
      (arrays (D.entries a).1 E.1) (arrays (D.entries a).2 E.2)) _
    rw [toChild_child a c c.2, entries_lv hA]
    exact this

/-! ### The whole DAG -/

theorem fmm_dst_not_start {e : Edge} (h : FmmEdge D ε δ G T edges e) : ¬ (e.dst.side = .src ∧ e.dst.kind = .parts) := by
  cases h <;> simp

theorem fmm_eval_rel (hA : FAcc D ε)
    {acts : List Act} (hac : Acyclic (edgesOf acts)) (hed : ∀ e ∈ edgesOf acts, FmmEdge D ε δ G T edges e)
    {N : Ref → HelmVal} (hN : ∀ r, N r = (helmFmmDag D acts).base r + (helmFmmDag D acts).incoming N r)
    {P : Ref → Prov} (hP : IsEvaluation acts P) (r : Ref) :
    FRel D ε δ G T edges r ((helmFmmDag D acts).incoming N r) (inflow P (edgesOf acts) r) := by
  obtain ⟨rank, hrank⟩ := hac
  induction hk : rank r using Nat.strong_induction_on generalizing r with
  | _ k ih =>
    rw [inflow_eq]
    show FRel D ε δ G T edges r (((edgesOf acts).filter fun e => e.dst = r).map fun e => D.op e (N e.src)).sum _
    refine FRel.sum hA _ fun e he => ?_
    obtain ⟨he, hd⟩ := List.mem_filter.1 he
    have hd : e.dst = r := by simpa using hd
    have hlt := hrank e he
    rw [hd, hk] at hlt
    have hrec := ih _ hlt e.src rfl
    rw [← hd]
    refine fmm_edge_rel hA (hed e he) ?_
    have hPe : P e.src = base e.src + inflow P (edgesOf acts) e.src := funext fun i => funext fun y => hP e.src i y
    refine ⟨fun h1 h2 => ?_, fun h => ?_⟩
    · have hnone : (edgesOf acts).filter (fun e' => e'.dst = e.src) = [] := by
        refine List.filter_eq_nil_iff.2 fun e' he' => ?_
        have := fmm_dst_not_start (hed e' he')
        intro hd'
        rw [show e'.dst = e.src by simpa using hd'] at this
        exact this ⟨h1, h2⟩
      rw [hPe, inflow_eq, hnone]
      funext y
      simp [base, h1, h2]
    · have hb : base e.src = 0 ∨ (e.src.side = .src ∧ e.src.kind = .parts) := by
        by_cases h3 : e.src.side = .src ∧ e.src.kind = .parts
        · exact .inr h3
        · left; funext i y
          simp only [base, Pi.zero_apply]
          rw [if_neg]
          rintro ⟨h4, h5, -⟩; exact h3 ⟨h4, h5⟩
      rcases hb with hb | ⟨h3, h4⟩
      · rw [hPe, hb, zero_add, hN e.src]
        have : (helmFmmDag D acts).base e.src = 0 := by
          show D.base e.src = 0
          exact if_neg h
        rw [this, zero_add]
        exact hrec
      · unfold FRel; rw [h3, h4]; trivial

/-- What the targets of a node hold in the end. -/
theorem fmm_eval_targets {s : Fin 8 → Oct} {L : List Index} (hL : L = leaves Index.root (.node s)) (hn : L.Nodup)
    (hA : FAcc D ε)
    {acts : List Act} (hac : Acyclic (edgesOf acts)) (hed : ∀ e ∈ edgesOf acts, FmmEdge D ε δ G T edges e)
    {N : Ref → HelmVal} (hN : ∀ r, N r = (helmFmmDag D acts).base r + (helmFmmDag D acts).incoming N r)
    {P : Ref → Prov} (hP : IsEvaluation acts P) {r : Ref} (h1 : r.side = .tgt) (h2 : r.kind = .parts)
    (hall : ∀ x, P r 0 x = if x ∈ L then 1 else 0) :
    ∃ W : List (Index × Way), (W.map Prod.fst).Perm L ∧ (∀ y ∈ W, Way.Ok edges r.ix y.1 y.2) ∧
      ∀ i t, (D.tgts r.ix)[i]? = some t →
        ∃ v : ℂ, (N r).2.2.2 i = (v : WithTop ℂ) ∧
          ‖v - D.phi r.ix i - field D.om (D.all s) t‖ ≤ (W.map (D.fmmError ε δ G r.ix t)).sum := by
  have h := fmm_eval_rel hA hac hed hN hP r
  have hb : base r = 0 := by funext i y; simp [base, h1]
  have hPe : P r = inflow P (edgesOf acts) r := by
    funext i y
    rw [hP r i y, hb]; simp
  rw [← hPe] at h
  unfold FRel at h
  rw [h1, h2] at h
  obtain ⟨W, c1, a1, v1⟩ := h
  have hperm : (W.map Prod.fst).Perm L := by
    rw [List.perm_iff_count]
    intro x
    rw [c1, hall, hn.count]
  refine ⟨W, hperm, a1, fun i t ht => ?_⟩
  obtain ⟨v, hv, hv'⟩ := v1 i t ht
  have hg : (W.map fun y => field D.om (D.srcs y.1) t).sum = field D.om (D.all s) t := by
    rw [HelmFmm.all, ← hL, field_flatMap, ← (hperm.map fun x => field D.om (D.srcs x) t).sum_eq, List.map_map]; rfl
  rw [hg] at hv'
  refine ⟨D.phi r.ix i + v, ?_, by rwa [show D.phi r.ix i + v - D.phi r.ix i = v by ring]⟩
  have hbase : (helmFmmDag D acts).base r = (0, 0, 0, fun i => ((D.phi r.ix i : ℂ) : WithTop ℂ)) := if_pos ⟨h1, h2⟩
  rw [hN r, hbase, Prod.snd_add, Prod.snd_add, Prod.snd_add, Pi.add_apply, hv, WithTop.coe_add]

end
end Dashmm.Helm
