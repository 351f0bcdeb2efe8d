import Verif.Proofs.LapEval
import Verif.Props.Exec
import Verif.Props.Laplace

/-!
# Whole evaluations with the Laplace kernel (C72 – C74)

The DAG a method builds, executed in any order on any ranks (`Model.Exec`), with the numbers of the Laplace kernel
(`Model.Laplace`).
-/

namespace Dashmm

open Lap Harm Ev ExecState

theorem lapDag_ok (D : LapData) {acts : List Act} (h1 : NoAssertionFails acts) (h2 : Ranked (edgesOf acts)) :
    (lapDag D acts).Ok :=
  let h := methodDag_ok h1 h2
  ⟨h.nodup, h.srcs, h.dsts, h.starts_sub, h.starts_nodup, h.starts_in, h.acyclic⟩

/-! ### Pairs of points in separated boxes -/

theorem dist_lower (s t a b : Point ℝ) : (a.sub b).norm ≤ (t.sub s).norm + (s.sub a).norm + (t.sub b).norm := by
  have h1 := sub_norm_le a s b
  have h2 := sub_norm_le s t b
  rw [norm_neg_sub a s] at h1
  rw [norm_neg_sub s t] at h2
  linarith

theorem dist_upper (s t a b : Point ℝ) : (t.sub s).norm ≤ (a.sub b).norm + (s.sub a).norm + (t.sub b).norm := by
  have h1 := sub_norm_le t b s
  have h2 := sub_norm_le b a s
  rw [norm_neg_sub b a, norm_neg_sub a s] at h2
  linarith

theorem mToL_pair (D : LapData) (h : 0 < D.dom.size) {a b : Index} (hl : a.level = b.level) (hs : Separated a b)
    (s t : Point ℝ) (h1 : InCube D.dom a s) (h2 : InCube D.dom b t) :
    (s.sub (D.center a)).norm + (t.sub (D.center b)).norm < ((D.center a).sub (D.center b)).norm ∧
    transErr (s.sub (D.center a)).norm (t.sub (D.center b)).norm ((D.center a).sub (D.center b)).norm D.p ≤
      fmmEps D.p * (1 / (t.sub s).norm) := by
  have hp := size_pos D.dom h a.level
  have n1 := inBox_norm h h1
  have n2 := inBox_norm h h2
  rw [← hl] at n2
  have n3 := sep_centers h hl hs
  have l1 := dist_lower s t (D.dom.centerFromIndex a) (D.dom.centerFromIndex b)
  have l2 := dist_upper s t (D.dom.centerFromIndex a) (D.dom.centerFromIndex b)
  have s2 := sqrt3_hi
  have hpos : 0 < (t.sub s).norm := by nlinarith
  exact trans_pair D.p hp (norm_nonneg' _) (norm_nonneg' _) n1 n2 n3 hpos l2

theorem mToT_pair (D : LapData) (h : 0 < D.dom.size) {a b : Index} (hl : b.level ≤ a.level) (hs : Separated a b)
    (s t : Point ℝ) (h1 : InCube D.dom a s) (h2 : InCube D.dom b t) :
    (s.sub (D.center a)).norm < (t.sub (D.center a)).norm ∧
      ((s.sub (D.center a)).norm / (t.sub (D.center a)).norm) ^ (D.p + 1) /
        ((t.sub (D.center a)).norm - (s.sub (D.center a)).norm) ≤ fmmEps D.p * (1 / (t.sub s).norm) := by
  have hp := size_pos D.dom h a.level
  have n1 := inBox_norm h h1
  have n3 := sep_point h hl hs h2
  have l1 := sub_norm_le t s (D.dom.centerFromIndex a)
  have l2 := sub_norm_le t (D.dom.centerFromIndex a) s
  rw [norm_neg_sub (D.dom.centerFromIndex a) s] at l2
  have s2 := sqrt3_hi
  have hpos : 0 < (t.sub s).norm := by nlinarith
  exact mult_pair D.p hp (norm_nonneg' _) n1 n3 hpos l2

theorem sToL_pair (D : LapData) (h : 0 < D.dom.size) {a b : Index} (hl : a.level ≤ b.level) (hs : Separated a b)
    (s t : Point ℝ) (h1 : InCube D.dom a s) (h2 : InCube D.dom b t) :
    (t.sub (D.center b)).norm < (s.sub (D.center b)).norm ∧
      ((t.sub (D.center b)).norm / (s.sub (D.center b)).norm) ^ (D.p + 1) /
        ((s.sub (D.center b)).norm - (t.sub (D.center b)).norm) ≤ fmmEps D.p * (1 / (t.sub s).norm) := by
  have := mToT_pair D h hl (separated_symm.1 hs) t s h2 h1
  rwa [norm_neg_sub s t] at this

theorem bh_pair (D : LapData) (κ : ℝ) (h0 : 0 ≤ κ) (hκ : κ < 1) {a d r : ℝ} (ha : 0 ≤ a) (hd : 0 < d) (had : a ≤ κ * d)
    (hr : 0 < r) (hr' : r ≤ d + a) :
    a < d ∧ (a / d) ^ (D.p + 1) / (d - a) ≤ κ ^ (D.p + 1) * ((1 + κ) / (1 - κ)) * (1 / r) := by
  have hlt : a < d := by nlinarith
  refine ⟨hlt, ?_⟩
  have q1 : (a / d) ^ (D.p + 1) ≤ κ ^ (D.p + 1) :=
    pow_le_pow_left₀ (div_nonneg ha hd.le) (by rwa [div_le_iff₀ hd]) _
  have q2 : 1 / (d - a) ≤ (1 + κ) / (1 - κ) * (1 / r) := by
    rw [div_mul_div_comm, mul_one, div_le_div_iff₀ (by linarith) (mul_pos (by linarith) hr)]
    nlinarith
  have hp : 0 < 1 / (d - a) := by apply one_div_pos.2; linarith
  rw [div_eq_mul_one_div]
  calc _ ≤ κ ^ (D.p + 1) * (1 / (d - a)) := mul_le_mul_of_nonneg_right q1 hp.le
    _ ≤ κ ^ (D.p + 1) * ((1 + κ) / (1 - κ) * (1 / r)) := mul_le_mul_of_nonneg_left q2 (by positivity)
    _ = _ := by ring

/-! ### The edges of the methods -/

theorem edge_ends {acts : List Act} (h1 : NoAssertionFails acts) {e : Edge} (he : e ∈ edgesOf acts) :
    e.src ∈ nodesOf acts ∧ e.dst ∈ nodesOf acts := by
  obtain ⟨pre, post, hpp⟩ := List.append_of_mem (mem_edgesOf.1 he)
  have := h1.2 pre e post hpp
  rw [hpp, nodesOf_append]
  exact ⟨List.mem_append_left _ this.1, List.mem_append_left _ this.2⟩

/-- An edge of the source side. -/
theorem src_lapEdge {D : LapData} {ε : ℝ} {s : Fin 8 → Oct} {lo : ℕ} {n : TNode} (hu : Under (rootNode s) n) {e : Edge}
    (hr : e.op = .StoM → AllRegular (D.center e.dst.ix) (D.srcs e.src.ix))
    (h : SrcAct lo n (.link e)) : LapEdge D (leaves Index.root (.node s)) ε e := by
  generalize hx : Act.link e = x at h
  cases h with
  | parts => cases hx
  | normal => cases hx
  | interm => cases hx
  | StoM hl =>
    cases hx
    exact .StoM (mem_leaves.2 ⟨n, hu, hl, rfl⟩) (hr rfl)
  | @MtoM k hk =>
    obtain ⟨i, -, hi⟩ := mem_kids.1 hk
    cases hx
    rw [hi]
    exact .MtoM i
  | MtoI => cases hx; exact .MtoI

/-- The edges to a visited node that FMM and FMM97 share. -/
theorem fmmVisit_lapEdge {s : Fin 8 → Oct} {n : TNode} {acts : List Act} {e : Edge} (h : FmmVisitAct s n (.link e))
    (hends : e.src ∈ nodesOf acts ∧ e.dst ∈ nodesOf acts) {D : LapData} (hsz : 0 < D.dom.size) (hc : D.Clear acts)
    {ε : ℝ} (hε : fmmEps D.p ≤ ε) : LapEdge D (leaves Index.root (.node s)) ε e := by
  have hmono : ∀ r : ℝ, 0 ≤ r → fmmEps D.p * (1 / r) ≤ ε * (1 / r) := fun r hr =>
    mul_le_mul_of_nonneg_right hε (by positivity)
  generalize hx : Act.link e = x at h
  cases h with
  | parts => cases hx
  | normal => cases hx
  | LtoL h3 =>
    cases hx
    have e1 := Index.child_parent n.ix (by omega)
    have hlt : n.ix.whichChild < 8 := by unfold Index.whichChild; simp only; omega
    have := LapEdge.LtoL (D := D) (L := leaves Index.root (.node s)) (ε := ε) (a := n.ix.parent) ⟨n.ix.whichChild, hlt⟩
    simp only [e1] at this
    exact this
  | LtoT h2 =>
    cases hx
    exact .LtoT fun q hq => hc.tgts _ hends.1 _ hends.2 rfl rfl q hq
  | loop h =>
    have hsep := (h.separated e hx.symm).2
    cases h with
    | StoL hu hl hlt hw =>
      cases hx
      refine .StoL (mem_leaves.2 ⟨_, hu, hl, rfl⟩) (hc.srcs _ hends.2 _ hends.1 rfl rfl) fun a b h1 h2 => ?_
      obtain ⟨p1, p2⟩ := sToL_pair D hsz hlt.le (hsep (by simp)).1 a b h1 h2
      exact ⟨p1, p2.trans (hmono _ (norm_nonneg' _))⟩
    | StoTbig hu hl hlt hw => cases hx; exact .StoT (mem_leaves.2 ⟨_, hu, hl, rfl⟩)
    | StoTsmall hu hl hlt hw => cases hx; exact .StoT (mem_leaves.2 ⟨_, hu, hl, rfl⟩)
    | MtoL hu hl hw =>
      cases hx
      refine .MtoL hl fun a b h1 h2 => ?_
      obtain ⟨p1, p2⟩ := mToL_pair D hsz hl (hsep (by simp)).1 a b h1 h2
      exact ⟨p1, p2.trans (hmono _ (norm_nonneg' _))⟩
    | MtoT hu hl hw =>
      cases hx
      refine .MtoT (fun q hq => hc.tgts _ hends.1 _ hends.2 rfl rfl q hq) fun a b h1 h2 => ?_
      obtain ⟨p1, p2⟩ := mToT_pair D hsz hl (hsep (by simp)).1 a b h1 h2
      exact ⟨p1, p2.trans (hmono _ (norm_nonneg' _))⟩

theorem fmm_lapEdge {unif : Nat} {same : Bool} {s t : Fin 8 → Oct} {acts : List Act}
    (hr : Runs (createProg FMM unif same s t) acts) {D : LapData} (hp : D.Placed s) (hc : D.Clear acts) :
    ∀ e ∈ edgesOf acts, LapEdge D (leaves Index.root (.node s)) (fmmEps D.p) e := by
  intro e he
  have hends := edge_ends (FMM_safe hr) he
  rcases createDag_mem (mem_edges_createDag hr he) with ⟨n, hu, ha⟩ | ⟨n, p, c, hv, ha⟩
  · have h := FMM_src_act n _ ha
    refine src_lapEdge hu (fun ho => ?_) h
    refine hc.srcs _ hends.2 _ hends.1 ?_ ?_ <;>
      (generalize hx : Act.link e = x at h; cases h <;> cases hx <;> first | rfl | cases ho)
  · exact fmmVisit_lapEdge (FMM_visit_act (FMM_cons hv (consOk_root s)) _ ha) hends hp.size hc le_rfl

theorem fmm97_lapEdge {unif : Nat} {same : Bool} {s t : Fin 8 → Oct} {acts : List Act}
    (hr : Runs (createProg FMM97 unif same s t) acts) {D : LapData} (hp : D.Placed s) (hc : D.Clear acts)
    (hE : D.rule.Even) {ε : ℝ} (hA : D.rule.Accurate D.p ε) (hε : fmmEps D.p ≤ ε) :
    ∀ e ∈ edgesOf acts, LapEdge D (leaves Index.root (.node s)) ε e := by
  intro e he
  have hends := edge_ends (FMM97_safe hr) he
  have hsep := (FMM97_separation hr he).2.2
  rcases createDag_mem (mem_edges_createDag hr he) with ⟨n, hu, ha⟩ | ⟨n, p, c, hv, ha⟩
  · have h := FMM97_src_act n _ ha
    refine src_lapEdge hu (fun ho => ?_) h
    refine hc.srcs _ hends.2 _ hends.1 ?_ ?_ <;>
      (generalize hx : Act.link e = x at h; cases h <;> cases hx <;> first | rfl | cases ho)
  · have h := FMM97_visit_act (FMM97_cons hv (F97Ok_root s t)).cons _ ha
    generalize hx : Act.link e = x at h
    cases h with
    | fmm h => subst hx; exact fmmVisit_lapEdge h hends hp.size hc hε
    | interm => cases hx
    | ItoL h2 =>
      cases hx
      have e1 := Index.child_parent n.ix (by omega)
      have hlt : n.ix.whichChild < 8 := by unfold Index.whichChild; simp only; omega
      have := LapEdge.ItoL (D := D) (L := leaves Index.root (.node s)) (ε := ε) (a := n.ix.parent) ⟨n.ix.whichChild, hlt⟩
      simp only [e1] at this
      exact this
    | @ItoI k hM =>
      cases hx
      obtain ⟨h1, h2, h3, h4⟩ := hsep rfl
      exact .ItoI hE hA h1 h2 h3 h4

theorem bh_lapEdge {mac : Index → Index → Bool} {unif : Nat} {same : Bool} {s t : Fin 8 → Oct} {acts : List Act}
    (hr : Runs (createProg (BH mac) unif same s t) acts) {D : LapData} {κ : ℝ} (h0 : 0 ≤ κ) (hκ : κ < 1)
    (hc : D.Clear acts)
    (hm : ∀ e ∈ edgesOf acts, e.op = .MtoT → ∀ a b, InCube D.dom e.src.ix a → InCube D.dom e.dst.ix b →
      0 < (b.sub (D.center e.src.ix)).norm ∧
      (a.sub (D.center e.src.ix)).norm ≤ κ * (b.sub (D.center e.src.ix)).norm) :
    ∀ e ∈ edgesOf acts, LapEdge D (leaves Index.root (.node s)) (κ ^ (D.p + 1) * ((1 + κ) / (1 - κ))) e := by
  intro e he
  have hends := edge_ends (BH_safe mac hr) he
  rcases createDag_mem (mem_edges_createDag hr he) with ⟨n, hu, ha⟩ | ⟨n, p, c, hv, ha⟩
  · have h := BH_src_act mac n _ ha
    refine src_lapEdge hu (fun ho => ?_) h
    refine hc.srcs _ hends.2 _ hends.1 ?_ ?_ <;>
      (generalize hx : Act.link e = x at h; cases h <;> cases hx <;> first | rfl | cases ho)
  · simp only [theVisit, Dashmm.visit] at ha
    rcases List.mem_append.1 ha with ha | ha
    · simp [BH, Act.addParts] at ha
    · have hcu : ∀ i ∈ c, Under (rootNode s) i := BH_cons hv (by
        intro i hi; simp at hi; subst hi; exact .refl _)
      have h := (doWhile_act (bhPass_act mac s n _) _ _ hcu).1 _ ha
      generalize hx : Act.link e = x at h
      cases h with
      | StoT hu hl _ => cases hx; exact .StoT (mem_leaves.2 ⟨_, hu, hl, rfl⟩)
      | @MtoT i hu hma =>
        cases hx
        refine .MtoT (fun q hq => hc.tgts _ hends.1 _ hends.2 rfl rfl q hq) fun a b h1 h2 => ?_
        obtain ⟨p1, p2⟩ := hm _ he rfl a b h1 h2
        have p1' : 0 < (b.sub (D.center i.ix)).norm := p1
        have p2' : (a.sub (D.center i.ix)).norm ≤ κ * (b.sub (D.center i.ix)).norm := p2
        have hlo := sub_norm_le b a (D.center i.ix)
        have hup := sub_norm_le b (D.center i.ix) a
        rw [norm_neg_sub (D.center i.ix) a] at hup
        refine bh_pair D κ h0 hκ (norm_nonneg' _) p1' p2' ?_ hup
        nlinarith

theorem direct_lapEdge {unif : Nat} {same : Bool} {s t : Fin 8 → Oct} {acts : List Act}
    (hr : Runs (createProg Direct unif same s t) acts) {D : LapData} :
    ∀ e ∈ edgesOf acts, LapEdge D (leaves Index.root (.node s)) 0 e := by
  intro e he
  rcases createDag_mem (mem_edges_createDag hr he) with ⟨n, hu, ha⟩ | ⟨n, p, c, hv, ha⟩
  · unfold ownSrc at ha
    split at ha <;> simp [Direct, Act.addParts] at ha
  · simp only [theVisit, Dashmm.visit] at ha
    rcases List.mem_append.1 ha with ha | ha
    · simp [Direct, Act.addParts] at ha
    · have hcu : ∀ i ∈ c, Under (rootNode s) i := Direct_cons hv (by
        intro i hi; simp at hi; subst hi; exact .refl _)
      have e1 : ∀ l, directPass n l = bhPass (fun _ _ => false) n l := fun l => funext (directPass_eq n l)
      have ha' : Act.link e ∈ (doWhile (bhPass (fun _ _ => false) n (!refine Direct unif same n c))
        (!refine Direct unif same n c) (loopFuel c) c).1 := by
        rw [← e1]; exact ha
      have h := (doWhile_act (leaf := !refine Direct unif same n c) (bhPass_act (fun _ _ => false) s n
        (!refine Direct unif same n c)) (loopFuel c) c hcu).1 _ ha'
      generalize hx : Act.link e = x at h
      cases h with
      | StoT hu hl _ => cases hx; exact .StoT (mem_leaves.2 ⟨_, hu, hl, rfl⟩)
      | MtoT hu hm => simp at hm

/-- Evaluations with any method. -/
theorem lap_evaluation {m : Method} (hm : DeliversAllOnce m) {unif : Nat} {same : Bool}
    {s t : Fin 8 → Oct} {acts : List Act} (hr : Runs (createProg m unif same s t) acts)
    (h1 : NoAssertionFails acts) (h2 : Ranked (edgesOf acts)) {D : LapData} {ε : ℝ} (hε : 0 ≤ ε) (hp : D.Placed s)
    (hed : ∀ e ∈ edgesOf acts, LapEdge D (leaves Index.root (.node s)) ε e)
    {loc : Ref → Nat} {n k : Nat} {S : Sys Ref Edge LapVal} (hS : Sys.Steps (lapDag D acts) loc n k S)
    (hl : ∀ r ∈ (lapDag D acts).watched, loc r < n) (hd : ∀ k < n, S.Done k)
    {r : Ref} (hn : r ∈ nodesOf acts) (hs : r.side = .tgt) (hk : r.kind = .parts)
    {i : ℕ} {x : Point ℝ} (hx : (D.tgts r.ix)[i]? = some x) :
    ∃ v : ℝ, (S.ex.acc r).2.2 i = (v : WithTop ℝ) ∧
      |v - D.phi r.ix i - potential (D.all s) x| ≤ ε * absPotential (D.all s) x := by
  have hD := lapDag_ok D h1 h2
  have hv := (reach_inv hD hS.reach).complete_val hD (all_triggered hS hl hd)
  obtain ⟨P, hP, -⟩ := exists_unique_evaluation h2.acyclic
  exact eval_targets (N := S.ex.acc) rfl (leaves_nodup ⟨Index.root, s⟩) hp hε h2.acyclic hed hv hP hs hk
    (hm unif same s t acts P hr hP r hn hs hk) hx

/-! ### C72: FMM -/

/-- **C72** FMM with the Laplace kernel: for all trees, all sources and targets in their boxes and clear of the
centres, for any number of ranks, any placement of the DAG nodes and any schedule, when the evaluation has finished
every target holds what it held at first plus its potential, with a relative error (measured against the potential of
the absolute values of the charges) of at most `28 * 0.765^(p+1)`. -/
theorem C72_fmm_accuracy {unif : Nat} {same : Bool} {s t : Fin 8 → Oct} {acts : List Act}
    (hr : Runs (createProg FMM unif same s t) acts) {D : LapData} (hp : D.Placed s) (hc : D.Clear acts)
    {loc : Ref → Nat} {n k : Nat} {S : Sys Ref Edge LapVal} (hS : Sys.Steps (lapDag D acts) loc n k S)
    (hl : ∀ r ∈ (lapDag D acts).watched, loc r < n) (hd : ∀ k < n, S.Done k)
    {r : Ref} (hn : r ∈ nodesOf acts) (hs : r.side = .tgt) (hk : r.kind = .parts)
    {i : ℕ} {x : Point ℝ} (hx : (D.tgts r.ix)[i]? = some x) :
    ∃ v : ℝ, (S.ex.acc r).2.2 i = (v : WithTop ℝ) ∧
      |v - D.phi r.ix i - potential (D.all s) x| ≤ fmmEps D.p * absPotential (D.all s) x :=
  lap_evaluation FMM_delivers hr (FMM_safe hr) (FMM_ranked hr) (fmmEps_nonneg _) hp (fmm_lapEdge hr hp hc) hS hl hd hn hs
    hk hx

/-- **C72** The bound is less than `28 * 0.765^(p+1)`, so any accuracy is reached by some order. -/
theorem C72_error_vanishes (p : ℕ) : fmmEps p ≤ 28 * (0.765 : ℝ) ^ (p + 1) := by
  have s1 := sqrt3_lo
  have s2 : √3 ≤ (1.7321 : ℝ) := Real.sqrt_le_iff.2 ⟨by norm_num, by norm_num⟩
  have hr : √3 / (4 - √3) ≤ 0.765 := by rw [div_le_iff₀ (by linarith)]; linarith
  have hk : 2 * (2 + √3) ^ 2 ≤ 28 := by nlinarith
  have := ratio_pos
  unfold fmmEps
  exact mul_le_mul hk (pow_le_pow_left₀ this.le hr _) (by positivity) (by norm_num)

/-! ### C73: Direct -/

/-- **C73** Direct with the Laplace kernel: the result is exact. -/
theorem C73_direct_exact {unif : Nat} {same : Bool} {s t : Fin 8 → Oct} {acts : List Act}
    (hr : Runs (createProg Direct unif same s t) acts) {D : LapData} (hp : D.Placed s)
    {loc : Ref → Nat} {n k : Nat} {S : Sys Ref Edge LapVal} (hS : Sys.Steps (lapDag D acts) loc n k S)
    (hl : ∀ r ∈ (lapDag D acts).watched, loc r < n) (hd : ∀ k < n, S.Done k)
    {r : Ref} (hn : r ∈ nodesOf acts) (hs : r.side = .tgt) (hk : r.kind = .parts)
    {i : ℕ} {x : Point ℝ} (hx : (D.tgts r.ix)[i]? = some x) :
    (S.ex.acc r).2.2 i = ((D.phi r.ix i + potential (D.all s) x : ℝ) : WithTop ℝ) := by
  obtain ⟨v, hv, hv'⟩ := lap_evaluation Direct_delivers hr (Direct_safe hr) (Direct_ranked hr) (le_refl 0) hp
    (direct_lapEdge hr) hS hl hd hn hs hk hx
  rw [hv]
  rw [zero_mul] at hv'
  have := abs_nonpos_iff.1 hv'
  congr 1; linarith

/-! ### C74: Barnes-Hut -/

/-- **C74** Barnes-Hut with the Laplace kernel, if the accepted boxes are such that each source is nearer to the centre
of its box than `κ` times any target of the accepting box: the relative error is at most
`κ^(p+1) * (1 + κ) / (1 - κ)`. -/
theorem C74_bh_accuracy {mac : Index → Index → Bool} {unif : Nat} {same : Bool} {s t : Fin 8 → Oct} {acts : List Act}
    (hr : Runs (createProg (BH mac) unif same s t) acts) {D : LapData} (hp : D.Placed s) (hc : D.Clear acts)
    {κ : ℝ} (h0 : 0 ≤ κ) (hκ : κ < 1)
    (hm : ∀ e ∈ edgesOf acts, e.op = .MtoT → ∀ a b, InCube D.dom e.src.ix a → InCube D.dom e.dst.ix b →
      0 < (b.sub (D.center e.src.ix)).norm ∧
      (a.sub (D.center e.src.ix)).norm ≤ κ * (b.sub (D.center e.src.ix)).norm)
    {loc : Ref → Nat} {n k : Nat} {S : Sys Ref Edge LapVal} (hS : Sys.Steps (lapDag D acts) loc n k S)
    (hl : ∀ r ∈ (lapDag D acts).watched, loc r < n) (hd : ∀ k < n, S.Done k)
    {r : Ref} (hn : r ∈ nodesOf acts) (hs : r.side = .tgt) (hk : r.kind = .parts)
    {i : ℕ} {x : Point ℝ} (hx : (D.tgts r.ix)[i]? = some x) :
    ∃ v : ℝ, (S.ex.acc r).2.2 i = (v : WithTop ℝ) ∧
      |v - D.phi r.ix i - potential (D.all s) x| ≤ κ ^ (D.p + 1) * ((1 + κ) / (1 - κ)) * absPotential (D.all s) x := by
  refine lap_evaluation (BH_delivers mac) hr (BH_safe mac hr) (BH_ranked hr) ?_ hp (bh_lapEdge hr h0 hκ hc hm) hS hl hd hn
    hs hk hx
  have : 0 < 1 - κ := by linarith
  positivity

/-! ### Concrete cases -/

section Examples

/-- A tree with the leaves `(0, 0, 0, 2)` and `(15, 15, 15, 4)`. -/
def exFar : Fin 8 → Oct := fork 0 [0] 7 [7, 7, 7]

/-- A source in each leaf of `exFar`, two targets in the one and one in the other. -/
noncomputable def exLap (p : ℕ) : LapData where
  dom := ⟨⟨0, 0, 0⟩, 16⟩
  p := p
  rule := rule3
  srcs ix := if ix = ⟨0, 0, 0, 2⟩ then [⟨⟨11 / 10, 13 / 10, 22 / 10⟩, 5⟩]
    else if ix = ⟨15, 15, 15, 4⟩ then [⟨⟨151 / 10, 152 / 10, 157 / 10⟩, -2⟩] else []
  tgts ix := if ix = ⟨0, 0, 0, 2⟩ then [⟨11 / 10, 13 / 10, 22 / 10⟩, ⟨31 / 10, 1, 1⟩]
    else if ix = ⟨15, 15, 15, 4⟩ then [⟨151 / 10, 152 / 10, 157 / 10⟩] else []
  phi _ i := i

/-- Boxes that contain the corner or the opposite corner of the domain. -/
def exBoxes : List Index := [⟨0, 0, 0, 0⟩, ⟨0, 0, 0, 1⟩, ⟨1, 1, 1, 1⟩, ⟨0, 0, 0, 2⟩, ⟨3, 3, 3, 2⟩, ⟨7, 7, 7, 3⟩, ⟨15, 15, 15, 4⟩]

theorem exLap_placed (p : ℕ) : (exLap p).Placed exFar := by
  have hl : leaves Index.root (.node exFar) = [⟨0, 0, 0, 2⟩, ⟨15, 15, 15, 4⟩] := by decide +kernel
  refine ⟨by norm_num [exLap], ?_, ?_⟩
  · rw [hl]
    intro x hx q hq
    simp only [List.mem_cons, List.not_mem_nil, or_false] at hx
    rcases hx with rfl | rfl <;> simp [exLap] at hq <;> subst hq <;>
      refine ⟨?_, ?_, ?_⟩ <;> simp only [exLap, Domain.centerFromIndex, Domain.sizeFromLevel] <;> rw [abs_le] <;> norm_num
  · intro x q hq
    simp only [exLap] at hq
    split at hq
    · subst x; simp at hq
      rcases hq with rfl | rfl <;> refine ⟨?_, ?_, ?_⟩ <;>
        simp only [exLap, Domain.centerFromIndex, Domain.sizeFromLevel] <;> rw [abs_le] <;> norm_num
    · split at hq
      · subst x; simp at hq
        subst hq
        refine ⟨?_, ?_, ?_⟩ <;>
          simp only [exLap, Domain.centerFromIndex, Domain.sizeFromLevel] <;> rw [abs_le] <;> norm_num
      · simp at hq

theorem exLap_clear (p : ℕ) {acts : List Act} (h : ∀ r ∈ nodesOf acts, r.ix ∈ exBoxes) : (exLap p).Clear acts := by
  have key : ∀ ix ∈ exBoxes, ∀ v : Point ℝ,
      (v = ⟨11 / 10, 13 / 10, 22 / 10⟩ ∨ v = ⟨151 / 10, 152 / 10, 157 / 10⟩ ∨ v = ⟨31 / 10, 1, 1⟩) →
      Regular (v.sub ((exLap p).center ix)) := by
    intro ix hix v hv
    simp only [exBoxes, List.mem_cons, List.not_mem_nil, or_false] at hix
    refine regular_of ?_ ?_ <;>
      rcases hix with rfl | rfl | rfl | rfl | rfl | rfl | rfl <;> rcases hv with rfl | rfl | rfl <;>
        simp only [LapData.center, exLap, Domain.centerFromIndex, Domain.sizeFromLevel, Point.sub] <;> norm_num
  constructor
  · intro r hr q hq _ _ s hs
    refine key _ (h r hr) _ ?_
    simp only [exLap] at hs
    split at hs
    · simp at hs; subst hs; exact .inl rfl
    · split at hs
      · simp at hs; subst hs; exact .inr (.inl rfl)
      · simp at hs
  · intro r hr q hq _ _ s hs
    refine key _ (h r hr) _ ?_
    simp only [exLap] at hs
    split at hs
    · simp at hs; rcases hs with rfl | rfl
      · exact .inl rfl
      · exact .inr (.inr rfl)
    · split at hs
      · simp at hs; subst hs; exact .inr (.inl rfl)
      · simp at hs

/-- An execution of a DAG in which every node but the source leaves has an in edge. -/
theorem exists_lap_done (D : LapData) {acts : List Act} (h1 : NoAssertionFails acts) (h2 : Ranked (edgesOf acts))
    (hf : ∀ r ∈ nodesOf acts, ¬ (r.side = .src ∧ r.kind = .parts) → ∃ e ∈ edgesOf acts, e.dst = r)
    {loc : Ref → Nat} {n : Nat} (hl : ∀ r, loc r < n) :
    ∃ m S, Sys.Steps (lapDag D acts) loc n m S ∧ ∀ k < n, S.Done k :=
  exists_done (lapDag_ok D h1 h2) ((C44_completes_iff (lapDag_ok D h1 h2) fun r _ => hl r).2 fun r hr hs =>
    hf r hr fun h => hs (List.mem_filter.2 ⟨hr, by simpa using h⟩))

/-- C72: FMM on two ranks, with sources and targets in two corners of the domain. -/
example (p : ℕ) : ∃ k S, Sys.Steps (lapDag (exLap p) (createDag FMM 2 true exFar exFar)) (fun r => r.ix.level % 2) 2 k S ∧
    (∀ k < 2, S.Done k) ∧ ∃ v : ℝ, (S.ex.acc ⟨.tgt, ⟨0, 0, 0, 2⟩, .parts⟩).2.2 1 = (v : WithTop ℝ) ∧
      |v - 1 - potential ((exLap p).all exFar) ⟨31 / 10, 1, 1⟩| ≤
        fmmEps p * absPotential ((exLap p).all exFar) ⟨31 / 10, 1, 1⟩ := by
  have hr := createDag_runs FMM 2 true exFar exFar
  obtain ⟨k, S, hS, hd⟩ := exists_lap_done (exLap p) (FMM_safe hr) (FMM_ranked hr) (by decide +kernel)
    (loc := fun r => r.ix.level % 2) (n := 2) (fun r => Nat.mod_lt _ (by omega))
  refine ⟨k, S, hS, hd, ?_⟩
  have := C72_fmm_accuracy hr (exLap_placed p) (exLap_clear p (by decide +kernel)) hS (fun r _ => Nat.mod_lt _ (by omega)) hd
    (r := ⟨.tgt, ⟨0, 0, 0, 2⟩, .parts⟩) (by decide +kernel) rfl rfl (i := 1) (x := ⟨31 / 10, 1, 1⟩) (by simp [exLap])
  simpa [exLap] using this

/-- C73: Direct on three ranks. -/
example (p : ℕ) : ∃ k S, Sys.Steps (lapDag (exLap p) (createDag Direct 2 true exFar exFar)) (fun r => r.ix.x % 3) 3 k S ∧
    (∀ k < 3, S.Done k) ∧ (S.ex.acc ⟨.tgt, ⟨0, 0, 0, 2⟩, .parts⟩).2.2 1 =
      ((1 + potential ((exLap p).all exFar) ⟨31 / 10, 1, 1⟩ : ℝ) : WithTop ℝ) := by
  have hr := createDag_runs Direct 2 true exFar exFar
  obtain ⟨k, S, hS, hd⟩ := exists_lap_done (exLap p) (Direct_safe hr) (Direct_ranked hr) (by decide +kernel)
    (loc := fun r => r.ix.x % 3) (n := 3) (fun r => Nat.mod_lt _ (by omega))
  refine ⟨k, S, hS, hd, ?_⟩
  have := C73_direct_exact hr (exLap_placed p) hS (fun r _ => Nat.mod_lt _ (by omega)) hd
    (r := ⟨.tgt, ⟨0, 0, 0, 2⟩, .parts⟩) (by decide +kernel) rfl rfl (i := 1) (x := ⟨31 / 10, 1, 1⟩) (by simp [exLap])
  simpa [exLap] using this

/-- A criterion that accepts one pair of boxes. -/
def exMac (s t : Index) : Bool := s = ⟨0, 0, 0, 2⟩ && t = ⟨15, 15, 15, 4⟩

theorem exMac_far (p : ℕ) : ∀ e ∈ edgesOf (createDag (BH exMac) 2 true exFar exFar), e.op = .MtoT → ∀ a b,
    InCube (exLap p).dom e.src.ix a → InCube (exLap p).dom e.dst.ix b →
      0 < (b.sub ((exLap p).center e.src.ix)).norm ∧
      (a.sub ((exLap p).center e.src.ix)).norm ≤ 1 / 2 * (b.sub ((exLap p).center e.src.ix)).norm := by
  have h : ∀ e ∈ edgesOf (createDag (BH exMac) 2 true exFar exFar), e.op = .MtoT →
    e.src.ix = ⟨0, 0, 0, 2⟩ ∧ e.dst.ix = ⟨15, 15, 15, 4⟩ := by decide +kernel
  intro e he ho a b ha hb
  obtain ⟨h1, h2⟩ := h e he ho
  rw [h1] at ha ⊢
  rw [h2] at hb
  simp only [InCube, exLap, Domain.centerFromIndex, Domain.sizeFromLevel, abs_le, LapData.center] at ha hb ⊢
  norm_num at ha hb ⊢
  have n1 : (Point.sub a ⟨2, 2, 2⟩).norm ≤ 4 := norm_le_of (by norm_num) (by simp only [Point.sub]; nlinarith)
  have n2 : (8 : ℝ) ≤ (Point.sub b ⟨2, 2, 2⟩).norm := Real.le_sqrt_of_sq_le (by simp only [Point.sub]; nlinarith)
  exact ⟨by linarith, by linarith⟩

/-- The criterion does accept: the DAG has an edge that evaluates a multipole expansion. -/
example : ∃ e ∈ edgesOf (createDag (BH exMac) 2 true exFar exFar), e.op = .MtoT := by decide +kernel

/-- C74: Barnes-Hut on one rank. -/
example (p : ℕ) : ∃ k S, Sys.Steps (lapDag (exLap p) (createDag (BH exMac) 2 true exFar exFar)) (fun _ => 0) 1 k S ∧
    (∀ k < 1, S.Done k) ∧ ∃ v : ℝ, (S.ex.acc ⟨.tgt, ⟨15, 15, 15, 4⟩, .parts⟩).2.2 0 = (v : WithTop ℝ) ∧
      |v - potential ((exLap p).all exFar) ⟨151 / 10, 152 / 10, 157 / 10⟩| ≤
        (1 / 2) ^ (p + 1) * ((1 + 1 / 2) / (1 - 1 / 2)) *
          absPotential ((exLap p).all exFar) ⟨151 / 10, 152 / 10, 157 / 10⟩ := by
  have hr := createDag_runs (BH exMac) 2 true exFar exFar
  obtain ⟨k, S, hS, hd⟩ := exists_lap_done (exLap p) (BH_safe exMac hr) (BH_ranked hr) (by decide +kernel)
    (loc := fun _ => 0) (n := 1) (fun r => by omega)
  refine ⟨k, S, hS, hd, ?_⟩
  obtain ⟨v, hv, hv'⟩ := C74_bh_accuracy hr (exLap_placed p) (exLap_clear p (by decide +kernel)) (κ := 1 / 2) (by norm_num)
    (by norm_num) (exMac_far p) hS (fun r _ => by omega) hd
    (r := ⟨.tgt, ⟨15, 15, 15, 4⟩, .parts⟩) (by decide +kernel) rfl rfl (i := 0) (x := ⟨151 / 10, 152 / 10, 157 / 10⟩)
    (by simp [exLap])
  refine ⟨v, hv, ?_⟩
  have e0 : (exLap p).phi ⟨15, 15, 15, 4⟩ 0 = 0 := by simp [exLap]
  have e1 : (exLap p).p = p := rfl
  rwa [e0, sub_zero, e1] at hv'

end Examples

end Dashmm
