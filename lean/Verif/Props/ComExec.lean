import Verif.Proofs.ComSound
import Verif.Props.LapFmm

/-!
# Whole evaluations with the centre-of-mass expansions (C96)

The DAG Direct or Barnes-Hut builds, executed in any order on any ranks (`Model.Exec`), with the numbers of
`LaplaceCOM` and `LaplaceCOMAcc` (`Model.ComExec`).
-/

namespace Dashmm

open Com Harm Ev ExecState ComEx

variable {O : Type} [AddCommMonoid O]

theorem comDag_ok (D : ComData O) (K : ComKernel O) {acts : List Act} (h1 : NoAssertionFails acts)
    (h2 : Ranked (edgesOf acts)) : (comDag D K acts).Ok :=
  let h := methodDag_ok h1 h2
  ⟨h.nodup, h.srcs, h.dsts, h.starts_sub, h.starts_nodup, h.starts_in, h.acyclic⟩

/-! ### The edges of the methods -/

theorem src_comEdge {D : ComData O} {κ : ℝ} {s : Fin 8 → Oct} {n : TNode} (hu : Under (rootNode s) n) {e : Edge}
    (hp : Positive D (leaves Index.root (.node s))) (hi : e.op ≠ .MtoI) (h : SrcAct 0 n (.link e)) :
    ComEdge D (leaves Index.root (.node s)) κ e := by
  generalize hx : Act.link e = x at h
  cases h with
  | parts => cases hx
  | normal => cases hx
  | interm => cases hx
  | StoM hl =>
    cases hx
    exact .StoM (mem_leaves.2 ⟨n, hu, hl, rfl⟩) hp
  | @MtoM k hk =>
    obtain ⟨i, -, hki⟩ := mem_kids.1 hk
    cases hx
    rw [hki]
    exact .MtoM i hp
  | MtoI => cases hx; exact absurd rfl hi

theorem bh_no_MtoI {mac : Index → Index → Bool} {n : TNode} {e : Edge} (h : Act.link e ∈ ownSrc (BH mac) n) :
    e.op ≠ .MtoI := by
  unfold ownSrc at h
  split at h
  · simp [BH, Act.addParts, Act.addNormal, Act.StoM] at h
    subst h; simp
  · simp [BH, Act.addNormal, Act.MtoM] at h
    obtain ⟨k, -, rfl⟩ := h; simp

theorem bh_comEdge {mac : Index → Index → Bool} {unif : Nat} {same : Bool} {s t : Fin 8 → Oct} {acts : List Act}
    (hr : Runs (createProg (BH mac) unif same s t) acts) {D : ComData O} {κ : ℝ}
    (hp : Positive D (leaves Index.root (.node s)))
    (hm : ∀ e ∈ edgesOf acts, e.op = .MtoT → Accepts D.dom κ e.src.ix e.dst.ix) :
    ∀ e ∈ edgesOf acts, ComEdge D (leaves Index.root (.node s)) κ e := by
  intro e he
  rcases createDag_mem (mem_edges_createDag hr he) with ⟨n, hu, ha⟩ | ⟨n, p, c, hv, ha⟩
  · exact src_comEdge hu hp (bh_no_MtoI ha) (BH_src_act mac n _ ha)
  · simp only [theVisit, Dashmm.visit] at ha
    rcases List.mem_append.1 ha with ha | ha
    · simp [BH, Act.addParts] at ha
    · have hcu : ∀ i ∈ c, Under (rootNode s) i := BH_cons hv (by
        intro i hi; simp at hi; subst hi; exact .refl _)
      have h := (doWhile_act (bhPass_act mac s n _) _ _ hcu).1 _ ha
      generalize hx : Act.link e = x at h
      cases h with
      | StoT hu hl _ => cases hx; exact .StoT (mem_leaves.2 ⟨_, hu, hl, rfl⟩)
      | @MtoT i hu hma =>
        cases hx
        have h := hm _ he rfl
        exact ComEdge.MtoT (a := i.ix) (b := n.ix) h hp

theorem direct_comEdge {unif : Nat} {same : Bool} {s t : Fin 8 → Oct} {acts : List Act}
    (hr : Runs (createProg Direct unif same s t) acts) {D : ComData O} :
    ∀ e ∈ edgesOf acts, ComEdge D (leaves Index.root (.node s)) 0 e := by
  intro e he
  rcases createDag_mem (mem_edges_createDag hr he) with ⟨n, hu, ha⟩ | ⟨n, p, c, hv, ha⟩
  · unfold ownSrc at ha
    split at ha <;> simp [Direct, Act.addParts] at ha
  · simp only [theVisit, Dashmm.visit] at ha
    rcases List.mem_append.1 ha with ha | ha
    · simp [Direct, Act.addParts] at ha
    · have hcu : ∀ i ∈ c, Under (rootNode s) i := Direct_cons hv (by
        intro i hi; simp at hi; subst hi; exact .refl _)
      have e1 : ∀ l, directPass n l = bhPass (fun _ _ => false) n l := fun l => funext (directPass_eq n l)
      have ha' : Act.link e ∈ (doWhile (bhPass (fun _ _ => false) n (!refine Direct unif same n c))
        (!refine Direct unif same n c) (loopFuel c) c).1 := by
        rw [← e1]; exact ha
      have h := (doWhile_act (leaf := !refine Direct unif same n c) (bhPass_act (fun _ _ => false) s n
        (!refine Direct unif same n c)) (loopFuel c) c hcu).1 _ ha'
      generalize hx : Act.link e = x at h
      cases h with
      | StoT hu hl _ => cases hx; exact .StoT (mem_leaves.2 ⟨_, hu, hl, rfl⟩)
      | MtoT hu hm => simp at hm

/-- Evaluations with either method and either expansion. -/
theorem com_evaluation {m : Method} (hm : DeliversAllOnce m) {unif : Nat} {same : Bool}
    {s t : Fin 8 → Oct} {acts : List Act} (hr : Runs (createProg m unif same s t) acts)
    (h1 : NoAssertionFails acts) (h2 : Ranked (edgesOf acts)) {D : ComData O} {K : ComKernel O} {κ : ℝ}
    {Close : List (Com.Src ℝ) → Point ℝ → O → Prop} (hK : Sound K κ Close) (hp : D.Placed s)
    (hed : ∀ e ∈ edgesOf acts, ComEdge D (leaves Index.root (.node s)) κ e)
    {loc : Ref → Nat} {n k : Nat} {S : Sys Ref Edge (ComVal K)} (hS : Sys.Steps (comDag D K acts) loc n k S)
    (hl : ∀ r ∈ (comDag D K acts).watched, loc r < n) (hd : ∀ k < n, S.Done k)
    {r : Ref} (hn : r ∈ nodesOf acts) (hs : r.side = .tgt) (hk : r.kind = .parts)
    {i : ℕ} {x : Point ℝ} (hx : (D.tgts r.ix)[i]? = some x) :
    ∃ f, S.ex.acc r = .parts f ∧ ∃ v : O, f i = ((D.out r.ix i + v : O) : WithTop O) ∧ Close (D.all s) x v := by
  have hD := comDag_ok D K h1 h2
  obtain ⟨P, hP, -⟩ := exists_unique_evaluation h2.acyclic
  exact com_targets hK rfl (leaves_nodup ⟨Index.root, s⟩) hp h2.acyclic (fun e he => ⟨hed e he, (edge_ends h1 he).1⟩)
    (hS.in_order hD hl hd) (fun r hr hs => hS.fed hD hl hd hr fun h => hs (by simpa using (List.mem_filter.1 h).2)) hP hn hs hk
    (hm unif same s t acts P hr hP r hn hs hk) hx

/-! ### C96: Direct -/

/-- **C96** Direct with `LaplaceCOM`: for all trees, sources and targets, any number of ranks, any placement and any
schedule, a finished evaluation leaves in every target what it held at first plus exactly the potential of all sources,
a source at the target itself being left out.  The charges may have any sign. -/
theorem C96_direct_com {unif : Nat} {same : Bool} {s t : Fin 8 → Oct} {acts : List Act}
    (hr : Runs (createProg Direct unif same s t) acts) {D : ComData ℝ} (hp : D.Placed s)
    {loc : Ref → Nat} {n k : Nat} {S : Sys Ref Edge (ComVal comKernel)} (hS : Sys.Steps (comDag D comKernel acts) loc n k S)
    (hl : ∀ r ∈ (comDag D comKernel acts).watched, loc r < n) (hd : ∀ k < n, S.Done k)
    {r : Ref} (hn : r ∈ nodesOf acts) (hs : r.side = .tgt) (hk : r.kind = .parts)
    {i : ℕ} {x : Point ℝ} (hx : (D.tgts r.ix)[i]? = some x) :
    ∃ f, S.ex.acc r = .parts f ∧
      f i = ((D.out r.ix i + Com.potential (D.all s) x.x x.y x.z : ℝ) : WithTop ℝ) := by
  obtain ⟨f, hf, v, hv, hv'⟩ := com_evaluation Direct_delivers hr (Direct_safe hr) (Direct_ranked hr)
    (comSound (ε := 0) le_rfl zero_lt_one (by simp [comEps])) hp (direct_comEdge hr) hS hl hd hn hs hk hx
  refine ⟨f, hf, ?_⟩
  unfold ComClose at hv'
  rw [zero_mul] at hv'
  have := abs_nonpos_iff.1 hv'
  rw [hv]
  congr 2; linarith

/-- **C96** Direct with `LaplaceCOMAcc`: every target gets exactly the field of all sources. -/
theorem C96_direct_acc {unif : Nat} {same : Bool} {s t : Fin 8 → Oct} {acts : List Act}
    (hr : Runs (createProg Direct unif same s t) acts) {D : ComData (ℝ × ℝ × ℝ)} (hp : D.Placed s)
    {loc : Ref → Nat} {n k : Nat} {S : Sys Ref Edge (ComVal accKernel)} (hS : Sys.Steps (comDag D accKernel acts) loc n k S)
    (hl : ∀ r ∈ (comDag D accKernel acts).watched, loc r < n) (hd : ∀ k < n, S.Done k)
    {r : Ref} (hn : r ∈ nodesOf acts) (hs : r.side = .tgt) (hk : r.kind = .parts)
    {i : ℕ} {x : Point ℝ} (hx : (D.tgts r.ix)[i]? = some x) :
    ∃ f, S.ex.acc r = .parts f ∧
      f i = ((D.out r.ix i + (fieldX (D.all s) x.x x.y x.z, fieldY (D.all s) x.x x.y x.z, fieldZ (D.all s) x.x x.y x.z) :
        ℝ × ℝ × ℝ) : WithTop (ℝ × ℝ × ℝ)) := by
  obtain ⟨f, hf, v, hv, hv'⟩ := com_evaluation Direct_delivers hr (Direct_safe hr) (Direct_ranked hr)
    (accSound (ε := 0) le_rfl zero_lt_one (by simp [accEps])) hp (direct_comEdge hr) hS hl hd hn hs hk hx
  refine ⟨f, hf, ?_⟩
  obtain ⟨v1, v2, v3⟩ := v
  obtain ⟨w1, w2, w3⟩ := hv'
  rw [zero_mul] at w1 w2 w3
  have w1 := sub_eq_zero.1 (abs_nonpos_iff.1 w1)
  have w2 := sub_eq_zero.1 (abs_nonpos_iff.1 w2)
  have w3 := sub_eq_zero.1 (abs_nonpos_iff.1 w3)
  simp only at w1 w2 w3
  rw [hv, w1, w2, w3]

/-! ### C96: Barnes-Hut -/

/-- **C96** Barnes-Hut with `LaplaceCOM` and positive charges: if the accepted boxes subtend at most the ratio `κ < 1`,
then in any finished evaluation every target got a finite number, which differs from the potential by at most
`comEps κ` relative to the potential itself (all charges being positive, `strength 1` is the potential). -/
theorem C96_bh_com_partial {mac : Index → Index → Bool} {unif : Nat} {same : Bool} {s t : Fin 8 → Oct} {acts : List Act}
    (hr : Runs (createProg (BH mac) unif same s t) acts) {D : ComData ℝ} (hp : D.Placed s)
    (hq : ∀ x ∈ leaves Index.root (.node s), ∀ q ∈ D.srcs x, 0 < q.charge) {κ : ℝ} (h0 : 0 ≤ κ) (hκ : κ < 1)
    (hm : ∀ e ∈ edgesOf acts, e.op = .MtoT → Accepts D.dom κ e.src.ix e.dst.ix)
    {loc : Ref → Nat} {n k : Nat} {S : Sys Ref Edge (ComVal comKernel)} (hS : Sys.Steps (comDag D comKernel acts) loc n k S)
    (hl : ∀ r ∈ (comDag D comKernel acts).watched, loc r < n) (hd : ∀ k < n, S.Done k)
    {r : Ref} (hn : r ∈ nodesOf acts) (hs : r.side = .tgt) (hk : r.kind = .parts)
    {i : ℕ} {x : Point ℝ} (hx : (D.tgts r.ix)[i]? = some x) :
    ∃ f, S.ex.acc r = .parts f ∧ ∃ v : ℝ, f i = (v : WithTop ℝ) ∧
      |v - D.out r.ix i - Com.potential (D.all s) x.x x.y x.z| ≤ comEps κ * strength 1 (D.all s) x := by
  obtain ⟨f, hf, v, hv, hv'⟩ := com_evaluation (BH_delivers mac) hr (BH_safe mac hr) (BH_ranked hr)
    (comSound h0 hκ le_rfl) hp (bh_comEdge hr hq hm) hS hl hd hn hs hk hx
  refine ⟨f, hf, _, hv, ?_⟩
  rw [add_sub_cancel_left]; exact hv'

/-- **C96** Barnes-Hut with `LaplaceCOMAcc` and positive charges: each component of the field is off by at most
`accEps κ` times the sum of `charge / distance²`. -/
theorem C96_bh_acc_partial {mac : Index → Index → Bool} {unif : Nat} {same : Bool} {s t : Fin 8 → Oct} {acts : List Act}
    (hr : Runs (createProg (BH mac) unif same s t) acts) {D : ComData (ℝ × ℝ × ℝ)} (hp : D.Placed s)
    (hq : ∀ x ∈ leaves Index.root (.node s), ∀ q ∈ D.srcs x, 0 < q.charge) {κ : ℝ} (h0 : 0 ≤ κ) (hκ : κ < 1)
    (hm : ∀ e ∈ edgesOf acts, e.op = .MtoT → Accepts D.dom κ e.src.ix e.dst.ix)
    {loc : Ref → Nat} {n k : Nat} {S : Sys Ref Edge (ComVal accKernel)} (hS : Sys.Steps (comDag D accKernel acts) loc n k S)
    (hl : ∀ r ∈ (comDag D accKernel acts).watched, loc r < n) (hd : ∀ k < n, S.Done k)
    {r : Ref} (hn : r ∈ nodesOf acts) (hs : r.side = .tgt) (hk : r.kind = .parts)
    {i : ℕ} {x : Point ℝ} (hx : (D.tgts r.ix)[i]? = some x) :
    ∃ f, S.ex.acc r = .parts f ∧ ∃ a0 a1 a2 : ℝ, f i = ((a0, a1, a2) : ℝ × ℝ × ℝ) ∧
      |a0 - (D.out r.ix i).1 - fieldX (D.all s) x.x x.y x.z| ≤ accEps κ * strength 2 (D.all s) x ∧
      |a1 - (D.out r.ix i).2.1 - fieldY (D.all s) x.x x.y x.z| ≤ accEps κ * strength 2 (D.all s) x ∧
      |a2 - (D.out r.ix i).2.2 - fieldZ (D.all s) x.x x.y x.z| ≤ accEps κ * strength 2 (D.all s) x := by
  obtain ⟨f, hf, v, hv, w1, w2, w3⟩ := com_evaluation (BH_delivers mac) hr (BH_safe mac hr) (BH_ranked hr)
    (accSound h0 hκ le_rfl) hp (bh_comEdge hr hq hm) hS hl hd hn hs hk hx
  refine ⟨f, hf, _, _, _, hv, ?_, ?_, ?_⟩
  · rw [add_sub_cancel_left]; exact w1
  · rw [add_sub_cancel_left]; exact w2
  · rw [add_sub_cancel_left]; exact w3

/-- For positive charges the scale of the error of the potential is the potential. -/
theorem C96_strength_is_potential {l : List (Com.Src ℝ)} (h : ∀ q ∈ l, 0 < q.charge) (x : Point ℝ) :
    strength 1 l x = Com.potential l x.x x.y x.z := by
  unfold strength Com.potential
  congr 1
  refine List.map_congr_left fun q hq => ?_
  rw [abs_of_pos (h q hq), pow_one]

/-- The bounds vanish with the ratio. -/
theorem C96_bounds_vanish : Filter.Tendsto comEps (nhdsWithin 0 (Set.Ici 0)) (nhds 0) ∧
    Filter.Tendsto accEps (nhdsWithin 0 (Set.Ici 0)) (nhds 0) := by
  have c1 : ContinuousAt comEps 0 := by
    unfold comEps
    refine ContinuousAt.mul (ContinuousAt.add (by fun_prop) (ContinuousAt.div (by fun_prop) (by fun_prop) (by norm_num))) (by fun_prop)
  have c2 : ContinuousAt accEps 0 := by
    unfold accEps
    refine ContinuousAt.mul (ContinuousAt.div (by fun_prop) (by fun_prop) (by norm_num)) (by fun_prop)
  have e1 : comEps 0 = 0 := by simp [comEps]
  have e2 : accEps 0 = 0 := by simp [accEps]
  refine ⟨?_, ?_⟩
  · have := c1.tendsto; rw [e1] at this; exact this.mono_left nhdsWithin_le_nhds
  · have := c2.tendsto; rw [e2] at this; exact this.mono_left nhdsWithin_le_nhds

/-! ### C96: charges that cancel in a leaf -/

theorem under_ix_unique : ∀ a : TNode, ∀ i j, Under a i → Under a j → i.ix = j.ix → i = j := by
  intro a
  induction a using tnode_induction with
  | h a ih =>
    intro i j hi hj he
    cases hi with
    | refl =>
      cases hj with
      | refl => rfl
      | down hk hkj => exact absurd (he ▸ hkj.isDesc) (kid_not_desc hk)
    | down hk hki =>
      cases hj with
      | refl => exact absurd (he ▸ hki.isDesc) (kid_not_desc hk)
      | @down _ k' _ hk' hkj =>
        have h1 := kid_desc_unique hk hk' (he ▸ hki.isDesc) hkj.isDesc
        obtain ⟨p, p1, p2⟩ := mem_kids.1 hk
        obtain ⟨q, q1, q2⟩ := mem_kids.1 hk'
        rw [p2, q2] at h1
        have hpq : (p : ℕ) = q := isDesc_child_unique p.isLt q.isLt (isDesc_refl (a.ix.child p)) (by rw [h1]; exact isDesc_refl _)
        have hpq' : p = q := Fin.ext hpq
        subst hpq'
        have hc : Oct.node _ = Oct.node k'.c := p1.symm.trans q1
        rename_i k
        have : k = k' := by
          rcases k with ⟨x, c⟩
          rcases k' with ⟨x', c'⟩
          simp only at p2 q2 hc
          rw [p2, q2]
          congr 1
          exact Oct.node.inj hc
        subst this
        exact ih _ hk i j hki hkj he

section Zero

variable {K : ComKernel O}

theorem exp_add (x : Option (Data ℝ)) (y : ComVal K) : ∃ z, (ComVal.exp x : ComVal K) + y = .exp z := by
  cases y with
  | exp y => exact ⟨_, rfl⟩
  | parts f => exact ⟨_, rfl⟩

theorem none_add (y : ComVal K) : (ComVal.exp none : ComVal K) + y = .exp none := by
  cases y with
  | exp y => rfl
  | parts f => rfl

theorem add_none' (x : Option (Data ℝ)) : (ComVal.exp x : ComVal K) + .exp none = .exp none := by
  show ComVal.exp _ = _
  cases x <;> rfl

theorem foldl_none {α : Type} (g : α → ComVal K) : ∀ l : List α, l.foldl (fun a e => a + g e) (.exp none) = .exp none
  | [] => rfl
  | a :: l => by rw [List.foldl_cons, none_add]; exact foldl_none g l

theorem foldl_poisoned {α : Type} (g : α → ComVal K) {b : α} (hb : g b = .exp none) :
    ∀ (l : List α) (x : Option (Data ℝ)), b ∈ l → l.foldl (fun a e => a + g e) (.exp x) = .exp none
  | a :: l, x, h => by
    rw [List.foldl_cons]
    rcases List.mem_cons.1 h with rfl | h
    · rw [hb, add_none']; exact foldl_none g l
    · obtain ⟨z, hz⟩ := exp_add x (g a)
      rw [hz]; exact foldl_poisoned g hb l z h

theorem foldl_parts {α : Type} (g : α → ComVal K) : ∀ (l : List α) (f : ℕ → WithTop O),
    ∃ f', l.foldl (fun a e => a + g e) (.parts f) = .parts f' ∧ (∀ i, f i = ⊤ → f' i = ⊤) ∧
      ∀ b ∈ l, ∀ h, g b = .parts h → ∀ i, h i = ⊤ → f' i = ⊤
  | [], f => ⟨f, rfl, fun _ h => h, by simp⟩
  | a :: l, f => by
    have key : ∃ f1, (ComVal.parts f : ComVal K) + g a = .parts f1 ∧ (∀ i, f i = ⊤ → f1 i = ⊤) ∧
        ∀ h, g a = .parts h → ∀ i, h i = ⊤ → f1 i = ⊤ := by
      cases hg : g a with
      | exp y => exact ⟨f, rfl, fun _ h => h, fun h hh => by cases hh⟩
      | parts y =>
        refine ⟨fun i => f i + y i, rfl, fun i h => by simp only [h]; rfl, ?_⟩
        intro h hh i hi
        cases hh
        simp only [hi]; exact WithTop.add_top _
    obtain ⟨f1, e1, p1, p2⟩ := key
    obtain ⟨f', e', q1, q2⟩ := foldl_parts g l f1
    refine ⟨f', ?_, fun i h => q1 i (p1 i h), ?_⟩
    · rw [List.foldl_cons, e1]; exact e'
    · intro b hb h hh i hi
      rcases List.mem_cons.1 hb with rfl | hb
      · exact q1 i (p2 h hh i hi)
      · exact q2 b hb h hh i hi

end Zero

/-- **C96**, why charges of both signs are excluded: with `LaplaceCOM`, if the charges of one leaf add up to zero, then in
every finished evaluation with Barnes-Hut every target of every leaf that uses the expansion of a box above that leaf
gets something that is not a number. -/
theorem C96_zero_leaf {mac : Index → Index → Bool} {unif : Nat} {same : Bool} {s t : Fin 8 → Oct} {acts : List Act}
    (hr : Runs (createProg (BH mac) unif same s t) acts) {D : ComData ℝ} {a : Index}
    (hz : Com.total (D.srcs a) (fun _ => 1) = 0)
    {loc : Ref → Nat} {n k : Nat} {S : Sys Ref Edge (ComVal comKernel)} (hS : Sys.Steps (comDag D comKernel acts) loc n k S)
    (hl : ∀ r ∈ (comDag D comKernel acts).watched, loc r < n) (hd : ∀ k < n, S.Done k)
    {e : Edge} (he : e ∈ edgesOf acts) (ho : e.op = .MtoT) (hm : MadeFrom (edgesOf acts) a e.src)
    {i : ℕ} {x : Point ℝ} (hx : (D.tgts e.dst.ix)[i]? = some x) :
    ∃ f, S.ex.acc e.dst = .parts f ∧ f i = ⊤ := by
  have hD := comDag_ok D comKernel (BH_safe mac hr) (BH_ranked hr)
  have hN := hS.in_order hD hl hd
  have hmem : ∀ {e : Edge} {l : List Edge}, e ∈ edgesOf acts → l.Perm ((comDag D comKernel acts).inE e.dst) → e ∈ l :=
    fun h hp => hp.mem_iff.2 (List.mem_filter.2 ⟨h, by simp [comDag]⟩)
  -- the shape of the edges
  have hshape : ∀ e ∈ edgesOf acts, (e.op = .StoM ∧ ∃ n : TNode, Under (rootNode s) n ∧ n.isLeaf = true ∧
        e.src = ⟨.src, n.ix, .parts⟩ ∧ e.dst = ⟨.src, n.ix, .normal⟩) ∨
      (e.op = .MtoM ∧ ∃ n : TNode, Under (rootNode s) n ∧ n.isLeaf = false ∧ e.dst = ⟨.src, n.ix, .normal⟩) ∨
      ((e.op = .MtoT ∨ e.op = .StoT) ∧ e.dst.side = .tgt ∧ e.dst.kind = .parts) := by
    intro e he
    rcases createDag_mem (mem_edges_createDag hr he) with ⟨n, hu, ha⟩ | ⟨n, p, c, hv, ha⟩
    · have h := BH_src_act mac n _ ha
      have hi := bh_no_MtoI ha
      generalize hx : Act.link e = x at h
      cases h with
      | parts => cases hx
      | normal => cases hx
      | interm => cases hx
      | StoM hl => cases hx; exact .inl ⟨rfl, n, hu, hl, rfl, rfl⟩
      | MtoM hk => cases hx; exact .inr (.inl ⟨rfl, n, hu, Under.not_leaf hk, rfl⟩)
      | MtoI => cases hx; exact absurd rfl hi
    · simp only [theVisit, Dashmm.visit] at ha
      rcases List.mem_append.1 ha with ha | ha
      · simp [BH, Act.addParts] at ha
      · have hcu : ∀ i ∈ c, Under (rootNode s) i := BH_cons hv (by
          intro i hi; simp at hi; subst hi; exact .refl _)
        have h := (doWhile_act (bhPass_act mac s n _) _ _ hcu).1 _ ha
        generalize hx : Act.link e = x at h
        cases h with
        | StoT hu hl _ => cases hx; exact .inr (.inr ⟨.inr rfl, rfl, rfl⟩)
        | MtoT hu hma => cases hx; exact .inr (.inr ⟨.inl rfl, rfl, rfl⟩)
  have hbase : ∀ ix, (comDag D comKernel acts).base ⟨.src, ix, .normal⟩ = .exp (some fresh) := fun ix => rfl
  -- the expansions are lost
  have hlost : ∀ r, MadeFrom (edgesOf acts) a r → S.ex.acc r = .exp none := by
    intro r h
    induction h with
    | @leaf e he ho hs =>
      obtain ⟨l, hp, hv⟩ := hN e.dst
      have hel := hmem he hp
      rcases hshape e he with ⟨-, nd, hu, hlf, h1, h2⟩ | ⟨h, -⟩ | ⟨h, -⟩
      · have hna : nd.ix = a := by rw [hs] at h1; exact (Ref.mk.inj h1).2.1.symm
        have hall : ∀ e' ∈ l, D.op comKernel e' (S.ex.acc e'.src) = .exp (some (sToM (D.srcs a))) := by
          intro e' he'
          have hm' := List.mem_filter.1 (hp.mem_iff.1 he')
          have hd' : e'.dst = e.dst := by simpa [comDag] using hm'.2
          rcases hshape e' hm'.1 with ⟨ho', nd', hu', hlf', h1', h2'⟩ | ⟨-, nd', hu', hlf', h2'⟩ | ⟨-, h3, -⟩
          · have : nd'.ix = nd.ix := by rw [hd', h2] at h2'; exact (Ref.mk.inj h2').2.1.symm
            unfold ComData.op
            rw [ho', h1', this, hna]
          · have : nd'.ix = nd.ix := by rw [hd', h2] at h2'; exact (Ref.mk.inj h2').2.1.symm
            rw [under_ix_unique _ _ _ hu' hu this, hlf] at hlf'
            cases hlf'
          · rw [hd', h2] at h3; cases h3
        rw [hv, h2, hbase]
        cases l with
        | nil => simp at hel
        | cons e' l =>
          rw [List.foldl_cons]
          have hfirst : (ComVal.exp (some fresh) : ComVal comKernel) + (comDag D comKernel acts).op e'
              (S.ex.acc ((comDag D comKernel acts).src e')) = .exp none := by
            have := hall e' List.mem_cons_self
            refine (congrArg (fun y => (ComVal.exp (some fresh) : ComVal comKernel) + y) this).trans ?_
            show ComVal.exp _ = _
            congr 1
            show addCom fresh (sToM (D.srcs a)) = none
            unfold addCom
            simp only
            rw [if_pos]
            rw [sToM_mtot, hz]; simp [fresh]
          rw [hfirst]
          exact foldl_none _ l
      · rw [ho] at h; cases h
      · rw [ho] at h; rcases h with h | h <;> cases h
    | @up e he ho h ih =>
      obtain ⟨l, hp, hv⟩ := hN e.dst
      have hel := hmem he hp
      rcases hshape e he with ⟨h, -⟩ | ⟨-, nd, hu, hlf, h2⟩ | ⟨h, -⟩
      · rw [ho] at h; cases h
      · rw [hv]
        have hb : (comDag D comKernel acts).base e.dst = .exp (some fresh) := by rw [h2]; rfl
        rw [hb]
        refine foldl_poisoned (fun e => (comDag D comKernel acts).op e (S.ex.acc ((comDag D comKernel acts).src e)))
          (b := e) ?_ l _ hel
        show D.op comKernel e (S.ex.acc e.src) = _
        unfold ComData.op
        rw [ho, ih]; rfl
      · rw [ho] at h; rcases h with h | h <;> cases h
  obtain ⟨l, hp, hv⟩ := hN e.dst
  have hel := hmem he hp
  have hdst : e.dst.side = .tgt ∧ e.dst.kind = .parts := by
    rcases hshape e he with ⟨h, -⟩ | ⟨h, -⟩ | ⟨-, h⟩
    · rw [ho] at h; cases h
    · rw [ho] at h; cases h
    · exact h
  have hb : (comDag D comKernel acts).base e.dst = .parts fun i => (D.out e.dst.ix i : WithTop ℝ) := if_pos hdst
  rw [hb] at hv
  obtain ⟨f', e1, -, e2⟩ := foldl_parts
    (fun e => (comDag D comKernel acts).op e (S.ex.acc ((comDag D comKernel acts).src e))) l
    (fun i => (D.out e.dst.ix i : WithTop ℝ))
  refine ⟨f', hv.trans e1, e2 e hel (D.toTargets e.dst.ix fun _ => ⊤) ?_ i ?_⟩
  · show D.op comKernel e (S.ex.acc e.src) = _
    unfold ComData.op
    rw [ho, hlost _ hm]; rfl
  · exact comTargets_some hx

/-! ### Concrete cases -/

section Examples

/-- An execution of a DAG in which every node but the source leaves has an in edge. -/
theorem exists_com_done (D : ComData O) (K : ComKernel O) {acts : List Act} (h1 : NoAssertionFails acts)
    (h2 : Ranked (edgesOf acts))
    (hf : ∀ r ∈ nodesOf acts, ¬ (r.side = .src ∧ r.kind = .parts) → ∃ e ∈ edgesOf acts, e.dst = r)
    {loc : Ref → Nat} {n : Nat} (hl : ∀ r, loc r < n) :
    ∃ m S, Sys.Steps (comDag D K acts) loc n m S ∧ ∀ k < n, S.Done k := by
  have hD := (comDag_ok D K h1 h2).forget
  obtain ⟨m, U, hU, hd⟩ := exists_done hD ((C44_completes_iff hD fun r _ => hl r).2 fun r hr hs =>
    hf r hr fun h => hs (List.mem_filter.2 ⟨hr, by simpa using h⟩))
  obtain ⟨S, hS, rfl⟩ := hU.lift
  exact ⟨m, S, hS, hd⟩

/-- Two sources in one leaf of `exFar` and one in the other, two targets in the one and one in the other. -/
noncomputable def exCom (q : ℝ) (out : Index → ℕ → O) : ComData O where
  dom := ⟨⟨0, 0, 0⟩, 16⟩
  srcs ix := if ix = ⟨0, 0, 0, 2⟩ then [⟨5, 11 / 10, 13 / 10, 22 / 10⟩, ⟨q, 1, 2, 3⟩]
    else if ix = ⟨15, 15, 15, 4⟩ then [⟨2, 151 / 10, 152 / 10, 157 / 10⟩] else []
  tgts ix := if ix = ⟨0, 0, 0, 2⟩ then [⟨11 / 10, 13 / 10, 22 / 10⟩, ⟨31 / 10, 1, 1⟩]
    else if ix = ⟨15, 15, 15, 4⟩ then [⟨151 / 10, 152 / 10, 157 / 10⟩] else []
  out := out

omit [AddCommMonoid O] in
theorem exCom_placed (q : ℝ) (out : Index → ℕ → O) : (exCom q out).Placed exFar := by
  have hl : leaves Index.root (.node exFar) = [⟨0, 0, 0, 2⟩, ⟨15, 15, 15, 4⟩] := by decide +kernel
  refine ⟨by norm_num [exCom], ?_, ?_, ?_⟩
  · rw [hl]
    intro x hx q hq
    simp only [List.mem_cons, List.not_mem_nil, or_false] at hx
    rcases hx with rfl | rfl
    · simp [exCom] at hq
      rcases hq with rfl | rfl <;> refine ⟨?_, ?_, ?_⟩ <;>
        simp only [exCom, Domain.centerFromIndex, Domain.sizeFromLevel, Com.Src.pos] <;> rw [abs_le] <;> norm_num
    · simp [exCom] at hq
      subst hq
      refine ⟨?_, ?_, ?_⟩ <;>
        simp only [exCom, Domain.centerFromIndex, Domain.sizeFromLevel, Com.Src.pos] <;> rw [abs_le] <;> norm_num
  · rw [hl]
    intro x hx
    simp only [List.mem_cons, List.not_mem_nil, or_false] at hx
    rcases hx with rfl | rfl <;> simp [exCom]
  · intro x q hq
    simp only [exCom] at hq
    split at hq
    · subst x; simp at hq
      rcases hq with rfl | rfl <;> refine ⟨?_, ?_, ?_⟩ <;>
        simp only [exCom, Domain.centerFromIndex, Domain.sizeFromLevel] <;> rw [abs_le] <;> norm_num
    · split at hq
      · subst x; simp at hq
        subst hq
        refine ⟨?_, ?_, ?_⟩ <;>
          simp only [exCom, Domain.centerFromIndex, Domain.sizeFromLevel] <;> rw [abs_le] <;> norm_num
      · simp at hq

omit [AddCommMonoid O] in
theorem exCom_pos {q : ℝ} (h : 0 < q) (out : Index → ℕ → O) :
    ∀ x ∈ leaves Index.root (.node exFar), ∀ p ∈ (exCom q out).srcs x, 0 < p.charge := by
  intro x _ p hp
  simp only [exCom] at hp
  split at hp
  · simp at hp; rcases hp with rfl | rfl
    · norm_num
    · exact h
  · split at hp
    · simp at hp; subst hp; norm_num
    · simp at hp

omit [AddCommMonoid O] in
theorem exCom_accepts (q : ℝ) (out : Index → ℕ → O) : ∀ e ∈ edgesOf (createDag (BH exMac) 2 true exFar exFar),
    e.op = .MtoT → Accepts (exCom q out).dom (7 / 8) e.src.ix e.dst.ix := by
  have h : ∀ e ∈ edgesOf (createDag (BH exMac) 2 true exFar exFar), e.op = .MtoT →
    e.src.ix = ⟨0, 0, 0, 2⟩ ∧ e.dst.ix = ⟨15, 15, 15, 4⟩ := by decide +kernel
  intro e he ho a b c ha hb hc
  obtain ⟨h1, h2⟩ := h e he ho
  rw [h1] at ha hc
  rw [h2] at hb
  simp only [InCube, exCom, Domain.centerFromIndex, Domain.sizeFromLevel, abs_le] at ha hb hc
  norm_num at ha hb hc
  have n1 : (a.sub c).norm ≤ 7 := norm_le_of (by norm_num) (by simp only [Point.sub]; nlinarith)
  have n2 : (8 : ℝ) ≤ (b.sub c).norm := Real.le_sqrt_of_sq_le (by simp only [Point.sub]; nlinarith)
  exact ⟨by linarith, by linarith⟩

/-- C96: Direct on three ranks, with charges of both signs that cancel in a leaf. -/
example : ∃ k S, Sys.Steps (comDag (exCom (-5) fun _ i => (i : ℝ)) comKernel (createDag Direct 2 true exFar exFar))
      (fun r => r.ix.x % 3) 3 k S ∧ (∀ k < 3, S.Done k) ∧
    ∃ f, S.ex.acc ⟨.tgt, ⟨0, 0, 0, 2⟩, .parts⟩ = .parts f ∧ f 1 = ((((1 : ℕ) : ℝ) +
      Com.potential ((exCom (-5) fun _ i => (i : ℝ)).all exFar) (31 / 10) 1 1 : ℝ) : WithTop ℝ) := by
  have hr := createDag_runs Direct 2 true exFar exFar
  obtain ⟨k, S, hS, hd⟩ := exists_com_done (exCom (-5) fun _ i => (i : ℝ)) comKernel (Direct_safe hr) (Direct_ranked hr)
    (by decide +kernel) (loc := fun r => r.ix.x % 3) (n := 3) (fun r => Nat.mod_lt _ (by omega))
  refine ⟨k, S, hS, hd, ?_⟩
  exact C96_direct_com hr (exCom_placed _ _) hS (fun r _ => Nat.mod_lt _ (by omega)) hd
    (r := ⟨.tgt, ⟨0, 0, 0, 2⟩, .parts⟩) (by decide +kernel) rfl rfl (i := 1) (x := ⟨31 / 10, 1, 1⟩) (by simp [exCom])

/-- C96: Direct with `LaplaceCOMAcc`. -/
example : ∃ k S, Sys.Steps (comDag (exCom (-5) fun _ _ => (0 : ℝ × ℝ × ℝ)) accKernel (createDag Direct 2 true exFar exFar))
      (fun r => r.ix.x % 3) 3 k S ∧ ∀ k < 3, S.Done k := by
  have hr := createDag_runs Direct 2 true exFar exFar
  exact exists_com_done _ accKernel (Direct_safe hr) (Direct_ranked hr)
    (by decide +kernel) (loc := fun r => r.ix.x % 3) (n := 3) (fun r => Nat.mod_lt _ (by omega))

/-- C96: Barnes-Hut on two ranks with `LaplaceCOM`. -/
example : ∃ k S, Sys.Steps (comDag (exCom 3 fun _ _ => (0 : ℝ)) comKernel (createDag (BH exMac) 2 true exFar exFar))
      (fun r => r.ix.level % 2) 2 k S ∧ (∀ k < 2, S.Done k) ∧
    ∃ f, S.ex.acc ⟨.tgt, ⟨15, 15, 15, 4⟩, .parts⟩ = .parts f ∧ ∃ v : ℝ, f 0 = (v : WithTop ℝ) ∧
      |v - 0 - Com.potential ((exCom 3 fun _ _ => (0 : ℝ)).all exFar) (151 / 10) (152 / 10) (157 / 10)| ≤
        comEps (7 / 8) * strength 1 ((exCom 3 fun _ _ => (0 : ℝ)).all exFar) ⟨151 / 10, 152 / 10, 157 / 10⟩ := by
  have hr := createDag_runs (BH exMac) 2 true exFar exFar
  obtain ⟨k, S, hS, hd⟩ := exists_com_done (exCom 3 fun _ _ => (0 : ℝ)) comKernel (BH_safe exMac hr) (BH_ranked hr)
    (by decide +kernel) (loc := fun r => r.ix.level % 2) (n := 2) (fun r => Nat.mod_lt _ (by omega))
  refine ⟨k, S, hS, hd, ?_⟩
  exact C96_bh_com_partial hr (exCom_placed _ _) (exCom_pos (by norm_num) _) (by norm_num) (by norm_num)
    (exCom_accepts _ _) hS (fun r _ => Nat.mod_lt _ (by omega)) hd
    (r := ⟨.tgt, ⟨15, 15, 15, 4⟩, .parts⟩) (by decide +kernel) rfl rfl (i := 0) (x := ⟨151 / 10, 152 / 10, 157 / 10⟩)
    (by simp [exCom])

/-- C96: Barnes-Hut on two ranks with `LaplaceCOMAcc`. -/
example : ∃ k S, Sys.Steps (comDag (exCom 3 fun _ _ => (0 : ℝ × ℝ × ℝ)) accKernel (createDag (BH exMac) 2 true exFar exFar))
      (fun r => r.ix.level % 2) 2 k S ∧ (∀ k < 2, S.Done k) ∧
    ∃ f, S.ex.acc ⟨.tgt, ⟨15, 15, 15, 4⟩, .parts⟩ = .parts f ∧
      ∃ a0 a1 a2 : ℝ, f 0 = ((a0, a1, a2) : ℝ × ℝ × ℝ) := by
  have hr := createDag_runs (BH exMac) 2 true exFar exFar
  obtain ⟨k, S, hS, hd⟩ := exists_com_done (exCom 3 fun _ _ => (0 : ℝ × ℝ × ℝ)) accKernel (BH_safe exMac hr) (BH_ranked hr)
    (by decide +kernel) (loc := fun r => r.ix.level % 2) (n := 2) (fun r => Nat.mod_lt _ (by omega))
  refine ⟨k, S, hS, hd, ?_⟩
  obtain ⟨f, hf, a0, a1, a2, h, -⟩ := C96_bh_acc_partial hr (exCom_placed 3 fun _ _ => (0 : ℝ × ℝ × ℝ))
    (exCom_pos (by norm_num) _) (κ := 7 / 8) (by norm_num) (by norm_num)
    (exCom_accepts _ _) hS (fun r _ => Nat.mod_lt _ (by omega)) hd
    (r := ⟨.tgt, ⟨15, 15, 15, 4⟩, .parts⟩) (by decide +kernel) rfl rfl (i := 0) (x := ⟨151 / 10, 152 / 10, 157 / 10⟩)
    (by simp [exCom])
  exact ⟨f, hf, a0, a1, a2, h⟩

/-- C96: the same tree with charges that cancel in the accepted leaf: the target is lost, in any finished run, and there
is one. -/
example : ∃ k S, Sys.Steps (comDag (exCom (-5) fun _ _ => (0 : ℝ)) comKernel (createDag (BH exMac) 2 true exFar exFar))
      (fun r => r.ix.level % 2) 2 k S ∧ (∀ k < 2, S.Done k) ∧
    ∃ f, S.ex.acc ⟨.tgt, ⟨15, 15, 15, 4⟩, .parts⟩ = .parts f ∧ f 0 = ⊤ := by
  have hr := createDag_runs (BH exMac) 2 true exFar exFar
  obtain ⟨k, S, hS, hd⟩ := exists_com_done (exCom (-5) fun _ _ => (0 : ℝ)) comKernel (BH_safe exMac hr) (BH_ranked hr)
    (by decide +kernel) (loc := fun r => r.ix.level % 2) (n := 2) (fun r => Nat.mod_lt _ (by omega))
  refine ⟨k, S, hS, hd, ?_⟩
  have h1 : (⟨.StoM, ⟨.src, ⟨0, 0, 0, 2⟩, .parts⟩, ⟨.src, ⟨0, 0, 0, 2⟩, .normal⟩⟩ : Edge) ∈
    edgesOf (createDag (BH exMac) 2 true exFar exFar) := by decide +kernel
  have h2 : (⟨.MtoT, ⟨.src, ⟨0, 0, 0, 2⟩, .normal⟩, ⟨.tgt, ⟨15, 15, 15, 4⟩, .parts⟩⟩ : Edge) ∈
    edgesOf (createDag (BH exMac) 2 true exFar exFar) := by decide +kernel
  exact C96_zero_leaf hr (a := ⟨0, 0, 0, 2⟩) (by simp [exCom, Com.total]) hS
    (fun r _ => Nat.mod_lt _ (by omega)) hd h2 rfl (MadeFrom.leaf h1 rfl rfl) (i := 0)
    (x := ⟨151 / 10, 152 / 10, 157 / 10⟩) (by simp [exCom])

end Examples

end Dashmm
