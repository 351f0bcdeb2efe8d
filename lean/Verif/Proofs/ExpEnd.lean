import Verif.Proofs.ExpStep
import Verif.Spec.ExpRun
import Verif.Props.Kernels
import Verif.Props.Life
/-! What follows from the invariant; the plan of a built-in method is a good one. -/
namespace Dashmm.ExpMem

open ExecState Ev

variable {ν ε V : Type} [DecidableEq ν] [AddCommMonoid V]
variable {D : ExecDag ν ε V} {P : Plan ν ε} {nv : ν → ℕ} {leak : ε → ℕ} {L : Led} {n : ℕ} {s : St ν ε V} {a : ExecState ν ε V} {lost : Multiset ℕ}

theorem act_fine (hG : P.Good D nv leak) (hw : L.Wf) (h : St.Steps D P L n s) (d : Do) : act D P d s ≠ .err := by
  obtain ⟨a, lost, I⟩ := steps_inv hG hw h
  intro e
  rcases keeps hG I d with h | ⟨s', a', lost', h, _⟩ <;> rw [e] at h <;> cases h

theorem out_sum (D : ExecDag ν ε V) (S : Finset ν) : ∑ r ∈ S, (D.outE r).length ≤ D.edges.length := by
  unfold ExecDag.outE
  induction D.edges with
  | nil => simp
  | cons e es ih =>
    have : ∀ r, ((e :: es).filter fun x => decide (D.src x = r)).length = (if D.src e = r then 1 else 0) + (es.filter fun x => decide (D.src x = r)).length := by
      intro r
      by_cases h : D.src e = r
      · simp [h]; omega
      · simp [h]
    simp only [this, Finset.sum_add_distrib, List.length_cons]
    have h1 : ∑ r ∈ S, (if D.src e = r then 1 else 0) ≤ 1 := by
      rw [Finset.sum_ite_eq]
      split <;> omega
    omega

theorem potN_bound (D : ExecDag ν ε V) : potN D [] ≤ 3 * D.nodes.length + 8 * D.edges.length := by
  unfold potN
  simp only [List.not_mem_nil, if_false, Finset.sum_add_distrib, ← Finset.mul_sum, Finset.sum_const, smul_eq_mul]
  have h1 := out_sum D D.nodes.toFinset
  have h2 := D.nodes.toFinset_card_le
  nlinarith

theorem steps_bound (hG : P.Good D nv leak) (hw : L.Wf) (h : St.Steps D P L n s) : n ≤ 3 * D.nodes.length + 8 * D.edges.length := by
  obtain ⟨a, lost, I⟩ := steps_inv hG hw h
  have := I.pot
  have := potN_bound D
  omega

theorem goes_on (hG : P.Good D nv leak) (hw : L.Wf) (h : St.Steps D P L n s) (ho : ¬ s.Over) : ∃ d s', act D P d s = .ok s' := by
  obtain ⟨a, lost, I⟩ := steps_inv hG hw h
  have key : ∀ d, act D P d s ≠ .off → ∃ d s', act D P d s = .ok s' := by
    intro d hd
    rcases keeps hG I d with h | ⟨s', a', lost', h, _⟩
    · exact absurd h hd
    · exact ⟨d, s', h⟩
  have krun : ∀ {α : Type} (m : Prog α) (L : Led) (k : α → Led → St ν ε V), run m L (fun x L => Res.ok (k x L)) ≠ .off := by
    intro α m L k
    unfold run
    cases m L <;> simp
  by_cases h1 : s.idle = []
  swap
  · apply key (.startLeaf 0)
    obtain ⟨r, l, hl⟩ := List.exists_cons_of_ne_nil h1
    simp only [act, hl, List.getElem?_cons_zero]
    exact krun _ _ _
  by_cases h2 : s.trig = []
  swap
  · apply key (.startSpawn 0)
    obtain ⟨r, l, hl⟩ := List.exists_cons_of_ne_nil h2
    simp only [act, hl, List.getElem?_cons_zero]
    exact krun _ _ _
  by_cases h3 : s.tasks = []
  swap
  · obtain ⟨t, l, hl⟩ := List.exists_cons_of_ne_nil h3
    have htask := I.task t (by rw [hl]; simp)
    obtain ⟨vs, hvs, _, _⟩ := I.host_views (t := t) (by rw [hl]; simp)
    obtain ⟨host, scratch, todo, waiting⟩ := t
    have hi : s.tasks[0]? = some ⟨host, scratch, todo, waiting⟩ := by rw [hl]; rfl
    cases todo with
    | nil =>
      cases waiting with
      | true =>
        obtain ⟨e, es, he, _⟩ := htask.wait rfl
        cases he
      | false =>
        apply key (.finish 0)
        simp only [act, hi]
        exact krun _ _ _
    | cons e es =>
      cases waiting with
      | true =>
        apply key (.tset 0)
        simp only [act, hi, hvs]
        split
        · simp
        · exact krun _ _ _
      | false =>
        by_cases hsv : servesHere D P ⟨host, scratch, e :: es, false⟩ e = true
        · apply key (.serve 0)
          simp only [act, hi, hvs, hsv, if_true]
          split
          · simp
          · exact krun _ _ _
        · apply key (.send 0)
          simp only [act, hi, hvs, hsv, Bool.false_eq_true, if_false]
          exact krun _ _ _
  by_cases h4 : s.msgs = []
  swap
  · obtain ⟨m, l, hl⟩ := List.exists_cons_of_ne_nil h4
    have hj : s.msgs[0]? = some m := by rw [hl]; rfl
    cases m with
    | set e q vs y =>
      apply key (.set 0)
      simp only [act, hj]
      split
      · simp
      · exact krun _ _ _
    | sources q es x =>
      apply key (.recv 0)
      simp only [act, hj]
      exact krun _ _ _
    | work q vs es x =>
      apply key (.recv 0)
      simp [act, hj]
  exact absurd ⟨h1, h2, h3, h4⟩ ho

theorem to_over (hG : P.Good D nv leak) (hw : L.Wf) : ∀ {k n : ℕ} {s : St ν ε V}, 3 * D.nodes.length + 8 * D.edges.length - n ≤ k → St.Steps D P L n s →
    ∃ ds n' s', St.Steps D P L n' s' ∧ s'.Over ∧ n' = n + ds
  | k, n, s, hk, h => by
    by_cases ho : s.Over
    · exact ⟨0, n, s, h, ho, rfl⟩
    · obtain ⟨d, s1, h1⟩ := goes_on hG hw h ho
      have h2 := St.Steps.step h d h1
      have := steps_bound hG hw h2
      cases k with
      | zero => omega
      | succ k =>
        obtain ⟨ds, n', s', h3, h4, h5⟩ := to_over hG hw (k := k) (by omega) h2
        exact ⟨ds + 1, n', s', h3, h4, by omega⟩

/-- `destroyAll` frees what the LCOs hold. -/
theorem run_destroyAll {data : ν → Option Obj} (ho : ∀ r o, data r = some o → ∀ v ∈ o.views, ∃ b, v.2 = .own b) :
    ∀ {rs : List ν} (_ : rs.Nodup) {L : Led} (_ : L.Wf) {X : Multiset ℕ} (_ : L.heap = ∑ r ∈ rs.toFinset, dataBlocks (data r) + X),
      ∃ L', destroyAll data rs L = some ((), L') ∧ L'.heap = X ∧ L'.parc = L.parc ∧ L'.Wf
  | [], _, L, hw, X, h => ⟨L, rfl, by simpa using h, rfl, hw⟩
  | r :: rs, hn, L, hw, X, h => by
    obtain ⟨hr, hn'⟩ := List.nodup_cons.1 hn
    rw [List.toFinset_cons, Finset.sum_insert (by simpa using hr)] at h
    cases hd : data r with
    | none =>
      rw [hd] at h
      obtain ⟨L', e, r1, r2, r3⟩ := run_destroyAll ho hn' hw (X := X) (by rw [h]; simp [dataBlocks])
      refine ⟨L', ?_, r1, r2, r3⟩
      unfold destroyAll
      simp only [hd]
      exact e
    | some o =>
      rw [hd] at h
      obtain ⟨L1, e1, h1, p1, w1⟩ := run_delete hw (o := o) (ho r o hd) (X := ∑ r ∈ rs.toFinset, dataBlocks (data r) + X) (by
        rw [h]; simp only [dataBlocks]; abel)
      obtain ⟨L', e, r1, r2, r3⟩ := run_destroyAll ho hn' w1 h1
      refine ⟨L', ?_, r1, r2.trans p1, r3⟩
      unfold destroyAll
      simp only [hd]
      rw [bind_run e1]
      exact e

/-- The abstract state of an evaluation that is over. -/
theorem Inv.quiet (h : Inv D P nv leak L n s a lost) (ho : s.Over) : Quiet a := by
  obtain ⟨h1, h2, h3, h4⟩ := ho
  refine ⟨h.idle.trans h1, ?_, ?_, ?_⟩
  · have := h.trig
    rw [h2] at this
    exact Multiset.coe_eq_zero _ |>.1 this
  · have := h.ready
    rw [h3, h4] at this
    exact Multiset.coe_eq_zero _ |>.1 this
  · have := h.net
    rw [h3, h4] at this
    exact Multiset.coe_eq_zero _ |>.1 this

theorem leakSum_le {P : Plan ν ε} (hG : P.Good D nv leak) (hr : Reach D a) : leakSum P leak a ≤ (D.edges.map leak).sum := by
  obtain ⟨⟨r1, h1⟩, ⟨r2, h2⟩⟩ := C42_at_most_once hG.ok hr
  have e : (D.edges.map leak).sum = (D.edges.map fun e => if P.toTgt e then 0 else leak e).sum + (D.edges.map fun e => if P.toTgt e then leak e else 0).sum := by
    induction D.edges with
    | nil => rfl
    | cons x l ih =>
      simp only [List.map_cons, List.sum_cons, ih]
      split <;> omega
  rw [e]
  have e1 := (h1.map fun e => if P.toTgt e then 0 else leak e).sum_eq
  have e2 := (h2.map fun e => if P.toTgt e then leak e else 0).sum_eq
  simp only [List.map_append, List.sum_append] at e1 e2
  unfold leakSum
  omega

theorem leakSum_eq {P : Plan ν ε} (h1 : (applied a.log).Perm D.edges) (h2 : (arrived a.log).Perm D.edges) : leakSum P leak a = (D.edges.map leak).sum := by
  unfold leakSum
  rw [(h1.map _).sum_eq, (h2.map _).sum_eq]
  induction D.edges with
  | nil => rfl
  | cons x l ih =>
    simp only [List.map_cons, List.sum_cons]
    split <;> omega

theorem at_end (hG : P.Good D nv leak) (hw : L.Wf) (h : St.Steps D P L n s) (ho : s.Over) :
    s.led.parc = L.parc ∧ ∃ L' lost, destroyAll s.data D.nodes s.led = some ((), L') ∧ L'.heap = L.heap + lost ∧ L'.parc = L.parc ∧
      lost.card ≤ (D.edges.map leak).sum ∧ ((∀ r ∈ D.nodes, r ∉ D.starts → D.inE r ≠ []) → lost.card = (D.edges.map leak).sum) := by
  obtain ⟨a, lost, I⟩ := steps_inv hG hw h
  have hp : s.led.parc = L.parc := by rw [I.parc, ho.2.2.1, ho.2.2.2]; simp
  have hh := I.heap
  rw [ho.2.2.1] at hh
  obtain ⟨L', e, r1, r2, _⟩ := run_destroyAll (fun r o hr => (I.own r o hr).1.2) hG.ok.nodup I.wf (X := L.heap + lost) (by rw [hh]; simp; abel)
  refine ⟨hp, L', lost, e, r1, r2.trans hp, ?_, fun hf => ?_⟩
  · rw [I.lost]
    exact leakSum_le hG I.reach
  · rw [I.lost]
    have hq := I.quiet ho
    have h2 := quiet_all_arrived hG.ok I.reach hq (quiet_complete hG.ok hf I.reach hq)
    refine leakSum_eq ?_ h2
    have := (reach_inv hG.ok I.reach).app
    rw [hq.2.2.2] at this
    exact (by simpa using this : (applied a.log).Perm (arrived a.log)).trans h2

/-! ### The built-in methods -/

/-- How many views the expansion of a node has. -/
def refViews (k : Expansion) (r : Ref) : ℕ := if r.kind = .parts then 0 else viewCount k (roleOf r)

theorem view_at {U : Ptr → Prop} {vs : Views} {n : ℕ} (h : vs.map Prod.fst = List.range n) (hu : ∀ v ∈ vs, U v.2) {m : ℕ} (hm : m ≤ n) :
    ∀ i < m, ∃ v, vs[i]? = some v ∧ U v.2 := by
  intro i hi
  have hl : vs.length = n := by simpa using congrArg List.length h
  exact ⟨vs[i], List.getElem?_eq_getElem (by omega), hu _ (List.getElem_mem _)⟩

theorem edge_tags {m : Method} {k : Expansion} (hc : Compatible m k) {unif : Nat} {same : Bool} {s t : Fin 8 → Oct} {acts : List Act}
    (hr : Runs (createProg m unif same s t) acts) {e : Edge} (he : e ∈ edgesOf acts) (ho : e.op = .ItoI) :
    edgeTags e ≠ [] ∧ (edgeTags e).length ≤ 3 ∧ ∀ g ∈ edgeTags e, g < 28 := by
  have key : ∀ {k}, Compatible FMM97 k → Runs (createProg FMM97 unif same s t) acts → edgeTags e ≠ [] ∧ (edgeTags e).length ≤ 3 ∧ ∀ g ∈ edgeTags e, g < 28 := by
    intro k _ hr
    obtain ⟨tags, h1, h2, h3, _, h5⟩ := C94_ItoI_tags hr he ho
    simp only [edgeTags, h1, Option.getD_some]
    exact ⟨h2, h3, h5⟩
  cases hc with
  | direct => have := C87_direct_operations hr e he; rw [ho] at this; cases this
  | bh => have := C87_bh_operations hr e he; rw [ho] at this; simp at this
  | fmm => have := C87_fmm_operations hr e he; rw [ho] at this; simp at this
  | fmm97_laplace => exact key .fmm97_laplace hr
  | fmm97_yukawa => exact key .fmm97_yukawa hr
  | fmm97_helmholtz => exact key .fmm97_helmholtz hr

theorem edge_result {m : Method} {k : Expansion} (hc : Compatible m k) {unif : Nat} {same : Bool} {s t : Fin 8 → Oct} {acts : List Act}
    (hr : Runs (createProg m unif same s t) acts) {e : Edge} (he : e ∈ edgesOf acts) (ho : isTgtOp e.op = false) :
    ∃ idx, resultViews k e.op (edgeTags e) = some idx := by
  cases hc with
  | direct => have := C87_direct_operations hr e he; rw [this] at ho; cases ho
  | bh mac k hk =>
    have := C87_bh_operations hr e he
    cases k <;> cases h : e.op <;> simp_all [isTgtOp, resultViews]
  | fmm =>
    have := C87_fmm_operations hr e he
    cases h : e.op <;> simp_all [isTgtOp, resultViews]
  | fmm97_laplace =>
    have := C87_fmm97_operations hr e he
    cases h : e.op <;> simp_all [isTgtOp, resultViews]
  | fmm97_yukawa =>
    have := C87_fmm97_operations hr e he
    cases h : e.op <;> simp_all [isTgtOp, resultViews]
  | fmm97_helmholtz =>
    have := C87_fmm97_operations hr e he
    cases h : e.op <;> simp_all [isTgtOp, resultViews]

theorem evalDag_ok {acts : List Act} (h1 : NoAssertionFails acts) (h2 : Ranked (edgesOf acts)) (op : Edge → V → V) (base : Ref → V) : (evalDag acts op base).Ok :=
  let h := methodDag_ok h1 h2
  ⟨h.nodup, h.srcs, h.dsts, h.starts_sub, h.starts_nodup, h.starts_in, h.acyclic⟩

/-- The views that an operation reads are those that the source has. -/
theorem shape_reads {k : Expansion} {e : Edge} (h : Distro.EdgeShape e) : viewsRead k e.op ≤ refViews k e.src := by
  cases h with
  | cross hs hd ho hk =>
    obtain ⟨o, ⟨sd, ix, kd⟩, ⟨sd', ix', kd'⟩⟩ := e
    dsimp only at hs hd ho hk
    subst hs hd
    simp at hk
    rcases hk with ⟨rfl, rfl, rfl⟩ | ⟨rfl, rfl, rfl⟩ | ⟨rfl, rfl, rfl⟩ | ⟨rfl, rfl, rfl⟩ | ⟨rfl, rfl, rfl⟩ <;> cases k <;> simp [viewsRead, refViews, roleOf, viewCount]
  | _ => cases k <;> simp [viewsRead, refViews, roleOf, viewCount]

theorem shape_fits {k : Expansion} {e : Edge} (h : Distro.EdgeShape e) {idx : List ℕ} (hr : resultViews k e.op (edgeTags e) = some idx) (ht : e.op = .ItoI → ∀ g ∈ edgeTags e, g < 28) :
    ∀ i ∈ idx, i < refViews k e.dst := by
  have key : ∀ tags, resultViews k e.op tags = some idx → (∀ g ∈ tags, g < 28) → ∀ i ∈ idx, i < refViews k e.dst := by
    intro tags hr ht i hi
    have := C94_result_fits k hr ht i hi
    refine lt_of_lt_of_eq this ?_
    cases h with
    | cross hs hd ho hk =>
      obtain ⟨o, ⟨sd, ix, kd⟩, ⟨sd', ix', kd'⟩⟩ := e
      dsimp only at hs hd ho hk
      subst hs hd
      simp at hk
      rcases hk with ⟨rfl, rfl, rfl⟩ | ⟨rfl, rfl, rfl⟩ | ⟨rfl, rfl, rfl⟩ | ⟨rfl, rfl, rfl⟩ | ⟨rfl, rfl, rfl⟩ <;> cases k <;>
        simp_all [refViews, roleOf, resultViews]
    | _ => cases k <;> simp_all [refViews, roleOf, resultViews]
  by_cases ho : e.op = .ItoI
  · exact key _ hr (ht ho)
  · refine key [] ?_ (by simp)
    revert hr
    cases k <;> cases h : e.op <;> simp_all [resultViews]

theorem shape_tgt {e : Edge} (h : Distro.EdgeShape e) : isTgtOp e.op = true ↔ e.dst.kind = .parts := by
  cases h with
  | cross hs hd ho hk =>
    obtain ⟨o, ⟨sd, ix, kd⟩, ⟨sd', ix', kd'⟩⟩ := e
    dsimp only at hs hd ho hk
    subst hs hd
    simp at hk
    rcases hk with ⟨rfl, rfl, rfl⟩ | ⟨rfl, rfl, rfl⟩ | ⟨rfl, rfl, rfl⟩ | ⟨rfl, rfl, rfl⟩ | ⟨rfl, rfl, rfl⟩ <;> simp [isTgtOp]
  | _ => simp [isTgtOp]

theorem shape_dst {e : Edge} (h : Distro.EdgeShape e) (hk : e.dst.kind = .parts) : e.dst.side = .tgt := by
  cases h <;> simp_all

theorem shape_src {e : Edge} (h : Distro.EdgeShape e) (hk : e.src.kind = .parts) : e.src.side = .src := by
  cases h <;> simp_all

theorem leaks_tags {k : Expansion} {z : Sizes} {op : Op} {tags : List ℕ} (h : isTgtOp op = true) : leaks k z op tags = leaks k z op [] := by
  cases k <;> cases op <;> simp_all [isTgtOp, leaks]

theorem evalPlan_good {m : Method} {k : Expansion} (hc : Compatible m k) {unif : Nat} {same : Bool} {s t : Fin 8 → Oct} {acts : List Act}
    (hr : Runs (createProg m unif same s t) acts) (op : Edge → V → V) (base : Ref → V) (z : Edge → Sizes) {out : Ref → List Edge}
    (hout : ∀ r, (out r).Perm ((edgesOf acts).filter fun e => e.src = r)) (rank : Ref → ℕ) (ranks : ℕ) :
    (evalPlan k z out rank ranks).Good (evalDag acts op base) (refViews k) (edgeLeak k z) := by
  have S := hc.builtin.shape hr
  refine ⟨evalDag_ok (hc.builtin.safe hr) S.ranked op base, hout, ?_, ?_, ?_, ?_, ?_, ?_⟩
  · intro e he hn U A
    have hk : e.dst.kind ≠ .parts := fun hk => by
      have : isTgtOp e.op = true := (shape_tgt (S.edge e he)).2 hk
      rw [show isTgtOp e.op = false from hn] at this
      cases this
    have := tri_construct (U := U) (A := A) k (roleOf e.dst)
    show Tri U A (construct k (roleOf e.dst)) _
    rw [show refViews k ((evalDag acts op base).dst e) = viewCount k (roleOf e.dst) from if_neg hk]
    exact this
  · intro e he hn
    obtain ⟨idx, hi⟩ := edge_result hc hr he hn
    refine ⟨idx, shape_fits (S.edge e he) hi fun ho => (edge_tags hc hr he ho).2.2, fun U vs h1 h2 => ?_⟩
    by_cases ho : e.op = .ItoI
    · exact opProg_makes hi (edge_tags hc hr he ho).2.1 (view_at h1 h2 (shape_reads (S.edge e he)))
    · have hm := opProg_makes (U := U) (k := k) (z := z e) (op := e.op) (src := vs) (tags := []) (idx := idx) (by
        revert hi
        cases k <;> cases h : e.op <;> simp_all [resultViews]) (by simp) (view_at h1 h2 (shape_reads (S.edge e he)))
      have e1 : opProg k (z e) e.op vs (edgeTags e) = opProg k (z e) e.op vs [] := by
        cases k <;> cases h : e.op <;> simp_all [opProg]
      have e2 : edgeLeak k z e = leaks k (z e) e.op [] := by
        unfold edgeLeak
        cases k <;> cases h : e.op <;> simp_all [leaks]
      show Makes U idx (edgeLeak k z e) (opProg k (z e) e.op vs (edgeTags e))
      rw [e1, e2]
      exact hm
  · intro e he hn U A vs h1 h2
    show Loses U A (edgeLeak k z e) (tgtProg k (z e) e.op vs)
    rw [edgeLeak, leaks_tags hn]
    refine tgtProg_loses (view_at h1 h2 (shape_reads (S.edge e he))) ?_
    have hn : isTgtOp e.op = true := hn
    cases h : e.op <;> simp_all [isTgtOp]
  · intro r hr
    have := (List.mem_filter.1 hr).2
    simp only [decide_eq_true_eq] at this
    exact if_pos this.2
  · intro e he e' he' hd
    have h1 := shape_tgt (S.edge e he)
    have h2 := shape_tgt (S.edge e' he')
    have hd : e.dst = e'.dst := hd
    rw [hd, ← h2] at h1
    show isTgtOp e.op = isTgtOp e'.op
    revert h1
    cases isTgtOp e.op <;> cases isTgtOp e'.op <;> simp
  · intro e he hn
    have hk := (shape_tgt (S.edge e he)).1 hn
    have hs := shape_dst (S.edge e he) hk
    show (edgesOf acts).filter (fun x => x.src = e.dst) = []
    rw [List.filter_eq_nil_iff]
    intro x hx hxe
    simp only [decide_eq_true_eq] at hxe
    have := shape_src (S.edge x hx) (by rw [hxe]; exact hk)
    rw [hxe, hs] at this
    cases this

end Dashmm.ExpMem
