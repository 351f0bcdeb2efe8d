import Verif.Proofs.ReadBack
import Verif.Props.Array
import Verif.Props.RankTree
import Verif.Spec.ReadBack
/-!
# What the user reads back (C82)

After an evaluation the array of targets holds each target once, in another order and on other ranks, with the result in it.
-/
namespace Dashmm

open Lap Ev ExecState Build Branch RankTree ReadBack
open Grid (InDomain InBoxOf)

section
variable {K : Type} [Field K] [LinearOrder K] [IsStrictOrderedRing K] [FloorRing K] {R V : Type} {E : Env K R} {C : Cfg R} {P : List R}

omit [Field K] [LinearOrder K] [IsStrictOrderedRing K] [FloorRing K] in
/-- There is such a numbering. -/
theorem exists_numbers (C : Cfg R) : ∃ path, Numbers C path := by
  classical
  have hlt : ∀ q, Oct8 q → q.length = C.unif → cellOf C.unif q < 8 ^ C.unif := by
    intro q hq hl
    have := topAddr_lt (r := 0) (u := C.unif) q hq (by omega)
    rw [topAddr_full hl] at this
    omega
  have hinj : ∀ q q', Oct8 q → Oct8 q' → q.length = C.unif → q'.length = C.unif → cellOf C.unif q = cellOf C.unif q' → q = q' := by
    intro q q' hq hq' hl hl' e
    apply topAddr_inj (r := 0) (u := C.unif) q q' hq hq' (by omega) (by omega)
    rw [topAddr_full hl, topAddr_full hl', e]
  have hnd : ((allPaths C.unif).map (cellOf C.unif)).Nodup := by
    refine (allPaths_nodup C.unif).map_on fun q hq q' hq' e => ?_
    obtain ⟨h1, h2⟩ := mem_allPaths.1 hq
    obtain ⟨h3, h4⟩ := mem_allPaths.1 hq'
    exact hinj q q' h1 h3 h2 h4 e
  have hlen : ∀ n, (allPaths n).length = 8 ^ n := by
    intro n
    induction n with
    | zero => rfl
    | succ n ih => simp [allPaths, List.length_flatMap, ih, pow_succ]; ring
  have hsub : ((allPaths C.unif).map (cellOf C.unif)) ⊆ List.range (8 ^ C.unif) := by
    intro c hc
    obtain ⟨q, hq, rfl⟩ := List.mem_map.1 hc
    obtain ⟨h1, h2⟩ := mem_allPaths.1 hq
    exact List.mem_range.2 (hlt q h1 h2)
  have hperm : ((allPaths C.unif).map (cellOf C.unif)).Perm (List.range (8 ^ C.unif)) :=
    (List.subperm_of_subset hnd hsub).perm_of_length_le (by simp [hlen])
  have : ∀ c, ∃ q, c < 8 ^ C.unif → C.IsCell q ∧ cellOf C.unif q = c := by
    intro c
    by_cases hc : c < 8 ^ C.unif
    · obtain ⟨q, hq, he⟩ := List.mem_map.1 (hperm.mem_iff.2 (List.mem_range.2 hc))
      exact ⟨q, fun _ => ⟨mem_allPaths.1 hq, he⟩⟩
    · exact ⟨[], fun h => absurd h hc⟩
  choose path hpath using this
  exact ⟨path, hpath⟩

variable (hd : 0 < E.dom.size) (hu : 1 ≤ C.unif) (hin : ∀ x ∈ P, InDomain E.dom (E.pos x)) (harr : Arrived E C P) {n : Nat} {w : World R}
  (hr : Reach E C n w) {hold : Index → List R} (hH : HoldsAt C w hold) {rs : List Ref} (hp : (rs.flatMap fun r => hold r.ix).Perm P)
include hd hu hin harr hr hH hp

/-- **C82** Each place in the array of a cell belongs to exactly one LCO with results, if the nodes with results hold each record once (C79): no two LCOs
work on the same record, and none is left out. -/
theorem C82_once (acc : Ref → Nat → V) {q : List Nat} (hq : C.IsCell q) {j : Nat} (hj : j < (w.cell q).mem.length) :
    ((cellResults rs acc (w.cell q)).filter fun e => e.1.off ≤ j ∧ j < e.1.off + e.1.n).length = 1 := by
  classical
  obtain ⟨x, hx⟩ : ∃ x, (w.cell q).mem[j]? = some x := ⟨_, List.getElem?_eq_getElem hj⟩
  have hxP : x ∈ P := (List.mem_filter.1 ((cell_perm hd hu hin harr hr hq).mem_iff.1 (List.mem_of_getElem? hx))).1
  have hbox := arrived_box hd hin harr
  have hW := inv_reach hd hu hbox hr
  have hnd : ((w.cell q).nodes.map Cell.idx).Nodup := by
    by_cases hm : C.mem q = []
    · rw [hW.idle q hq hm]; simp [State.nodes]
    · obtain ⟨m, hm'⟩ := hW.run q hq hm
      exact (inv_steps hd (inv_start (List.length_pos_iff.2 hm) (hbox q hq)) hm').nodup
  rw [← one_node hd hu hin harr hr hH hp hxP]
  unfold cellResults
  rw [List.filter_flatMap, List.length_flatMap, ← Nat.one_mul (List.countP _ _), ← sum_ite_count]
  congr 1
  refine List.map_congr_left fun r _ => ?_
  rw [List.filter_map, List.length_map, List.filter_filter]
  by_cases hxr : x ∈ hold r.ix
  · rw [if_pos hxr]
    obtain ⟨v, hv, he, h1, h2⟩ := place_in hd hu hin harr hr hH hq hx hxr
    have hone : ∀ u ∈ (w.cell q).nodes, u.idx = r.ix → u = v := fun u hu' hue => by
      exact List.inj_on_of_nodup_map hnd hu' hv (hue.trans he.symm)
    have : (w.cell q).nodes.filter (fun a => (((fun e : Cell × (Nat → V) => decide (e.1.off ≤ j ∧ j < e.1.off + e.1.n)) ∘ fun v => (v, acc r)) a &&
        decide (a.idx = r.ix))) = (w.cell q).nodes.filter fun a => decide (a = v) := by
      refine List.filter_congr fun u hu' => ?_
      rw [Bool.eq_iff_iff]
      simp only [Function.comp, Bool.and_eq_true, decide_eq_true_eq]
      constructor
      · rintro ⟨-, h⟩; exact hone u hu' h
      · rintro rfl; exact ⟨⟨h1, h2⟩, he⟩
    rw [this, ← List.countP_eq_length_filter]
    have h3 : (w.cell q).nodes.count v = 1 := List.count_eq_one_of_mem (List.Nodup.of_map _ hnd) hv
    rw [← h3, List.count_eq_countP]
    rfl
  · rw [if_neg hxr, List.length_eq_zero_iff, List.filter_eq_nil_iff]
    intro u hu' h
    simp only [Function.comp, Bool.and_eq_true, decide_eq_true_eq] at h
    have := place_hold hd hu hin harr hr hH hq hx hu' h.1.1 h.1.2
    rw [h.2] at this
    exact hxr (List.mem_of_getElem? this)

/-- **C82** What the arrays of all the ranks hold after the evaluation: each record once, with a value that the LCO of its node has for it. -/
theorem C82_arrays {path : Nat → List Nat} (hpath : Numbers C path) (howner : ∀ q, C.IsCell q → C.owner q < C.ranks) (old : R → V) (acc : Ref → Nat → V) :
    (((List.range C.ranks).flatMap (rankArray C path old rs acc w)).map Prod.fst).Perm P ∧
    ∀ y ∈ (List.range C.ranks).flatMap (rankArray C path old rs acc w), ∃ r ∈ rs, ∃ i, (hold r.ix)[i]? = some y.1 ∧ y.2 = acc r i := by
  constructor
  · rw [List.map_flatMap]
    have e : ∀ k, (rankArray C path old rs acc w k).map Prod.fst =
        ((List.range (8 ^ C.unif)).filter fun c => C.owner (path c) = k).flatMap fun c => (w.cell (path c)).mem := by
      intro k
      unfold rankArray
      rw [List.map_flatMap]
      simp only [cellAfter_fst]
    simp only [e]
    rw [← List.flatMap_assoc]
    have h1 : ((List.range C.ranks).flatMap fun k => (List.range (8 ^ C.unif)).filter fun c => C.owner (path c) = k).Perm (List.range (8 ^ C.unif)) :=
      perm_filters (List.range C.ranks) (List.range (8 ^ C.unif)) (fun k c => C.owner (path c) = k) List.nodup_range fun c hc =>
        ⟨C.owner (path c), List.mem_range.2 (howner _ (hpath c (List.mem_range.1 hc)).1), rfl, fun k _ hk => hk.symm⟩
    refine (h1.flatMap_right _).trans ?_
    have h2 : ((List.range (8 ^ C.unif)).flatMap fun c => (w.cell (path c)).mem).Perm
        ((List.range (8 ^ C.unif)).flatMap fun c => P.filter fun x => Grid.gidOf E.dom C.unif (E.pos x) = c) := by
      refine List.Perm.flatMap_left _ fun c hc => ?_
      have := hpath c (List.mem_range.1 hc)
      have h := cell_perm hd hu hin harr hr this.1
      rw [this.2] at h
      exact h
    refine h2.trans (perm_filters (List.range (8 ^ C.unif)) P (fun c x => Grid.gidOf E.dom C.unif (E.pos x) = c) List.nodup_range fun x hx =>
      ⟨_, List.mem_range.2 ?_, rfl, fun c _ h => h.symm⟩)
    obtain ⟨i, hi, ⟨a, b, c⟩, he⟩ := Grid.gidOf_spec hd C.unif (hin x hx)
    rw [he, ← Hilbert.cube_eq]
    rw [hi] at a b c
    exact Grid.simpleKey_lt a.1 b.1 c.1
  · intro y hy
    obtain ⟨k, -, hy⟩ := List.mem_flatMap.1 hy
    obtain ⟨c, hc, hy⟩ := List.mem_flatMap.1 hy
    have hq := (hpath c (List.mem_range.1 (List.mem_filter.1 hc).1)).1
    obtain ⟨j, hj⟩ := List.mem_iff_getElem?.1 hy
    have hx : (w.cell (path c)).mem[j]? = some y.1 := by
      rw [← cellAfter_fst old rs acc (w.cell (path c)), List.getElem?_map, hj]; rfl
    have hlt : j < (w.cell (path c)).mem.length := by
      by_contra h
      rw [List.getElem?_eq_none (by omega)] at hx
      exact absurd hx (by simp)
    obtain ⟨y', h1, h2⟩ := write_get (cellResults rs acc (w.cell (path c))) ((w.cell (path c)).mem.map fun x => (x, old x)) j y.1 (old y.1) (by simp [hx])
    have hy' : y = (y.1, y') := by
      have : (cellAfter old rs acc (w.cell (path c)))[j]? = some (y.1, y') := h1
      rw [hj] at this
      exact Option.some_injective _ this
    rcases h2 with ⟨e, he, h3, h4, h5⟩ | ⟨h3, -⟩
    · unfold cellResults at he
      obtain ⟨r, hrr, he⟩ := List.mem_flatMap.1 he
      obtain ⟨v, hv, rfl⟩ := List.mem_map.1 he
      obtain ⟨hv1, hv2⟩ := List.mem_filter.1 hv
      have hv2 : v.idx = r.ix := by simpa using hv2
      refine ⟨r, hrr, j - v.off, ?_, ?_⟩
      · rw [← hv2]
        exact place_hold hd hu hin harr hr hH hq hx hv1 h3 h4
      · rw [hy']; exact h5
    · exfalso
      have h0 := C82_once hd hu hin harr hr hH hp acc hq hlt
      rw [List.filter_eq_nil_iff.2 fun e he hc => h3 e he (by simpa using hc)] at h0
      simp at h0

/-- **C82** And what the user gets with `collect`: each record once, with a value that the LCO of its node has for it. -/
theorem C82_collect {F : Type} {path : Nat → List Nat} (hpath : Numbers C path) (howner : ∀ q, C.IsCell q → C.owner q < C.ranks) {old : R → V} {acc : Ref → Nat → V}
    {view : F → R × V} {recs : Fin C.ranks → List F} (ha : Afterwards C path old rs acc w view recs)
    {ser : Arr.Serializer F} (hser : ser.Ok) {l : Fin C.ranks → Arr.Local F} {mem : List F} (hc : Collected ser l recs mem) :
    (mem.map fun y => (view y).1).Perm P ∧ ∀ y ∈ mem, ∃ r ∈ rs, ∃ i, (hold r.ix)[i]? = some (view y).1 ∧ (view y).2 = acc r i := by
  have hG := C82_arrays hd hu hin harr hr hH hp hpath howner old acc
  have hflat : (((List.finRange C.ranks).map recs).flatten).map view = (List.range C.ranks).flatMap (rankArray C path old rs acc w) := by
    have : (List.finRange C.ranks).map (fun r : Fin C.ranks => (r : Nat)) = List.range C.ranks := List.map_coe_finRange_eq_range
    rw [← this, List.flatMap_def, List.map_map, List.map_flatten, List.map_map]
    congr 1
    exact List.map_congr_left fun r _ => ha r
  obtain ⟨mem0, c, hlen, hreach, hdone, rfl⟩ := hc
  have := C13_collect hser (recs := recs) (fun r => by
    unfold Arr.Holds replace
    refine ⟨rfl, ?_⟩
    by_cases h : (recs r).length = 0
    · exact .inr ⟨by simp [h], List.length_eq_zero_iff.1 h⟩
    · exact .inl (by simp only; rw [if_neg h])) (by rw [hlen, Arr.sum_finRange]; rfl) hreach hdone
  rw [← this] at hflat
  rw [← hflat, List.map_map] at hG
  exact ⟨hG.1, fun y hy => hG.2 (view y) (List.mem_map.2 ⟨y, hy, rfl⟩)⟩

end

/-! ### Evaluations -/

/-- Records seen through `f`. -/
theorem Built.map {K : Type} [Field K] [LinearOrder K] {R R' : Type} {E : Env K R} {E' : Env K R'} {unif : Nat} {P : List R} {s : Fin 8 → Oct} {hold : Index → List R}
    (h : Built E unif P s hold) (f : R → R') (hpos : ∀ x, E'.pos (f x) = E.pos x) (hdom : E'.dom = E.dom) (hth : E'.threshold = E.threshold) :
    Built E' unif (P.map f) s fun i => (hold i).map f := by
  have hbox : ∀ i, inBox E' i (P.map f) = (inBox E i P).map f := by
    intro i
    unfold inBox
    rw [List.filter_map, hdom]
    congr 1
    refine List.filter_congr fun x _ => ?_
    simp only [Function.comp, decide_eq_decide, hpos]
  refine ⟨?_, fun p m hm hl => ?_, fun i hi => ?_, fun i hi => ?_⟩
  · have := h.tree
    simp only [hbox, List.length_map, hth]
    exact this
  · rw [hbox]; exact (h.slices p m hm hl).map f
  · simp [h.top i hi]
  · simp [h.other i hi]

/-- The result nodes hold each record once. -/
theorem results_perm {K : Type} [Field K] [LinearOrder K] [IsStrictOrderedRing K] [FloorRing K] {R : Type} {E : Env K R} {unif : Nat} {P : List R} {t : Fin 8 → Oct} {hold : Index → List R}
    (hB : Built E unif P t hold) (hd : 0 < E.dom.size) (hin : ∀ x ∈ P, InDomain E.dom (E.pos x)) {m : Method}
    (hm : m = Direct ∨ (∃ mac, m = BH mac) ∨ m = FMM ∨ m = FMM97) {same : Bool} {s : Fin 8 → Oct} {acts : List Act}
    (hr : Runs (createProg m unif same s t) acts) : ((resultNodes acts).flatMap fun r => hold r.ix).Perm P := by
  have hin' : ∀ x ∈ P, InBoxOf E.dom Index.root (E.pos x) := fun x hx => root_box (hin x hx)
  rcases hm with rfl | ⟨mac, rfl⟩ | rfl | rfl
  · exact hB.parts_perm hd hin' (fun n p c r h => by have := (Direct_visit_add unif same n p c r).1 h; simp [this.1])
      (fun n p c => by rw [Act.addParts, Direct_visit_add unif same n p c]; simp) (fun n r h => (Direct_src_act n _ h).add_side r rfl) hr (Direct_safe hr).1
  · exact hB.parts_perm hd hin' (fun n p c r h => by have := (BH_visit_add mac unif same n p c r).1 h; simp [this.1])
      (fun n p c => by rw [Act.addParts, BH_visit_add mac unif same n p c]; simp) (fun n r h => (BH_src_act mac n _ h).add_side r rfl) hr (BH_safe mac hr).1
  · exact hB.parts_perm hd hin' (FMM_visit_add unif same) (FMM_visit_parts unif same) (fun n r h => (FMM_src_act n _ h).add_side r rfl) hr (FMM_safe hr).1
  · exact hB.parts_perm hd hin' (FMM97_visit_add unif same) (FMM97_visit_parts unif same) (fun n r h => (FMM97_src_act n _ h).add_side r rfl) hr (FMM97_safe hr).1

section
variable {R F : Type} {E : Env ℝ R} {C : Cfg R} {T : List R} {n : Nat} {w : World R} {hold : Index → List R} {tgt : R → Tgt} {path : Nat → List Nat}
  {acts : List Act} {acc : Ref → LapVal} {ser : Arr.Serializer F} {l : Fin C.ranks → Arr.Local F} {mem : List F} {view : F → R × WithTop ℝ}
  {recs : Fin C.ranks → List F}

/-- **C82** If the evaluation is right in the nodes of the tree (C79, C80), then so is what the user collects from the array of targets afterwards. -/
theorem C82_answered (hd : 0 < E.dom.size) (hu : 1 ≤ C.unif) (hin : ∀ x ∈ T, InDomain E.dom (E.pos x)) (harr : Arrived E C T) (hr : Reach E C n w) (hH : HoldsAt C w hold)
    {P : List Src} {ε : ℝ} (hC : Correct acts acc (fun i => (hold i).map tgt) P (T.map tgt) ε) (hp : ((resultNodes acts).flatMap fun r => hold r.ix).Perm T)
    (hpath : Numbers C path) (howner : ∀ q, C.IsCell q → C.owner q < C.ranks) (ha : AfterLap C path tgt acts acc w view recs) (hser : ser.Ok)
    (hc : Collected ser l recs mem) : Answered tgt P T ε (mem.map view) := by
  obtain ⟨h1, h2⟩ := C82_collect hd hu hin harr hr hH hp hpath howner ha hser hc
  refine ⟨by rw [List.map_map]; exact h1, fun y hy => ?_⟩
  obtain ⟨z, hz, rfl⟩ := List.mem_map.1 hy
  obtain ⟨r, hrr, i, hi, hv⟩ := h2 z hz
  obtain ⟨v, hv', hb⟩ := hC.2 r hrr i (tgt (view z).1) (by simp [hi])
  exact ⟨v, by rw [hv, hv'], hb⟩

end

/-- **C82** From the arrays of the user to what is collected from them: the ranks have sources and targets; they agree on a domain, the cells get their records, both trees are
constructed by all ranks together, and the DAG is discovered and executed, all in any order. When the execution is done, a `collect` of the array of targets
that returns gives each target once, with its potential due to all the sources added, exactly (Direct) or up to the bound on the error of the method. -/
theorem C82_evaluation {A B F : Type} {src : A → Src} {tgt : B → Tgt} {ranks : List (List A × List B)} {dom : Domain ℝ}
    (hI : Input false (ranks.map fun r => (r.1.map src, r.2.map tgt)) dom) {threshold p : ℕ}
    {Es : Env ℝ A} (hEs : Es = ⟨fun x => (src x).pos, dom, threshold, false⟩) {Et : Env ℝ B} (hEt : Et = ⟨fun x => (tgt x).pos, dom, threshold, false⟩)
    {Cs : Cfg A} {Ct : Cfg B} (hu : 1 ≤ Cs.unif) (hut : Ct.unif = Cs.unif)
    (has : Arrived Es Cs (ranks.flatMap Prod.fst)) (hat : Arrived Et Ct (ranks.flatMap Prod.snd))
    {ns nt : Nat} {ws : World A} {wt : World B} (hs : Reach Es Cs ns ws) (ht : Reach Et Ct nt wt)
    (hready : ∃ k, Ready Cs ws k) (hready' : ∃ k, Ready Ct wt k) {path : Nat → List Nat} (hpath : Numbers Ct path) (howner : ∀ q, Ct.IsCell q → Ct.owner q < Ct.ranks)
    {ser : Arr.Serializer F} (hser : ser.Ok) :
    ∃ s t holds holdt, HoldsAt Cs ws holds ∧ HoldsAt Ct wt holdt ∧
      Built Es Cs.unif (ranks.flatMap Prod.fst) s holds ∧ Built Et Cs.unif (ranks.flatMap Prod.snd) t holdt ∧
      (∀ k, Ready Cs ws k → ∃ H', pruneTopnodes (Cs.root k) Cs.unif (fun _ => 0) (countsOf Es Cs.unif (ranks.flatMap Prod.fst))
        (ws.heap k) = some H' ∧ Copy H' (Cs.root k) ⟨Index.root, s⟩) ∧
      (∀ k, Ready Ct wt k → ∃ H', pruneTopnodes (Ct.root k) Cs.unif (fun _ => 0) (countsOf Et Cs.unif (ranks.flatMap Prod.snd))
        (wt.heap k) = some H' ∧ Copy H' (Ct.root k) ⟨Index.root, t⟩) ∧
      ∀ D, (∃ rule, D = LapData.ofTrees dom p rule (fun i => (holds i).map src) fun i => (holdt i).map tgt) →
      ∀ (m : Method) (acts : List Act), Runs (createProg m Cs.unif false s t) acts →
      ∀ (loc : Ref → Nat) (n k : Nat) (S : Sys Ref Edge LapVal), Sys.Steps (lapDag D acts) loc n k S → (∀ r ∈ (lapDag D acts).watched, loc r < n) → (∀ k < n, S.Done k) →
      ∀ (view : F → B × WithTop ℝ) (recs : Fin Ct.ranks → List F), AfterLap Ct path tgt acts S.ex.acc wt view recs →
      ∀ l mem, Collected ser l recs mem →
        (m = Direct → Answered tgt ((ranks.flatMap Prod.fst).map src) (ranks.flatMap Prod.snd) 0 (mem.map view)) ∧
        (D.Clear acts →
          (m = FMM → Answered tgt ((ranks.flatMap Prod.fst).map src) (ranks.flatMap Prod.snd) (fmmEps p) (mem.map view)) ∧
          (m = FMM97 → D.rule.Even → ∀ ε, D.rule.Accurate p ε →
            Answered tgt ((ranks.flatMap Prod.fst).map src) (ranks.flatMap Prod.snd) (max (fmmEps p) ε) (mem.map view))) := by
  obtain ⟨hd, hP, hT⟩ := hI.dom
  have e1 : (ranks.map fun r => (r.1.map src, r.2.map tgt)).flatMap Prod.fst = (ranks.flatMap Prod.fst).map src := by
    rw [List.flatMap_map, List.map_flatMap]
  have e2 : (ranks.map fun r => (r.1.map src, r.2.map tgt)).flatMap Prod.snd = (ranks.flatMap Prod.snd).map tgt := by
    rw [List.flatMap_map, List.map_flatMap]
  rw [e1] at hP
  rw [e2] at hT
  subst hEs hEt
  have hu' : 1 ≤ Ct.unif := by rw [hut]; exact hu
  have hP' : ∀ x ∈ ranks.flatMap Prod.fst, InDomain dom (src x).pos := fun x hx => hP _ (List.mem_map.2 ⟨x, hx, rfl⟩)
  have hT' : ∀ x ∈ ranks.flatMap Prod.snd, InDomain dom (tgt x).pos := fun x hx => hT _ (List.mem_map.2 ⟨x, hx, rfl⟩)
  obtain ⟨holds, hHs⟩ := C80_hold rfl hd hu hP' has hs hready
  obtain ⟨holdt, hHt⟩ := C80_hold rfl hd hu' hT' hat ht hready'
  obtain ⟨s, hBs, h1⟩ := C80_one_tree rfl hd hu hP' has hs hHs hready
  obtain ⟨t, hBt, h2⟩ := C80_one_tree rfl hd hu' hT' hat ht hHt hready'
  rw [hut] at hBt h2
  refine ⟨s, t, holds, holdt, hHs, hHt, hBs, hBt, fun k hk => h1 k hk _ fun _ _ _ => rfl, fun k hk => h2 k hk _ fun _ _ _ => rfl, ?_⟩
  rintro D ⟨rule, rfl⟩ m acts hr loc n k S hS hl hD view recs ha l mem hc
  have hBs' := hBs.map (E' := srcEnv dom threshold) src (fun x => rfl) rfl rfl
  have hBt' := hBt.map (E' := tgtEnv dom threshold) tgt (fun x => rfl) rfl rfl
  have key : ∀ {ε : ℝ}, (m = Direct ∨ (∃ mac, m = BH mac) ∨ m = FMM ∨ m = FMM97) →
      Correct acts S.ex.acc (fun i => (holdt i).map tgt) ((ranks.flatMap Prod.fst).map src) ((ranks.flatMap Prod.snd).map tgt) ε →
      Answered tgt ((ranks.flatMap Prod.fst).map src) (ranks.flatMap Prod.snd) ε (mem.map view) := fun hm hC =>
    C82_answered hd hu' hT' hat ht hHt hC (results_perm hBt hd hT' hm hr) hpath howner ha hser hc
  refine ⟨?_, fun hcl => ⟨?_, ?_⟩⟩
  · rintro rfl
    exact key (.inl rfl) (C79_direct hd hBs' hBt' hP hT hS hl hD hr)
  · rintro rfl
    exact key (.inr (.inr (.inl rfl))) (C79_fmm hd hBs' hBt' hP hT hS hl hD hr hcl)
  · rintro rfl hE ε hA
    exact key (.inr (.inr (.inr rfl))) (C79_fmm97 hd hBs' hBt' hP hT hS hl hD hr hcl hE hA)

/-- **C82** The same if the targets are the sources (one array; `src` and `tgt` are what sources and targets use of a record). The target tree is constructed on the arrays
as the source tree left them. -/
theorem C82_same {R F : Type} {src : R → Src} {tgt : R → Tgt} (hpos : ∀ x, (tgt x).pos = (src x).pos) {ranks : List (List R)} {dom : Domain ℝ}
    (hI : Input true (ranks.map fun r => (r.map src, r.map tgt)) dom) {threshold p : ℕ}
    {E : Env ℝ R} (hE : E = ⟨fun x => (src x).pos, dom, threshold, false⟩)
    {C C' : Cfg R} (hu : 1 ≤ C.unif) (harr : Arrived E C ranks.flatten) {ns nt : Nat} {w w' : World R} (hs : Reach E C ns w) (hT : TargetOf C w C')
    (ht : Reach { E with same := true } C' nt w')
    (hready : ∃ k, Ready C w k) (hready' : ∃ k, Ready C' w' k) {path : Nat → List Nat} (hpath : Numbers C' path) (howner : ∀ q, C'.IsCell q → C'.owner q < C'.ranks)
    {ser : Arr.Serializer F} (hser : ser.Ok) {hold hold' : Index → List R} (hH : HoldsAt C w hold) (hH' : HoldsAt C' w' hold') :
    ∃ s, Built E C.unif ranks.flatten s hold ∧ Built E C.unif ranks.flatten s hold' ∧
      ∀ D, (∃ rule, D = LapData.ofTrees dom p rule (fun i => (hold i).map src) fun i => (hold' i).map tgt) →
      ∀ (m : Method) (acts : List Act), Runs (createProg m C.unif true s s) acts →
      ∀ (loc : Ref → Nat) (n k : Nat) (S : Sys Ref Edge LapVal), Sys.Steps (lapDag D acts) loc n k S → (∀ r ∈ (lapDag D acts).watched, loc r < n) → (∀ k < n, S.Done k) →
      ∀ (view : F → R × WithTop ℝ) (recs : Fin C'.ranks → List F), AfterLap C' path tgt acts S.ex.acc w' view recs →
      ∀ l mem, Collected ser l recs mem →
        (m = Direct → Answered tgt (ranks.flatten.map src) ranks.flatten 0 (mem.map view)) ∧
        (D.Clear acts →
          (m = FMM → Answered tgt (ranks.flatten.map src) ranks.flatten (fmmEps p) (mem.map view)) ∧
          (m = FMM97 → D.rule.Even → ∀ ε, D.rule.Accurate p ε → Answered tgt (ranks.flatten.map src) ranks.flatten (max (fmmEps p) ε) (mem.map view))) := by
  subst hE
  obtain ⟨hd, hP, -⟩ := hI.dom
  have e1 : (ranks.map fun r => (r.map src, r.map tgt)).flatMap Prod.fst = ranks.flatten.map src := by
    rw [List.flatMap_map, List.map_flatten, List.flatMap_def]
  rw [e1] at hP
  have hin : ∀ x ∈ ranks.flatten, InDomain dom (src x).pos := fun x hx => hP _ (List.mem_map.2 ⟨x, hx, rfl⟩)
  obtain ⟨s, hB, hB', -⟩ := C80_same_trees rfl hd hu hin harr hs hT ht hH hH' hready hready'
  refine ⟨s, hB, hB', ?_⟩
  rintro D ⟨rule, rfl⟩ m acts hr loc n k S hS hl hD view recs ha l mem hc
  have hBs := hB.map (E' := srcEnv dom threshold) src (fun x => rfl) rfl rfl
  have hBt := hB'.map (E' := tgtEnv dom threshold) tgt hpos rfl rfl
  have hP' : ∀ x ∈ ranks.flatten.map tgt, InDomain dom x.pos := fun x hx => by
    obtain ⟨y, hy, rfl⟩ := List.mem_map.1 hx; rw [hpos]; exact hin y hy
  have key : ∀ {ε : ℝ}, (m = Direct ∨ (∃ mac, m = BH mac) ∨ m = FMM ∨ m = FMM97) →
      Correct acts S.ex.acc (fun i => (hold' i).map tgt) (ranks.flatten.map src) (ranks.flatten.map tgt) ε →
      Answered tgt (ranks.flatten.map src) ranks.flatten ε (mem.map view) := by
    intro ε hm hC
    have hu' : 1 ≤ C'.unif := by rw [hT.unif]; exact hu
    exact C82_answered hd hu' hin (target_arrived hd hu hin harr hs hT).1 ht hH' hC (results_perm hB' hd hin hm hr) hpath howner ha hser hc
  refine ⟨?_, fun hcl => ⟨?_, ?_⟩⟩
  · rintro rfl
    exact key (.inl rfl) (C79_direct hd hBs hBt hP hP' hS hl hD hr)
  · rintro rfl
    exact key (.inr (.inr (.inl rfl))) (C79_fmm hd hBs hBt hP hP' hS hl hD hr hcl)
  · rintro rfl hE ε hA
    exact key (.inr (.inr (.inr rfl))) (C79_fmm97 hd hBs hBt hP hP' hS hl hD hr hcl hE hA)

/-! ### There is such an array, and such a collect -/

/-- Numbers, in unary. -/
def natSerializer : Arr.Serializer Nat where
  size n := n + 1
  serialize n := List.replicate n 1 ++ [0]
  deserialize b := match b.dropWhile (· = 1) with
    | [] => none
    | _ :: rest => some ((b.takeWhile (· = 1)).length, rest)

theorem natSerializer_ok : natSerializer.Ok where
  size_eq n := by simp [natSerializer]
  roundtrip n rest := by
    have h1 : ∀ (n : Nat), (List.replicate n (1 : Byte) ++ [0] ++ rest).dropWhile (· = 1) = 0 :: rest := by
      intro n; induction n with
      | zero => simp
      | succ n ih => simpa [List.replicate_succ] using ih
    have h2 : ∀ (n : Nat), ((List.replicate n (1 : Byte) ++ [0] ++ rest).takeWhile (· = 1)).length = n := by
      intro n; induction n with
      | zero => simp
      | succ n ih => simpa [List.replicate_succ] using ih
    simp only [natSerializer, h1, h2]

/-- Whatever is to be in the arrays of the ranks, there is a way to store it. -/
theorem exists_view {X : Type} [Nonempty X] {n : Nat} (L : Fin n → List X) : ∃ (view : Nat → X) (recs : Fin n → List Nat), ∀ r, (recs r).map view = L r := by
  classical
  set flat := ((List.finRange n).map L).flatten with hf
  refine ⟨fun k => flat.getD k (Classical.arbitrary X), fun r => (L r).map (flat.idxOf ·), fun r => ?_⟩
  rw [List.map_map]
  conv_rhs => rw [← List.map_id (L r)]
  refine List.map_congr_left fun x hx => ?_
  have hm : x ∈ flat := List.mem_flatten.2 ⟨L r, List.mem_map.2 ⟨r, List.mem_finRange r, rfl⟩, hx⟩
  simp [List.getD_eq_getElem?_getD, List.getElem?_eq_getElem (List.idxOf_lt_length_of_mem hm)]

/-- And a collect that returns. -/
theorem exists_collected {F : Type} [Inhabited F] {n : Nat} {ser : Arr.Serializer F} (hser : ser.Ok) (l : Fin n → Arr.Local F) (recs : Fin n → List F) : ∃ mem, Collected ser l recs mem := by
  have hl : ∀ r, Arr.Holds (replace (l r) (recs r)) (recs r) := fun r => by
    unfold Arr.Holds replace
    refine ⟨rfl, ?_⟩
    by_cases h : (recs r).length = 0
    · exact .inr ⟨by simp [h], List.length_eq_zero_iff.1 h⟩
    · exact .inl (by simp only; rw [if_neg h])
  set N := ((List.finRange n).map fun r => (recs r).length).sum with hN
  have hm : (List.replicate N (default : F)).length = ∑ r, (replace (l r) (recs r)).localCount := by
    rw [List.length_replicate, hN, Arr.sum_finRange]; rfl
  obtain ⟨B, hB⟩ := C13_collect_terminates hser hl hm (.start)
  by_contra hcon
  push Not at hcon
  have hstep : ∀ c, ∃ c', Arr.CReach ser (fun r => replace (l r) (recs r)) (List.replicate N default) c →
      Arr.CStep ser (fun r => replace (l r) (recs r)) c c' := by
    intro c
    by_cases hc : Arr.CReach ser (fun r => replace (l r) (recs r)) (List.replicate N default) c
    · obtain ⟨h1, h2⟩ := C13_collect_progress hser hl hm hc
      have : c.done ≠ n := fun h => hcon c.mem ⟨_, c, by rw [List.length_replicate], hc, h, rfl⟩
      obtain ⟨c', hc'⟩ := h2 (by omega)
      exact ⟨c', fun _ => hc'⟩
    · exact ⟨c, fun h => absurd h hc⟩
  choose next hnext using hstep
  set f : Nat → Arr.CState F n := fun k => next^[k] (Arr.collectStart (fun r => replace (l r) (recs r)) (List.replicate N default)) with hf
  have hr : ∀ k, Arr.CReach ser (fun r => replace (l r) (recs r)) (List.replicate N default) (f k) := by
    intro k; induction k with
    | zero => exact .start
    | succ k ih => rw [hf]; simp only [Function.iterate_succ_apply']; exact .step ih (hnext _ ih)
  have := hB f rfl (B + 1) fun i _ => by
    have := hnext _ (hr i)
    rw [hf] at this ⊢
    simp only [Function.iterate_succ_apply']
    exact this
  omega

/-- C82: the example of C80, up to the records that the user reads back. -/
example (p : ℕ) : ∃ out : List (Tgt × WithTop ℝ), Answered id exSrc exTgt (fmmEps p) out := by
  have h0 := exInput.dom
  have hs : ∀ x ∈ exSrc, (atPlace (srcEnv ⟨⟨0, 0, 0⟩, 16⟩ 1) x exSrc).length ≤ 1 := by
    intro x hx
    simp only [exSrc, List.mem_cons, List.not_mem_nil, or_false] at hx
    rcases hx with rfl | rfl <;> norm_num [atPlace, exSrc, srcEnv, List.filter_cons]
  have ht : ∀ x ∈ exTgt, (atPlace (tgtEnv ⟨⟨0, 0, 0⟩, 16⟩ 1) x exTgt).length ≤ 1 := by
    intro x hx
    simp only [exTgt, List.mem_cons, List.not_mem_nil, or_false] at hx
    rcases hx with rfl | rfl | rfl <;> norm_num [atPlace, exTgt, tgtEnv, List.filter_cons]
  have has : Arrived (srcEnv ⟨⟨0, 0, 0⟩, 16⟩ 1) (exRankCfg (srcEnv ⟨⟨0, 0, 0⟩, 16⟩ 1) exSrc) exSrc := fun q _ => List.Perm.refl _
  have hat : Arrived (tgtEnv ⟨⟨0, 0, 0⟩, 16⟩ 1) (exRankCfg (tgtEnv ⟨⟨0, 0, 0⟩, 16⟩ 1) exTgt) exTgt := fun q _ => List.Perm.refl _
  obtain ⟨ns, ws, hrs, hks⟩ := C80_exists rfl h0.1 (by simp [exRankCfg]) exSrc_in has hs
  obtain ⟨nt, wt, hrt, hkt⟩ := C80_exists rfl h0.1 (by simp [exRankCfg]) exTgt_in hat ht
  obtain ⟨path, hpath⟩ := exists_numbers (exRankCfg (tgtEnv ⟨⟨0, 0, 0⟩, 16⟩ 1) exTgt)
  obtain ⟨s, t, holds, holdt, -, -, hBs, hBt, -, -, h⟩ := C82_evaluation (p := p) (src := id) (tgt := id) (ranks := exRanks) (by simpa using exInput)
    (Es := srcEnv ⟨⟨0, 0, 0⟩, 16⟩ 1) rfl (Et := tgtEnv ⟨⟨0, 0, 0⟩, 16⟩ 1) rfl (Cs := exRankCfg (srcEnv ⟨⟨0, 0, 0⟩, 16⟩ 1) exSrc)
    (Ct := exRankCfg (tgtEnv ⟨⟨0, 0, 0⟩, 16⟩ 1) exTgt) (by simp [exRankCfg]) rfl has hat hrs hrt ⟨0, hks 0 (by simp [exRankCfg])⟩ ⟨0, hkt 0 (by simp [exRankCfg])⟩ hpath
    (fun q _ => Nat.mod_lt _ (by simp [exRankCfg])) natSerializer_ok
  obtain rfl := exS_eq hBs
  obtain rfl := exT_eq hBt
  have hr := createDag_runs FMM 2 false exS exT
  obtain ⟨k, S, hS, hd⟩ := exists_lap_done (LapData.ofTrees ⟨⟨0, 0, 0⟩, 16⟩ p rule3 holds holdt) (FMM_safe hr) (FMM_ranked hr) (by decide +kernel)
    (loc := fun r => r.ix.level % 2) (n := 2) (fun r => Nat.mod_lt _ (by omega))
  have hc := exClear p rule3 hBs hBt (acts := createDag FMM 2 false exS exT) (by decide +kernel)
  have : Nonempty (Tgt × WithTop ℝ) := ⟨(⟨⟨0, 0, 0⟩, 0⟩, 0)⟩
  obtain ⟨view, recs, hv⟩ := exists_view (X := Tgt × WithTop ℝ) (n := (exRankCfg (tgtEnv ⟨⟨0, 0, 0⟩, 16⟩ 1) exTgt).ranks) (fun r =>
    rankArray (exRankCfg (tgtEnv ⟨⟨0, 0, 0⟩, 16⟩ 1) exTgt) path (fun x => (x.phi : WithTop ℝ)) (resultNodes (createDag FMM 2 false exS exT))
      (fun r i => (S.ex.acc r).2.2 i) wt r)
  obtain ⟨mem, hm⟩ := exists_collected natSerializer_ok (fun _ => ⟨none, 0, 3⟩) recs
  exact ⟨mem.map view, ((h (LapData.ofTrees ⟨⟨0, 0, 0⟩, 16⟩ p rule3 holds holdt) ⟨rule3, by simp⟩ FMM _ hr _ _ k S hS (fun r _ => Nat.mod_lt _ (by omega)) hd
    view recs hv _ mem hm).2 hc).1 rfl⟩

/-- The sources of the example alone, on two ranks. -/
theorem exInputSame : Input true ([[⟨⟨0, 1, 3 / 2⟩, 5⟩], [⟨⟨16, 15, 29 / 2⟩, -2⟩]].map fun r : List Src => (r.map id, r.map fun x => (⟨x.pos, 0⟩ : Tgt))) ⟨⟨0, 0, 0⟩, 16⟩ := by
  refine ⟨⟨_, .op (xs := [_]) (ys := [_]) (.one _) (.one _), ?_⟩, by simp, ⟨0, 1, 3 / 2⟩, ?_, ⟨16, 15, 29 / 2⟩, ?_, ?_⟩
  · simp only [Grid.localBox, Grid.boxOp, Grid.boxInit, Grid.addPoint, Grid.domainOf, List.map, List.foldl]
    norm_num
  · simp
  · simp
  · simp

/-- C82: the sources of the example are the targets, too; Direct, on three ranks. -/
example : ∃ out : List (Src × WithTop ℝ), Answered (fun x => ⟨x.pos, 0⟩) exSrc exSrc 0 out := by
  have hd : (0 : ℝ) < (⟨⟨0, 0, 0⟩, 16⟩ : Domain ℝ).size := by norm_num
  have hs : ∀ x ∈ exSrc, (atPlace (srcEnv ⟨⟨0, 0, 0⟩, 16⟩ 1) x exSrc).length ≤ 1 := by
    intro x hx
    simp only [exSrc, List.mem_cons, List.not_mem_nil, or_false] at hx
    rcases hx with rfl | rfl <;> norm_num [atPlace, exSrc, srcEnv, List.filter_cons]
  have hu : 1 ≤ (exRankCfg (srcEnv ⟨⟨0, 0, 0⟩, 16⟩ 1) exSrc).unif := by simp [exRankCfg]
  have has : Arrived (srcEnv ⟨⟨0, 0, 0⟩, 16⟩ 1) (exRankCfg (srcEnv ⟨⟨0, 0, 0⟩, 16⟩ 1) exSrc) exSrc := fun q _ => List.Perm.refl _
  obtain ⟨ns, w, hr, hk⟩ := C80_exists rfl hd hu exSrc_in has hs
  have hk0 := hk 0 (by simp [exRankCfg])
  have hW := inv_reach hd hu (arrived_box hd exSrc_in has) hr
  set C' : Cfg Src := { exRankCfg (srcEnv ⟨⟨0, 0, 0⟩, 16⟩ 1) exSrc with mem := fun q => (w.cell q).mem } with hC'
  have hT : TargetOf (exRankCfg (srcEnv ⟨⟨0, 0, 0⟩, 16⟩ 1) exSrc) w C' := ⟨rfl, rfl, rfl, fun q hq hm => Ready.done hW hk0 hq hm, fun q _ => rfl⟩
  have ha := (target_arrived hd hu exSrc_in has hr hT).1
  obtain ⟨B, hB⟩ := C80_ends (E := { srcEnv ⟨⟨0, 0, 0⟩, 16⟩ 1 with same := true }) (C := C') hd hu exSrc_in ha hs
  obtain ⟨nt, w', hr', hst⟩ := RankTree.exists_stuck hB
  have hk' := C80_same_never_stuck rfl hd hu exSrc_in has hr hT hr' hst 0 (by simp [exRankCfg, hC'])
  obtain ⟨hold, hH⟩ := C80_hold rfl hd hu exSrc_in has hr ⟨0, hk0⟩
  obtain ⟨hold', hH'⟩ := C80_same_hold rfl hd hu exSrc_in has hr hT hr' ⟨0, hk'⟩
  obtain ⟨path, hpath⟩ := exists_numbers C'
  obtain ⟨s, hB1, -, h⟩ := C82_same (p := 0) (src := id) (tgt := fun x : Src => (⟨x.pos, 0⟩ : Tgt)) (fun _ => rfl) exInputSame (E := srcEnv ⟨⟨0, 0, 0⟩, 16⟩ 1) rfl hu has hr hT hr'
    ⟨0, hk0⟩ ⟨0, hk'⟩ hpath (fun q _ => Nat.mod_lt _ (by simp [exRankCfg, hC'])) natSerializer_ok hH hH'
  obtain rfl := exS_eq hB1
  have hrun := createDag_runs Direct 2 true exS exS
  obtain ⟨k, S, hS, hdn⟩ := exists_lap_done (LapData.ofTrees ⟨⟨0, 0, 0⟩, 16⟩ 0 rule3 (fun i => (hold i).map id) fun i => (hold' i).map fun x => ⟨x.pos, 0⟩)
    (Direct_safe hrun) (Direct_ranked hrun) (by decide +kernel) (loc := fun r => r.ix.level % 2) (n := 2) (fun r => Nat.mod_lt _ (by omega))
  have : Nonempty (Src × WithTop ℝ) := ⟨(⟨⟨0, 0, 0⟩, 0⟩, 0)⟩
  obtain ⟨view, recs, hv⟩ := exists_view (X := Src × WithTop ℝ) (n := C'.ranks) (fun r =>
    rankArray C' path (fun _ => ((0 : ℝ) : WithTop ℝ)) (resultNodes (createDag Direct 2 true exS exS)) (fun r i => (S.ex.acc r).2.2 i) w' r)
  obtain ⟨mem, hm⟩ := exists_collected natSerializer_ok (fun _ => ⟨none, 0, 3⟩) recs
  have := (h _ ⟨rule3, rfl⟩ Direct _ hrun _ _ k S hS (fun r _ => Nat.mod_lt _ (by omega)) hdn view recs hv _ mem hm).1 rfl
  refine ⟨mem.map view, ?_⟩
  simpa [exSrc] using this

end Dashmm
