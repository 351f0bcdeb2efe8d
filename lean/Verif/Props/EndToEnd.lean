import Verif.Proofs.EndDigits
import Verif.Props.Grid
import Verif.Props.Plane

/-!
# From the input arrays to the results (C78, C79)
-/

namespace Dashmm

open Lap Harm Ev ExecState Build Branch
open Grid (InBoxOf InDomain Box6 boxInit boxOp localBox domainOf)

/-! ### C78: the trees -/

section Trees
variable {K : Type} [Field K] [LinearOrder K] [IsStrictOrderedRing K] [FloorRing K] {R : Type} {E : Env K R} {unif root : Nat}
  {P : List R} {C : Construction R}

/-- **C78** The construction of a tree, from records assigned to the cells to the pruned top: on a rank where the cells are the roots
of the finished branches, pruning succeeds, and what hangs at the root afterwards is one tree of linked nodes with exactly the
boxes that hold points and are not below a box (from the uniform level on) with at most `threshold` points; each of its nodes from the uniform level on holds exactly
the records of its box. -/
theorem C78_tree (hC : C.Ok E unif root P) (hd : 0 < E.dom.size) (hin : ∀ x ∈ P, InDomain E.dom (E.pos x)) (hu : 1 ≤ unif)
    {hold : Index → List R} (hH : C.Holds unif hold) {np : Nat → Nat} (hnp : ∀ b, root ≤ b → b < root + nTop unif → np b = 0) :
    ∃ H' s, pruneTopnodes root unif np C.counts C.after = some H' ∧ Copy H' root ⟨Index.root, s⟩ ∧ Built E unif P s hold :=
  construction_built hC hd hin hu hH hnp

/-- **C78** All ranks have the same tree. -/
theorem C78_same_tree {s s' : Fin 8 → Oct} {hold hold' : Index → List R} (h : Built E unif P s hold) (h' : Built E unif P s' hold')
    (p : List Nat) : (∃ m, TPath ⟨Index.root, s⟩ p m) ↔ ∃ m, TPath ⟨Index.root, s'⟩ p m := by
  constructor
  · rintro ⟨m, hm⟩
    have h8 := (tpath_under hm).2.2
    exact (h'.tree p h8).2 ((h.tree p h8).1 ⟨m, hm⟩)
  · rintro ⟨m, hm⟩
    have h8 := (tpath_under hm).2.2
    exact (h.tree p h8).2 ((h'.tree p h8).1 ⟨m, hm⟩)

/-- **C78** A rank that received the branches of the cells, in any order and at any addresses that do not overlap, has its cells as the roots of
copies of them, the top is intact, and the copies are outside of the top. -/
theorem C78_received (hu : 1 ≤ unif) {branch : List Nat → (Fin 8 → Oct)} {H0 H : Heap} {l : List (List Nat × Nat)}
    (h : Received root unif branch H0 l H) : TopIntact root unif H0 H ∧ ∀ q, q ∈ l.map Prod.fst →
      Copy H (root + nTop unif + cellOf unif q) ⟨place q, branch q⟩ ∧
      ∀ p b, Linked H (root + nTop unif + cellOf unif q) p b → ¬ (root ≤ b ∧ b < root + nTop unif) := by
  obtain ⟨h1, h2, -⟩ := received_ok hu h
  refine ⟨h1, fun q hq => ?_⟩
  obtain ⟨e, he, rfl⟩ := List.mem_map.1 hq
  obtain ⟨g1, g2, g3, g4, g5⟩ := h2 e he
  refine ⟨g4, fun p b hb => ?_⟩
  have h8 : 0 < 8 ^ unif := by positivity
  rcases g5 p b hb with h | h
  · rw [h]; omega
  · have := h.1; omega

/-- **C78** What the nodes hold is well defined. -/
theorem C78_hold (hC : C.Ok E unif root P) (hd : 0 < E.dom.size) (hin : ∀ x ∈ P, InDomain E.dom (E.pos x)) :
    ∃ hold, C.Holds unif hold := exists_hold hC hd hin

/-- **C78** Every input with no more coincident points than the threshold has a construction. -/
theorem C78_exists [Archimedean K] (H0 : Heap) (hd : 0 < E.dom.size) (hu : 1 ≤ unif) (hin : ∀ x ∈ P, InDomain E.dom (E.pos x))
    (ht : ∀ x ∈ P, (atPlace E x P).length ≤ E.threshold) : ∃ C : Construction R, C.Ok E unif root P :=
  exists_construction H0 hd hu hin ht

/-- **C78** In a tree that was constructed every record is in one leaf: the leaves hold the records, each once. -/
theorem C78_leaves {s : Fin 8 → Oct} {hold : Index → List R} (h : Built E unif P s hold) (hd : 0 < E.dom.size)
    (hin : ∀ x ∈ P, InBoxOf E.dom Index.root (E.pos x)) : ((leaves Index.root (.node s)).flatMap hold).Perm P :=
  h.leaves_perm hd hin

/-- The domain is the box of the root. -/
theorem root_box {d : Domain K} {x : Point K} (h : InDomain d x) : InBoxOf d Index.root x := by
  obtain ⟨⟨a, b⟩, ⟨c, e⟩, ⟨f, g⟩⟩ := h
  refine ⟨⟨by simp [Index.root], ?_, .inr ⟨by simp [Index.root], ?_⟩⟩, ⟨by simp [Index.root], ?_, .inr ⟨by simp [Index.root], ?_⟩⟩,
    ⟨by simp [Index.root], ?_, .inr ⟨by simp [Index.root], ?_⟩⟩⟩ <;> simp [Index.root] <;> linarith

end Trees

/-! ### C79: evaluations -/

theorem inCube_of_box {d : Domain ℝ} {i : Index} {x : Point ℝ} (h : InBoxOf d i x) : InCube d i x := by
  obtain ⟨⟨-, a1, a2⟩, ⟨-, b1, b2⟩, ⟨-, c1, c2⟩⟩ := h
  have a2' := a2.elim le_of_lt And.right
  have b2' := b2.elim le_of_lt And.right
  have c2' := c2.elim le_of_lt And.right
  unfold InCube Domain.centerFromIndex Domain.sizeFromLevel
  simp only [abs_le]
  refine ⟨⟨?_, ?_⟩, ⟨?_, ?_⟩, ⟨?_, ?_⟩⟩ <;> linarith

theorem potential_perm {P Q : List Src} (h : P.Perm Q) (x : Point ℝ) : potential P x = potential Q x := (h.map _).sum_eq
theorem absPotential_perm {P Q : List Src} (h : P.Perm Q) (x : Point ℝ) : absPotential P x = absPotential Q x := (h.map _).sum_eq

section Evaluations
variable {dom : Domain ℝ} {threshold unif p : ℕ} {rule : Rule} {same : Bool} {P : List Src} {T : List Tgt}
  {s t : Fin 8 → Oct} {hs : Index → List Src} {ht : Index → List Tgt}

theorem ofTrees_placed (hd : 0 < dom.size) (hBs : Built (srcEnv dom threshold) unif P s hs) (hBt : Built (tgtEnv dom threshold) unif T t ht) :
    (LapData.ofTrees dom p rule hs ht).Placed s where
  size := hd
  srcs i _ q hq := inCube_of_box (hBs.hold_box hq).2
  tgts i q hq := by
    obtain ⟨x, hx, rfl⟩ := List.mem_map.1 hq
    exact inCube_of_box (hBt.hold_box hx).2

/-- Any method. -/
theorem correct_of (hd : 0 < dom.size) (hBs : Built (srcEnv dom threshold) unif P s hs) (hBt : Built (tgtEnv dom threshold) unif T t ht)
    (hP : ∀ x ∈ P, InDomain dom x.pos) (hT : ∀ x ∈ T, InDomain dom x.pos)
    {m : Method} (hadd : ∀ n p c r, Act.add r ∈ (theVisit m unif same n p c).1 → r.side = .tgt ∧ r.ix = n.ix)
    (hparts : ∀ n p c, Act.addParts .tgt n.ix ∈ (theVisit m unif same n p c).1 ↔ refine m unif same n c = false)
    (hsrc : ∀ n r, Act.add r ∈ ownSrc m n → r.side = .src) {acts : List Act} (hr : Runs (createProg m unif same s t) acts)
    (hn : (nodesOf acts).Nodup) {acc : Ref → LapVal} {ε : ℝ}
    (h : ∀ r ∈ nodesOf acts, r.side = .tgt → r.kind = .parts → ∀ i x, ((LapData.ofTrees dom p rule hs ht).tgts r.ix)[i]? = some x →
      ∃ v : ℝ, (acc r).2.2 i = (v : WithTop ℝ) ∧ |v - (LapData.ofTrees dom p rule hs ht).phi r.ix i -
        potential ((LapData.ofTrees dom p rule hs ht).all s) x| ≤ ε * absPotential ((LapData.ofTrees dom p rule hs ht).all s) x) :
    Correct acts acc ht P T ε := by
  refine ⟨hBt.parts_perm hd (fun x hx => root_box (hT x hx)) hadd hparts hsrc hr hn, ?_⟩
  intro r hr' i x hx
  obtain ⟨h1, h2⟩ := List.mem_filter.1 hr'
  have h2' : r.side = .tgt ∧ r.kind = .parts := by simpa using h2
  have hall : ((LapData.ofTrees dom p rule hs ht).all s).Perm P := hBs.leaves_perm hd fun x hx => root_box (hP x hx)
  obtain ⟨v, hv, hv'⟩ := h r h1 h2'.1 h2'.2 i x.pos (by simp [LapData.ofTrees, hx])
  rw [potential_perm hall, absPotential_perm hall] at hv'
  refine ⟨v, hv, ?_⟩
  simpa [LapData.ofTrees, hx] using hv'

section
variable (hd : 0 < dom.size) (hBs : Built (srcEnv dom threshold) unif P s hs) (hBt : Built (tgtEnv dom threshold) unif T t ht)
  (hP : ∀ x ∈ P, InDomain dom x.pos) (hT : ∀ x ∈ T, InDomain dom x.pos) {acts : List Act}
  {loc : Ref → Nat} {n k : Nat} {S : Sys Ref Edge LapVal}
  (hS : Sys.Steps (lapDag (LapData.ofTrees dom p rule hs ht) acts) loc n k S)
  (hl : ∀ r ∈ (lapDag (LapData.ofTrees dom p rule hs ht) acts).watched, loc r < n) (hD : ∀ k < n, S.Done k)
include hd hBs hBt hP hT hS hl hD

/-- **C79** Direct over trees built from the sources `P` and targets `T`: every target gets the exact potential of all the sources. -/
theorem C79_direct (hr : Runs (createProg Direct unif same s t) acts) : Correct acts S.ex.acc ht P T 0 := by
  refine correct_of (p := p) (rule := rule) hd hBs hBt hP hT (fun n p c r h => by
      have := (Direct_visit_add unif same n p c r).1 h; simp [this.1])
    (fun n p c => by rw [Act.addParts, Direct_visit_add unif same n p c]; simp)
    (fun n r h => (Direct_src_act n _ h).add_side r rfl) hr (Direct_safe hr).1 ?_
  intro r hn hs' hk i x hx
  refine ⟨_, C73_direct_exact hr (ofTrees_placed hd hBs hBt) hS hl hD hn hs' hk hx, ?_⟩
  rw [zero_mul]; simp

/-- **C79** Barnes-Hut. -/
theorem C79_bh {mac : Index → Index → Bool} (hr : Runs (createProg (BH mac) unif same s t) acts)
    (hc : (LapData.ofTrees dom p rule hs ht).Clear acts) {κ : ℝ} (h0 : 0 ≤ κ) (hκ : κ < 1)
    (hm : ∀ e ∈ edgesOf acts, e.op = .MtoT → ∀ a b, InCube dom e.src.ix a → InCube dom e.dst.ix b →
      0 < (b.sub (dom.centerFromIndex e.src.ix)).norm ∧
      (a.sub (dom.centerFromIndex e.src.ix)).norm ≤ κ * (b.sub (dom.centerFromIndex e.src.ix)).norm) :
    Correct acts S.ex.acc ht P T (κ ^ (p + 1) * ((1 + κ) / (1 - κ))) :=
  correct_of (p := p) (rule := rule) hd hBs hBt hP hT (fun n p c r h => by
      have := (BH_visit_add mac unif same n p c r).1 h; simp [this.1])
    (fun n p c => by rw [Act.addParts, BH_visit_add mac unif same n p c]; simp)
    (fun n r h => (BH_src_act mac n _ h).add_side r rfl) hr (BH_safe mac hr).1
    fun r hn hs' hk i x hx => C74_bh_accuracy hr (ofTrees_placed hd hBs hBt) hc h0 hκ hm hS hl hD hn hs' hk hx

/-- **C79** FMM. -/
theorem C79_fmm (hr : Runs (createProg FMM unif same s t) acts) (hc : (LapData.ofTrees dom p rule hs ht).Clear acts) :
    Correct acts S.ex.acc ht P T (fmmEps p) :=
  correct_of (p := p) (rule := rule) hd hBs hBt hP hT (FMM_visit_add unif same) (FMM_visit_parts unif same)
    (fun n r h => (FMM_src_act n _ h).add_side r rfl) hr (FMM_safe hr).1
    fun r hn hs' hk i x hx => C72_fmm_accuracy hr (ofTrees_placed hd hBs hBt) hc hS hl hD hn hs' hk hx

/-- **C79** FMM97. -/
theorem C79_fmm97 (hr : Runs (createProg FMM97 unif same s t) acts) (hc : (LapData.ofTrees dom p rule hs ht).Clear acts)
    (hE : rule.Even) {ε : ℝ} (hA : rule.Accurate p ε) : Correct acts S.ex.acc ht P T (max (fmmEps p) ε) :=
  correct_of (p := p) (rule := rule) hd hBs hBt hP hT (FMM97_visit_add unif same) (FMM97_visit_parts unif same)
    (fun n r h => (FMM97_src_act n _ h).add_side r rfl) hr (FMM97_safe hr).1
    fun r hn hs' hk i x hx => C77_fmm97_accuracy hr (ofTrees_placed hd hBs hBt) hc hE hA hS hl hD hn hs' hk hx

end
end Evaluations

/-! ### From the arrays of the ranks -/

/-- The domain that the ranks agree on is a cube with all points in it. -/
theorem Input.dom {same : Bool} {ranks : List (List Src × List Tgt)} {dom : Domain ℝ} (h : Input same ranks dom) :
    0 < dom.size ∧ (∀ x ∈ ranks.flatMap Prod.fst, InDomain dom x.pos) ∧ ∀ x ∈ ranks.flatMap Prod.snd, InDomain dom x.pos := by
  obtain ⟨⟨v, hv, rfl⟩, hsame, x, hx, y, hy, hne⟩ := h
  have hv' : Reduce.Combined boxInit boxOp ((ranks.map fun r => (r.1.map Src.pos, r.2.map Tgt.pos)).map
      fun r => localBox same r.1 r.2) v := by simpa [List.map_map, Function.comp_def] using hv
  have hall : ∀ x ∈ (ranks.flatMap Prod.fst).map Src.pos ++ (ranks.flatMap Prod.snd).map Tgt.pos,
      ∃ r ∈ ranks.map fun r => (r.1.map Src.pos, r.2.map Tgt.pos), x ∈ r.1 ∨ (same = false ∧ x ∈ r.2) := by
    have hsrc : ∀ y ∈ ranks.flatMap Prod.fst, ∃ r ∈ ranks.map fun r => (r.1.map Src.pos, r.2.map Tgt.pos),
        y.pos ∈ r.1 ∨ (same = false ∧ y.pos ∈ r.2) := fun y hy => by
      obtain ⟨r, hr, hy⟩ := List.mem_flatMap.1 hy
      exact ⟨_, List.mem_map.2 ⟨r, hr, rfl⟩, .inl (List.mem_map.2 ⟨y, hy, rfl⟩)⟩
    intro x hx
    rcases List.mem_append.1 hx with hx | hx
    · obtain ⟨y, hy, rfl⟩ := List.mem_map.1 hx
      exact hsrc y hy
    · obtain ⟨y, hy, rfl⟩ := List.mem_map.1 hx
      cases hs : same with
      | false =>
        obtain ⟨r, hr, hy⟩ := List.mem_flatMap.1 hy
        exact ⟨_, List.mem_map.2 ⟨r, hr, rfl⟩, .inr ⟨rfl, List.mem_map.2 ⟨y, hy, rfl⟩⟩⟩
      | true =>
        obtain ⟨z, hz, hzy⟩ := hsame hs y hy
        rw [← hzy, ← hs]
        exact hsrc z hz
  refine ⟨?_, fun x hx => ?_, fun x hx => ?_⟩
  · obtain ⟨r, hr, h⟩ := hall x hx
    obtain ⟨r', hr', h'⟩ := hall y hy
    exact C20_domain_positive same _ v hv' r r' hr hr' x y h h' hne
  · obtain ⟨r, hr, h⟩ := hall x.pos (List.mem_append.2 (.inl (List.mem_map.2 ⟨x, hx, rfl⟩)))
    exact C20_domain_contains same _ v hv' r hr _ h
  · obtain ⟨r, hr, h⟩ := hall x.pos (List.mem_append.2 (.inr (List.mem_map.2 ⟨x, hx, rfl⟩)))
    exact C20_domain_contains same _ v hv' r hr _ h

/-- **C79** From the arrays of the ranks to the results. The ranks have sources and targets, and agree on a domain; the source tree and the
target tree are constructed. Then both tops are pruned, two trees of linked nodes hang at the roots, and whichever order the tasks that discover the DAG run in, and whichever
order, on however many localities, the DAG is executed in: when the execution is done, every target has its potential due to all the sources,
exactly (Direct), or up to the bound on the error of the method. -/
theorem C79_input {same : Bool} {ranks : List (List Src × List Tgt)} {dom : Domain ℝ} (hI : Input same ranks dom) {unif threshold p : ℕ}
    (hu : 1 ≤ unif) {Cs : Construction Src} {Ct : Construction Tgt} {rs rt : Nat}
    (hCs : Cs.Ok (srcEnv dom threshold) unif rs (ranks.flatMap Prod.fst)) (hCt : Ct.Ok (tgtEnv dom threshold) unif rt (ranks.flatMap Prod.snd))
    {hs : Index → List Src} {ht : Index → List Tgt} (hHs : Cs.Holds unif hs) (hHt : Ct.Holds unif ht) {ns nt : Nat → Nat}
    (hns : ∀ b, rs ≤ b → b < rs + nTop unif → ns b = 0) (hnt : ∀ b, rt ≤ b → b < rt + nTop unif → nt b = 0)
    (rule : Rule) :
    ∃ Hs Ht s t, pruneTopnodes rs unif ns Cs.counts Cs.after = some Hs ∧ pruneTopnodes rt unif nt Ct.counts Ct.after = some Ht ∧
      Copy Hs rs ⟨Index.root, s⟩ ∧ Copy Ht rt ⟨Index.root, t⟩ ∧
      Built (srcEnv dom threshold) unif (ranks.flatMap Prod.fst) s hs ∧ Built (tgtEnv dom threshold) unif (ranks.flatMap Prod.snd) t ht ∧
      ∀ (m : Method) (acts : List Act), Runs (createProg m unif same s t) acts →
      ∀ (loc : Ref → Nat) (n k : Nat) (S : Sys Ref Edge LapVal),
        Sys.Steps (lapDag (LapData.ofTrees dom p rule hs ht) acts) loc n k S →
        (∀ r ∈ (lapDag (LapData.ofTrees dom p rule hs ht) acts).watched, loc r < n) → (∀ k < n, S.Done k) →
        (m = Direct → Correct acts S.ex.acc ht (ranks.flatMap Prod.fst) (ranks.flatMap Prod.snd) 0) ∧
        ((LapData.ofTrees dom p rule hs ht).Clear acts →
          (m = FMM → Correct acts S.ex.acc ht (ranks.flatMap Prod.fst) (ranks.flatMap Prod.snd) (fmmEps p)) ∧
          (m = FMM97 → rule.Even → ∀ ε, rule.Accurate p ε →
            Correct acts S.ex.acc ht (ranks.flatMap Prod.fst) (ranks.flatMap Prod.snd) (max (fmmEps p) ε)) ∧
          (∀ mac, m = BH mac → ∀ κ : ℝ, 0 ≤ κ → κ < 1 →
            (∀ e ∈ edgesOf acts, e.op = .MtoT → ∀ a b, InCube dom e.src.ix a → InCube dom e.dst.ix b →
              0 < (b.sub (dom.centerFromIndex e.src.ix)).norm ∧
              (a.sub (dom.centerFromIndex e.src.ix)).norm ≤ κ * (b.sub (dom.centerFromIndex e.src.ix)).norm) →
            Correct acts S.ex.acc ht (ranks.flatMap Prod.fst) (ranks.flatMap Prod.snd) (κ ^ (p + 1) * ((1 + κ) / (1 - κ))))) := by
  obtain ⟨hd, hP, hT⟩ := hI.dom
  obtain ⟨Hs, s, h1, h2, hBs⟩ := C78_tree hCs hd hP hu hHs hns
  obtain ⟨Ht, t, h3, h4, hBt⟩ := C78_tree hCt hd hT hu hHt hnt
  refine ⟨Hs, Ht, s, t, h1, h3, h2, h4, hBs, hBt, fun m acts hr loc n k S hS hl hD => ⟨?_, fun hc => ⟨?_, ?_, ?_⟩⟩⟩
  · rintro rfl
    exact C79_direct hd hBs hBt hP hT hS hl hD hr
  · rintro rfl
    exact C79_fmm hd hBs hBt hP hT hS hl hD hr hc
  · rintro rfl hE ε hA
    exact C79_fmm97 hd hBs hBt hP hT hS hl hD hr hc hE hA
  · rintro mac rfl κ h0 hκ hm
    exact C79_bh hd hBs hBt hP hT hS hl hD hr hc h0 hκ hm

/-! ### An example -/

/-- Two sources in two corners of a cube. -/
noncomputable def exSrc : List Src := [⟨⟨0, 1, 3 / 2⟩, 5⟩, ⟨⟨16, 15, 29 / 2⟩, -2⟩]

/-- Three targets: one near the first source, two near the second. -/
noncomputable def exTgt : List Tgt := [⟨⟨1 / 2, 1, 1⟩, 1⟩, ⟨⟨25 / 2, 25 / 2, 13⟩, 0⟩, ⟨⟨31 / 2, 15, 15⟩, 7⟩]

/-- Two ranks have them. -/
noncomputable def exRanks : List (List Src × List Tgt) :=
  [([⟨⟨0, 1, 3 / 2⟩, 5⟩], [⟨⟨1 / 2, 1, 1⟩, 1⟩]), ([⟨⟨16, 15, 29 / 2⟩, -2⟩], [⟨⟨25 / 2, 25 / 2, 13⟩, 0⟩, ⟨⟨31 / 2, 15, 15⟩, 7⟩])]

theorem exRanks_src : exRanks.flatMap Prod.fst = exSrc := rfl
theorem exRanks_tgt : exRanks.flatMap Prod.snd = exTgt := rfl

theorem exInput : Input false exRanks ⟨⟨0, 0, 0⟩, 16⟩ := by
  refine ⟨⟨_, .op (xs := [_]) (ys := [_]) (.one _) (.one _), ?_⟩, by simp, ⟨0, 1, 3 / 2⟩, ?_, ⟨16, 15, 29 / 2⟩, ?_, ?_⟩
  · simp only [localBox, boxOp, boxInit, Grid.addPoint, domainOf, List.map, List.foldl]
    norm_num
  · simp [exRanks]
  · simp [exRanks]
  · simp

/-- Source tree: two leaves at level 2. -/
def exS : Fin 8 → Oct := fork 0 [0] 7 [7]

/-- Target tree: a leaf at level 2 and two at level 3. -/
def exT : Fin 8 → Oct := fun k =>
  if k = 0 then chain [0] else if k = 7 then .node fun j => if j = 7 then .node fun j => if j = 0 ∨ j = 7 then .tip else .nil else .nil else .nil

theorem exPlaces : place [0, 0] = ⟨0, 0, 0, 2⟩ ∧ place [7, 7] = ⟨3, 3, 3, 2⟩ ∧ place [7, 7, 0] = ⟨6, 6, 6, 3⟩ ∧
    place [7, 7, 7] = ⟨7, 7, 7, 3⟩ := by decide

/-- The source tree of the example. -/
theorem exS_eq {s : Fin 8 → Oct} {hold : Index → List Src} (h : Built (srcEnv ⟨⟨0, 0, 0⟩, 16⟩ 1) 2 exSrc s hold) : s = exS := by
  refine h.eq_of (by norm_num [srcEnv]) (fun x => if x.pos.x < 8 then [0, 0] else [7, 7]) ?_ ?_ ?_ ?_ ?_ ?_
  · intro x _; split <;> simp [Oct8]
  · intro x hx
    simp only [exSrc, List.mem_cons, List.not_mem_nil, or_false] at hx
    rcases hx with rfl | rfl <;> norm_num [exPlaces, srcEnv, InBoxOf, Grid.InSlot]
  · intro x _; split <;> simp
  · intro x hx
    simp only [exSrc, List.mem_cons, List.not_mem_nil, or_false] at hx
    rcases hx with rfl | rfl <;> norm_num [inBox, exSrc, List.filter_cons, exPlaces, srcEnv, InBoxOf, Grid.InSlot]
  · intro x hx q hq hne hl
    have := hq.length_le
    refine absurd (hq.eq_of_length ?_) hne
    revert this
    split <;> simp <;> omega
  · intro l
    have : leafPaths (.node exS) = [[0, 0], [7, 7]] := by decide +kernel
    rw [this]
    norm_num [exSrc]

/-- The target tree of the example. -/
theorem exT_eq {t : Fin 8 → Oct} {hold : Index → List Tgt} (h : Built (tgtEnv ⟨⟨0, 0, 0⟩, 16⟩ 1) 2 exTgt t hold) : t = exT := by
  refine h.eq_of (by norm_num [tgtEnv]) (fun x => if x.pos.x < 8 then [0, 0] else if x.pos.x < 14 then [7, 7, 0] else [7, 7, 7])
    ?_ ?_ ?_ ?_ ?_ ?_
  · intro x _; split <;> (try split) <;> simp [Oct8]
  · intro x hx
    simp only [exTgt, List.mem_cons, List.not_mem_nil, or_false] at hx
    rcases hx with rfl | rfl | rfl <;> norm_num [exPlaces, tgtEnv, InBoxOf, Grid.InSlot]
  · intro x _; split <;> (try split) <;> simp
  · intro x hx
    simp only [exTgt, List.mem_cons, List.not_mem_nil, or_false] at hx
    rcases hx with rfl | rfl | rfl <;> norm_num [inBox, exTgt, List.filter_cons, exPlaces, tgtEnv, InBoxOf, Grid.InSlot]
  · intro x hx q hq hne hl
    have h7 : q = [7, 7] := by
      have h1 := hq.length_le
      have h2 : q.length ≠ _ := fun e => hne (hq.eq_of_length e)
      have h3 := List.prefix_iff_eq_take.1 hq
      revert h1 h2 h3
      split
      · simp; omega
      · split
        all_goals
          simp only [List.length_cons, List.length_nil]
          intro h1 h2 h3
          have : q.length = 2 := by omega
          rw [this] at h3
          exact h3
    rw [h7]
    norm_num [inBox, exTgt, List.filter_cons, exPlaces, tgtEnv, InBoxOf, Grid.InSlot]
  · intro l
    have : leafPaths (.node exT) = [[0, 0], [7, 7, 0], [7, 7, 7]] := by decide +kernel
    rw [this]
    norm_num [exTgt]

theorem exSrc_in : ∀ x ∈ exSrc, InDomain ⟨⟨0, 0, 0⟩, 16⟩ x.pos := exInput.dom.2.1
theorem exTgt_in : ∀ x ∈ exTgt, InDomain ⟨⟨0, 0, 0⟩, 16⟩ x.pos := exInput.dom.2.2

/-- C78: the trees of the example can be constructed. -/
theorem exBuild (H0 : Heap) : (∃ C : Construction Src, C.Ok (srcEnv ⟨⟨0, 0, 0⟩, 16⟩ 1) 2 100 exSrc) ∧
    ∃ C : Construction Tgt, C.Ok (tgtEnv ⟨⟨0, 0, 0⟩, 16⟩ 1) 2 900 exTgt := by
  refine ⟨C78_exists H0 (by norm_num [srcEnv]) (by omega) exSrc_in ?_, C78_exists H0 (by norm_num [tgtEnv]) (by omega) exTgt_in ?_⟩
  · intro x hx
    simp only [exSrc, List.mem_cons, List.not_mem_nil, or_false] at hx
    rcases hx with rfl | rfl <;> norm_num [atPlace, exSrc, srcEnv, List.filter_cons]
  · intro x hx
    simp only [exTgt, List.mem_cons, List.not_mem_nil, or_false] at hx
    rcases hx with rfl | rfl | rfl <;> norm_num [atPlace, exTgt, tgtEnv, List.filter_cons]

/-- The boxes of the DAGs of the example. -/
def exIxs : List Index := [⟨0, 0, 0, 0⟩, ⟨0, 0, 0, 1⟩, ⟨1, 1, 1, 1⟩, ⟨0, 0, 0, 2⟩, ⟨3, 3, 3, 2⟩, ⟨6, 6, 6, 3⟩, ⟨7, 7, 7, 3⟩]

theorem exClear {s t : Fin 8 → Oct} {hs : Index → List Src} {ht : Index → List Tgt} (p : ℕ) (rule : Rule)
    (hBs : Built (srcEnv ⟨⟨0, 0, 0⟩, 16⟩ 1) 2 exSrc s hs) (hBt : Built (tgtEnv ⟨⟨0, 0, 0⟩, 16⟩ 1) 2 exTgt t ht) {acts : List Act}
    (h : ∀ r ∈ nodesOf acts, r.ix ∈ exIxs) : (LapData.ofTrees ⟨⟨0, 0, 0⟩, 16⟩ p rule hs ht).Clear acts := by
  have key : ∀ ix ∈ exIxs, ∀ v : Point ℝ, v ∈ exSrc.map Src.pos ++ exTgt.map Tgt.pos →
      Regular (v.sub ((LapData.ofTrees ⟨⟨0, 0, 0⟩, 16⟩ p rule hs ht).center ix)) := by
    intro ix hix v hv
    simp only [exIxs, List.mem_cons, List.not_mem_nil, or_false] at hix
    simp only [exSrc, exTgt, List.map_cons, List.map_nil, List.cons_append, List.nil_append, List.mem_cons, List.not_mem_nil, or_false] at hv
    refine regular_of ?_ ?_ <;>
      rcases hix with rfl | rfl | rfl | rfl | rfl | rfl | rfl <;> rcases hv with rfl | rfl | rfl | rfl | rfl <;>
        simp only [LapData.center, LapData.ofTrees, Domain.centerFromIndex, Domain.sizeFromLevel, Point.sub] <;> norm_num
  constructor
  · intro r hr q hq _ _ s hs
    exact key _ (h r hr) _ (List.mem_append.2 (.inl (List.mem_map.2 ⟨s, (hBs.hold_box hs).1, rfl⟩)))
  · intro r hr q hq _ _ v hv
    obtain ⟨x, hx, rfl⟩ := List.mem_map.1 hv
    exact key _ (h r hr) _ (List.mem_append.2 (.inr (List.mem_map.2 ⟨x, (hBt.hold_box hx).1, rfl⟩)))

/-- C79: the example, with any construction of the trees, by FMM and FMM97 on two localities: some execution finishes, and its results are right. -/
theorem exRun (p : ℕ) (m : Method) (hm : m = FMM ∨ m = FMM97) (Cs : Construction Src) (Ct : Construction Tgt)
    (hCs : Cs.Ok (srcEnv ⟨⟨0, 0, 0⟩, 16⟩ 1) 2 100 exSrc) (hCt : Ct.Ok (tgtEnv ⟨⟨0, 0, 0⟩, 16⟩ 1) 2 900 exTgt) {rule : Rule}
    (hE : rule.Even) {ε : ℝ} (hA : rule.Accurate p ε) :
    ∃ hs ht, ∃ Hs Ht s t, pruneTopnodes 100 2 (fun _ => 0) Cs.counts Cs.after = some Hs ∧
      pruneTopnodes 900 2 (fun _ => 0) Ct.counts Ct.after = some Ht ∧ Copy Hs 100 ⟨Index.root, s⟩ ∧ Copy Ht 900 ⟨Index.root, t⟩ ∧
      ∃ acts k S, Runs (createProg m 2 false s t) acts ∧
        Sys.Steps (lapDag (LapData.ofTrees ⟨⟨0, 0, 0⟩, 16⟩ p rule hs ht) acts) (fun r => r.ix.level % 2) 2 k S ∧ (∀ k < 2, S.Done k) ∧
        Correct acts S.ex.acc ht exSrc exTgt (max (fmmEps p) ε) := by
  have h0 := exInput.dom
  obtain ⟨hs, hHs⟩ := C78_hold hCs h0.1 exSrc_in
  obtain ⟨ht, hHt⟩ := C78_hold hCt h0.1 exTgt_in
  obtain ⟨Hs, Ht, s, t, h1, h2, h3, h4, hBs, hBt, h⟩ := C79_input (p := p) exInput (unif := 2) (by omega) hCs hCt hHs hHt
    (ns := fun _ => 0) (nt := fun _ => 0) (fun _ _ _ => rfl) (fun _ _ _ => rfl) rule
  refine ⟨hs, ht, Hs, Ht, s, t, h1, h2, h3, h4, ?_⟩
  obtain rfl := exS_eq hBs
  obtain rfl := exT_eq hBt
  have hr := createDag_runs m 2 false exS exT
  obtain ⟨k, S, hS, hd⟩ : ∃ k S, Sys.Steps (lapDag (LapData.ofTrees ⟨⟨0, 0, 0⟩, 16⟩ p rule hs ht) (createDag m 2 false exS exT))
      (fun r => r.ix.level % 2) 2 k S ∧ ∀ k < 2, S.Done k := by
    rcases hm with rfl | rfl
    · exact exists_lap_done _ (FMM_safe hr) (FMM_ranked hr) (by decide +kernel) (fun r => Nat.mod_lt _ (by omega))
    · exact exists_lap_done _ (FMM97_safe hr) (FMM97_ranked hr) (by decide +kernel) (fun r => Nat.mod_lt _ (by omega))
  refine ⟨_, k, S, hr, hS, hd, ?_⟩
  obtain ⟨-, g⟩ := h m _ hr _ _ k S hS (fun r _ => Nat.mod_lt _ (by omega)) hd
  have hc := exClear p rule hBs hBt (acts := createDag m 2 false exS exT) (by rcases hm with rfl | rfl <;> decide +kernel)
  obtain ⟨g1, g2, -⟩ := g hc
  rcases hm with rfl | rfl
  · have := g1 rfl
    refine ⟨this.1, fun r hr i x hx => ?_⟩
    obtain ⟨v, hv, hv'⟩ := this.2 r hr i x hx
    exact ⟨v, hv, hv'.trans (mul_le_mul_of_nonneg_right (le_max_left _ _) (absPotential_nonneg _ _))⟩
  · exact g2 rfl hE ε hA

/-- C78, C79: constructions exist, every quadrature rule has some accuracy, and both methods finish with the right results. -/
example (p : ℕ) (m : Method) (hm : m = FMM ∨ m = FMM97) (H0 : Heap) :
    ∃ (Cs : Construction Src) (Ct : Construction Tgt) (ε : ℝ) (ht : Index → List Tgt) (acts : List Act) (acc : Ref → LapVal),
      Cs.Ok (srcEnv ⟨⟨0, 0, 0⟩, 16⟩ 1) 2 100 exSrc ∧ Ct.Ok (tgtEnv ⟨⟨0, 0, 0⟩, 16⟩ 1) 2 900 exTgt ∧ rule3.Accurate p ε ∧
      Correct acts acc ht exSrc exTgt (max (fmmEps p) ε) := by
  obtain ⟨⟨Cs, hCs⟩, Ct, hCt⟩ := exBuild H0
  obtain ⟨ε, -, hA⟩ := exists_accurate rule3 p
  obtain ⟨_, ht, _, _, _, _, -, -, -, -, acts, _, S, -, -, -, h⟩ := exRun p m hm Cs Ct hCs hCt rule3_even hA
  exact ⟨Cs, Ct, ε, ht, acts, S.ex.acc, hCs, hCt, hA, h⟩

/-- The DAG of the example uses expansions. -/
example : ∃ e ∈ edgesOf (createDag FMM 2 false exS exT), e.op = .MtoL := by decide +kernel

end Dashmm
