import Verif.Proofs.Order
import Verif.Proofs.Com
import Verif.Proofs.ComSum
import Verif.Proofs.LapEval
import Verif.Spec.ComExec

/-!
Evaluations with a centre-of-mass expansion, node by node, against the sources that reach the node.
-/

namespace Dashmm.ComEx

open Com Harm

noncomputable section

/-! ### Sources by leaf -/

section Pick

variable {α : Type} (f : Index → List α)

/-- What the leaves `L` hold, each as often as `π` says. -/
def pick (L : List Index) (π : Index → ℕ) : List α := L.flatMap fun x => (List.replicate (π x) (f x)).flatten

theorem pick_zero (L : List Index) : pick f L 0 = [] := by simp [pick]

theorem pick_add (π π' : Index → ℕ) : ∀ L : List Index, (pick f L (π + π')).Perm (pick f L π ++ pick f L π')
  | [] => by simp [pick]
  | x :: L => by
    have ih := pick_add π π' L
    simp only [pick, List.flatMap_cons, Pi.add_apply, List.replicate_add, List.flatten_append] at ih ⊢
    rw [List.append_assoc, List.append_assoc]
    refine List.Perm.append_left _ ?_
    refine (List.Perm.append_left _ ih).trans ?_
    rw [← List.append_assoc, ← List.append_assoc]
    exact List.Perm.append_right _ List.perm_append_comm

theorem pick_none (π : Index → ℕ) : ∀ L : List Index, (∀ x ∈ L, π x = 0) → pick f L π = []
  | [], _ => rfl
  | x :: L, h => by
    have ih := pick_none π L fun y hy => h y (List.mem_cons_of_mem _ hy)
    simp only [pick, List.flatMap_cons] at ih ⊢
    rw [ih, h x List.mem_cons_self]; simp

theorem pick_single (a : Index) : ∀ L : List Index, L.Nodup → a ∈ L →
    pick f L (fun x => if x = a then 1 else 0) = f a
  | [], _, h => by simp at h
  | x :: L, hn, h => by
    obtain ⟨h1, h2⟩ := List.nodup_cons.1 hn
    have hc : pick f (x :: L) (fun x => if x = a then 1 else 0) =
        (List.replicate (if x = a then 1 else 0) (f x)).flatten ++ pick f L (fun x => if x = a then 1 else 0) := rfl
    rw [hc]
    by_cases e : x = a
    · subst e
      rw [pick_none f _ L fun y hy => if_neg fun (e : y = x) => h1 (e ▸ hy)]; simp
    · rw [pick_single a L h2 ((List.mem_cons.1 h).resolve_left fun e' => e e'.symm), if_neg e]; simp

theorem pick_one (π : Index → ℕ) (L : List Index) (h : ∀ x ∈ L, π x = 1) : pick f L π = L.flatMap f := by
  unfold pick
  refine List.flatMap_congr fun x hx => ?_
  rw [h x hx]; simp

theorem mem_pick {L : List Index} {π : Index → ℕ} {q : α} (h : q ∈ pick f L π) : ∃ x ∈ L, q ∈ f x := by
  obtain ⟨x, hx, hq⟩ := List.mem_flatMap.1 h
  obtain ⟨l, hl, hq⟩ := List.mem_flatten.1 hq
  rw [List.eq_of_mem_replicate hl] at hq
  exact ⟨x, hx, hq⟩

end Pick

/-! ### Kernels -/

/-- What is needed of a kernel. `Close l t v`: `v` is an approximation of what the sources `l` do to a target at `t`. -/
structure Sound {O : Type} [AddCommMonoid O] (K : ComKernel O) (κ : ℝ) (Close : List (Com.Src ℝ) → Point ℝ → O → Prop) :
    Prop where
  nil : ∀ t, Close [] t 0
  app : ∀ {l l' t v v'}, Close l t v → Close l' t v' → Close (l ++ l') t (v + v')
  perm : ∀ {l l' : List (Com.Src ℝ)} {t v}, l.Perm l' → Close l t v → Close l' t v
  direct : ∀ l t, Close l t (K.sToT l t)
  add : ∀ {a b A B}, IsMoments a A → IsMoments b B → (∀ q ∈ A, 0 < q.charge) → (∀ q ∈ B, 0 < q.charge) → B ≠ [] →
    ∃ d, K.add a b = some d ∧ IsMoments d (A ++ B)
  far : ∀ {d l} {t : Point ℝ}, IsMoments d l →
    (∀ q ∈ l, ((q.pos).sub ⟨d.c0, d.c1, d.c2⟩).norm ≤ κ * (t.sub ⟨d.c0, d.c1, d.c2⟩).norm) →
    0 < (t.sub ⟨d.c0, d.c1, d.c2⟩).norm → ∃ v, K.mToT d t = some v ∧ Close l t v

/-! ### Moments of sources in a box -/

theorem isMoments_perm {d : Data ℝ} {l l' : List (Com.Src ℝ)} (h : l.Perm l') (hm : IsMoments d l) : IsMoments d l' :=
  ⟨hm.mtot.trans (total_perm h _), hm.cx.trans (total_perm h _), hm.cy.trans (total_perm h _), hm.cz.trans (total_perm h _),
   hm.qxx.trans (total_perm h _), hm.qxy.trans (total_perm h _), hm.qxz.trans (total_perm h _),
   hm.qyy.trans (total_perm h _), hm.qyz.trans (total_perm h _), hm.qzz.trans (total_perm h _)⟩

theorem mean_between {l : List (Com.Src ℝ)} (h : ∀ q ∈ l, 0 < q.charge) (hl : l ≠ []) {g : Com.Src ℝ → ℝ} {m c o w : ℝ}
    (hm : m = Com.total l fun _ => 1) (hc : m * c = Com.total l g) (hg : ∀ q ∈ l, |g q - o| ≤ w) : |c - o| ≤ w := by
  have hp : 0 < m := by rw [hm]; exact total_pos h hl
  have e1 : m * (c - o) = Com.total l fun q => g q - o := by
    have : Com.total l (fun q => g q - o) = Com.total l g - (Com.total l fun _ => 1) * o := by
      clear hc hm hg hl h
      induction l with
      | nil => simp
      | cons a l ih => rw [Com.total_cons, Com.total_cons, Com.total_cons, ih]; ring
    rw [this, ← hc, ← hm]; ring
  have e2 : |Com.total l fun q => g q - o| ≤ m * w := by
    rw [hm]
    clear e1 hp hc hm hl
    induction l with
    | nil => simp
    | cons a l ih =>
      have i1 := ih (fun q hq => h q (List.mem_cons_of_mem _ hq)) fun q hq => hg q (List.mem_cons_of_mem _ hq)
      have i2 := hg a List.mem_cons_self
      have i3 := h a List.mem_cons_self
      rw [Com.total_cons, Com.total_cons]
      refine (abs_add_le _ _).trans ?_
      rw [abs_mul, abs_of_pos i3]
      nlinarith
  rw [← e1, abs_mul, abs_of_pos hp] at e2
  exact le_of_mul_le_mul_left e2 hp

theorem center_inCube {d : Domain ℝ} {ix : Index} {l : List (Com.Src ℝ)} (hl : l ≠ []) (h : ∀ q ∈ l, 0 < q.charge)
    (hq : ∀ q ∈ l, InCube d ix q.pos) {m : Data ℝ} (hm : IsMoments m l) : InCube d ix ⟨m.c0, m.c1, m.c2⟩ :=
  ⟨mean_between h hl hm.mtot hm.cx fun q hq' => (hq q hq').1, mean_between h hl hm.mtot hm.cy fun q hq' => (hq q hq').2.1,
   mean_between h hl hm.mtot hm.cz fun q hq' => (hq q hq').2.2⟩

/-! ### Nodes and edges -/

variable {O : Type} [AddCommMonoid O] {K : ComKernel O} {κ : ℝ} {Close : List (Com.Src ℝ) → Point ℝ → O → Prop}
  (D : ComData O) (L : List Index)

/-- All charges are positive. -/
def Positive : Prop := ∀ x ∈ L, ∀ q ∈ D.srcs x, 0 < q.charge

/-- The edges of Direct and Barnes-Hut; only those with expansions need positive charges. -/
inductive ComEdge (κ : ℝ) : Edge → Prop
  | StoM {a : Index} (ha : a ∈ L) (hc : Positive D L) : ComEdge κ ⟨.StoM, ⟨.src, a, .parts⟩, ⟨.src, a, .normal⟩⟩
  | MtoM {a : Index} (c : Fin 8) (hc : Positive D L) : ComEdge κ ⟨.MtoM, ⟨.src, a.child c, .normal⟩, ⟨.src, a, .normal⟩⟩
  | StoT {a b : Index} (ha : a ∈ L) : ComEdge κ ⟨.StoT, ⟨.src, a, .parts⟩, ⟨.tgt, b, .parts⟩⟩
  | MtoT {a b : Index} (h : Accepts D.dom κ a b) (hc : Positive D L) : ComEdge κ ⟨.MtoT, ⟨.src, a, .normal⟩, ⟨.tgt, b, .parts⟩⟩

/-- What a node holds while contributions are arriving. -/
def Holds (Close : List (Com.Src ℝ) → Point ℝ → O → Prop) (r : Ref) (x : ComVal K) (π : Index → ℕ) : Prop :=
  match r.side, r.kind with
  | .src, .normal => ∃ d, x = .exp (some d) ∧ IsMoments d (pick D.srcs L π) ∧
      ∀ q ∈ pick D.srcs L π, InCube D.dom r.ix q.pos
  | .tgt, .parts => ∃ f, x = .parts f ∧ ∀ i t, (D.tgts r.ix)[i]? = some t →
      ∃ v : O, f i = ((D.out r.ix i + v : O) : WithTop O) ∧ Close (pick D.srcs L π) t v
  | _, _ => True

/-- What an expansion that is used holds: it is not empty. -/
def Ready (Close : List (Com.Src ℝ) → Point ℝ → O → Prop) (r : Ref) (x : ComVal K) (π : Index → ℕ) : Prop :=
  (r.side = .src → r.kind = .parts → π = fun y => if y = r.ix then 1 else 0) ∧
  (r.side = .src → r.kind = .normal → pick D.srcs L π ≠ []) ∧ Holds D L Close r x π

variable {D L}

theorem comTargets_some {ix : Index} {f : Point ℝ → WithTop O} {i : ℕ} {t : Point ℝ} (h : (D.tgts ix)[i]? = some t) :
    D.toTargets ix f i = f t := by
  simp only [ComData.toTargets, h]

omit [AddCommMonoid O] in
theorem comContrib (e : Edge) (h : ComEdge D L κ e) (P : Prov) : contrib e P 0 = P 0 := by
  funext y; cases h <;> simp [contrib]

/-- A contribution arrives. -/
theorem holds_edge (hS : Sound K κ Close) {s : Fin 8 → Oct} (hL : L = leaves Index.root (.node s)) (hn : L.Nodup)
    (hp : D.Placed s) {e : Edge} (he : ComEdge D L κ e) {x y : ComVal K}
    {π ρ : Index → ℕ} (hx : Holds D L Close e.dst x π) (hy : Ready D L Close e.src y ρ) :
    Holds D L Close e.dst (x + D.op K e y) (π + ρ) ∧
      (e.dst.side = .src → pick D.srcs L ρ ≠ []) := by
  have pp : Positive D L → ∀ π : Index → ℕ, ∀ q ∈ pick D.srcs L π, 0 < q.charge := fun hpos π q hq => by
    obtain ⟨x, hx, hq⟩ := mem_pick _ hq; exact hpos x hx q hq
  have hadd := pick_add D.srcs π ρ L
  cases he with
  | @StoM a ha hpos =>
    obtain ⟨d, rfl, hm, hc⟩ := hx
    have e1 : pick D.srcs L ρ = D.srcs a := by rw [hy.1 rfl rfl]; exact pick_single _ a L hn ha
    have hne : D.srcs a ≠ [] := hp.some a (hL ▸ ha)
    have hpa : ∀ q ∈ D.srcs a, 0 < q.charge := hpos a ha
    obtain ⟨d', h1, h2⟩ := hS.add hm (isMoments_sToM (D.srcs a) (Or.inl (total_pos hpa hne).ne')) (pp hpos π) hpa hne
    refine ⟨⟨d', ?_, ?_, fun q hq => ?_⟩, fun _ => by rw [e1]; exact hne⟩
    · show ComVal.exp _ = _
      simp [h1]
    · rw [← e1] at h2
      exact isMoments_perm hadd.symm h2
    · rcases List.mem_append.1 (hadd.mem_iff.1 hq) with hq | hq
      · exact hc q hq
      · rw [e1] at hq; exact hp.srcs a (hL ▸ ha) q hq
  | @MtoM a c hpos =>
    obtain ⟨d, rfl, hm, hc⟩ := hx
    obtain ⟨-, hne, d2, rfl, hm2, hc2⟩ := hy
    have hne := hne rfl rfl
    obtain ⟨d', h1, h2⟩ := hS.add hm hm2 (pp hpos π) (pp hpos ρ) hne
    refine ⟨⟨d', ?_, isMoments_perm hadd.symm h2, fun q hq => ?_⟩, fun _ => hne⟩
    · show ComVal.exp _ = _
      simp [ComVal.mom, mToM_eq, h1]
    · rcases List.mem_append.1 (hadd.mem_iff.1 hq) with hq | hq
      · exact hc q hq
      · exact inBox_child hp.size c.2 (hc2 q hq)
  | @StoT a b ha =>
    obtain ⟨f, rfl, hf⟩ := hx
    have e1 : pick D.srcs L ρ = D.srcs a := by rw [hy.1 rfl rfl]; exact pick_single _ a L hn ha
    refine ⟨⟨_, rfl, fun i t ht => ?_⟩, fun h => by cases h⟩
    obtain ⟨v, hv, hv'⟩ := hf i t ht
    refine ⟨v + K.sToT (D.srcs a) t, ?_, hS.perm hadd.symm (hS.app hv' (by rw [e1]; exact hS.direct _ t))⟩
    refine (congrArg₂ (· + ·) hv (comTargets_some ht)).trans ?_
    rw [← add_assoc]; rfl
  | @MtoT a b hacc hpos =>
    obtain ⟨f, rfl, hf⟩ := hx
    obtain ⟨-, hne, d2, rfl, hm2, hc2⟩ := hy
    have hne := hne rfl rfl
    refine ⟨⟨_, rfl, fun i t ht => ?_⟩, fun h => by cases h⟩
    obtain ⟨v, hv, hv'⟩ := hf i t ht
    have htm : InCube D.dom b t := hp.tgts b t (List.mem_of_getElem? ht)
    have hcc := center_inCube hne (pp hpos ρ) hc2 hm2
    obtain ⟨q0, hq0⟩ := List.exists_mem_of_ne_nil _ hne
    obtain ⟨w, hw, hw'⟩ := hS.far (t := t) hm2 (fun q hq => (hacc q.pos t _ (hc2 q hq) htm hcc).2)
      (hacc q0.pos t _ (hc2 q0 hq0) htm hcc).1
    refine ⟨v + w, ?_, hS.perm hadd.symm (hS.app hv' hw')⟩
    have hw2 : Option.bind (ComVal.exp (some d2) : ComVal K).mom (fun d => K.mToT d t) = (w : WithTop O) := hw
    refine (congrArg₂ (· + ·) hv ((comTargets_some ht).trans hw2)).trans ?_
    rw [← add_assoc]; rfl

theorem foldl_holds (hS : Sound K κ Close) {s : Fin 8 → Oct} (hL : L = leaves Index.root (.node s)) (hn : L.Nodup)
    (hp : D.Placed s) {N : Ref → ComVal K} {P : Ref → Prov} {r : Ref} :
    ∀ (l : List Edge) (x : ComVal K) (π : Index → ℕ), (∀ e ∈ l, ComEdge D L κ e ∧ e.dst = r ∧
        Ready D L Close e.src (N e.src) (P e.src 0)) → Holds D L Close r x π →
      Holds D L Close r (l.foldl (fun a e => a + D.op K e (N e.src)) x) (π + (l.map fun e => P e.src 0).sum) ∧
      (r.side = .src → l ≠ [] → pick D.srcs L (l.map fun e => P e.src 0).sum ≠ [])
  | [], x, π, _, h => by simpa using h
  | e :: l, x, π, h, hx => by
    obtain ⟨h1, h2, h3⟩ := h e List.mem_cons_self
    have hx' := hx
    rw [← h2] at hx'
    obtain ⟨i1, i2⟩ := holds_edge hS hL hn hp h1 hx' h3
    rw [h2] at i1 i2
    obtain ⟨j1, -⟩ := foldl_holds hS hL hn hp l _ _ (fun e he => h e (List.mem_cons_of_mem _ he)) i1
    refine ⟨?_, fun hs _ => ?_⟩
    · rw [List.foldl_cons, List.map_cons, List.sum_cons, ← add_assoc]; exact j1
    · rw [List.map_cons, List.sum_cons]
      intro h0
      have := (pick_add D.srcs (P e.src 0) (l.map fun e => P e.src 0).sum L).length_eq
      rw [h0, List.length_nil, List.length_append] at this
      exact i2 hs (List.length_eq_zero_iff.1 (by omega))

theorem comEdge_dst {e : Edge} (h : ComEdge D L κ e) : ¬ (e.dst.side = .src ∧ e.dst.kind = .parts) := by cases h <;> simp

/-- What the nodes hold in the end. -/
theorem com_nodes (hS : Sound K κ Close) {s : Fin 8 → Oct} (hL : L = leaves Index.root (.node s)) (hn : L.Nodup)
    (hp : D.Placed s) {acts : List Act} (hac : Acyclic (edgesOf acts))
    (hed : ∀ e ∈ edgesOf acts, ComEdge D L κ e ∧ e.src ∈ nodesOf acts) {N : Ref → ComVal K}
    (hN : ∀ r, ∃ l : List Edge, l.Perm ((comDag D K acts).inE r) ∧
      N r = l.foldl (fun a e => a + D.op K e (N e.src)) (D.base K r))
    (hfed : ∀ r ∈ nodesOf acts, ¬ (r.side = .src ∧ r.kind = .parts) → (comDag D K acts).inE r ≠ [])
    {P : Ref → Prov} (hP : IsEvaluation acts P) (r : Ref) (hr : r ∈ nodesOf acts) : Ready D L Close r (N r) (P r 0) := by
  obtain ⟨rank, hrank⟩ := hac
  induction hk : rank r using Nat.strong_induction_on generalizing r with
  | _ k ih =>
    obtain ⟨l, hl, hNr⟩ := hN r
    have hin : (comDag D K acts).inE r = (edgesOf acts).filter fun e => e.dst = r := rfl
    rw [hin] at hl
    have hmem : ∀ e ∈ l, e ∈ edgesOf acts ∧ e.dst = r := fun e he => by
      have := List.mem_filter.1 (hl.mem_iff.1 he); exact ⟨this.1, by simpa using this.2⟩
    have hPe : P r 0 = base r 0 + (l.map fun e => P e.src 0).sum := by
      have e0 : P r = base r + inflow P (edgesOf acts) r := funext fun i => funext fun y => hP r i y
      have e1 : (l.map fun e => contrib e (P e.src)).sum 0 = (l.map fun e => P e.src 0).sum := by
        clear hNr hl
        induction l with
        | nil => rfl
        | cons a l ihl =>
          rw [List.map_cons, List.sum_cons, List.map_cons, List.sum_cons, Pi.add_apply,
            ihl fun e he => hmem e (List.mem_cons_of_mem _ he), comContrib (D := D) (L := L) (κ := κ) a (hed a (hmem a List.mem_cons_self).1).1]
      have e2 : (((edgesOf acts).filter fun e => e.dst = r).map fun e => contrib e (P e.src)).sum =
          (l.map fun e => contrib e (P e.src)).sum := ((hl.symm).map _).sum_eq
      rw [e0, inflow_eq, Pi.add_apply, ← e1, e2]
    by_cases hsp : r.side = .src ∧ r.kind = .parts
    · have hnone : l = [] := by
        by_contra hne
        obtain ⟨e, he⟩ := List.exists_mem_of_ne_nil _ hne
        have := comEdge_dst (hed e (hmem e he).1).1
        rw [(hmem e he).2] at this
        exact this hsp
      refine ⟨fun _ _ => ?_, fun _ h => ?_, ?_⟩
      · rw [hPe, hnone]; funext y; simp [base, hsp]
      · rw [hsp.2] at h; cases h
      · unfold Holds; rw [hsp.1, hsp.2]; trivial
    · have hb0 : base r 0 = 0 := by
        funext y; simp only [base, Pi.zero_apply]
        rw [if_neg]; rintro ⟨h1, h2, -⟩; exact hsp ⟨h1, h2⟩
      have hbase : Holds D L Close r (D.base K r) 0 := by
        rcases r with ⟨_ | _, ix, _ | _ | _⟩ <;> try exact trivial
        · refine ⟨fresh, rfl, ?_, fun q hq => ?_⟩
          · rw [pick_zero]; exact isMoments_fresh
          · rw [pick_zero] at hq; simp at hq
        · refine ⟨_, rfl, fun i t _ => ⟨0, ?_, ?_⟩⟩
          · rw [add_zero]
          · rw [pick_zero]; exact hS.nil t
      have hall : ∀ e ∈ l, ComEdge D L κ e ∧ e.dst = r ∧ Ready D L Close e.src (N e.src) (P e.src 0) := fun e he => by
        obtain ⟨h1, h2⟩ := hmem e he
        have hlt := hrank e h1
        rw [h2, hk] at hlt
        exact ⟨(hed e h1).1, h2, ih _ hlt e.src (hed e h1).2 rfl⟩
      obtain ⟨f1, f2⟩ := foldl_holds hS hL hn hp l _ 0 hall hbase
      rw [hPe, hb0, zero_add]
      rw [zero_add, ← hNr] at f1
      refine ⟨fun h1 h2 => absurd ⟨h1, h2⟩ hsp, fun h1 _ => f2 h1 fun h0 => ?_, f1⟩
      apply hfed r hr hsp
      rw [hin]
      rw [h0] at hl
      exact hl.nil_eq.symm

/-- What the targets hold in the end. -/
theorem com_targets (hS : Sound K κ Close) {s : Fin 8 → Oct} (hL : L = leaves Index.root (.node s)) (hn : L.Nodup)
    (hp : D.Placed s) {acts : List Act} (hac : Acyclic (edgesOf acts))
    (hed : ∀ e ∈ edgesOf acts, ComEdge D L κ e ∧ e.src ∈ nodesOf acts) {N : Ref → ComVal K}
    (hN : ∀ r, ∃ l : List Edge, l.Perm ((comDag D K acts).inE r) ∧
      N r = l.foldl (fun a e => a + D.op K e (N e.src)) (D.base K r))
    (hfed : ∀ r ∈ nodesOf acts, ¬ (r.side = .src ∧ r.kind = .parts) → (comDag D K acts).inE r ≠ [])
    {P : Ref → Prov} (hP : IsEvaluation acts P) {r : Ref} (hr : r ∈ nodesOf acts) (h1 : r.side = .tgt)
    (h2 : r.kind = .parts) (hall : ∀ x, P r 0 x = if x ∈ L then 1 else 0) {i : ℕ} {t : Point ℝ}
    (ht : (D.tgts r.ix)[i]? = some t) :
    ∃ f, N r = .parts f ∧ ∃ v : O, f i = ((D.out r.ix i + v : O) : WithTop O) ∧ Close (D.all s) t v := by
  have h := (com_nodes hS hL hn hp hac hed hN hfed hP r hr).2.2
  unfold Holds at h
  rw [h1, h2] at h
  obtain ⟨f, hf, hf'⟩ := h
  have hg : pick D.srcs L (P r 0) = D.all s := by
    rw [pick_one _ _ L fun x hx => by rw [hall x, if_pos hx], ComData.all, hL]
  rw [hg] at hf'
  exact ⟨f, hf, hf' i t ht⟩

end

end Dashmm.ComEx
