import Verif.Proofs.YukEval
import Verif.Props.LapFmm

/-!
# C99: evaluations with the Yukawa kernel
-/

namespace Dashmm

open Lap Harm Bessel Yuk
open scoped Nat

theorem yukDag_ok (D : YukData) {acts : List Act} (h1 : NoAssertionFails acts) (h2 : Ranked (edgesOf acts)) : (yukDag D acts).Ok :=
  let h := methodDag_ok h1 h2
  ⟨h.nodup, h.srcs, h.dsts, h.starts_sub, h.starts_nodup, h.starts_in, h.acyclic⟩

theorem yuk_evaluation {m : Method} (hm : DeliversAllOnce m) {unif : Nat} {same : Bool}
    {s t : Fin 8 → Oct} {acts : List Act} (hr : Runs (createProg m unif same s t) acts)
    (h1 : NoAssertionFails acts) (h2 : Ranked (edgesOf acts)) {D : YukData} {δ : ℝ} (hlam : 0 < D.lam) {T : Point ℝ → Prop} {E : Index → Index → Prop}
    (hed : ∀ e ∈ edgesOf acts, YukEdge D δ T E e)
    {loc : Ref → Nat} {n k : Nat} {S : Sys Ref Edge YukVal} (hS : Sys.Steps (yukDag D acts) loc n k S)
    (hl : ∀ r ∈ (yukDag D acts).watched, loc r < n) (hd : ∀ k < n, S.Done k)
    {r : Ref} (hn : r ∈ nodesOf acts) (hs : r.side = .tgt) (hk : r.kind = .parts) :
    ∃ W : List (Index × Option Index), (W.map Prod.fst).Perm (leaves Index.root (.node s)) ∧
      (∀ y ∈ W, ∀ a, y.2 = some a → E a r.ix ∧ Ancestor a y.1) ∧
      ∀ i x, (D.tgts r.ix)[i]? = some x → ∃ v : ℝ, (S.ex.acc r).2 i = (v : WithTop ℝ) ∧
        |v - D.phi r.ix i - Yukawa.potential D.lam (D.all s) x| ≤ (W.map (D.wayError δ x)).sum := by
  have hD := yukDag_ok D h1 h2
  have hv := (reach_inv hD hS.reach).complete_val hD (all_triggered hS hl hd)
  obtain ⟨P, hP, -⟩ := exists_unique_evaluation h2.acyclic
  exact eval_targets (N := S.ex.acc) rfl (leaves_nodup ⟨Index.root, s⟩) hlam h2.acyclic hed hv hP hs hk
    (hm unif same s t acts P hr hP r hn hs hk)

theorem bh_own {mac : Index → Index → Bool} {n : TNode} {e : Edge} (h : Act.link e ∈ ownSrc (BH mac) n) :
    (n.isLeaf = true ∧ e = ⟨.StoM, ⟨.src, n.ix, .parts⟩, ⟨.src, n.ix, .normal⟩⟩) ∨
    ∃ k ∈ n.kids, e = ⟨.MtoM, ⟨.src, k.ix, .normal⟩, ⟨.src, n.ix, .normal⟩⟩ := by
  unfold ownSrc at h
  split at h
  · next hl =>
    simp [BH, Act.addParts, Act.addNormal, Act.StoM] at h
    exact .inl ⟨hl, h⟩
  · simp [BH, Act.addNormal, Act.MtoM] at h
    obtain ⟨k, hk, he⟩ := h
    exact .inr ⟨k, hk, he.symm⟩

theorem bh_visit {mac : Index → Index → Bool} {unif : Nat} {same : Bool} {s t : Fin 8 → Oct} {acts : List Act}
    (hr : Runs (createProg (BH mac) unif same s t) acts) {e : Edge} (he : e ∈ edgesOf acts) :
    (∃ n, Under (rootNode s) n ∧ Act.link e ∈ ownSrc (BH mac) n) ∨
    (∃ i b, i ∈ leaves Index.root (.node s) ∧ e = ⟨.StoT, ⟨.src, i, .parts⟩, ⟨.tgt, b, .parts⟩⟩) ∨
    ∃ a b, e = ⟨.MtoT, ⟨.src, a, .normal⟩, ⟨.tgt, b, .parts⟩⟩ := by
  rcases createDag_mem (mem_edges_createDag hr he) with ⟨n, hu, ha⟩ | ⟨n, p, c, hv, ha⟩
  · exact .inl ⟨n, hu, ha⟩
  · right
    simp only [theVisit, Dashmm.visit] at ha
    rcases List.mem_append.1 ha with ha | ha
    · simp [BH, Act.addParts] at ha
    · have hcu : ∀ i ∈ c, Under (rootNode s) i := BH_cons hv (by
        intro i hi; simp at hi; subst hi; exact .refl _)
      have h := (doWhile_act (bhPass_act mac s n _) _ _ hcu).1 _ ha
      generalize hx : Act.link e = x at h
      cases h with
      | StoT hu hl _ => cases hx; exact .inl ⟨_, _, mem_leaves.2 ⟨_, hu, hl, rfl⟩, rfl⟩
      | @MtoT i hu hma => cases hx; exact .inr ⟨_, _, rfl⟩

theorem under_level {s : Fin 8 → Oct} {n : TNode} (h : Under (rootNode s) n) (hlev : ∀ x ∈ leaves Index.root (.node s), x.level ≤ 21) :
    n.ix.level ≤ 21 := by
  obtain ⟨i, h1, h2, h3⟩ := h.exists_leaf
  exact (h1.isDesc.1).trans (hlev _ (mem_leaves.2 ⟨i, h2, h3, rfl⟩))

theorem bh_yukEdge {mac : Index → Index → Bool} {unif : Nat} {same : Bool} {s t : Fin 8 → Oct} {acts : List Act}
    (hr : Runs (createProg (BH mac) unif same s t) acts) {D : YukData} {δ : ℝ} (hA : Acc D δ) (hp : D.Placed s) (hlam : 0 < D.lam) (hp18 : D.p ≤ 18)
    (hlev : ∀ x ∈ leaves Index.root (.node s), x.level ≤ 21) (hc : D.Clear acts)
    (hm : ∀ e ∈ edgesOf acts, e.op = .MtoT → ∀ x ∈ D.tgts e.dst.ix, D.radius e.src.ix.level < (x.sub (D.center e.src.ix)).norm ∧
      10⁻¹ ^ 200 ≤ D.lam * (x.sub (D.center e.src.ix)).norm ∧ D.lam * (x.sub (D.center e.src.ix)).norm < 10 ^ 8)
    {e : Edge} (he : e ∈ edgesOf acts) :
    YukEdge D δ (fun x => ∀ r ∈ nodesOf acts, Regular (x.sub (D.center r.ix)))
      (fun a b => (⟨.MtoT, ⟨.src, a, .normal⟩, ⟨.tgt, b, .parts⟩⟩ : Edge) ∈ edgesOf acts) e := by
  have hends := edge_ends (BH_safe mac hr) he
  rcases bh_visit hr he with ⟨n, hu, ha⟩ | ⟨i, b, hi, rfl⟩ | ⟨a, b, rfl⟩
  · rcases bh_own ha with ⟨hl, rfl⟩ | ⟨k, hk, rfl⟩
    · have r1 : (⟨.src, n.ix, .normal⟩ : Ref) ∈ nodesOf acts := hends.2
      have h1 := hc.srcs _ r1 _ hends.1 rfl rfl
      exact .StoM hA (hp.srcs _ (mem_leaves.2 ⟨n, hu, hl, rfl⟩)) h1 fun x hx => hx ⟨.src, n.ix, .normal⟩ r1
    · have h21 := under_level (hu.kid hk) hlev
      obtain ⟨i, -, hi⟩ := mem_kids.1 hk
      have hki : k.ix = n.ix.child i := by rw [hi]
      rw [hki] at h21 ⊢
      exact .MtoM hA i h21
  · exact .StoT
  · have hsz := hA.size
    refine .MtoT hsz he fun x hx => ?_
    obtain ⟨g1, g2, g3⟩ := hm _ he rfl x hx
    have hreg : ∀ r ∈ nodesOf acts, Regular (x.sub (D.center r.ix)) := fun r hr' => hc.tgts r hr' _ hends.2 rfl rfl x hx
    refine ⟨hreg, hreg ⟨.src, a, .normal⟩ hends.1, g1, fun M => ?_⟩
    refine C86_multipole_returns D.p hp18 D.lam D.dom.size hlam hsz _ _ _ ?_ g2 g3 M
    refine le_trans ?_ g1.le
    have h3 : 1 ≤ √3 := Real.one_le_sqrt.2 (by norm_num)
    show D.dom.size / 2 ^ a.level / 4 ≤ √3 / 2 * (D.dom.size / 2 ^ a.level)
    have : 0 < D.dom.size / 2 ^ a.level := by positivity
    nlinarith

/-- **C99** Barnes-Hut with the Yukawa kernel: for all trees with at most 21 levels, all sources and targets in their boxes and clear of
the centres, for any number of ranks, any placement of the DAG nodes and any schedule, if every target to which the
expansion of a box is evaluated is outside the sphere around the box (and within the range of the Bessel functions): when the
evaluation has finished every target holds what it held at first plus its potential, up to an error of at most that of the
ways `W` its contributions take. Each leaf takes one way: directly, or through the expansion of an ancestor evaluated for this node. -/
theorem C99_bh_accuracy {mac : Index → Index → Bool} {unif : Nat} {same : Bool} {s t : Fin 8 → Oct} {acts : List Act}
    (hr : Runs (createProg (BH mac) unif same s t) acts) {D : YukData} (hp : D.Placed s) (hc : D.Clear acts) (hlam : 0 < D.lam)
    (hp18 : D.p ≤ 18) {δ : ℝ} (hδ0 : 10⁻¹ ^ 17 ≤ δ) (hδ : δ ≤ 1 / 2) (hF : AccurateI D.table δ)
    (hlev : ∀ x ∈ leaves Index.root (.node s), x.level ≤ 21)
    (hm : ∀ e ∈ edgesOf acts, e.op = .MtoT → ∀ x ∈ D.tgts e.dst.ix, D.radius e.src.ix.level < (x.sub (D.center e.src.ix)).norm ∧
      10⁻¹ ^ 200 ≤ D.lam * (x.sub (D.center e.src.ix)).norm ∧ D.lam * (x.sub (D.center e.src.ix)).norm < 10 ^ 8)
    {loc : Ref → Nat} {n k : Nat} {S : Sys Ref Edge YukVal} (hS : Sys.Steps (yukDag D acts) loc n k S)
    (hl : ∀ r ∈ (yukDag D acts).watched, loc r < n) (hd : ∀ k < n, S.Done k)
    {r : Ref} (hn : r ∈ nodesOf acts) (hs : r.side = .tgt) (hk : r.kind = .parts) :
    ∃ W : List (Index × Option Index), (W.map Prod.fst).Perm (leaves Index.root (.node s)) ∧
      (∀ y ∈ W, ∀ a, y.2 = some a → (⟨.MtoT, ⟨.src, a, .normal⟩, r⟩ : Edge) ∈ edgesOf acts ∧ Ancestor a y.1) ∧
      ∀ i x, (D.tgts r.ix)[i]? = some x → ∃ v : ℝ, (S.ex.acc r).2 i = (v : WithTop ℝ) ∧
        |v - D.phi r.ix i - Yukawa.potential D.lam (D.all s) x| ≤ (W.map (D.wayError δ x)).sum := by
  have := yuk_evaluation (BH_delivers mac) hr (BH_safe mac hr) (BH_ranked hr) hlam
    (fun e he => bh_yukEdge hr ⟨hp.size, hδ0, hδ, hF⟩ hp hlam hp18 hlev hc hm he) hS hl hd hn hs hk
  rcases r with ⟨sd, ix, kd⟩
  cases hs; cases hk
  exact this

theorem direct_lapEdge_shape {unif : Nat} {same : Bool} {s t : Fin 8 → Oct} {acts : List Act}
    (hr : Runs (createProg Direct unif same s t) acts) {e : Edge} (he : e ∈ edgesOf acts) :
    ∃ a b, e = ⟨.StoT, ⟨.src, a, .parts⟩, ⟨.tgt, b, .parts⟩⟩ := by
  rcases createDag_mem (mem_edges_createDag hr he) with ⟨n, hu, ha⟩ | ⟨n, p, c, hv, ha⟩
  · unfold ownSrc at ha
    split at ha <;> simp [Direct, Act.addParts] at ha
  · simp only [theVisit, Dashmm.visit] at ha
    rcases List.mem_append.1 ha with ha | ha
    · simp [Direct, Act.addParts] at ha
    · have hcu : ∀ i ∈ c, Under (rootNode s) i := Direct_cons hv (by
        intro i hi; simp at hi; subst hi; exact .refl _)
      have e1 : ∀ l, directPass n l = bhPass (fun _ _ => false) n l := fun l => funext (directPass_eq n l)
      have ha' : Act.link e ∈ (doWhile (bhPass (fun _ _ => false) n (!refine Direct unif same n c))
        (!refine Direct unif same n c) (loopFuel c) c).1 := by
        rw [← e1]; exact ha
      have h := (doWhile_act (leaf := !refine Direct unif same n c) (bhPass_act (fun _ _ => false) s n
        (!refine Direct unif same n c)) (loopFuel c) c hcu).1 _ ha'
      generalize hx : Act.link e = x at h
      cases h with
      | StoT hu hl _ => cases hx; exact ⟨_, _, rfl⟩
      | MtoT hu hm => simp at hm

theorem direct_yukEdge {unif : Nat} {same : Bool} {s t : Fin 8 → Oct} {acts : List Act}
    (hr : Runs (createProg Direct unif same s t) acts) {D : YukData} {δ : ℝ} {T : Point ℝ → Prop} {E : Index → Index → Prop}
    {e : Edge} (he : e ∈ edgesOf acts) : YukEdge D δ T E e := by
  rcases direct_lapEdge_shape hr he with ⟨a, b, rfl⟩
  exact .StoT

/-- **C99** The direct method with the Yukawa kernel is exact (for any table). -/
theorem C99_direct_exact {unif : Nat} {same : Bool} {s t : Fin 8 → Oct} {acts : List Act}
    (hr : Runs (createProg Direct unif same s t) acts) {D : YukData} (hlam : 0 < D.lam)
    {loc : Ref → Nat} {n k : Nat} {S : Sys Ref Edge YukVal} (hS : Sys.Steps (yukDag D acts) loc n k S)
    (hl : ∀ r ∈ (yukDag D acts).watched, loc r < n) (hd : ∀ k < n, S.Done k)
    {r : Ref} (hn : r ∈ nodesOf acts) (hs : r.side = .tgt) (hk : r.kind = .parts) {i : ℕ} {x : Point ℝ} (hx : (D.tgts r.ix)[i]? = some x) :
    (S.ex.acc r).2 i = ((D.phi r.ix i + Yukawa.potential D.lam (D.all s) x : ℝ) : WithTop ℝ) := by
  obtain ⟨W, -, hW, h⟩ := yuk_evaluation Direct_delivers hr (Direct_safe hr) (Direct_ranked hr) (δ := 0) (T := fun _ => True)
    (E := fun _ _ => False) hlam (fun e he => direct_yukEdge hr he) hS hl hd hn hs hk
  obtain ⟨v, hv, hv'⟩ := h i x hx
  have h0 : (W.map (D.wayError 0 x)).sum = 0 := by
    refine List.sum_eq_zero fun y hy => ?_
    obtain ⟨⟨z, o⟩, hz, rfl⟩ := List.mem_map.1 hy
    cases o with
    | none => rfl
    | some a => exact absurd (hW _ hz a rfl).1 id
  rw [h0] at hv'
  have := abs_nonpos_iff.1 hv'
  rw [hv]
  congr 1; linarith

/-- **C99** Where the bounds are small: a target that is so far from an ancestor that the radius of the ancestor is at most `κ` times its
distance is as far from all the boxes on the way to the leaf. -/
theorem C99_ratio (D : YukData) (hsz : 0 < D.dom.size) {κ : ℝ} (h0 : 0 ≤ κ) (h1 : κ ≤ 1) (a x : Index) (ha : Ancestor a x) (t : Point ℝ)
    (h : D.radius a.level ≤ κ * (t.sub (D.center a)).norm) (k : ℕ) (hk : k ≤ x.level - a.level) :
    D.radius (x.level - k) ≤ κ * (t.sub (D.center (x.parent k))).norm := by
  obtain ⟨ha1, ha2⟩ := ha
  obtain ⟨j, hj⟩ : ∃ j, x.level - a.level = k + j := ⟨_, (Nat.add_sub_cancel' hk).symm⟩
  induction j generalizing k with
  | zero =>
    have : k = x.level - a.level := by omega
    subst this
    rw [ha2, show x.level - (x.level - a.level) = a.level by omega]; exact h
  | succ j ih =>
    have h2 := ih (k + 1) (by omega) (by omega)
    have hl : (x.parent k).level = x.level - k := by rw [Index.parent_eq]
    have e1 := Index.child_parent (x.parent k) (by omega)
    have hlt : (x.parent k).whichChild < 8 := by unfold Index.whichChild; simp only; omega
    rw [← Index.parent_add] at e1
    have hc := C98_shift_distance D.dom hsz (x.parent (k + 1)) ⟨(x.parent k).whichChild, hlt⟩
    simp only [e1] at hc
    have hl' : (x.parent (k + 1)).level + 1 = x.level - k := by rw [Index.parent_eq]; simp only; omega
    have hr : D.radius (x.level - k) = ((D.center (x.parent k)).sub (D.center (x.parent (k + 1)))).norm := by
      rw [← hl']; exact hc
    have h3 := sub_norm_le t (D.center (x.parent k)) (D.center (x.parent (k + 1)))
    rw [← hr] at h3
    have h4 : D.radius (x.level - (k + 1)) = D.radius (x.level - k) + D.radius (x.level - k) := by
      rw [show x.level - k = x.level - (k + 1) + 1 by omega]; exact radius_double D _
    have h5 := radius_pos (D := D) hsz (x.level - k)
    rw [h4] at h2
    nlinarith

/-- **C99** And there a translation from a box of the radius `ρ` costs, per unit of size, no more than terms with `κ` to the
order of the expansion, apart from the errors of the table. -/
theorem C99_translation_small (p : ℕ) (lam δ ρ κ r : ℝ) (hl : 0 < lam) (hδ : 0 ≤ δ) (hρ : 0 < ρ) (h0 : 0 < κ) (h1 : κ < 1) (h : ρ + ρ ≤ κ * r) :
    Yukawa.mToMBound p lam δ ρ ρ r ≤ Real.pi / (2 * lam) *
      (Real.exp (lam ^ 2 * ρ ^ 2 / 2) * (lam ^ 2 * ρ / 3 * κ ^ (p + 1) + (p + 1) / ρ * κ ^ p) +
        Yukawa.tableError p δ (lam * ρ) * Real.exp (2 * lam ^ 2 * ρ ^ 2 / 3) * (κ / (2 * ρ * (1 - κ)))) := by
  have hr : 0 < r := by
    by_contra hr
    have := mul_nonpos_of_nonneg_of_nonpos h0.le (not_lt.1 hr)
    linarith
  have hk1 : 0 < 1 - κ := by linarith
  have hq : (ρ + ρ) / r ≤ κ := (div_le_iff₀ hr).2 h
  have hq0 : 0 ≤ (ρ + ρ) / r := by positivity
  have hrρ : ρ ≤ r - ρ := by nlinarith
  have hT : 0 ≤ Yukawa.tableError p δ (lam * ρ) := by
    have := besselError_nonneg δ (lam * ρ) hδ
    unfold Yukawa.tableError; positivity
  have hpi := Real.pi_pos
  rw [Yukawa.mToMBound, Yukawa.shiftError]
  refine mul_le_mul_of_nonneg_left (add_le_add ?_ ?_) (by positivity)
  · have a1 : ((p : ℝ) + 1) / (r - ρ) ^ 2 ≤ (p + 1) / ρ ^ 2 := by gcongr
    have a2 : ((ρ + ρ) / r) ^ p ≤ κ ^ p := by gcongr
    have a3 : ((ρ + ρ) / r) ^ (p + 1) ≤ κ ^ (p + 1) := by gcongr
    calc _ ≤ ρ * Real.exp (lam ^ 2 * ρ ^ 2 / 2) * (lam ^ 2 / 3 * κ ^ (p + 1) + (p + 1) / ρ ^ 2 * κ ^ p) := by gcongr
      _ = _ := by field_simp
  · have a1 : 2 * ρ * (1 - κ) / κ ≤ r - (ρ + ρ) := by
      rw [div_le_iff₀ h0]; nlinarith
    have a2 : 0 < 2 * ρ * (1 - κ) / κ := by positivity
    have e : lam ^ 2 * ρ ^ 2 / 3 + lam ^ 2 * ρ * ρ / 3 = 2 * lam ^ 2 * ρ ^ 2 / 3 := by ring
    rw [mul_assoc (Yukawa.tableError p δ (lam * ρ)), ← Real.exp_add, e, show κ / (2 * ρ * (1 - κ)) = 1 / (2 * ρ * (1 - κ) / κ) by rw [one_div_div],
      mul_one_div]
    gcongr

/-! ### Concrete cases -/

section Examples

/-- The sources and targets of `exLap`, `λ = 1`. -/
noncomputable def exYuk : YukData where
  dom := ⟨⟨0, 0, 0⟩, 16⟩
  lam := 1
  p := 9
  table := exactI
  srcs := (exLap 9).srcs
  tgts := (exLap 9).tgts
  phi _ i := i

theorem exYuk_placed : exYuk.Placed exFar := ⟨(exLap_placed 9).size, (exLap_placed 9).srcs, (exLap_placed 9).tgts⟩

theorem exYuk_clear {acts : List Act} (h : ∀ r ∈ nodesOf acts, r.ix ∈ exBoxes) : exYuk.Clear acts :=
  ⟨(exLap_clear 9 h).srcs, (exLap_clear 9 h).tgts⟩

theorem exists_yuk_done (D : YukData) {acts : List Act} (h1 : NoAssertionFails acts) (h2 : Ranked (edgesOf acts))
    (hf : ∀ r ∈ nodesOf acts, ¬ (r.side = .src ∧ r.kind = .parts) → ∃ e ∈ edgesOf acts, e.dst = r)
    {loc : Ref → Nat} {n : Nat} (hl : ∀ r, loc r < n) :
    ∃ m S, Sys.Steps (yukDag D acts) loc n m S ∧ ∀ k < n, S.Done k :=
  exists_done (yukDag_ok D h1 h2) ((C44_completes_iff (yukDag_ok D h1 h2) fun r _ => hl r).2 fun r hr hs =>
    hf r hr fun h => hs (List.mem_filter.2 ⟨hr, by simpa using h⟩))

/-- A criterion that accepts one pair of boxes; the source box is two levels above its leaf. -/
def exMacUp (s t : Index) : Bool := s = ⟨3, 3, 3, 2⟩ && t = ⟨0, 0, 0, 2⟩

theorem exMacUp_far : ∀ e ∈ edgesOf (createDag (BH exMacUp) 2 true exFar exFar), e.op = .MtoT → ∀ x ∈ exYuk.tgts e.dst.ix,
    exYuk.radius e.src.ix.level < (x.sub (exYuk.center e.src.ix)).norm ∧
    10⁻¹ ^ 200 ≤ exYuk.lam * (x.sub (exYuk.center e.src.ix)).norm ∧ exYuk.lam * (x.sub (exYuk.center e.src.ix)).norm < 10 ^ 8 := by
  have h : ∀ e ∈ edgesOf (createDag (BH exMacUp) 2 true exFar exFar), e.op = .MtoT →
    e.src.ix = ⟨3, 3, 3, 2⟩ ∧ e.dst.ix = ⟨0, 0, 0, 2⟩ := by decide +kernel
  intro e he ho x hx
  obtain ⟨h1, h2⟩ := h e he ho
  rw [h2] at hx
  rw [h1]
  have hcen : exYuk.center ⟨3, 3, 3, 2⟩ = ⟨14, 14, 14⟩ := by
    simp only [YukData.center, exYuk, Domain.centerFromIndex, Domain.sizeFromLevel, Point.mk.injEq]; norm_num
  have h3 : √3 ≤ 7 / 4 := Real.sqrt_le_iff.2 ⟨by norm_num, by norm_num⟩
  have hrad : exYuk.radius 2 ≤ 4 := by
    simp only [YukData.radius, exYuk]; norm_num; linarith
  have h200 : (10⁻¹ : ℝ) ^ 200 ≤ 10⁻¹ ^ 1 := pow_le_pow_of_le_one (by norm_num) (by norm_num) (by norm_num)
  have key : 8 ≤ (x.sub ⟨14, 14, 14⟩).norm ∧ (x.sub ⟨14, 14, 14⟩).norm ≤ 30 := by
    have hx' : x ∈ ([⟨11 / 10, 13 / 10, 22 / 10⟩, ⟨31 / 10, 1, 1⟩] : List (Point ℝ)) := by simpa [exYuk, exLap] using hx
    simp only [List.mem_cons, List.not_mem_nil, or_false] at hx'
    rcases hx' with rfl | rfl <;>
      exact ⟨Real.le_sqrt_of_sq_le (by simp only [Point.sub]; norm_num), norm_le_of (by norm_num) (by simp only [Point.sub]; norm_num)⟩
  rw [hcen]
  have hlam : exYuk.lam = 1 := rfl
  rw [hlam, one_mul]
  exact ⟨by show exYuk.radius 2 < _; linarith [key.1], h200.trans (by norm_num; linarith [key.1]), by norm_num; linarith [key.2]⟩

/-- C99: Barnes-Hut on two ranks. The second leaf contributes to the targets of the first through the expansion of a box two levels
up. -/
example : ∃ k S, Sys.Steps (yukDag exYuk (createDag (BH exMacUp) 2 true exFar exFar)) (fun r => r.ix.level % 2) 2 k S ∧
    (∀ k < 2, S.Done k) ∧ (∃ e ∈ edgesOf (createDag (BH exMacUp) 2 true exFar exFar), e.op = .MtoT) ∧
    ∃ W : List (Index × Option Index), (W.map Prod.fst).Perm [⟨0, 0, 0, 2⟩, ⟨15, 15, 15, 4⟩] ∧
      ∃ v : ℝ, (S.ex.acc ⟨.tgt, ⟨0, 0, 0, 2⟩, .parts⟩).2 1 = (v : WithTop ℝ) ∧
        |v - 1 - Yukawa.potential 1 (exYuk.all exFar) ⟨31 / 10, 1, 1⟩| ≤ (W.map (exYuk.wayError (10⁻¹ ^ 17) ⟨31 / 10, 1, 1⟩)).sum := by
  have hr := createDag_runs (BH exMacUp) 2 true exFar exFar
  obtain ⟨k, S, hS, hd⟩ := exists_yuk_done exYuk (BH_safe exMacUp hr) (BH_ranked hr) (by decide +kernel)
    (loc := fun r => r.ix.level % 2) (n := 2) (fun r => Nat.mod_lt _ (by omega))
  refine ⟨k, S, hS, hd, by decide +kernel, ?_⟩
  have hl : leaves Index.root (.node exFar) = [⟨0, 0, 0, 2⟩, ⟨15, 15, 15, 4⟩] := by decide +kernel
  obtain ⟨W, hW, -, h⟩ := C99_bh_accuracy hr exYuk_placed (exYuk_clear (by decide +kernel)) one_pos (by decide) le_rfl (by norm_num)
    exactI_accurate (by rw [hl]; decide) exMacUp_far hS (fun r _ => Nat.mod_lt _ (by omega)) hd
    (r := ⟨.tgt, ⟨0, 0, 0, 2⟩, .parts⟩) (by decide +kernel) rfl rfl
  rw [hl] at hW
  obtain ⟨v, hv, hv'⟩ := h 1 ⟨31 / 10, 1, 1⟩ (by simp [exYuk, exLap])
  exact ⟨W, hW, v, hv, by simpa [exYuk] using hv'⟩

/-- C99: Direct on three ranks. -/
example : ∃ k S, Sys.Steps (yukDag exYuk (createDag Direct 2 true exFar exFar)) (fun r => r.ix.x % 3) 3 k S ∧
    (∀ k < 3, S.Done k) ∧ (S.ex.acc ⟨.tgt, ⟨0, 0, 0, 2⟩, .parts⟩).2 1 =
      ((1 + Yukawa.potential 1 (exYuk.all exFar) ⟨31 / 10, 1, 1⟩ : ℝ) : WithTop ℝ) := by
  have hr := createDag_runs Direct 2 true exFar exFar
  obtain ⟨k, S, hS, hd⟩ := exists_yuk_done exYuk (Direct_safe hr) (Direct_ranked hr) (by decide +kernel)
    (loc := fun r => r.ix.x % 3) (n := 3) (fun r => Nat.mod_lt _ (by omega))
  refine ⟨k, S, hS, hd, ?_⟩
  have := C99_direct_exact hr (D := exYuk) one_pos hS (fun r _ => Nat.mod_lt _ (by omega)) hd
    (r := ⟨.tgt, ⟨0, 0, 0, 2⟩, .parts⟩) (by decide +kernel) rfl rfl (i := 1) (x := ⟨31 / 10, 1, 1⟩) (by simp [exYuk, exLap])
  simpa [exYuk] using this

end Examples

end Dashmm
