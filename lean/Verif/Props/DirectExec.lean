import Verif.Model.DirectExec
import Verif.Props.YukExec
import Verif.Props.Helmholtz

/-!
# C104: the direct method with any kernel
-/

namespace Dashmm

open Lap

theorem kernelDag_ok {V : Type} (op : Edge → V → V) (b : Ref → V) {acts : List Act} (h1 : NoAssertionFails acts) (h2 : Ranked (edgesOf acts)) :
    (kernelDag op b acts).Ok :=
  let h := methodDag_ok h1 h2
  ⟨h.nodup, h.srcs, h.dsts, h.starts_sub, h.starts_nodup, h.starts_in, h.acyclic⟩

/-- The leaves from which the edges of the direct method come to a target leaf are all the source leaves, each once. -/
theorem direct_arrivals {unif : Nat} {same : Bool} {s t : Fin 8 → Oct} {acts : List Act}
    (hr : Runs (createProg Direct unif same s t) acts) {r : Ref} (hn : r ∈ nodesOf acts) (hs : r.side = .tgt) (hk : r.kind = .parts) :
    (((edgesOf acts).filter fun e => e.dst = r).map fun e => e.src.ix).Perm (leaves Index.root (.node s)) := by
  obtain ⟨P, hP, -⟩ := exists_unique_evaluation (Direct_ranked hr).acyclic
  have hall := Direct_delivers unif same s t acts P hr hP r hn hs hk
  have hsrc : ∀ e ∈ edgesOf acts, ∀ x, P e.src 0 x = if x = e.src.ix then 1 else 0 := by
    intro e he x
    obtain ⟨a, b, rfl⟩ := direct_lapEdge_shape hr he
    have hnone : (edgesOf acts).filter (fun e' => e'.dst = (⟨.src, a, .parts⟩ : Ref)) = [] := by
      refine List.filter_eq_nil_iff.2 fun e' he' => ?_
      obtain ⟨a', b', rfl⟩ := direct_lapEdge_shape hr he'
      simp
    rw [hP]
    have h0 := congrFun (congrFun (Harm.inflow_eq P ⟨.src, a, .parts⟩ (edgesOf acts)) 0) x
    rw [hnone] at h0
    rw [h0]
    simp [base]
  rw [List.perm_iff_count]
  intro x
  have hnd : (leaves Index.root (.node s)).Nodup := leaves_nodup ⟨Index.root, s⟩
  rw [hnd.count, ← hall x, hP]
  have h0 : base r 0 x = 0 := by simp [base, hs]
  rw [h0, zero_add, inflow]
  have key : ∀ l : List Edge, (∀ e ∈ l, e ∈ edgesOf acts) →
      ((l.filter fun e => e.dst = r).map fun e => e.src.ix).count x = (l.map fun e => if e.dst = r then contrib e (P e.src) 0 x else 0).sum := by
    intro l
    induction l with
    | nil => intro _; rfl
    | cons e l ih =>
      intro hl
      have ih' := ih fun e' he' => hl e' (List.mem_cons_of_mem _ he')
      have he := hl e List.mem_cons_self
      rw [List.map_cons, List.sum_cons, ← ih']
      by_cases hd : e.dst = r
      · rw [List.filter_cons_of_pos (by simpa using hd), List.map_cons, List.count_cons, if_pos hd]
        have hc : contrib e (P e.src) 0 x = P e.src 0 x := by
          obtain ⟨a, b, rfl⟩ := direct_lapEdge_shape hr he
          rfl
        rw [hc, hsrc e he x, add_comm]
        congr 1
        by_cases hx : x = e.src.ix
        · rw [if_pos hx, if_pos (by simpa using hx.symm)]
        · rw [if_neg hx, if_neg (by simpa using fun h => hx h.symm)]
      · rw [List.filter_cons_of_neg (by simpa using hd), if_neg hd, zero_add]
  exact key (edgesOf acts) fun e he => he

/-- **C104** Whatever the kernel: let `S_to_T` of the source leaf `x` add `f x ix` to the targets of the leaf `ix`. After an evaluation with the direct
method these targets hold what they held at first plus the sum of `f x ix` over all source leaves, each once. -/
theorem C104_direct_any {V : Type} [AddCommMonoid V] (f : Index → Index → V) (op : Edge → V → V) (b : Ref → V)
    (hop : ∀ e v, e.op = .StoT → op e v = f e.src.ix e.dst.ix)
    {unif : Nat} {same : Bool} {s t : Fin 8 → Oct} {acts : List Act} (hr : Runs (createProg Direct unif same s t) acts)
    {loc : Ref → Nat} {n k : Nat} {S : Sys Ref Edge V} (hS : Sys.Steps (kernelDag op b acts) loc n k S)
    (hl : ∀ r ∈ (kernelDag op b acts).watched, loc r < n) (hd : ∀ k < n, S.Done k)
    {r : Ref} (hn : r ∈ nodesOf acts) (hs : r.side = .tgt) (hk : r.kind = .parts) :
    S.ex.acc r = b r + ((leaves Index.root (.node s)).map fun x => f x r.ix).sum := by
  have hD := kernelDag_ok op b (Direct_safe hr) (Direct_ranked hr)
  have hv := (reach_inv hD hS.reach).complete_val hD (all_triggered hS hl hd) r
  rw [hv, ← ((direct_arrivals hr hn hs hk).map fun x => f x r.ix).sum_eq, List.map_map]
  show b r + (((edgesOf acts).filter fun e => e.dst = r).map fun e => op e (S.ex.acc e.src)).sum = _
  congr 2
  refine List.map_congr_left fun e he => ?_
  obtain ⟨he, hd⟩ := List.mem_filter.1 he
  have hd : e.dst = r := by simpa using hd
  have ho : e.op = .StoT := by
    obtain ⟨a, b, rfl⟩ := direct_lapEdge_shape hr he
    rfl
  rw [hop e _ ho, hd]; rfl

/-- All sources. -/
def HelmTargets.all (D : HelmTargets) (s : Fin 8 → Oct) : List Src := (leaves Index.root (.node s)).flatMap D.srcs

/-- **C104** The direct method with the Helmholtz kernel is exact. -/
theorem C104_helmholtz_exact (D : HelmTargets) (ho : 0 < D.om) {unif : Nat} {same : Bool} {s t : Fin 8 → Oct} {acts : List Act}
    (hr : Runs (createProg Direct unif same s t) acts)
    {loc : Ref → Nat} {n k : Nat} {S : Sys Ref Edge (ℕ → WithTop ℂ)} (hS : Sys.Steps (kernelDag D.op D.base acts) loc n k S)
    (hl : ∀ r ∈ (kernelDag D.op D.base acts).watched, loc r < n) (hd : ∀ k < n, S.Done k)
    {r : Ref} (hn : r ∈ nodesOf acts) (hs : r.side = .tgt) (hk : r.kind = .parts) {i : ℕ} {x : Point ℝ} (hx : (D.tgts r.ix)[i]? = some x) :
    S.ex.acc r i = ((D.phi r.ix i + Helm.field D.om (D.all s) x : ℂ) : WithTop ℂ) := by
  have h := C104_direct_any (fun a ix => D.op ⟨.StoT, ⟨.src, a, .parts⟩, ⟨.tgt, ix, .parts⟩⟩ 0) D.op D.base
    (fun e v he => by unfold HelmTargets.op; rw [he]) hr hS hl hd hn hs hk
  have hb : D.base r = fun i => ((D.phi r.ix i : ℂ) : WithTop ℂ) := if_pos ⟨hs, hk⟩
  rw [h, hb, Pi.add_apply, WithTop.coe_add]
  congr 1
  rw [HelmTargets.all]
  generalize leaves Index.root (.node s) = l
  induction l with
  | nil => simp [Helm.field]
  | cons a l ih =>
    have e1 : Helm.field D.om ((a :: l).flatMap D.srcs) x = Helm.field D.om (D.srcs a) x + Helm.field D.om (l.flatMap D.srcs) x := by
      rw [List.flatMap_cons, Helm.field, List.map_append, List.sum_append]; rfl
    rw [List.map_cons, List.sum_cons, Pi.add_apply, ih, e1, WithTop.coe_add]
    congr 1
    show (match (D.tgts r.ix)[i]? with | some t => (Helm.sToT D.om (D.srcs a) t : WithTop ℂ) | none => (0 : WithTop ℂ)) = _
    rw [hx]
    show Helm.sToT D.om (D.srcs a) x = _
    rw [C88_direct_exact D.om ho]; rfl

/-- The trees of the example for the Laplace kernel, two charges. -/
noncomputable def exHelm : HelmTargets where
  om := 2
  srcs := (exLap 9).srcs
  tgts := (exLap 9).tgts
  phi := fun _ _ => 1

/-- C104: Helmholtz on three ranks. -/
example : ∃ k S, Sys.Steps (kernelDag exHelm.op exHelm.base (createDag Direct 2 true exFar exFar)) (fun r => r.ix.x % 3) 3 k S ∧
    (∀ k < 3, S.Done k) ∧ S.ex.acc ⟨.tgt, ⟨0, 0, 0, 2⟩, .parts⟩ 1 =
      ((1 + Helm.field 2 (exHelm.all exFar) ⟨31 / 10, 1, 1⟩ : ℂ) : WithTop ℂ) := by
  have hr := createDag_runs Direct 2 true exFar exFar
  have hok := kernelDag_ok exHelm.op exHelm.base (Direct_safe hr) (Direct_ranked hr)
  have hf : ∀ r ∈ nodesOf (createDag Direct 2 true exFar exFar), ¬ (r.side = .src ∧ r.kind = .parts) →
    ∃ e ∈ edgesOf (createDag Direct 2 true exFar exFar), e.dst = r := by decide +kernel
  obtain ⟨k, S, hS, hd⟩ := exists_done hok (loc := fun r => r.ix.x % 3) (n := 3)
    ((C44_completes_iff hok fun r _ => Nat.mod_lt _ (by omega)).2 fun r hr' hs => hf r hr' fun h => hs (List.mem_filter.2 ⟨hr', by simpa using h⟩))
  refine ⟨k, S, hS, hd, ?_⟩
  have := C104_helmholtz_exact exHelm (by norm_num [exHelm]) hr hS (fun r _ => Nat.mod_lt _ (by omega)) hd
    (r := ⟨.tgt, ⟨0, 0, 0, 2⟩, .parts⟩) (by decide +kernel) rfl rfl (i := 1) (x := ⟨31 / 10, 1, 1⟩) (by simp [exHelm, exLap])
  simpa [exHelm] using this

end Dashmm
