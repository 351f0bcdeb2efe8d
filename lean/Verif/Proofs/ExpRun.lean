import Verif.Proofs.ExpAbs
import Mathlib.Algebra.BigOperators.Group.Finset.Basic
import Mathlib.Algebra.Order.BigOperators.Group.Finset
import Mathlib.Algebra.BigOperators.Group.Finset.Piecewise
/-! The invariant of an evaluation with tasks, parcels and memory. -/
namespace Dashmm.ExpMem

open ExecState Ev

variable {ν ε V : Type} [DecidableEq ν] [AddCommMonoid V]

/-- What is needed of the operations. `nv`: how many views the expansion of a node has. -/
structure Plan.Good (D : ExecDag ν ε V) (P : Plan ν ε) (nv : ν → ℕ) (leak : ε → ℕ) : Prop where
  ok : D.Ok
  out : ∀ r, (P.out r).Perm (D.outE r)
  make : ∀ e ∈ D.edges, P.toTgt e = false → ∀ U A, Tri U A (P.make (D.dst e)) fun o B => OwnViews o.views (List.range (nv (D.dst e))) ∧ B = o.blocks + A
  op : ∀ e ∈ D.edges, P.toTgt e = false → ∃ idx, (∀ i ∈ idx, i < nv (D.dst e)) ∧
    ∀ U vs, vs.map Prod.fst = List.range (nv (D.src e)) → (∀ v ∈ vs, U v.2) → Makes U idx (leak e) (P.op e vs)
  tgt : ∀ e ∈ D.edges, P.toTgt e = true →
    ∀ U A vs, vs.map Prod.fst = List.range (nv (D.src e)) → (∀ v ∈ vs, U v.2) → Loses U A (leak e) (P.tgt e vs)
  leaf : ∀ r ∈ D.starts, nv r = 0
  same : ∀ e ∈ D.edges, ∀ e' ∈ D.edges, D.dst e = D.dst e' → P.toTgt e = P.toTgt e'
  last : ∀ e ∈ D.edges, P.toTgt e = true → D.outE (D.dst e) = []

def taskLco (t : Task ν ε V) : Multiset ν := match t.host with | .lco r => {r} | _ => 0

def taskReady (D : ExecDag ν ε V) (acc : ν → V) (t : Task ν ε V) : Multiset (ε × V) :=
  (((if t.waiting then t.todo.tail else t.todo).map fun e => (e, hostVal D acc t.host) : List (ε × V)) : Multiset (ε × V))

def taskNet (D : ExecDag ν ε V) (acc : ν → V) (t : Task ν ε V) : Multiset (ε × V) :=
  if t.waiting then ((t.todo.head?.toList.map fun e => (e, D.op e (hostVal D acc t.host)) : List (ε × V)) : Multiset (ε × V)) else 0

def taskBlocks (t : Task ν ε V) : Multiset ℕ := (t.scratch : Multiset ℕ) + match t.host with | .sources _ b _ => {b} | _ => 0

def taskParcs (t : Task ν ε V) : Multiset ℕ := match t.host with | .sources q _ _ => {q} | .parcel q _ _ => {q} | _ => 0

def hostPot : Host ν V → ℕ
  | .leaf _ => 8
  | .lco _ => 8
  | _ => 3

def taskPot (t : Task ν ε V) : ℕ := 1 + hostPot t.host * t.todo.length + if t.waiting then 0 else 1

def msgReady : Msg ε V → Multiset (ε × V)
  | .set _ _ _ _ => 0
  | .sources _ es x => ((es.map fun e => (e, x) : List (ε × V)) : Multiset (ε × V))
  | .work _ _ es x => ((es.map fun e => (e, x) : List (ε × V)) : Multiset (ε × V))

def msgNet : Msg ε V → Multiset (ε × V)
  | .set e _ _ y => {(e, y)}
  | _ => 0

def msgParcs : Msg ε V → Multiset ℕ
  | .set _ q _ _ => {q}
  | .sources q _ _ => {q}
  | .work q _ _ _ => {q}

def msgPot : Msg ε V → ℕ
  | .set _ _ _ _ => 1
  | .sources _ es _ => 3 + 3 * es.length
  | .work _ _ es _ => 3 + 3 * es.length

def EdgesOk (D : ExecDag ν ε V) (nv : ν → ℕ) (h : Host ν V) (es : List ε) : Prop :=
  match h with
  | .leaf _ => ∀ e ∈ es, nv (D.src e) = 0
  | .sources _ _ _ => ∀ e ∈ es, nv (D.src e) = 0
  | .lco r => ∀ e ∈ es, D.src e = r
  | .parcel q vs _ => (∀ v ∈ vs, v.2 = .inside q) ∧ ∀ e ∈ es, vs.map Prod.fst = List.range (nv (D.src e))

structure TaskOk (D : ExecDag ν ε V) (P : Plan ν ε) (nv : ν → ℕ) (t : Task ν ε V) : Prop where
  edges : ∀ e ∈ t.todo, e ∈ D.edges
  wait : t.waiting = true → ∃ e es, t.todo = e :: es ∧ P.toTgt e = true
  views : EdgesOk D nv t.host t.todo
  scr : (match t.host with | .sources _ _ _ => t.scratch = [] | .parcel _ _ _ => t.scratch = [] | _ => True)

def MsgOk (D : ExecDag ν ε V) (P : Plan ν ε) (nv : ν → ℕ) : Msg ε V → Prop
  | .set e q vs _ => e ∈ D.edges ∧ P.toTgt e = false ∧ (∀ v ∈ vs, v.2 = .inside q) ∧ ∀ v ∈ vs, v.1 < nv (D.dst e)
  | .sources _ es _ => (∀ e ∈ es, e ∈ D.edges) ∧ ∀ e ∈ es, nv (D.src e) = 0
  | .work q vs es _ => (∀ e ∈ es, e ∈ D.edges) ∧ (∀ v ∈ vs, v.2 = .inside q) ∧ ∀ e ∈ es, vs.map Prod.fst = List.range (nv (D.src e))

def dataBlocks : Option Obj → Multiset ℕ
  | some o => o.blocks
  | none => 0

def leakSum (P : Plan ν ε) (leak : ε → ℕ) (a : ExecState ν ε V) : ℕ :=
  ((applied a.log).map fun e => if P.toTgt e then 0 else leak e).sum + ((arrived a.log).map fun e => if P.toTgt e then leak e else 0).sum

def potN (D : ExecDag ν ε V) (st : List ν) : ℕ := ∑ r ∈ D.nodes.toFinset, if r ∈ st then 0 else 3 + 8 * (D.outE r).length

structure Inv (D : ExecDag ν ε V) (P : Plan ν ε) (nv : ν → ℕ) (leak : ε → ℕ) (L : Led) (n : ℕ) (s : St ν ε V) (a : ExecState ν ε V) (lost : Multiset ℕ) : Prop where
  reach : Reach D a
  idle : a.idle = s.idle
  cnt : a.cnt = s.cnt
  acc : a.acc = s.acc
  trig : (a.trig : Multiset ν) = s.trig
  ready : (a.ready : Multiset (ε × V)) = ((s.tasks : Multiset (Task ν ε V)).map (taskReady D s.acc)).sum + ((s.msgs : Multiset (Msg ε V)).map msgReady).sum
  net : (a.net : Multiset (ε × V)) = ((s.tasks : Multiset (Task ν ε V)).map (taskNet D s.acc)).sum + ((s.msgs : Multiset (Msg ε V)).map msgNet).sum
  fresh : ∀ e ∈ D.edges, P.toTgt e = false → s.cnt (D.dst e) ≠ 0 → s.data (D.dst e) = none → s.acc (D.dst e) = D.base (D.dst e)
  alone : ((s.trig : Multiset ν) + ((s.tasks : Multiset (Task ν ε V)).map taskLco).sum).Nodup
  done : ∀ r ∈ (s.trig : Multiset ν) + ((s.tasks : Multiset (Task ν ε V)).map taskLco).sum, s.cnt r = 0 ∧ (s.data r).isSome
  own : ∀ r o, s.data r = some o → OwnViews o.views (List.range (nv r)) ∧ r ∈ D.nodes
  task : ∀ t ∈ s.tasks, TaskOk D P nv t
  msg : ∀ m ∈ s.msgs, MsgOk D P nv m
  heap : s.led.heap = L.heap + ∑ r ∈ D.nodes.toFinset, dataBlocks (s.data r) + ((s.tasks : Multiset (Task ν ε V)).map taskBlocks).sum + lost
  parc : s.led.parc = L.parc + ((s.tasks : Multiset (Task ν ε V)).map taskParcs).sum + ((s.msgs : Multiset (Msg ε V)).map msgParcs).sum
  wf : s.led.Wf
  lost : lost.card = leakSum P leak a
  pot : n + potN D (started a.log) + ((s.tasks : Multiset (Task ν ε V)).map taskPot).sum + ((s.msgs : Multiset (Msg ε V)).map msgPot).sum ≤ potN D []

theorem coe_eraseIdx {α : Type} {l : List α} {i : ℕ} {x : α} (h : l[i]? = some x) : (l : Multiset α) = x ::ₘ (l.eraseIdx i : List α) := by
  obtain ⟨hi, rfl⟩ := List.getElem?_eq_some_iff.1 h
  rw [Multiset.cons_coe]
  exact (Multiset.coe_eq_coe.2 (List.getElem_cons_eraseIdx_perm hi)).symm

theorem coe_set {α : Type} {l : List α} {i : ℕ} {x : α} (y : α) (h : l[i]? = some x) : (l.set i y : Multiset α) = y ::ₘ (l.eraseIdx i : List α) := by
  obtain ⟨hi, rfl⟩ := List.getElem?_eq_some_iff.1 h
  rw [Multiset.cons_coe]
  exact Multiset.coe_eq_coe.2 (List.set_perm_cons_eraseIdx hi y)

theorem mem_sum_map {α β : Type} {f : α → Multiset β} {T : Multiset α} {t : α} {b : β} (h : t ∈ T) (hb : b ∈ f t) : b ∈ (T.map f).sum := by
  obtain ⟨T', rfl⟩ := Multiset.exists_cons_of_mem h
  simp [hb]

theorem hostVal_congr (D : ExecDag ν ε V) {acc acc' : ν → V} {h : Host ν V} (e : ∀ r, h = .lco r → acc' r = acc r) : hostVal D acc' h = hostVal D acc h := by
  cases h <;> simp_all [hostVal]

variable {D : ExecDag ν ε V} {P : Plan ν ε} {nv : ν → ℕ} {leak : ε → ℕ} {L : Led} {n : ℕ} {s : St ν ε V} {a : ExecState ν ε V} {lost : Multiset ℕ}

theorem inv_init (hw : L.Wf) : Inv D P nv leak L 0 (St.init D L) (ExecState.init D) 0 where
  reach := ⟨0, .refl _⟩
  idle := rfl
  cnt := rfl
  acc := rfl
  trig := rfl
  ready := by simp [ExecState.init, St.init]
  net := by simp [ExecState.init, St.init]
  fresh := by simp [St.init]
  alone := by simp [St.init]
  done := by simp [St.init]
  own := by simp [St.init]
  task := by simp [St.init]
  msg := by simp [St.init]
  heap := by simp [St.init, dataBlocks]
  parc := by simp [St.init]
  wf := hw
  lost := by simp [leakSum, ExecState.init]
  pot := by simp [St.init, ExecState.init]

theorem data_update {data : ν → Option Obj} {S : Finset ν} {r : ν} (hr : r ∈ S) (d : Option Obj) :
    ∃ X, ∑ x ∈ S, dataBlocks (data x) = dataBlocks (data r) + X ∧ ∑ x ∈ S, dataBlocks (if x = r then d else data x) = dataBlocks d + X := by
  refine ⟨∑ x ∈ S.erase r, dataBlocks (data x), (Finset.add_sum_erase S (fun x => dataBlocks (data x)) hr).symm, ?_⟩
  rw [← Finset.add_sum_erase S _ hr]
  simp only [if_true]
  congr 1
  apply Finset.sum_congr rfl
  intro x hx
  rw [if_neg (Finset.ne_of_mem_erase hx)]

theorem potN_start (D : ExecDag ν ε V) {st : List ν} {r : ν} (hr : r ∈ D.nodes) (hs : r ∉ st) : potN D (st ++ [r]) + (3 + 8 * (D.outE r).length) = potN D st := by
  unfold potN
  have hr' : r ∈ D.nodes.toFinset := List.mem_toFinset.2 hr
  rw [← Finset.add_sum_erase _ _ hr', ← Finset.add_sum_erase _ (fun x => if x ∈ st then 0 else 3 + 8 * (D.outE x).length) hr']
  rw [if_pos (by simp), if_neg hs, zero_add, add_comm]
  congr 1
  apply Finset.sum_congr rfl
  intro x hx
  have := Finset.ne_of_mem_erase hx
  simp [this]

theorem potN_mono (D : ExecDag ν ε V) {st st' : List ν} (h : ∀ r ∈ st, r ∈ st') : potN D st' ≤ potN D st := by
  unfold potN
  apply Finset.sum_le_sum
  intro x _
  by_cases hx : x ∈ st
  · simp [hx, h x hx]
  · rw [if_neg hx]
    split <;> omega

/-! ### What a task can read -/

theorem Inv.block_live (h : Inv D P nv leak L n s a lost) {t : Task ν ε V} (ht : t ∈ s.tasks) {b : ℕ} (hb : b ∈ taskBlocks t) : b ∈ s.led.heap := by
  rw [h.heap]
  have := mem_sum_map (f := taskBlocks) (Multiset.mem_coe.2 ht) hb
  simp only [Multiset.mem_add]
  tauto

theorem Inv.parcel_live (h : Inv D P nv leak L n s a lost) {t : Task ν ε V} (ht : t ∈ s.tasks) {b : ℕ} (hb : b ∈ taskParcs t) : b ∈ s.led.parc := by
  rw [h.parc]
  have := mem_sum_map (f := taskParcs) (Multiset.mem_coe.2 ht) hb
  simp only [Multiset.mem_add]
  tauto

theorem Inv.data_live (h : Inv D P nv leak L n s a lost) {r : ν} {o : Obj} (hr : s.data r = some o) : ∀ v ∈ o.views, s.led.Live v.2 := by
  intro v hv
  obtain ⟨⟨_, ho⟩, hn⟩ := h.own r o hr
  obtain ⟨b, hb⟩ := ho v hv
  rw [hb]
  show b ∈ s.led.heap
  rw [h.heap]
  have : b ∈ ∑ x ∈ D.nodes.toFinset, dataBlocks (s.data x) := by
    rw [← Finset.add_sum_erase _ _ (List.mem_toFinset.2 hn), hr]
    simp [dataBlocks, Obj.blocks, mem_viewBlocks hv hb]
  simp only [Multiset.mem_add]
  tauto

theorem Inv.reads_live (h : Inv D P nv leak L n s a lost) {t : Task ν ε V} (ht : t ∈ s.tasks) : ∀ p ∈ taskReads t, s.led.Live p := by
  have h1 := fun b => h.block_live ht (b := b)
  have h2 := fun b => h.parcel_live ht (b := b)
  obtain ⟨host, scratch, todo, waiting⟩ := t
  intro p hp
  cases host <;> simp [taskReads, taskBlocks, taskParcs] at h1 h2 hp
  · obtain ⟨b, hb, rfl⟩ := hp
    exact h1 b hb
  · rcases hp with ⟨b, hb, rfl⟩ | rfl | rfl
    · exact h1 b (Or.inl hb)
    · exact h2
    · exact h1 _ (Or.inr rfl)
  · obtain ⟨b, hb, rfl⟩ := hp
    exact h1 b hb
  · rcases hp with ⟨b, hb, rfl⟩ | rfl
    · exact h1 b hb
    · exact h2

theorem Inv.host_views (h : Inv D P nv leak L n s a lost) {t : Task ν ε V} (ht : t ∈ s.tasks) :
    ∃ vs, hostViews s t.host = some vs ∧ (∀ e ∈ t.todo, vs.map Prod.fst = List.range (nv (D.src e))) ∧ ∀ v ∈ vs, s.led.Live v.2 := by
  have h1 := (h.task t ht).views
  have h2 := fun b => h.parcel_live ht (b := b)
  have h3 := fun r (hr : r ∈ taskLco t) => h.done r (Multiset.mem_add.2 (Or.inr (mem_sum_map (Multiset.mem_coe.2 ht) hr)))
  obtain ⟨host, scratch, todo, waiting⟩ := t
  cases host <;> simp only [EdgesOk, taskParcs, taskLco, hostViews] at *
  · exact ⟨[], rfl, fun e he => by simp [h1 e he], by simp⟩
  · exact ⟨[], rfl, fun e he => by simp [h1 e he], by simp⟩
  · rename_i r
    obtain ⟨_, h4⟩ := h3 r (by simp)
    obtain ⟨o, ho⟩ := Option.isSome_iff_exists.1 h4
    refine ⟨o.views, by simp [ho], fun e he => ?_, h.data_live ho⟩
    rw [h1 e he]
    exact (h.own r o ho).1.1
  · rename_i q vs x
    refine ⟨vs, rfl, h1.2, fun v hv => ?_⟩
    rw [h1.1 v hv]
    exact h2 q (by simp)

end Dashmm.ExpMem
