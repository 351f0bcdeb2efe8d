import Verif.Model.ExpRun
import Verif.Props.ExpMem
import Verif.Props.Exec
/-! The steps of Model/Exec on multisets, and the programs of Model/ExpRun on ledgers. -/
namespace Dashmm.ExpMem

open ExecState Ev

variable {ν ε V : Type} [DecidableEq ν] [AddCommMonoid V]

theorem perm_split {α : Type} {l : List α} {x : α} {M : Multiset α} (h : (l : Multiset α) = x ::ₘ M) :
    ∃ p q, l = p ++ x :: q ∧ ((p ++ q : List α) : Multiset α) = M := by
  have hx : x ∈ l := by rw [← Multiset.mem_coe, h]; simp
  obtain ⟨p, q, rfl⟩ := List.append_of_mem hx
  refine ⟨p, q, rfl, ?_⟩
  have : ((p ++ x :: q : List α) : Multiset α) = x ::ₘ (p ++ q : List α) := by
    rw [Multiset.cons_coe]
    exact Multiset.coe_eq_coe.2 List.perm_middle
  rw [this] at h
  exact (Multiset.cons_inj_right x).1 h

theorem reach_step {D : ExecDag ν ε V} {a a' : ExecState ν ε V} (h : Reach D a) (h' : Step D a a') : Reach D a' := by
  obtain ⟨n, hn⟩ := h
  exact ⟨n + 1, .tail hn h'⟩

theorem abs_instigate {D : ExecDag ν ε V} {a : ExecState ν ε V} (h : Reach D a) {p q : List ν} {r : ν} (e : a.idle = p ++ r :: q) :
    ∃ a', Reach D a' ∧ a'.idle = p ++ q ∧ a'.cnt = a.cnt ∧ a'.acc = a.acc ∧ a'.trig = a.trig ∧
      (a'.ready : Multiset (ε × V)) = a.ready + ((D.outE r).map fun e => (e, D.base r) : List (ε × V)) ∧ a'.net = a.net ∧
      applied a'.log = applied a.log ∧ arrived a'.log = arrived a.log ∧ started a'.log = started a.log ++ [r] :=
  ⟨_, reach_step h (.instigate e), rfl, rfl, rfl, rfl, rfl, rfl, by simp, by simp, by simp⟩

theorem abs_spawn {D : ExecDag ν ε V} {a : ExecState ν ε V} (h : Reach D a) {M : Multiset ν} {r : ν} (e : (a.trig : Multiset ν) = r ::ₘ M) :
    ∃ a', Reach D a' ∧ a'.idle = a.idle ∧ a'.cnt = a.cnt ∧ a'.acc = a.acc ∧ (a'.trig : Multiset ν) = M ∧
      (a'.ready : Multiset (ε × V)) = a.ready + ((D.outE r).map fun e => (e, a.acc r) : List (ε × V)) ∧ a'.net = a.net ∧
      applied a'.log = applied a.log ∧ arrived a'.log = arrived a.log ∧ started a'.log = started a.log ++ [r] := by
  obtain ⟨p, q, h1, h2⟩ := perm_split e
  exact ⟨_, reach_step h (.spawn h1), rfl, rfl, rfl, h2, rfl, rfl, by simp, by simp, by simp⟩

theorem abs_apply {D : ExecDag ν ε V} {a : ExecState ν ε V} (h : Reach D a) {M : Multiset (ε × V)} {e : ε} {x : V}
    (he : (a.ready : Multiset (ε × V)) = (e, x) ::ₘ M) :
    ∃ a', Reach D a' ∧ a'.idle = a.idle ∧ a'.cnt = a.cnt ∧ a'.acc = a.acc ∧ a'.trig = a.trig ∧
      (a'.ready : Multiset (ε × V)) = M ∧ (a'.net : Multiset (ε × V)) = (e, D.op e x) ::ₘ a.net ∧
      applied a'.log = applied a.log ++ [e] ∧ arrived a'.log = arrived a.log ∧ started a'.log = started a.log := by
  obtain ⟨p, q, h1, h2⟩ := perm_split he
  refine ⟨_, reach_step h (.apply h1), rfl, rfl, rfl, rfl, h2, ?_, by simp, by simp, by simp⟩
  rw [← Multiset.coe_add, add_comm]
  rfl

/-- A set; a node without out edges counts as started when it triggers. -/
theorem abs_set {D : ExecDag ν ε V} {a : ExecState ν ε V} (h : Reach D a) {M : Multiset (ε × V)} {e : ε} {y : V}
    (he : (a.net : Multiset (ε × V)) = (e, y) ::ₘ M) :
    ∃ a', Reach D a' ∧ a'.idle = a.idle ∧ a'.cnt = (fun x => if x = D.dst e then a.cnt (D.dst e) - 1 else a.cnt x) ∧
      a'.acc = (fun x => if x = D.dst e then a.acc (D.dst e) + y else a.acc x) ∧
      (a'.trig : Multiset ν) = (if a.cnt (D.dst e) - 1 = 0 ∧ D.outE (D.dst e) ≠ [] then D.dst e ::ₘ (a.trig : Multiset ν) else a.trig) ∧
      (a'.ready : Multiset (ε × V)) = a.ready ∧ (a'.net : Multiset (ε × V)) = M ∧
      applied a'.log = applied a.log ∧ arrived a'.log = arrived a.log ++ [e] ∧ ∀ r ∈ started a.log, r ∈ started a'.log := by
  obtain ⟨p, q, h1, h2⟩ := perm_split he
  have f1 : (fun r => if r = D.dst e then a.cnt r - 1 else a.cnt r) = fun x => if x = D.dst e then a.cnt (D.dst e) - 1 else a.cnt x := by
    funext x; split <;> simp_all
  have f2 : (fun r => if r = D.dst e then a.acc r + y else a.acc r) = fun x => if x = D.dst e then a.acc (D.dst e) + y else a.acc x := by
    funext x; split <;> simp_all
  by_cases hc : a.cnt (D.dst e) - 1 = 0
  · have hr := reach_step h (.arriveLast h1 hc)
    by_cases ho : D.outE (D.dst e) = []
    · obtain ⟨a', g1, g2, g3, g4, g5, g6, g7, g8, g9, g10⟩ := abs_spawn hr (r := D.dst e) (M := a.trig) (by
        show ((a.trig ++ [D.dst e] : List ν) : Multiset ν) = _
        rw [← Multiset.coe_add, add_comm]; rfl)
      refine ⟨a', g1, g2, g3.trans f1, g4.trans f2, ?_, by rw [g6]; simp [ho], by rw [g7]; exact h2, by simp [g8], by simp [g9], ?_⟩
      · rw [if_neg (by simp [ho]), g5]
      · intro r hr; rw [g10]; simp [hr]
    · exact ⟨_, hr, rfl, f1, f2, by rw [if_pos ⟨hc, ho⟩]; show ((a.trig ++ [D.dst e] : List ν) : Multiset ν) = _; rw [← Multiset.coe_add, add_comm]; rfl,
        rfl, h2, by simp, by simp, by intro r hr; simpa using hr⟩
  · exact ⟨_, reach_step h (.arrive h1 hc), rfl, f1, f2, by rw [if_neg (by simp [hc])], rfl, h2, by simp, by simp, by intro r hr; simpa using hr⟩

/-! ### Programs on a ledger -/

theorem bind_run {α β : Type} {m : Prog α} {f : α → Prog β} {L L' : Led} {a : α} (h : m L = some (a, L')) : (m >>= f) L = f a L' := by
  change (m L).bind _ = _
  rw [h]
  rfl

theorem run_use {L : Led} {p : Ptr} (h : L.Live p) : use p L = some ((), L) := by
  cases p <;> exact if_pos h

theorem run_useAll {L : Led} : ∀ {ps : List Ptr}, (∀ p ∈ ps, L.Live p) → useAll ps L = some ((), L)
  | [], _ => rfl
  | p :: ps, h => by
    unfold useAll
    rw [bind_run (run_use (h p (by simp)))]
    exact run_useAll fun q hq => h q (by simp [hq])

theorem run_new {L : Led} (hw : L.Wf) : ∃ b L', new L = some (b, L') ∧ L'.heap = b ::ₘ L.heap ∧ L'.parc = L.parc ∧ L'.Wf := by
  obtain ⟨b, L', B, e, rfl, h2, h3, _, h5⟩ := tri_new (U := fun _ => False) (A := 0) L L.heap hw (by simp) (by rintro p ⟨⟩)
  exact ⟨b, L', e, by rw [h2]; simp [Multiset.singleton_add], h3, h5⟩

theorem run_del {L : Led} (hw : L.Wf) {b : ℕ} {X : Multiset ℕ} (h : L.heap = b ::ₘ X) : ∃ L', del b L = some ((), L') ∧ L'.heap = X ∧ L'.parc = L.parc ∧ L'.Wf := by
  obtain ⟨_, L', B, e, rfl, h2, h3, _, h5⟩ := tri_del (U := fun _ => False) (A := {b} + 0) rfl L X hw (by rw [h]; simp [Multiset.singleton_add]) (by rintro p ⟨⟩)
  exact ⟨L', e, by simpa using h2, h3, h5⟩

theorem run_delAll : ∀ {bs : List ℕ} {L : Led} (_ : L.Wf) {X : Multiset ℕ} (_ : L.heap = bs + X), ∃ L', delAll bs L = some ((), L') ∧ L'.heap = X ∧ L'.parc = L.parc ∧ L'.Wf
  | [], L, hw, X, h => ⟨L, rfl, by simpa using h, rfl, hw⟩
  | b :: bs, L, hw, X, h => by
    obtain ⟨L1, e1, h1, p1, w1⟩ := run_del hw (b := b) (X := bs + X) (by rw [h, ← Multiset.cons_coe, Multiset.cons_add])
    obtain ⟨L2, e2, h2, p2, w2⟩ := run_delAll w1 h1
    exact ⟨L2, by unfold delAll; rw [bind_run e1]; exact e2, h2, p2.trans p1, w2⟩

theorem run_acquire {L : Led} (hw : L.Wf) : ∃ q L', acquire L = some (q, L') ∧ L'.heap = L.heap ∧ L'.parc = q ::ₘ L.parc ∧ L'.Wf := by
  refine ⟨L.next, _, rfl, rfl, rfl, ?_⟩
  have hn : L.next ∉ L.parc := fun h => absurd (hw.fresh _ (Or.inr h)) (lt_irrefl _)
  refine ⟨hw.heap, Multiset.nodup_cons.2 ⟨hn, hw.parc⟩, ?_⟩
  intro b hb
  dsimp only at hb ⊢
  rcases hb with hb | hb
  · have := hw.fresh b (Or.inl hb); omega
  · rcases Multiset.mem_cons.1 hb with rfl | hb
    · omega
    · have := hw.fresh b (Or.inr hb); omega

theorem run_retire {L : Led} (hw : L.Wf) {q : ℕ} {X : Multiset ℕ} (h : L.parc = q ::ₘ X) : ∃ L', retire q L = some ((), L') ∧ L'.heap = L.heap ∧ L'.parc = X ∧ L'.Wf := by
  have he : L.parc.erase q = X := by rw [h, Multiset.erase_cons_head]
  refine ⟨{ L with parc := L.parc.erase q }, if_pos (by rw [h]; simp), rfl, he, hw.heap, hw.parc.erase q, ?_⟩
  intro b hb
  exact hw.fresh b (hb.imp id fun h => Multiset.mem_of_mem_erase h)

theorem run_tri {α : Type} {L : Led} (hw : L.Wf) {m : Prog α} {Q : α → Multiset ℕ → Prop} (h : Tri L.Live 0 m Q) :
    ∃ a L' B, m L = some (a, L') ∧ Q a B ∧ L'.heap = B + L.heap ∧ L'.parc = L.parc ∧ L'.Wf := by
  obtain ⟨a, L', B, e, q, h2, h3, _, h5⟩ := h L L.heap hw (by simp) (by
    intro p hp
    cases p <;> exact hp)
  exact ⟨a, L', B, e, q, h2, h3, h5⟩

/-- The views of a serialised expansion. -/
theorem run_contribute {L : Led} (hw : L.Wf) {o : Obj} (ho : ∀ v ∈ o.views, ∃ b, v.2 = .own b) {X : Multiset ℕ} (h : L.heap = X + o.blocks) :
    ∃ q L', contribute o L = some ((q, o.views.map fun v => (v.1, .inside q)), L') ∧ L'.heap = X ∧ L'.parc = q ::ₘ L.parc ∧ L'.Wf := by
  obtain ⟨q, L1, e1, h1, p1, w1⟩ := run_acquire hw
  have e2 : useAll (o.views.map Prod.snd) L1 = some ((), L1) := run_useAll (by
    intro p hp
    obtain ⟨v, hv, rfl⟩ := List.mem_map.1 hp
    obtain ⟨b, hb⟩ := ho v hv
    rw [hb]
    show b ∈ L1.heap
    rw [h1, h]
    exact Multiset.mem_add.2 (Or.inr (by simp [Obj.blocks, mem_viewBlocks hv hb])))
  obtain ⟨L2, e3, h3, p3, w3⟩ := run_delete w1 ho (X := X) (h1.trans h)
  exact ⟨q, L2, by unfold contribute; rw [bind_run e1, bind_run e2, bind_run e3]; rfl, h3, p3.trans p1, w3⟩

theorem run_add {lhs vs : Views} {L : Led} (hl : ∀ v ∈ lhs, L.Live v.2) (hv : ∀ v ∈ vs, L.Live v.2) (hf : ∀ v ∈ vs, v.1 < lhs.length) :
    addExpansion lhs vs L = some ((), L) := C94_add hl hv hf

end Dashmm.ExpMem
