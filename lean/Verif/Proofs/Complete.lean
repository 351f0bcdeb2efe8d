import Verif.Proofs.Term
/-! Executions in which every node has triggered. -/
namespace Dashmm
open Ev ExecState

variable {ν ε V : Type} [DecidableEq ν] [AddCommMonoid V]

theorem mem_triggered {l : List (Ev ν ε)} {r : ν} : r ∈ triggered l ↔ Ev.trigger r ∈ l := by
  unfold triggered
  rw [List.mem_filterMap]
  constructor
  · rintro ⟨a, ha, h⟩
    cases a <;> simp at h
    subst h; exact ha
  · intro h; exact ⟨_, h, rfl⟩

theorem mem_watched {D : ExecDag ν ε V} {r : ν} : r ∈ D.watched ↔ r ∈ D.nodes ∧ r ∉ D.starts := by
  simp [ExecDag.watched]

theorem dst_watched {D : ExecDag ν ε V} (hD : D.Ok) {e : ε} (he : e ∈ D.edges) :
    D.dst e ∈ D.watched := by
  rw [mem_watched]
  refine ⟨hD.dsts e he, fun h => ?_⟩
  have h1 := hD.starts_in _ h
  have : e ∈ D.inE (D.dst e) := List.mem_filter.2 ⟨he, by simp⟩
  rw [h1] at this; simp at this

/-- If every node has triggered, every edge has arrived and nothing is under way. -/
theorem ExecInv.complete {D : ExecDag ν ε V} (hD : D.Ok) {s : ExecState ν ε V} (h : ExecInv D s)
    (hall : ∀ r ∈ D.watched, Ev.trigger r ∈ s.log) :
    (arrived s.log).Perm D.edges ∧ s.net = [] ∧ s.ready = [] := by
  have hrest : s.net.map Prod.fst ++ s.ready.map Prod.fst ++
      (D.edges.filter fun e => !decide (D.src e ∈ started s.log)) = [] := by
    by_contra hne
    obtain ⟨e, he⟩ := List.exists_mem_of_ne_nil _ hne
    have hperm := h.all
    rw [List.append_assoc, List.append_assoc, ← List.append_assoc (s.net.map _)] at hperm
    have hemem : e ∈ D.edges := (hperm.mem_iff).1 (List.mem_append_right _ he)
    have hw := dst_watched hD hemem
    have hz := (h.zer (D.dst e)).1 (mem_triggered.2 (hall _ hw))
    have hc := h.cnt (D.dst e)
    have hf := (hperm.filter (fun d => decide (D.dst d = D.dst e))).length_eq
    rw [List.filter_append, List.length_append] at hf
    have hpos : 0 < ((s.net.map Prod.fst ++ s.ready.map Prod.fst ++
      (D.edges.filter fun e => !decide (D.src e ∈ started s.log))).filter
        fun d => decide (D.dst d = D.dst e)).length :=
      List.length_pos_of_mem (List.mem_filter.2 ⟨he, by simp⟩)
    unfold ExecDag.inCount ExecDag.inE at hc
    omega
  simp only [List.append_eq_nil_iff, List.map_eq_nil_iff] at hrest
  obtain ⟨⟨h1, h2⟩, h3⟩ := hrest
  refine ⟨?_, h1, h2⟩
  have := h.all
  rwa [h1, h2, h3, List.map_nil, List.append_nil, List.append_nil,
    List.append_nil] at this

theorem ExecInv.complete_val {D : ExecDag ν ε V} (hD : D.Ok) {s : ExecState ν ε V}
    (h : ExecInv D s) (hall : ∀ r ∈ D.watched, Ev.trigger r ∈ s.log) (r : ν) :
    s.acc r = D.base r + D.incoming s.acc r := by
  rw [h.val r]
  congr 1
  unfold gathered ExecDag.incoming ExecDag.inE
  exact (((h.complete hD hall).1.filter _).map _).sum_eq

/-- The equations of an evaluation have at most one solution. -/
theorem incoming_unique {D D' : ExecDag ν ε V} (hD : D.Ok)
    (he : D'.edges = D.edges) (hsrc : D'.src = D.src) (hdst : D'.dst = D.dst) (hop : D'.op = D.op)
    (hb : ∀ r, D.outE r ≠ [] → D'.base r = D.base r) {a b : ν → V}
    (ha : ∀ r, a r = D.base r + D.incoming a r) (hb' : ∀ r, b r = D'.base r + D'.incoming b r)
    (r : ν) : D'.incoming b r = D.incoming a r := by
  obtain ⟨rank, hrank⟩ := hD.acyclic
  have hin : ∀ r, D'.inE r = D.inE r := by intro r; unfold ExecDag.inE; rw [he, hdst]
  induction hk : rank r using Nat.strongRecOn generalizing r with
  | ind k ih =>
    unfold ExecDag.incoming
    rw [hin, hop, hsrc]
    congr 1
    apply List.map_congr_left
    intro e hee
    have hm := List.mem_filter.1 hee
    have hd : D.dst e = r := by simpa using hm.2
    have hlt := hrank e hm.1
    have ho : D.outE (D.src e) ≠ [] := by
      intro h0
      have : e ∈ D.outE (D.src e) := List.mem_filter.2 ⟨hm.1, by simp⟩
      rw [h0] at this; simp at this
    rw [ha (D.src e), hb' (D.src e), hb _ ho,
      ih (rank (D.src e)) (by rw [hd, hk] at hlt; exact hlt) (D.src e) rfl]

/-- A node that has all its inputs does not change any more. -/
theorem ExecInv.step_final {D : ExecDag ν ε V} {s t : ExecState ν ε V} (h : ExecInv D s)
    (hs : Step D s t) {r : ν} (hr : s.cnt r = 0) : t.cnt r = 0 ∧ t.acc r = s.acc r := by
  cases hs with
  | instigate _ => exact ⟨hr, rfl⟩
  | spawn _ => exact ⟨hr, rfl⟩
  | apply _ => exact ⟨hr, rfl⟩
  | @arrive p q e y hh hc =>
    have := (h.awaited (p := (e, y)) (by rw [hh]; simp)).1
    have hne : r ≠ D.dst e := by rintro rfl; simp only at this; omega
    simp [hne, hr]
  | @arriveLast p q e y hh hc =>
    have := (h.awaited (p := (e, y)) (by rw [hh]; simp)).1
    have hne : r ≠ D.dst e := by rintro rfl; simp only at this; omega
    simp [hne, hr]

theorem ExecInv.steps_final {D : ExecDag ν ε V} (hD : D.Ok) {n : Nat} {s t : ExecState ν ε V}
    (h : ExecInv D s) (hs : Steps D n s t) {r : ν} (hr : s.cnt r = 0) :
    t.cnt r = 0 ∧ t.acc r = s.acc r := by
  induction hs with
  | refl => exact ⟨hr, rfl⟩
  | tail hs' hst ih =>
    obtain ⟨h1, h2⟩ := ih h hr
    have := ExecInv.step_final (ExecInv.steps hD hs' h) hst h1
    exact ⟨this.1, this.2.trans h2⟩

theorem ExecInv.applied_cnt {D : ExecDag ν ε V} {s : ExecState ν ε V} (h : ExecInv D s) {e : ε}
    (he : e ∈ applied s.log) : s.cnt (D.src e) = 0 := by
  apply h.sta
  rcases List.mem_append.1 ((h.app.mem_iff).1 he) with he | he
  · exact h.arr e he
  · obtain ⟨p, hp, rfl⟩ := List.mem_map.1 he
    exact (h.flt p hp).2

theorem ExecInv.applied_le {D : ExecDag ν ε V} {s : ExecState ν ε V} (h : ExecInv D s) :
    ∃ rest, (applied s.log ++ rest).Perm D.edges := by
  refine ⟨s.ready.map Prod.fst ++ D.edges.filter fun e => !decide (D.src e ∈ started s.log), ?_⟩
  refine (List.Perm.append_right _ h.app).trans ?_
  have := h.all
  rwa [List.append_assoc] at this

/-- Every state of the system leads to one in which nothing can be done any more. -/
theorem exists_stuck {D : ExecDag ν ε V} (hD : D.Ok) {loc : ν → Nat} {n m : Nat} {S : Sys ν ε V}
    (hS : Sys.Steps D loc n m S) :
    ∃ m' T, Sys.Steps D loc n m' T ∧ ∀ U, ¬ Sys.Step D loc n T U := by
  generalize hB : 2 * (D.nodes.length + D.edges.length) + sysLeft n (Sys.init D) = B
  have hle : ∀ {m S}, Sys.Steps D loc n m S → m ≤ B := by
    intro m S hS
    have h1 := hS.bound
    have h2 := (reach_inv hD hS.reach).log_bound hD
    omega
  obtain ⟨k, hk⟩ : ∃ k, m + k = B := ⟨B - m, by have := hle hS; omega⟩
  induction k generalizing m S with
  | zero =>
    refine ⟨m, S, hS, fun U hU => ?_⟩
    have := hle (hS.step hU)
    omega
  | succ k ih =>
    by_cases h : ∃ U, Sys.Step D loc n S U
    · obtain ⟨U, hU⟩ := h
      exact ih (hS.step hU) (by omega)
    · exact ⟨m, S, hS, fun U hU => h ⟨U, hU⟩⟩

theorem all_triggered {D : ExecDag ν ε V} {loc : ν → Nat} {n m : Nat} {S : Sys ν ε V}
    (hS : Sys.Steps D loc n m S) (hl : ∀ r ∈ D.watched, loc r < n) (hd : ∀ k < n, S.Done k) :
    ∀ r ∈ D.watched, Ev.trigger r ∈ S.ex.log :=
  fun r hr => (hS.term (loc r)).done (hd _ (hl r hr)) r hr rfl

/-- The evaluation ends everywhere, whatever the schedule, exactly if all nodes have inputs. -/
theorem completes_iff {D : ExecDag ν ε V} (hD : D.Ok) {loc : ν → Nat} {n : Nat}
    (hl : ∀ r ∈ D.watched, loc r < n) :
    (∀ m S, Sys.Steps D loc n m S → (∀ T, ¬ Sys.Step D loc n S T) → ∀ k < n, S.Done k) ↔
      ∀ r ∈ D.nodes, r ∉ D.starts → D.inE r ≠ [] := by
  constructor
  · intro h r hr hst
    obtain ⟨m, T, hT, hstuck⟩ := exists_stuck hD (Sys.Steps.init (D := D) (loc := loc) (ranks := n))
    have hw : r ∈ D.watched := mem_watched.2 ⟨hr, hst⟩
    have := all_triggered hT hl (h m T hT hstuck) r hw
    have hz := ((reach_inv hD hT.reach).zer r).1 (mem_triggered.2 this)
    intro h0
    apply hz.2
    simp [ExecDag.inCount, h0]
  · intro hin m S hS hstuck k hk
    obtain ⟨hq, hterm⟩ := sys_stuck hS hstuck
    obtain ⟨h1, h2, h3⟩ := hterm k hk
    have hT := hS.term k
    have hcomp := quiet_complete hD hin hS.reach hq
    have hinv := reach_inv hD hS.reach
    have hw : (S.term k).waiting = [] := by
      by_contra hne
      obtain ⟨r, hr⟩ := List.exists_mem_of_ne_nil _ hne
      have hw := hT.wait r hr
      rw [mem_watched] at hw
      have hs := hcomp r hw.1
      have hp := (hinv.per.mem_iff (a := r)).2 (List.mem_append_right _ hs)
      rcases List.mem_append.1 hp with hp | hp
      · exact h3 r hr (mem_triggered.1 hp)
      · exact hw.2 hp
    unfold Sys.Done
    rw [hT.rem, h1, h2, hw]
    simp

end Dashmm
