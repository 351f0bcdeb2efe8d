import Verif.Proofs.ExpRun
/-! Every action keeps the invariant, and none goes wrong. -/
namespace Dashmm.ExpMem

open ExecState Ev

variable {ν ε V : Type} [DecidableEq ν] [AddCommMonoid V]
variable {D : ExecDag ν ε V} {P : Plan ν ε} {nv : ν → ℕ} {leak : ε → ℕ} {L : Led} {n : ℕ} {s : St ν ε V} {a : ExecState ν ε V} {lost : Multiset ℕ}

/-- The action `d` is not possible, or it succeeds and keeps the invariant. -/
def Keeps (D : ExecDag ν ε V) (P : Plan ν ε) (nv : ν → ℕ) (leak : ε → ℕ) (L : Led) (n : ℕ) (s : St ν ε V) (r : Res (St ν ε V)) : Prop :=
  r = .off ∨ ∃ s' a' lost', r = .ok s' ∧ Inv D P nv leak L (n + 1) s' a' lost'

theorem run_ok {α σ : Type} {m : Prog α} {L L' : Led} {x : α} {k : α → Led → Res σ} (h : m L = some (x, L')) : run m L k = k x L' := by
  unfold run
  rw [h]

theorem out_map (hG : P.Good D nv leak) (r : ν) (x : V) : (((D.outE r).map fun e => (e, x) : List (ε × V)) : Multiset (ε × V)) = ((P.out r).map fun e => (e, x) : List (ε × V)) :=
  Multiset.coe_eq_coe.2 ((hG.out r).symm.map _)

theorem mem_out (hG : P.Good D nv leak) {r : ν} {e : ε} (h : e ∈ P.out r) : e ∈ D.edges ∧ D.src e = r := by
  have := (hG.out r).mem_iff.1 h
  simpa [ExecDag.outE] using this

theorem keeps_startLeaf (hG : P.Good D nv leak) (h : Inv D P nv leak L n s a lost) (i : ℕ) : Keeps D P nv leak L n s (act D P (.startLeaf i) s) := by
  cases hi : s.idle[i]? with
  | none => left; simp [act, hi]
  | some r =>
    right
    obtain ⟨b, L1, e1, h1, p1, w1⟩ := run_new h.wf
    obtain ⟨hlt, hr⟩ := List.getElem?_eq_some_iff.1 hi
    have hsplit : a.idle = s.idle.take i ++ r :: s.idle.drop (i + 1) := by
      rw [h.idle, ← hr, List.getElem_cons_drop, List.take_append_drop]
    obtain ⟨a', g1, g2, g3, g4, g5, g6, g7, g8, g9, g10⟩ := abs_instigate h.reach hsplit
    have I := reach_inv hG.ok h.reach
    have hrS : r ∈ D.starts := I.idl r (by rw [hsplit]; simp)
    have hns : r ∉ started a.log := by
      have := I.nod
      rw [List.append_assoc, List.nodup_append] at this
      exact fun hh => this.2.2 r (by rw [hsplit]; simp) r (by simp [hh]) rfl
    have hp := potN_start D (hG.ok.starts_sub r hrS) hns
    refine ⟨_, a', lost, by simp only [act, hi]; rw [run_ok e1], ?_⟩
    refine { reach := g1, idle := ?_, cnt := g3.trans h.cnt, acc := g4.trans h.acc, trig := by rw [g5]; exact h.trig, ready := ?_, net := ?_, fresh := h.fresh, alone := ?_, done := ?_, own := h.own, task := ?_, msg := h.msg, heap := ?_, parc := ?_, wf := w1, lost := ?_, pot := ?_ }
    · rw [g2, List.eraseIdx_eq_take_drop_succ]
    · rw [g6, h.ready, out_map hG]
      simp only [← Multiset.cons_coe, Multiset.map_cons, Multiset.sum_cons, taskReady, hostVal, Bool.false_eq_true, if_false]
      abel
    · rw [g7, h.net]
      simp [← Multiset.cons_coe, taskNet]
    · have := h.alone
      simpa [← Multiset.cons_coe, taskLco] using this
    · have := h.done
      simpa [← Multiset.cons_coe, taskLco] using this
    · intro t ht
      rcases List.mem_cons.1 ht with rfl | ht
      · refine ⟨fun e he => (mem_out hG he).1, by simp, fun e he => ?_, trivial⟩
        rw [(mem_out hG he).2]
        exact hG.leaf r hrS
      · exact h.task t ht
    · simp only [← Multiset.cons_coe, Multiset.map_cons, Multiset.sum_cons, taskBlocks, h1, h.heap, Multiset.coe_nil]
      simp only [← Multiset.singleton_add]
      abel
    · simp [← Multiset.cons_coe, taskParcs, p1, h.parc]
    · rw [h.lost]; simp [leakSum, g8, g9]
    · have := h.pot
      simp only [← Multiset.cons_coe, Multiset.map_cons, Multiset.sum_cons, taskPot, hostPot, g10, Bool.false_eq_true, if_false, (hG.out r).length_eq]
      omega

theorem keeps_startSpawn (hG : P.Good D nv leak) (h : Inv D P nv leak L n s a lost) (i : ℕ) : Keeps D P nv leak L n s (act D P (.startSpawn i) s) := by
  cases hi : s.trig[i]? with
  | none => left; simp [act, hi]
  | some r =>
    right
    have hT := coe_eraseIdx hi
    obtain ⟨hc, hd⟩ := h.done r (by rw [hT]; simp)
    obtain ⟨o, ho⟩ := Option.isSome_iff_exists.1 hd
    have hprog : ∃ bs L1, spawnProg P (hostViews s (.lco r)) s.led = some (bs, L1) ∧ L1.heap = bs + s.led.heap ∧ L1.parc = s.led.parc ∧ L1.Wf := by
      obtain ⟨b, L1, e1, h1, p1, w1⟩ := run_new h.wf
      simp only [hostViews, ho, Option.map_some]
      cases hR : P.ranks == 1 with
      | true =>
        refine ⟨[b], L1, by simp only [spawnProg, hR]; rw [bind_run e1]; rfl, by rw [h1, ← Multiset.cons_coe, Multiset.cons_add, Multiset.coe_nil, zero_add], p1, w1⟩
      | false =>
        obtain ⟨c, L2, e2, h2, p2, w2⟩ := run_new w1
        have e3 : useAll (o.views.map Prod.snd) L2 = some ((), L2) := run_useAll (by
          intro p hp
          obtain ⟨v, hv, rfl⟩ := List.mem_map.1 hp
          have := h.data_live ho v hv
          revert this
          cases v.2 with
          | own x => intro hx; show x ∈ L2.heap; rw [h2, h1]; simp [show x ∈ s.led.heap from hx]
          | inside x => intro hx; show x ∈ L2.parc; rw [p2, p1]; exact hx)
        refine ⟨[c, b], L2, by simp only [spawnProg, hR]; rw [bind_run e1, bind_run e2, bind_run e3]; rfl, by rw [h2, h1, ← Multiset.cons_coe, ← Multiset.cons_coe, Multiset.cons_add, Multiset.cons_add, Multiset.coe_nil, zero_add], p2.trans p1, w2⟩
    obtain ⟨bs, L1, e1, h1, p1, w1⟩ := hprog
    obtain ⟨a', g1, g2, g3, g4, g5, g6, g7, g8, g9, g10⟩ := abs_spawn h.reach (h.trig.trans hT)
    have I := reach_inv hG.ok h.reach
    have hrt : r ∈ a.trig := by rw [← Multiset.mem_coe, h.trig, hT]; simp
    have hns : r ∉ started a.log := by
      have := I.nod
      rw [List.nodup_append] at this
      exact fun hh => this.2.2 r (by simp [hrt]) r hh rfl
    have hp := potN_start D (I.started_nodes hG.ok r (by simp [I.tri r hrt])) hns
    have hperm : (((s.trig.eraseIdx i : List ν) : Multiset ν) + (((⟨.lco r, bs, P.out r, false⟩ :: s.tasks : List (Task ν ε V)) : Multiset (Task ν ε V)).map taskLco).sum) =
        (s.trig : Multiset ν) + ((s.tasks : Multiset (Task ν ε V)).map taskLco).sum := by
      rw [hT]
      simp only [← Multiset.cons_coe, Multiset.map_cons, Multiset.sum_cons, taskLco]
      simp only [← Multiset.singleton_add]
      abel
    refine ⟨_, a', lost, by simp only [act, hi]; rw [run_ok e1], ?_⟩
    refine { reach := g1, idle := g2.trans h.idle, cnt := g3.trans h.cnt, acc := g4.trans h.acc, trig := g5, ready := ?_, net := ?_, fresh := h.fresh, alone := ?_, done := ?_, own := h.own, task := ?_, msg := h.msg, heap := ?_, parc := ?_, wf := w1, lost := ?_, pot := ?_ }
    · rw [g6, h.ready, out_map hG]
      simp only [← Multiset.cons_coe, Multiset.map_cons, Multiset.sum_cons, taskReady, hostVal, Bool.false_eq_true, if_false, h.acc]
      abel
    · rw [g7, h.net]
      simp [← Multiset.cons_coe, taskNet]
    · dsimp only; rw [hperm]; exact h.alone
    · dsimp only; rw [hperm]; exact h.done
    · intro t ht
      rcases List.mem_cons.1 ht with rfl | ht
      · exact ⟨fun e he => (mem_out hG he).1, by simp, fun e he => (mem_out hG he).2, trivial⟩
      · exact h.task t ht
    · simp only [← Multiset.cons_coe, Multiset.map_cons, Multiset.sum_cons, taskBlocks, h1, h.heap]
      abel
    · simp [← Multiset.cons_coe, taskParcs, p1, h.parc]
    · rw [h.lost]; simp [leakSum, g8, g9]
    · have := h.pot
      simp only [← Multiset.cons_coe, Multiset.map_cons, Multiset.sum_cons, taskPot, hostPot, g10, Bool.false_eq_true, if_false, (hG.out r).length_eq]
      omega

theorem task_set {l : List (Task ν ε V)} {i : ℕ} {t t' : Task ν ε V} {p : Task ν ε V → Prop} (h : ∀ x ∈ l, p x) (h' : p t') : ∀ x ∈ l.set i t', p x := by
  intro x hx
  rcases List.mem_or_eq_of_mem_set hx with hx | rfl
  · exact h x hx
  · exact h'

theorem run_edge (hG : P.Good D nv leak) (h : Inv D P nv leak L n s a lost) {t : Task ν ε V} (ht : t ∈ s.tasks) {e : ε} (he : e ∈ t.todo) (hn : P.toTgt e = false)
    {vs : Views} (hv : vs.map Prod.fst = List.range (nv (D.src e))) (hl : ∀ v ∈ vs, s.led.Live v.2) :
    ∃ q ws L' Y, edgeProg P t vs e s.led = some ((q, ws), L') ∧ L'.heap = s.led.heap + Y ∧ Y.card = leak e ∧ L'.parc = q ::ₘ s.led.parc ∧ L'.Wf ∧
      (∀ v ∈ ws, v.2 = .inside q) ∧ ∀ v ∈ ws, v.1 < nv (D.dst e) := by
  obtain ⟨idx, hidx, hm⟩ := hG.op e ((h.task t ht).edges e he) hn
  obtain ⟨r, L1, B, e1, ⟨o, Y, rfl, ho, hY, rfl⟩, h1, p1, w1⟩ := run_tri h.wf (hm s.led.Live vs hv hl 0)
  obtain ⟨q, L2, e2, h2, p2, w2⟩ := run_contribute w1 ho.2 (X := s.led.heap + Y) (by rw [h1]; abel)
  refine ⟨q, o.views.map fun v => (v.1, .inside q), L2, Y, ?_, h2, hY, by rw [p2, p1], w2, ?_, ?_⟩
  · unfold edgeProg
    rw [bind_run (run_useAll (h.reads_live ht)), bind_run e1]
    exact e2
  · intro v hv
    obtain ⟨w, _, rfl⟩ := List.mem_map.1 hv
    rfl
  · intro v hv
    obtain ⟨w, hw, rfl⟩ := List.mem_map.1 hv
    exact hidx _ (by rw [← ho.1]; exact List.mem_map.2 ⟨w, hw, rfl⟩)

theorem keeps_serve (hG : P.Good D nv leak) (h : Inv D P nv leak L n s a lost) (i : ℕ) : Keeps D P nv leak L n s (act D P (.serve i) s) := by
  cases hi : s.tasks[i]? with
  | none => left; simp [act, hi]
  | some t =>
    have hT := coe_eraseIdx hi
    have ht : t ∈ s.tasks := List.mem_of_getElem? hi
    have htask := h.task t ht
    obtain ⟨vs, hvs, hfst, hlive⟩ := h.host_views ht
    obtain ⟨host, scratch, todo, waiting⟩ := t
    cases waiting with
    | true => left; simp [act, hi]
    | false =>
    cases todo with
    | nil => left; simp [act, hi]
    | cons e es =>
    by_cases hsv : servesHere D P ⟨host, scratch, e :: es, false⟩ e = true
    swap
    · left; simp [act, hi, hsv]
    right
    have hready : (a.ready : Multiset (ε × V)) = (e, hostVal D s.acc host) ::ₘ
        (((es.map fun e => (e, hostVal D s.acc host) : List (ε × V)) : Multiset (ε × V)) + (((s.tasks.eraseIdx i : List (Task ν ε V)) : Multiset (Task ν ε V)).map (taskReady D s.acc)).sum + ((s.msgs : Multiset (Msg ε V)).map msgReady).sum) := by
      rw [h.ready, hT]
      simp only [Multiset.map_cons, Multiset.sum_cons, taskReady, Bool.false_eq_true, if_false, List.map_cons, ← Multiset.cons_coe, Multiset.cons_add]
    obtain ⟨a', g1, g2, g3, g4, g5, g6, g7, g8, g9, g10⟩ := abs_apply h.reach hready
    have hnet := h.net
    rw [hT] at hnet
    simp only [Multiset.map_cons, Multiset.sum_cons, taskNet, Bool.false_eq_true, if_false, zero_add] at hnet
    have halone := h.alone
    have hdone := h.done
    have hheap := h.heap
    have hparc := h.parc
    have hpot := h.pot
    rw [hT] at halone hdone hheap hparc hpot
    simp only [Multiset.map_cons, Multiset.sum_cons] at halone hdone hheap hparc hpot
    cases hn : P.toTgt e with
    | true =>
      refine ⟨_, a', lost, by simp only [act, hi, hsv, if_true, hn]; rfl, ?_⟩
      refine { reach := g1, idle := g2.trans h.idle, cnt := g3.trans h.cnt, acc := g4.trans h.acc, trig := by rw [g5]; exact h.trig, ready := ?_, net := ?_, fresh := h.fresh, alone := ?_, done := ?_, own := h.own, task := ?_, msg := h.msg, heap := ?_, parc := ?_, wf := h.wf, lost := ?_, pot := ?_ }
      · rw [g6]; dsimp only; rw [coe_set _ hi]
        simp only [Multiset.map_cons, Multiset.sum_cons, taskReady, if_true, List.tail_cons]
      · rw [g7, hnet]; dsimp only; rw [coe_set _ hi]
        simp only [Multiset.map_cons, Multiset.sum_cons, taskNet, if_true, List.head?_cons, Option.toList_some, List.map_cons, List.map_nil, Multiset.coe_singleton]
        simp only [← Multiset.singleton_add]
        abel
      · dsimp only; rw [coe_set _ hi]
        simpa only [Multiset.map_cons, Multiset.sum_cons, taskLco] using halone
      · dsimp only; rw [coe_set _ hi]
        simpa only [Multiset.map_cons, Multiset.sum_cons, taskLco] using hdone
      · exact task_set (t := ⟨host, scratch, e :: es, false⟩) h.task ⟨htask.edges, fun _ => ⟨e, es, rfl, hn⟩, htask.views, htask.scr⟩
      · dsimp only; rw [coe_set _ hi]
        simpa only [Multiset.map_cons, Multiset.sum_cons, taskBlocks] using hheap
      · dsimp only; rw [coe_set _ hi]
        simpa only [Multiset.map_cons, Multiset.sum_cons, taskParcs] using hparc
      · rw [h.lost]; simp [leakSum, g8, g9, hn]
      · dsimp only; rw [coe_set _ hi, g10]
        simp only [Multiset.map_cons, Multiset.sum_cons, taskPot, if_true, Bool.false_eq_true, if_false] at hpot ⊢
        omega
    | false =>
      obtain ⟨q, ws, L', Y, e1, h1, hY, p1, w1, hw1, hw2⟩ := run_edge hG h ht (e := e) (by simp) hn (hfst e (by simp)) hlive
      refine ⟨_, a', lost + Y, by simp only [act, hi, hsv, if_true, hn, Bool.false_eq_true, if_false, hvs]; rw [run_ok e1], ?_⟩
      refine { reach := g1, idle := g2.trans h.idle, cnt := g3.trans h.cnt, acc := g4.trans h.acc, trig := by rw [g5]; exact h.trig, ready := ?_, net := ?_, fresh := h.fresh, alone := ?_, done := ?_, own := h.own, task := ?_, msg := ?_, heap := ?_, parc := ?_, wf := w1, lost := ?_, pot := ?_ }
      · rw [g6]; dsimp only; rw [coe_set _ hi]
        simp only [Multiset.map_cons, Multiset.sum_cons, taskReady, Bool.false_eq_true, if_false, ← Multiset.cons_coe, msgReady, zero_add]
      · rw [g7, hnet]; dsimp only; rw [coe_set _ hi]
        simp only [Multiset.map_cons, Multiset.sum_cons, taskNet, Bool.false_eq_true, if_false, ← Multiset.cons_coe, msgNet, zero_add]
        simp only [← Multiset.singleton_add]
        abel
      · dsimp only; rw [coe_set _ hi]
        simpa only [Multiset.map_cons, Multiset.sum_cons, taskLco] using halone
      · dsimp only; rw [coe_set _ hi]
        simpa only [Multiset.map_cons, Multiset.sum_cons, taskLco] using hdone
      · refine task_set (t := ⟨host, scratch, e :: es, false⟩) h.task ⟨fun x hx => htask.edges x (by simp [hx]), by simp, ?_, htask.scr⟩
        have := htask.views
        cases host <;> simp only [EdgesOk] at this ⊢
        · exact fun x hx => this x (by simp [hx])
        · exact fun x hx => this x (by simp [hx])
        · exact fun x hx => this x (by simp [hx])
        · exact ⟨this.1, fun x hx => this.2 x (by simp [hx])⟩
      · intro m hm
        rcases List.mem_cons.1 hm with rfl | hm
        · exact ⟨htask.edges e (by simp), hn, hw1, hw2⟩
        · exact h.msg m hm
      · dsimp only; rw [coe_set _ hi, h1, hheap]
        simp only [Multiset.map_cons, Multiset.sum_cons, taskBlocks]
        abel
      · dsimp only; rw [coe_set _ hi, p1, hparc]
        simp only [Multiset.map_cons, Multiset.sum_cons, ← Multiset.cons_coe, msgParcs, taskParcs]
        simp only [← Multiset.singleton_add]
        abel
      · rw [Multiset.card_add, h.lost, hY]; simp [leakSum, g8, g9, hn]; omega
      · dsimp only; rw [coe_set _ hi, g10]
        simp only [Multiset.map_cons, Multiset.sum_cons, ← Multiset.cons_coe, taskPot, msgPot, List.length_cons, Bool.false_eq_true, if_false, mul_add] at hpot ⊢
        have : 3 ≤ hostPot host := by cases host <;> simp [hostPot]
        omega

theorem EdgesOk.sub {host : Host ν V} {es es' : List ε} (h : EdgesOk D nv host es) (hs : ∀ e ∈ es', e ∈ es) : EdgesOk D nv host es' := by
  cases host <;> simp only [EdgesOk] at h ⊢
  · exact fun x hx => h x (hs x hx)
  · exact fun x hx => h x (hs x hx)
  · exact fun x hx => h x (hs x hx)
  · exact ⟨h.1, fun x hx => h.2 x (hs x hx)⟩

/-- The tasks do not see a set at a node that waits for one. -/
theorem Inv.acc_congr (h : Inv D P nv leak L n s a lost) {r : ν} (hr : s.cnt r ≠ 0) (y : V) {f : (ν → V) → Task ν ε V → Multiset (ε × V)}
    (hf : ∀ acc acc' t, hostVal D acc' t.host = hostVal D acc t.host → f acc' t = f acc t) :
    ((s.tasks : Multiset (Task ν ε V)).map (f fun x => if x = r then y else s.acc x)) = (s.tasks : Multiset (Task ν ε V)).map (f s.acc) := by
  apply Multiset.map_congr rfl
  intro t ht
  apply hf
  apply hostVal_congr
  intro r' hh
  have : r' ≠ r := by
    rintro rfl
    refine hr (h.done r' (Multiset.mem_add.2 (Or.inr (mem_sum_map ht ?_)))).1
    simp [taskLco, hh]
  rw [if_neg this]

theorem taskReady_congr (acc acc' : ν → V) (t : Task ν ε V) (h : hostVal D acc' t.host = hostVal D acc t.host) : taskReady D acc' t = taskReady D acc t := by
  simp only [taskReady, h]

theorem taskNet_congr (acc acc' : ν → V) (t : Task ν ε V) (h : hostVal D acc' t.host = hostVal D acc t.host) : taskNet D acc' t = taskNet D acc t := by
  simp only [taskNet, h]

theorem trigger_coe (hG : P.Good D nv leak) (r : ν) (c : ℕ) (tr : List ν) :
    (trigger P r c tr : Multiset ν) = if c = 0 ∧ D.outE r ≠ [] then r ::ₘ (tr : Multiset ν) else tr := by
  have : P.out r ≠ [] ↔ D.outE r ≠ [] := by
    rw [not_iff_not]
    exact ⟨fun h => List.nil_perm.1 (h ▸ hG.out r), fun h => List.perm_nil.1 (h ▸ hG.out r)⟩
  unfold trigger
  by_cases hc : c = 0 ∧ D.outE r ≠ []
  · rw [if_pos hc, if_pos ⟨hc.1, this.2 hc.2⟩]; rfl
  · rw [if_neg hc, if_neg (fun h => hc ⟨h.1, this.1 h.2⟩)]

theorem keeps_tset (hG : P.Good D nv leak) (h : Inv D P nv leak L n s a lost) (i : ℕ) : Keeps D P nv leak L n s (act D P (.tset i) s) := by
  cases hi : s.tasks[i]? with
  | none => left; simp [act, hi]
  | some t =>
    have hT := coe_eraseIdx hi
    have ht : t ∈ s.tasks := List.mem_of_getElem? hi
    have htask := h.task t ht
    obtain ⟨vs, hvs, hfst, hlive⟩ := h.host_views ht
    have hreads := h.reads_live ht
    obtain ⟨host, scratch, todo, waiting⟩ := t
    cases waiting with
    | false => left; simp [act, hi]
    | true =>
    cases todo with
    | nil => left; simp [act, hi]
    | cons e es =>
    right
    have hn : P.toTgt e = true := by
      obtain ⟨e', es', he, hh⟩ := htask.wait rfl
      simp only [List.cons.injEq] at he
      rw [he.1]; exact hh
    have heD : e ∈ D.edges := htask.edges e (by simp)
    have hnet : (a.net : Multiset (ε × V)) = (e, D.op e (hostVal D s.acc host)) ::ₘ
        ((((s.tasks.eraseIdx i : List (Task ν ε V)) : Multiset (Task ν ε V)).map (taskNet D s.acc)).sum + ((s.msgs : Multiset (Msg ε V)).map msgNet).sum) := by
      rw [h.net, hT]
      simp only [Multiset.map_cons, Multiset.sum_cons, taskNet, if_true, List.head?_cons, Option.toList_some, List.map_cons, List.map_nil, Multiset.coe_singleton]
      simp only [← Multiset.singleton_add]
      abel
    have I := reach_inv hG.ok h.reach
    have hcnt : s.cnt (D.dst e) ≠ 0 := by
      have := (I.awaited (p := (e, D.op e (hostVal D s.acc host))) (by rw [← Multiset.mem_coe, hnet]; simp)).1
      rw [h.cnt] at this
      dsimp only at this
      omega
    obtain ⟨a', g1, g2, g3, g4, g5, g6, g7, g8, g9, g10⟩ := abs_set h.reach hnet
    obtain ⟨_, L1, B, e1, ⟨Y, hY, rfl⟩, h1, p1, w1⟩ := run_tri h.wf (hG.tgt e heD hn s.led.Live 0 vs (hfst e (by simp)) hlive).tri
    have e0 : (do useAll (taskReads ⟨host, scratch, e :: es, true⟩); P.tgt e vs : Prog Unit) s.led = some ((), L1) := by
      rw [bind_run (run_useAll hreads)]; exact e1
    have hdst : s.cnt (D.dst e) - 1 = 0 ∧ D.outE (D.dst e) ≠ [] → False := fun hh => hh.2 (hG.last e heD hn)
    have hready := h.ready
    have hcr := h.acc_congr hcnt (s.acc (D.dst e) + D.op e (hostVal D s.acc host)) (f := taskReady D) taskReady_congr
    have hcn := h.acc_congr hcnt (s.acc (D.dst e) + D.op e (hostVal D s.acc host)) (f := taskNet D) taskNet_congr
    have htr := trigger_coe hG (D.dst e) (s.cnt (D.dst e) - 1) s.trig
    rw [if_neg hdst] at htr
    have halone := h.alone
    have hdone := h.done
    have hheap := h.heap
    have hparc := h.parc
    have hpot := h.pot
    rw [← hcr] at hready
    rw [hT] at halone hdone hheap hparc hpot hready hcn
    simp only [Multiset.map_cons, Multiset.sum_cons] at halone hdone hheap hparc hpot hready hcn
    have hcn' : (((s.tasks.eraseIdx i : List (Task ν ε V)) : Multiset (Task ν ε V)).map (taskNet D fun x => if x = D.dst e then s.acc (D.dst e) + D.op e (hostVal D s.acc host) else s.acc x)) =
        ((s.tasks.eraseIdx i : List (Task ν ε V)) : Multiset (Task ν ε V)).map (taskNet D s.acc) := by
      apply Multiset.map_congr rfl
      intro t ht
      apply taskNet_congr
      apply hostVal_congr
      intro r' hh
      have : r' ≠ D.dst e := by
        rintro rfl
        refine hcnt (h.done _ (Multiset.mem_add.2 (Or.inr (mem_sum_map (Multiset.mem_coe.2 (List.mem_of_mem_eraseIdx (Multiset.mem_coe.1 ht))) ?_)))).1
        simp [taskLco, hh]
      rw [if_neg this]
    refine ⟨_, a', lost + Y, by simp only [act, hi, if_neg hcnt, hvs]; rw [run_ok e0], ?_⟩
    refine { reach := g1, idle := g2.trans h.idle, cnt := by rw [g3, h.cnt], acc := by rw [g4, h.acc], trig := ?_, ready := ?_, net := ?_, fresh := ?_, alone := ?_, done := ?_, own := h.own, task := ?_, msg := h.msg, heap := ?_, parc := ?_, wf := w1, lost := ?_, pot := ?_ }
    · rw [g5, h.cnt, if_neg hdst, h.trig]; exact htr.symm
    · rw [g6, hready]; dsimp only; rw [coe_set _ hi]
      simp only [Multiset.map_cons, Multiset.sum_cons, taskReady, if_true, List.tail_cons, Bool.false_eq_true, if_false]
    · rw [g7]; dsimp only; rw [coe_set _ hi]
      simp only [Multiset.map_cons, Multiset.sum_cons, hcn']
      simp only [taskNet, Bool.false_eq_true, if_false, zero_add]
    · intro e' he' hn' hc' hd'
      dsimp only at hc' hd' ⊢
      have : D.dst e' ≠ D.dst e := fun hh => by
        have := hG.same e' he' e heD hh
        rw [hn', hn] at this
        cases this
      rw [if_neg this] at hc' ⊢
      exact h.fresh e' he' hn' hc' hd'
    · dsimp only; rw [coe_set _ hi, htr]
      simpa only [Multiset.map_cons, Multiset.sum_cons, taskLco] using halone
    · dsimp only; rw [coe_set _ hi, htr]
      intro r hr
      have := hdone r (by simpa only [Multiset.map_cons, Multiset.sum_cons, taskLco] using hr)
      have hne : r ≠ D.dst e := by rintro rfl; exact hcnt this.1
      rw [if_neg hne]
      exact this
    · exact task_set (t := ⟨host, scratch, e :: es, true⟩) h.task ⟨fun x hx => htask.edges x (by simp [hx]), by simp, EdgesOk.sub htask.views fun x hx => by simp [hx], htask.scr⟩
    · dsimp only; rw [coe_set _ hi, h1, hheap]
      simp only [Multiset.map_cons, Multiset.sum_cons, taskBlocks]
      abel
    · dsimp only; rw [coe_set _ hi, p1, hparc]
      simp only [Multiset.map_cons, Multiset.sum_cons, taskParcs]
    · rw [Multiset.card_add, h.lost, hY]; simp [leakSum, g8, g9, hn]; omega
    · have hm := potN_mono D g10
      dsimp only; rw [coe_set _ hi]
      simp only [Multiset.map_cons, Multiset.sum_cons, taskPot, List.length_cons, if_true, Bool.false_eq_true, if_false, mul_add] at hpot ⊢
      have : 3 ≤ hostPot host := by cases host <;> simp [hostPot]
      omega

theorem keeps_send (h : Inv D P nv leak L n s a lost) (i : ℕ) : Keeps D P nv leak L n s (act D P (.send i) s) := by
  cases hi : s.tasks[i]? with
  | none => left; simp [act, hi]
  | some t =>
    have hT := coe_eraseIdx hi
    have ht : t ∈ s.tasks := List.mem_of_getElem? hi
    have htask := h.task t ht
    obtain ⟨vs, hvs, hfst, hlive⟩ := h.host_views ht
    have hreads := h.reads_live ht
    obtain ⟨host, scratch, todo, waiting⟩ := t
    cases waiting with
    | true => left; simp [act, hi]
    | false =>
    cases todo with
    | nil => left; simp [act, hi]
    | cons e es =>
    by_cases hsv : servesHere D P ⟨host, scratch, e :: es, false⟩ e = true
    · left; simp [act, hi, hsv]
    right
    obtain ⟨q, L1, e1, h1, p1, w1⟩ := run_acquire h.wf
    have e0 : sendProg (⟨host, scratch, e :: es, false⟩ : Task ν ε V) s.led = some (q, L1) := by
      unfold sendProg
      rw [bind_run (run_useAll fun p hp => hreads p (by unfold taskReads; exact List.mem_append_left _ hp))]
      exact e1
    have hsplit := List.takeWhile_append_dropWhile (p := fun x => decide (P.rank (D.dst x) = P.rank (D.dst e))) (l := e :: es)
    have hlen : 1 ≤ ((e :: es).takeWhile fun x => decide (P.rank (D.dst x) = P.rank (D.dst e))).length := by simp [List.takeWhile_cons]
    refine ⟨_, a, lost, by simp only [act, hi, hsv, Bool.false_eq_true, if_false, hvs]; rw [run_ok e0], ?_⟩
    generalize (e :: es).takeWhile (fun x => decide (P.rank (D.dst x) = P.rank (D.dst e))) = here at hsplit hlen ⊢
    generalize (e :: es).dropWhile (fun x => decide (P.rank (D.dst x) = P.rank (D.dst e))) = rest at hsplit ⊢
    have sub1 : ∀ x ∈ here, x ∈ e :: es := fun x hx => by rw [← hsplit]; simp [hx]
    have sub2 : ∀ x ∈ rest, x ∈ e :: es := fun x hx => by rw [← hsplit]; simp [hx]
    have hready := h.ready
    have hnet := h.net
    have halone := h.alone
    have hdone := h.done
    have hheap := h.heap
    have hparc := h.parc
    have hpot := h.pot
    rw [hT] at halone hdone hheap hparc hpot hready hnet
    simp only [Multiset.map_cons, Multiset.sum_cons] at halone hdone hheap hparc hpot hready hnet
    simp only [taskReady, taskNet, taskPot, ← hsplit, List.map_append, List.length_append, ← Multiset.coe_add, Bool.false_eq_true, if_false, mul_add, zero_add] at hready hnet hpot
    have hedges := htask.views
    have hmain : ∀ m : Msg ε V, msgReady m = ((here.map fun e => (e, hostVal D s.acc host) : List (ε × V)) : Multiset (ε × V)) → msgNet m = 0 → msgParcs m = {q} → msgPot m = 3 + 3 * here.length →
        MsgOk D P nv m → hostPot host = 8 →
        Inv D P nv leak L (n + 1) { s with led := L1, tasks := s.tasks.set i ⟨host, scratch, rest, false⟩, msgs := m :: s.msgs } a lost := by
      intro m m1 m2 m3 m4 m5 m6
      refine { reach := h.reach, idle := h.idle, cnt := h.cnt, acc := h.acc, trig := h.trig, ready := ?_, net := ?_, fresh := h.fresh, alone := ?_, done := ?_, own := h.own, task := ?_, msg := ?_, heap := ?_, parc := ?_, wf := w1, lost := h.lost, pot := ?_ }
      · rw [hready]; dsimp only; rw [coe_set _ hi]
        simp only [Multiset.map_cons, Multiset.sum_cons, taskReady, Bool.false_eq_true, if_false, ← Multiset.cons_coe, m1]
        abel
      · rw [hnet]; dsimp only; rw [coe_set _ hi]
        simp only [Multiset.map_cons, Multiset.sum_cons, taskNet, Bool.false_eq_true, if_false, ← Multiset.cons_coe, m2, zero_add]
      · dsimp only; rw [coe_set _ hi]
        simpa only [Multiset.map_cons, Multiset.sum_cons, taskLco] using halone
      · dsimp only; rw [coe_set _ hi]
        simpa only [Multiset.map_cons, Multiset.sum_cons, taskLco] using hdone
      · exact task_set (t := ⟨host, scratch, e :: es, false⟩) h.task ⟨fun x hx => htask.edges x (sub2 x hx), by simp, EdgesOk.sub htask.views sub2, htask.scr⟩
      · intro m' hm
        rcases List.mem_cons.1 hm with rfl | hm
        · exact m5
        · exact h.msg m' hm
      · dsimp only; rw [coe_set _ hi, h1, hheap]
        simp only [Multiset.map_cons, Multiset.sum_cons, taskBlocks]
      · dsimp only; rw [coe_set _ hi, p1, hparc]
        simp only [Multiset.map_cons, Multiset.sum_cons, ← Multiset.cons_coe, m3, taskParcs]
        simp only [← Multiset.singleton_add]
        abel
      · dsimp only; rw [coe_set _ hi]
        simp only [Multiset.map_cons, Multiset.sum_cons, ← Multiset.cons_coe, taskPot, m4, m6, Bool.false_eq_true, if_false] at hpot ⊢
        omega
    cases host with
    | leaf r => exact hmain _ rfl rfl rfl rfl ⟨fun x hx => htask.edges x (sub1 x hx), fun x hx => hedges x (sub1 x hx)⟩ rfl
    | sources q b x => exact absurd rfl hsv
    | lco r =>
      refine hmain _ rfl rfl rfl rfl ⟨fun x hx => htask.edges x (sub1 x hx), ?_, fun x hx => ?_⟩ rfl
      · intro v hv
        obtain ⟨w, _, rfl⟩ := List.mem_map.1 hv
        rfl
      · rw [List.map_map, ← hfst x (sub1 x hx)]
        rfl
    | parcel q vs x => exact absurd rfl hsv

theorem keeps_recv (h : Inv D P nv leak L n s a lost) (j : ℕ) : Keeps D P nv leak L n s (act D P (.recv j) s) := by
  cases hj : s.msgs[j]? with
  | none => left; simp [act, hj]
  | some m =>
    have hM := coe_eraseIdx hj
    have hmsg := h.msg m (List.mem_of_getElem? hj)
    have hsub : ∀ x ∈ s.msgs.eraseIdx j, MsgOk D P nv x := fun x hx => h.msg x (List.mem_of_mem_eraseIdx hx)
    have hready := h.ready
    have hnet := h.net
    have halone := h.alone
    have hdone := h.done
    have hheap := h.heap
    have hparc := h.parc
    have hpot := h.pot
    rw [hM] at hparc hpot hready hnet
    simp only [Multiset.map_cons, Multiset.sum_cons] at hparc hpot hready hnet
    cases m with
    | set e q vs y => left; simp [act, hj]
    | sources q es x =>
      right
      obtain ⟨b, L1, e1, h1, p1, w1⟩ := run_new h.wf
      refine ⟨_, a, lost, by simp only [act, hj]; rw [run_ok e1], ?_⟩
      refine { reach := h.reach, idle := h.idle, cnt := h.cnt, acc := h.acc, trig := h.trig, ready := ?_, net := ?_, fresh := h.fresh, alone := ?_, done := ?_, own := h.own, task := ?_, msg := hsub, heap := ?_, parc := ?_, wf := w1, lost := h.lost, pot := ?_ }
      · rw [hready]
        simp only [← Multiset.cons_coe, Multiset.map_cons, Multiset.sum_cons, taskReady, Bool.false_eq_true, if_false, msgReady, hostVal]
        abel
      · rw [hnet]
        simp only [← Multiset.cons_coe, Multiset.map_cons, Multiset.sum_cons, taskNet, Bool.false_eq_true, if_false, msgNet]
        abel
      · simpa [← Multiset.cons_coe, taskLco] using halone
      · simpa [← Multiset.cons_coe, taskLco] using hdone
      · intro t ht
        rcases List.mem_cons.1 ht with rfl | ht
        · exact ⟨hmsg.1, by simp, hmsg.2, rfl⟩
        · exact h.task t ht
      · simp only [← Multiset.cons_coe, Multiset.map_cons, Multiset.sum_cons, taskBlocks, h1, hheap, Multiset.coe_nil]
        simp only [← Multiset.singleton_add]
        abel
      · simp only [← Multiset.cons_coe, Multiset.map_cons, Multiset.sum_cons, taskParcs, p1, hparc, msgParcs]
        abel
      · simp only [← Multiset.cons_coe, Multiset.map_cons, Multiset.sum_cons, taskPot, hostPot, msgPot, Bool.false_eq_true, if_false] at hpot ⊢
        omega
    | work q vs es x =>
      right
      refine ⟨_, a, lost, by simp only [act, hj]; rfl, ?_⟩
      refine { reach := h.reach, idle := h.idle, cnt := h.cnt, acc := h.acc, trig := h.trig, ready := ?_, net := ?_, fresh := h.fresh, alone := ?_, done := ?_, own := h.own, task := ?_, msg := hsub, heap := ?_, parc := ?_, wf := h.wf, lost := h.lost, pot := ?_ }
      · rw [hready]
        simp only [← Multiset.cons_coe, Multiset.map_cons, Multiset.sum_cons, taskReady, Bool.false_eq_true, if_false, msgReady, hostVal]
        abel
      · rw [hnet]
        simp only [← Multiset.cons_coe, Multiset.map_cons, Multiset.sum_cons, taskNet, Bool.false_eq_true, if_false, msgNet]
        abel
      · simpa [← Multiset.cons_coe, taskLco] using halone
      · simpa [← Multiset.cons_coe, taskLco] using hdone
      · intro t ht
        rcases List.mem_cons.1 ht with rfl | ht
        · exact ⟨hmsg.1, by simp, hmsg.2, rfl⟩
        · exact h.task t ht
      · simp only [← Multiset.cons_coe, Multiset.map_cons, Multiset.sum_cons, taskBlocks, hheap, Multiset.coe_nil]
        abel
      · simp only [← Multiset.cons_coe, Multiset.map_cons, Multiset.sum_cons, taskParcs, hparc, msgParcs]
        abel
      · simp only [← Multiset.cons_coe, Multiset.map_cons, Multiset.sum_cons, taskPot, hostPot, msgPot, Bool.false_eq_true, if_false] at hpot ⊢
        omega

theorem run_set (hG : P.Good D nv leak) (h : Inv D P nv leak L n s a lost) {e : ε} {q : ℕ} {vs : Views} {y : V} (hm : .set e q vs y ∈ s.msgs) :
    ∃ o L', setProg P (D.dst e) (s.data (D.dst e)) q vs s.led = some (o, L') ∧ OwnViews o.views (List.range (nv (D.dst e))) ∧
      L'.heap + dataBlocks (s.data (D.dst e)) = s.led.heap + o.blocks ∧ q ::ₘ L'.parc = s.led.parc ∧ L'.Wf := by
  obtain ⟨heD, hn, hq, hlt⟩ := h.msg _ hm
  have hqp : q ∈ s.led.parc := by
    rw [h.parc]
    exact Multiset.mem_add.2 (Or.inr (mem_sum_map (Multiset.mem_coe.2 hm) (by simp [msgParcs])))
  cases hd : s.data (D.dst e) with
  | some o =>
    have ho := (h.own _ _ hd).1
    have e1 : addExpansion o.views vs s.led = some ((), s.led) := run_add (h.data_live hd) (fun v hv => by rw [hq v hv]; exact hqp)
      fun v hv => by rw [ho.length, List.length_range]; exact hlt v hv
    obtain ⟨X, hX⟩ := Multiset.exists_cons_of_mem hqp
    obtain ⟨L2, e2, h2, p2, w2⟩ := run_retire h.wf hX
    refine ⟨o, L2, ?_, ho, by rw [h2]; rfl, by rw [p2, hX], w2⟩
    show (do addExpansion o.views vs; retire q; pure o : Prog Obj) s.led = _
    rw [bind_run e1, bind_run e2]
    rfl
  | none =>
    obtain ⟨o, L1, B, e0, ⟨ho, rfl⟩, h1, p1, w1⟩ := run_tri h.wf (hG.make e heD hn s.led.Live 0)
    have hqp1 : q ∈ L1.parc := by rw [p1]; exact hqp
    have e1 : addExpansion o.views vs L1 = some ((), L1) := run_add (fun v hv => by
        obtain ⟨b, hb⟩ := ho.2 v hv
        rw [hb]
        show b ∈ L1.heap
        rw [h1]
        simp [Obj.blocks, mem_viewBlocks hv hb]) (fun v hv => by rw [hq v hv]; exact hqp1)
      fun v hv => by rw [ho.length, List.length_range]; exact hlt v hv
    obtain ⟨X, hX⟩ := Multiset.exists_cons_of_mem hqp1
    obtain ⟨L2, e2, h2, p2, w2⟩ := run_retire w1 hX
    refine ⟨o, L2, ?_, ho, by rw [h2, h1]; simp only [dataBlocks]; abel, by rw [p2, ← hX, p1], w2⟩
    show (do let o ← P.make (D.dst e); addExpansion o.views vs; retire q; pure o : Prog Obj) s.led = _
    rw [bind_run e0, bind_run e1, bind_run e2]
    rfl

theorem keeps_set (hG : P.Good D nv leak) (h : Inv D P nv leak L n s a lost) (j : ℕ) : Keeps D P nv leak L n s (act D P (.set j) s) := by
  cases hj : s.msgs[j]? with
  | none => left; simp [act, hj]
  | some m =>
    have hM := coe_eraseIdx hj
    have hmem := List.mem_of_getElem? hj
    have hmsg := h.msg m hmem
    have hsub : ∀ x ∈ s.msgs.eraseIdx j, MsgOk D P nv x := fun x hx => h.msg x (List.mem_of_mem_eraseIdx hx)
    cases m with
    | sources q es x => left; simp [act, hj]
    | work q vs es x => left; simp [act, hj]
    | set e q vs y =>
      right
      obtain ⟨heD, hn, _, _⟩ := hmsg
      have hnet : (a.net : Multiset (ε × V)) = (e, y) ::ₘ
          (((s.tasks : Multiset (Task ν ε V)).map (taskNet D s.acc)).sum + (((s.msgs.eraseIdx j : List (Msg ε V)) : Multiset (Msg ε V)).map msgNet).sum) := by
        rw [h.net, hM]
        simp only [Multiset.map_cons, Multiset.sum_cons, msgNet]
        simp only [← Multiset.singleton_add]
        abel
      have I := reach_inv hG.ok h.reach
      have hcnt : s.cnt (D.dst e) ≠ 0 := by
        have := (I.awaited (p := (e, y)) (by rw [← Multiset.mem_coe, hnet]; simp)).1
        rw [h.cnt] at this
        dsimp only at this
        omega
      obtain ⟨a', g1, g2, g3, g4, g5, g6, g7, g8, g9, g10⟩ := abs_set h.reach hnet
      obtain ⟨o, L1, e0, ho, h1, p1, w1⟩ := run_set hG h hmem
      have hbase : (if (s.data (D.dst e)).isSome then s.acc (D.dst e) else D.base (D.dst e)) = s.acc (D.dst e) := by
        split
        · rfl
        · rename_i hd
          exact (h.fresh e heD hn hcnt (by simpa using hd)).symm
      have hcr := h.acc_congr hcnt (s.acc (D.dst e) + y) (f := taskReady D) taskReady_congr
      have hcn := h.acc_congr hcnt (s.acc (D.dst e) + y) (f := taskNet D) taskNet_congr
      have htr := trigger_coe hG (D.dst e) (s.cnt (D.dst e) - 1) s.trig
      have hnodes : D.dst e ∈ D.nodes := hG.ok.dsts e heD
      have hnot : D.dst e ∉ (s.trig : Multiset ν) + ((s.tasks : Multiset (Task ν ε V)).map taskLco).sum := fun hh => hcnt (h.done _ hh).1
      obtain ⟨X, hX1, hX2⟩ := data_update (data := s.data) (List.mem_toFinset.2 hnodes) (some o)
      have hready := h.ready
      have hparc := h.parc
      have hpot := h.pot
      rw [← hcr] at hready
      rw [hM] at hready hparc hpot
      simp only [Multiset.map_cons, Multiset.sum_cons] at hready hparc hpot
      refine ⟨_, a', lost, by simp only [act, hj, if_neg hcnt]; rw [run_ok e0], ?_⟩
      refine { reach := g1, idle := g2.trans h.idle, cnt := by rw [g3, h.cnt], acc := ?_, trig := ?_, ready := ?_, net := ?_, fresh := ?_, alone := ?_, done := ?_, own := ?_, task := h.task, msg := hsub, heap := ?_, parc := ?_, wf := w1, lost := ?_, pot := ?_ }
      · rw [g4, h.acc]; dsimp only; rw [hbase]
      · rw [g5, h.cnt, h.trig]; exact htr.symm
      · rw [g6, hready]; dsimp only; rw [hbase]
        simp only [msgReady, zero_add]
      · rw [g7]; dsimp only; rw [hbase, hcn]
      · intro e' he' hn' hc' hd'
        dsimp only at hc' hd' ⊢
        by_cases hh : D.dst e' = D.dst e
        · rw [if_pos hh] at hd'; cases hd'
        · rw [if_neg hh] at hc' hd' ⊢
          exact h.fresh e' he' hn' hc' hd'
      · dsimp only; rw [htr]
        split
        · rw [Multiset.cons_add]
          exact Multiset.nodup_cons.2 ⟨hnot, h.alone⟩
        · exact h.alone
      · dsimp only; rw [htr]
        intro r hr
        by_cases hh : r = D.dst e
        · subst hh
          by_cases hz : s.cnt (D.dst e) - 1 = 0 ∧ D.outE (D.dst e) ≠ []
          · simp [hz.1]
          · rw [if_neg hz] at hr
            exact absurd hr hnot
        · rw [if_neg hh, if_neg hh]
          apply h.done
          split at hr
          · rw [Multiset.cons_add] at hr
            exact (Multiset.mem_cons.1 hr).resolve_left hh
          · exact hr
      · intro r o' hr
        dsimp only at hr
        by_cases hh : r = D.dst e
        · subst hh
          rw [if_pos rfl] at hr
          cases hr
          exact ⟨ho, hnodes⟩
        · rw [if_neg hh] at hr
          exact h.own r o' hr
      · dsimp only
        rw [hX2]
        have hheap := h.heap
        rw [hX1] at hheap
        have : L1.heap + dataBlocks (s.data (D.dst e)) = (L.heap + (dataBlocks (some o) + X) + ((s.tasks : Multiset (Task ν ε V)).map taskBlocks).sum + lost) + dataBlocks (s.data (D.dst e)) := by
          rw [h1, hheap]
          simp only [dataBlocks]
          abel
        exact add_right_cancel this
      · dsimp only
        have : q ::ₘ L1.parc = q ::ₘ (L.parc + ((s.tasks : Multiset (Task ν ε V)).map taskParcs).sum + (((s.msgs.eraseIdx j : List (Msg ε V)) : Multiset (Msg ε V)).map msgParcs).sum) := by
          rw [p1, hparc]
          simp only [msgParcs, ← Multiset.singleton_add]
          abel
        exact (Multiset.cons_inj_right q).1 this
      · rw [h.lost]; simp [leakSum, g8, g9, hn]
      · have hm := potN_mono D g10
        simp only [msgPot] at hpot
        dsimp only
        omega

theorem keeps_finish (h : Inv D P nv leak L n s a lost) (i : ℕ) : Keeps D P nv leak L n s (act D P (.finish i) s) := by
  cases hi : s.tasks[i]? with
  | none => left; simp [act, hi]
  | some t =>
    have hT := coe_eraseIdx hi
    have ht : t ∈ s.tasks := List.mem_of_getElem? hi
    have htask := h.task t ht
    have hlco := fun r (hr : r ∈ taskLco t) => h.done r (Multiset.mem_add.2 (Or.inr (mem_sum_map (Multiset.mem_coe.2 ht) hr)))
    obtain ⟨host, scratch, todo, waiting⟩ := t
    cases waiting with
    | true => left; simp [act, hi]
    | false =>
    cases todo with
    | cons e es => left; simp [act, hi]
    | nil =>
    right
    have hready := h.ready
    have hnet := h.net
    have halone := h.alone
    have hdone := h.done
    have hheap := h.heap
    have hparc := h.parc
    have hpot := h.pot
    rw [hT] at halone hdone hheap hparc hpot hready hnet
    simp only [Multiset.map_cons, Multiset.sum_cons] at halone hdone hheap hparc hpot hready hnet
    simp only [taskReady, taskNet, taskPot, List.map_nil, Multiset.coe_nil, List.length_nil, mul_zero, Bool.false_eq_true, if_false, zero_add] at hready hnet hpot
    have hsub : ∀ x ∈ s.tasks.eraseIdx i, TaskOk D P nv x := fun x hx => h.task x (List.mem_of_mem_eraseIdx hx)
    have hmain : ∀ (L1 : Led), L1.Wf → L1.heap + taskBlocks (⟨host, scratch, [], false⟩ : Task ν ε V) = s.led.heap → L1.parc + taskParcs (⟨host, scratch, [], false⟩ : Task ν ε V) = s.led.parc →
        taskLco (⟨host, scratch, [], false⟩ : Task ν ε V) = 0 →
        Inv D P nv leak L (n + 1) { s with led := L1, tasks := s.tasks.eraseIdx i } a lost := by
      intro L1 w1 h1 p1 hl
      rw [hl] at halone hdone
      refine { reach := h.reach, idle := h.idle, cnt := h.cnt, acc := h.acc, trig := h.trig, ready := hready, net := hnet, fresh := h.fresh, alone := by simpa using halone, done := by simpa using hdone, own := h.own, task := hsub, msg := h.msg, heap := ?_, parc := ?_, wf := w1, lost := h.lost, pot := ?_ }
      · rw [hheap] at h1
        refine add_right_cancel (h1.trans ?_)
        abel
      · rw [hparc] at p1
        refine add_right_cancel (p1.trans ?_)
        abel
      · dsimp only
        omega
    cases host with
    | leaf r =>
      obtain ⟨L1, e1, h1, p1, w1⟩ := run_delAll h.wf (bs := scratch) (X := L.heap + ∑ r ∈ D.nodes.toFinset, dataBlocks (s.data r) + (((s.tasks.eraseIdx i : List (Task ν ε V)) : Multiset (Task ν ε V)).map taskBlocks).sum + lost) (by
        rw [hheap]; simp only [taskBlocks]; abel)
      have e0 : finishProg s (⟨.leaf r, scratch, [], false⟩ : Task ν ε V) s.led = some ((), L1) := e1
      exact ⟨_, a, lost, by simp only [act, hi]; rw [run_ok e0], hmain L1 w1 (by rw [h1, hheap]; abel) (by rw [p1]; simp [taskParcs]) rfl⟩
    | sources q b x =>
      have hs : scratch = [] := htask.scr
      subst hs
      obtain ⟨L1, e1, h1, p1, w1⟩ := run_del h.wf (b := b) (X := L.heap + ∑ r ∈ D.nodes.toFinset, dataBlocks (s.data r) + (((s.tasks.eraseIdx i : List (Task ν ε V)) : Multiset (Task ν ε V)).map taskBlocks).sum + lost) (by
        rw [hheap]; simp only [taskBlocks, Multiset.coe_nil]; simp only [← Multiset.singleton_add]; abel)
      obtain ⟨L2, e2, h2, p2, w2⟩ := run_retire w1 (q := q) (X := L.parc + (((s.tasks.eraseIdx i : List (Task ν ε V)) : Multiset (Task ν ε V)).map taskParcs).sum + ((s.msgs : Multiset (Msg ε V)).map msgParcs).sum) (by
        rw [p1, hparc]; simp only [taskParcs]; simp only [← Multiset.singleton_add]; abel)
      have e0 : finishProg s (⟨.sources q b x, [], [], false⟩ : Task ν ε V) s.led = some ((), L2) := by
        simp only [finishProg]
        rw [bind_run e1]; exact e2
      exact ⟨_, a, lost, by simp only [act, hi]; rw [run_ok e0], hmain L2 w2 (by rw [h2, h1, hheap]; abel) (by rw [p2, hparc]; abel) rfl⟩
    | parcel q vs x =>
      have hs : scratch = [] := htask.scr
      subst hs
      obtain ⟨L2, e2, h2, p2, w2⟩ := run_retire h.wf (q := q) (X := L.parc + (((s.tasks.eraseIdx i : List (Task ν ε V)) : Multiset (Task ν ε V)).map taskParcs).sum + ((s.msgs : Multiset (Msg ε V)).map msgParcs).sum) (by
        rw [hparc]; simp only [taskParcs]; simp only [← Multiset.singleton_add]; abel)
      have e0 : finishProg s (⟨.parcel q vs x, [], [], false⟩ : Task ν ε V) s.led = some ((), L2) := e2
      exact ⟨_, a, lost, by simp only [act, hi]; rw [run_ok e0], hmain L2 w2 (by rw [h2]; simp [taskBlocks]) (by rw [p2, hparc]; abel) rfl⟩
    | lco r =>
      obtain ⟨hc, hd⟩ := hlco r (by simp [taskLco])
      obtain ⟨o, ho⟩ := Option.isSome_iff_exists.1 hd
      obtain ⟨hov, hrn⟩ := h.own r o ho
      obtain ⟨X, hX1, hX2⟩ := data_update (data := s.data) (List.mem_toFinset.2 hrn) none
      rw [hX1, ho] at hheap
      obtain ⟨L1, e1, h1, p1, w1⟩ := run_delete h.wf (o := o) hov.2 (X := L.heap + X + ((scratch : Multiset ℕ) + (((s.tasks.eraseIdx i : List (Task ν ε V)) : Multiset (Task ν ε V)).map taskBlocks).sum) + lost) (by
        rw [hheap]; simp only [taskBlocks, dataBlocks]; abel)
      obtain ⟨L2, e2, h2, p2, w2⟩ := run_delAll w1 (bs := scratch) (X := L.heap + X + (((s.tasks.eraseIdx i : List (Task ν ε V)) : Multiset (Task ν ε V)).map taskBlocks).sum + lost) (by
        rw [h1]; abel)
      have e0 : finishProg s (⟨.lco r, scratch, [], false⟩ : Task ν ε V) s.led = some ((), L2) := by
        simp only [finishProg, ho]
        rw [bind_run e1]; exact e2
      have hsplit : (s.trig : Multiset ν) + (taskLco (⟨.lco r, scratch, [], false⟩ : Task ν ε V) + (((s.tasks.eraseIdx i : List (Task ν ε V)) : Multiset (Task ν ε V)).map taskLco).sum) =
          r ::ₘ ((s.trig : Multiset ν) + (((s.tasks.eraseIdx i : List (Task ν ε V)) : Multiset (Task ν ε V)).map taskLco).sum) := by
        simp only [taskLco, ← Multiset.singleton_add]
        abel
      rw [hsplit] at halone hdone
      obtain ⟨hnr, halone'⟩ := Multiset.nodup_cons.1 halone
      refine ⟨_, a, lost, by simp only [act, hi]; rw [run_ok e0], ?_⟩
      refine { reach := h.reach, idle := h.idle, cnt := h.cnt, acc := h.acc, trig := h.trig, ready := hready, net := hnet, fresh := ?_, alone := halone', done := ?_, own := ?_, task := hsub, msg := h.msg, heap := ?_, parc := ?_, wf := w2, lost := h.lost, pot := ?_ }
      · intro e' he' hn' hc' hd'
        dsimp only at hc' hd' ⊢
        have hh : D.dst e' ≠ r := fun hh => hc' (hh ▸ hc)
        rw [if_neg hh] at hd'
        exact h.fresh e' he' hn' hc' hd'
      · intro r' hr'
        dsimp only at hr' ⊢
        have hh : r' ≠ r := fun hh => hnr (hh ▸ hr')
        rw [if_neg hh]
        exact hdone r' (Multiset.mem_cons_of_mem hr')
      · intro r' o' hr'
        dsimp only at hr'
        by_cases hh : r' = r
        · rw [if_pos hh] at hr'; cases hr'
        · rw [if_neg hh] at hr'
          exact h.own r' o' hr'
      · dsimp only
        rw [hX2, h2]
        simp only [dataBlocks]
        abel
      · dsimp only
        rw [p2, p1, hparc]
        simp only [taskParcs, zero_add]
      · dsimp only
        omega

theorem keeps (hG : P.Good D nv leak) (h : Inv D P nv leak L n s a lost) (d : Do) : Keeps D P nv leak L n s (act D P d s) := by
  cases d with
  | startLeaf i => exact keeps_startLeaf hG h i
  | startSpawn i => exact keeps_startSpawn hG h i
  | serve i => exact keeps_serve hG h i
  | tset i => exact keeps_tset hG h i
  | send i => exact keeps_send h i
  | finish i => exact keeps_finish h i
  | recv j => exact keeps_recv h j
  | set j => exact keeps_set hG h j

theorem steps_inv (hG : P.Good D nv leak) (hw : L.Wf) {n : ℕ} {s : St ν ε V} (h : St.Steps D P L n s) : ∃ a lost, Inv D P nv leak L n s a lost := by
  induction h with
  | init => exact ⟨_, _, inv_init hw⟩
  | step _ d e ih =>
    obtain ⟨a, lost, I⟩ := ih
    rcases keeps hG I d with h | ⟨s', a', lost', h, I'⟩
    · rw [e] at h; cases h
    · rw [e] at h; cases h
      exact ⟨a', lost', I'⟩

end Dashmm.ExpMem
