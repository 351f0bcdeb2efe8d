import Verif.Model.Session
import Mathlib.Tactic.Cases
/-
C97: what `evaluate` reports and leaves behind when the runtime fails.
-/
namespace Dashmm
open Session

/-- Handles given out so far are below `next`. -/
def Session.World.Wf (w : World) : Prop := ∀ n, n ∈ w.trees ∨ n ∈ w.dags ∨ n ∈ w.lcos → n < w.next

/-- All five calls of the runtime end well. -/
def Session.Fates.AllDone (f : Fates) : Prop := f.tree = .done ∧ f.dag = .done ∧ f.exec = .done ∧ f.freeDag = .done ∧ f.freeTree = .done

private theorem fresh {w : World} (h : w.Wf) : w.next ∉ w.trees ∧ w.next ∉ w.dags ∧ w.next ∉ w.lcos ∧ w.next + 1 ∉ w.dags ∧ w.next + 1 ∉ w.lcos :=
  ⟨fun m => absurd (h _ (.inl m)) (lt_irrefl _), fun m => absurd (h _ (.inr (.inl m))) (lt_irrefl _),
    fun m => absurd (h _ (.inr (.inr m))) (lt_irrefl _), fun m => absurd (h _ (.inr (.inl m))) (by omega),
    fun m => absurd (h _ (.inr (.inr m))) (by omega)⟩

set_option maxHeartbeats 1600000 in
set_option linter.unusedSimpArgs false in
/-- `evaluate` returns kSuccess exactly if none of the calls of the runtime reports an error; then nothing it made is left and what was there before is
untouched. -/
theorem C97_success_iff (f : Fates) (w : World) (h : w.Wf) :
    ((∃ w', evaluate f w = some (.success, w')) ↔ f.AllDone) ∧
      ∀ w', evaluate f w = some (.success, w') → w'.trees = w.trees ∧ w'.dags = w.dags ∧ w'.lcos = w.lcos := by
  obtain ⟨h1, h2, h3, h4, h5⟩ := fresh h
  obtain ⟨f1, f2, f3, f4, f5⟩ := f
  cases f1 <;> cases f2 <;> cases f3 <;> cases f4 <;> cases f5 <;>
    simp [evaluate, createTree, createDag, execute, destroyDag, destroyTree, deleteDag, hasTree, hasDag, code, Fates.AllDone, h1, h2, h3, h4, h5]

set_option linter.unusedSimpArgs false in
/-- The full claim, "kRuntimeError if there is an error with the runtime", holds as long as the two calls that create something succeed: then `evaluate`
always returns, and what it returns is kRuntimeError exactly if one of the other three calls reports an error. Missing: errors of the first two calls
(`C97_unreported`). -/
theorem C97_reports_partial (f : Fates) (w : World) (h : w.Wf) (ht : f.tree = .done) (hd : f.dag = .done) :
    ∃ w', evaluate f w = some (if f.exec = .done ∧ f.freeDag = .done ∧ f.freeTree = .done then .success else .runtimeError, w') := by
  obtain ⟨h1, h2, h3, h4, h5⟩ := fresh h
  obtain ⟨f1, f2, f3, f4, f5⟩ := f
  simp only at ht hd
  subst ht; subst hd
  cases f3 <;> cases f4 <;> cases f5 <;>
    simp [evaluate, createTree, createDag, execute, destroyDag, destroyTree, deleteDag, hasTree, hasDag, code, h1, h2, h3, h4, h5]

set_option linter.unusedSimpArgs false in
/-- What an error leaves behind, when both the tree and the DAG have been created. If `execute_DAG` fails, the tree and the LCOs of the DAG stay for ever
(their handles are lost), while the DAG object itself is deleted. If `destroy_DAG` fails without effect, everything stays. If it fails after its work, the
tree stays. If `destroy_tree` fails without effect, the tree stays. -/
theorem C97_leftovers (f : Fates) (w w' : World) (h : w.Wf) (ht : f.tree = .done) (hd : f.dag = .done)
    (he : evaluate f w = some (.runtimeError, w')) :
    (w'.trees = if f.exec = .done ∧ f.freeDag = .done ∧ f.freeTree = .half then w.trees else insert w.next w.trees) ∧
    (w'.lcos = if f.exec = .done ∧ f.freeDag ≠ .lost then w.lcos else insert (w.next + 1) w.lcos) ∧
    (w'.dags = if f.exec = .done ∧ f.freeDag = .lost then insert (w.next + 1) w.dags else w.dags) := by
  obtain ⟨h1, h2, h3, h4, h5⟩ := fresh h
  obtain ⟨f1, f2, f3, f4, f5⟩ := f
  simp only at ht hd
  subst ht; subst hd
  cases f3 <;> cases f4 <;> cases f5 <;>
    simp [evaluate, createTree, createDag, execute, destroyDag, destroyTree, deleteDag, hasTree, hasDag, code, h1, h2, h3, h4, h5] at he ⊢ <;>
    subst he <;> simp [h1, h2, h3, h4, h5]

set_option linter.unusedSimpArgs false in
/-- An error while the tree is created is not reported: whenever the runtime carries out the next call, the program crashes instead of returning
kRuntimeError. The same holds for an error while the DAG is created. -/
theorem C97_unreported (f : Fates) (w : World) :
    (f.tree ≠ .done → f.dag ≠ .lost → evaluate f w = none) ∧
      (f.dag ≠ .done → f.exec ≠ .lost → evaluate f w = none) := by
  obtain ⟨f1, f2, f3, f4, f5⟩ := f
  cases f1 <;> cases f2 <;> cases f3 <;>
    simp [evaluate, createTree, createDag, execute, hasTree, hasDag]

set_option maxHeartbeats 1600000 in
set_option linter.unusedSimpArgs false in
/-- `evaluate` crashes in no other case. -/
theorem C97_crash_iff (f : Fates) (w : World) (h : w.Wf) :
    evaluate f w = none ↔ (f.tree ≠ .done ∧ f.dag ≠ .lost) ∨ (f.dag ≠ .done ∧ f.exec ≠ .lost) := by
  obtain ⟨h1, h2, h3, h4, h5⟩ := fresh h
  obtain ⟨f1, f2, f3, f4, f5⟩ := f
  cases f1 <;> cases f2 <;> cases f3 <;> cases f4 <;> cases f5 <;>
    simp [evaluate, createTree, createDag, execute, destroyDag, destroyTree, deleteDag, hasTree, hasDag, code, h1, h2, h3, h4, h5]

/-- What a call that creates something leaves, whatever its fate: a handle is returned exactly if the runtime reported success; the thing (and the LCOs of a
DAG) is there as soon as the handler ran. So a call that is carried out but reported as an error makes a tree, or a DAG with its LCOs, to which the user has no
handle. Nothing else changes. -/
theorem C97_create_leaks (f : Fate) (w : World) (h : w.Wf) :
    (∃ x w', Session.createTree f w = some (x, w') ∧ w'.dags = w.dags ∧ w'.lcos = w.lcos ∧
      (f = .lost → x = none ∧ w'.trees = w.trees) ∧
      (f ≠ .lost → ∃ n, n ∉ w.trees ∧ w'.trees = insert n w.trees ∧ x = if f = .done then some n else none)) ∧
    ∀ t ∈ w.trees, ∃ x w', Session.createDag f (some t) w = some (x, w') ∧ w'.trees = w.trees ∧
      (f = .lost → x = none ∧ w'.dags = w.dags ∧ w'.lcos = w.lcos) ∧
      (f ≠ .lost → ∃ n, n ∉ w.dags ∧ n ∉ w.lcos ∧ w'.dags = insert n w.dags ∧ w'.lcos = insert n w.lcos ∧
        x = if f = .done then some n else none) := by
  obtain ⟨h1, h2, h3, h4, h5⟩ := fresh h
  constructor
  · cases f
    all_goals simp only [Session.createTree]
    all_goals refine ⟨_, _, rfl, rfl, rfl, ?_, ?_⟩
    all_goals first | (intro e; cases e; done) | (intro e; exact (e rfl).elim) | (intro _; first | exact ⟨rfl, rfl⟩ | exact ⟨w.next, h1, rfl, rfl⟩)
  · intro t ht
    cases f
    all_goals simp only [Session.createDag, hasTree, ht, decide_true, if_true]
    all_goals refine ⟨_, _, rfl, rfl, ?_, ?_⟩
    all_goals first | (intro e; cases e; done) | (intro e; exact (e rfl).elim) | (intro _; first | exact ⟨rfl, rfl, rfl⟩ | exact ⟨w.next, h2, h3, rfl, rfl, rfl⟩)

/-! ### Any history of calls -/

/-- A call of the interface, with the handles the user passes and how the runtime ends it. `createDag`: the tree; `execute`, `destroyDag`: the tree and the DAG. -/
inductive Session.Op
  | createTree (f : Fate)
  | createDag (f : Fate) (t : Option Nat)
  | execute (f : Fate) (t d : Option Nat)
  | reset (f : Fate) (d : Option Nat)
  | destroyDag (f : Fate) (t d : Option Nat)
  | destroyTree (f : Fate) (t : Option Nat)

/-- What a call returns. -/
inductive Session.Ret
  | handle (x : Option Nat)
  | code (c : Code)

/-- One call. -/
def Session.Op.run (o : Op) (w : World) : Option (Ret × World) := match o with
  | .createTree f => (Session.createTree f w).map fun r => (.handle r.1, r.2)
  | .createDag f t => (Session.createDag f t w).map fun r => (.handle r.1, r.2)
  | .execute f t d => (Session.execute f t d w).map fun r => (.code r.1, r.2)
  | .reset f d => (Session.reset f d w).map fun r => (.code r.1, r.2)
  | .destroyDag f t d => (Session.destroyDag f t d w).map fun r => (.code r.1, r.2)
  | .destroyTree f t => (Session.destroyTree f t w).map fun r => (.code r.1, r.2)

/-- How the runtime ends the call. -/
def Session.Op.fate (o : Op) : Fate := match o with
  | .createTree f | .createDag f _ | .execute f _ _ | .reset f _ | .destroyDag f _ _ | .destroyTree f _ => f

/-- The handles the call is given exist. -/
def Session.Op.Given (o : Op) (w : World) : Prop := match o with
  | .createTree _ => True
  | .createDag _ t => ∃ n, t = some n ∧ n ∈ w.trees
  | .execute _ t d | .destroyDag _ t d => (∃ n, t = some n ∧ n ∈ w.trees) ∧ ∃ n, d = some n ∧ n ∈ w.dags
  | .reset _ d => ∃ n, d = some n ∧ n ∈ w.dags
  | .destroyTree _ t => ∃ n, t = some n ∧ n ∈ w.trees

/-- A history of calls, each with handles that exist. -/
inductive Session.Hist : World → List (Op × Ret) → World → Prop
  | nil (w : World) : Hist w [] w
  | cons {w w₁ w₂ : World} {o : Op} {r : Ret} {l : List (Op × Ret)} :
      o.Given w → o.run w = some (r, w₁) → Hist w₁ l w₂ → Hist w ((o, r) :: l) w₂

set_option linter.unusedSimpArgs false in
private theorem run_wf {o : Op} {w w' : World} {r : Ret} (h : w.Wf) (hr : o.run w = some (r, w')) : w'.Wf ∧ w.next ≤ w'.next := by
  cases o with
  | createTree f =>
    cases f <;> simp [Op.run, Session.createTree] at hr <;> obtain ⟨-, rfl⟩ := hr <;>
      simp only [World.Wf, Finset.mem_insert] at h ⊢ <;> refine ⟨fun n hn => ?_, by simp⟩ <;> have := h n <;> grind
  | createDag f t =>
    cases f <;> simp [Op.run, Session.createDag] at hr <;> (try obtain ⟨-, hr⟩ := hr) <;> (try obtain ⟨-, rfl⟩ := hr) <;> (try subst hr) <;>
      simp only [World.Wf, Finset.mem_insert] at h ⊢ <;> refine ⟨fun n hn => ?_, by simp⟩ <;> have := h n <;> grind
  | execute f t d =>
    cases f <;> simp [Op.run, Session.execute] at hr <;> grind
  | reset f d =>
    cases f <;> simp [Op.run, Session.reset] at hr <;> grind
  | destroyDag f t d =>
    cases f <;> cases d <;> simp [Op.run, Session.destroyDag, deleteDag, hasDag] at hr
    case lost.none => rw [← hr.2]; exact ⟨h, le_refl _⟩
    case lost.some => rw [← hr.2]; exact ⟨h, le_refl _⟩
    all_goals obtain ⟨⟨-, -, rfl⟩, -⟩ := hr
    all_goals simp only [World.Wf, Finset.mem_erase] at h ⊢
    all_goals refine ⟨fun n hn => ?_, by simp⟩
    all_goals have := h n
    all_goals grind
  | destroyTree f t =>
    cases f <;> cases t <;> simp [Op.run, Session.destroyTree] at hr <;> simp only [World.Wf] at h ⊢ <;> grind

/-- With handles that exist no call crashes, whatever the runtime does; a call that returns a code returns kSuccess exactly if the runtime reports no error,
and a call that returns a handle returns one exactly then, and it is new and exists. -/
theorem C97_calls (o : Op) (w : World) (h : w.Wf) (hg : o.Given w) :
    ∃ r w', o.run w = some (r, w') ∧ match r with
      | .code c => c = .success ↔ o.fate = .done
      | .handle x => (x.isSome ↔ o.fate = .done) ∧ ∀ n, x = some n → n ∉ w.trees ∧ n ∉ w.dags ∧ (n ∈ w'.trees ∨ n ∈ w'.dags) := by
  obtain ⟨h1, h2, h3, h4, h5⟩ := fresh h
  cases o with
  | createTree f => cases f <;> simp [Op.run, Session.createTree, Op.fate, h1, h2]
  | createDag f t =>
    obtain ⟨n, rfl, hn⟩ := hg
    cases f <;> simp [Op.run, Session.createDag, Op.fate, hasTree, hn, h1, h2]
  | execute f t d =>
    obtain ⟨⟨n, rfl, hn⟩, k, rfl, hk⟩ := hg
    cases f <;> simp [Op.run, Session.execute, Op.fate, hasTree, hasDag, hn, hk, Session.code]
  | reset f d =>
    obtain ⟨k, rfl, hk⟩ := hg
    cases f <;> simp [Op.run, Session.reset, Op.fate, hasDag, hk, Session.code]
  | destroyDag f t d =>
    obtain ⟨⟨n, rfl, hn⟩, k, rfl, hk⟩ := hg
    cases f <;> simp [Op.run, Session.destroyDag, deleteDag, Op.fate, hasTree, hasDag, hn, hk, Session.code]
  | destroyTree f t =>
    obtain ⟨n, rfl, hn⟩ := hg
    cases f <;> simp [Op.run, Session.destroyTree, Op.fate, hn, Session.code]

/-- In a history, the tree `n` has been returned by a call. -/
def Session.MadeTree (l : List (Op × Ret)) (n : Nat) : Prop := ∃ x ∈ l, ∃ f, x = (.createTree f, .handle (some n))
/-- In a history, the tree `n` has been destroyed by a call that returned kSuccess. -/
def Session.FreedTree (l : List (Op × Ret)) (n : Nat) : Prop := ∃ x ∈ l, ∃ f, x = (.destroyTree f (some n), .code .success)
/-- In a history, the DAG `n` has been returned by a call. -/
def Session.MadeDag (l : List (Op × Ret)) (n : Nat) : Prop := ∃ x ∈ l, ∃ f t, x = (.createDag f t, .handle (some n))
/-- In a history, the DAG `n` has been destroyed by a call that returned kSuccess. -/
def Session.FreedDag (l : List (Op × Ret)) (n : Nat) : Prop := ∃ x ∈ l, ∃ f t, x = (.destroyDag f t (some n), .code .success)

private theorem made_tree (o : Op) (r : Ret) (l : List (Op × Ret)) (n : Nat) :
    MadeTree ((o, r) :: l) n ↔ (∃ f, o = .createTree f ∧ r = .handle (some n)) ∨ MadeTree l n := by
  simp only [MadeTree, List.mem_cons, exists_eq_or_imp, Prod.mk.injEq]
private theorem freed_tree (o : Op) (r : Ret) (l : List (Op × Ret)) (n : Nat) :
    FreedTree ((o, r) :: l) n ↔ (∃ f, o = .destroyTree f (some n) ∧ r = .code .success) ∨ FreedTree l n := by
  simp only [FreedTree, List.mem_cons, exists_eq_or_imp, Prod.mk.injEq]
private theorem made_dag (o : Op) (r : Ret) (l : List (Op × Ret)) (n : Nat) :
    MadeDag ((o, r) :: l) n ↔ (∃ f t, o = .createDag f t ∧ r = .handle (some n)) ∨ MadeDag l n := by
  simp only [MadeDag, List.mem_cons, exists_eq_or_imp, Prod.mk.injEq]
private theorem freed_dag (o : Op) (r : Ret) (l : List (Op × Ret)) (n : Nat) :
    FreedDag ((o, r) :: l) n ↔ (∃ f t, o = .destroyDag f t (some n) ∧ r = .code .success) ∨ FreedDag l n := by
  simp only [FreedDag, List.mem_cons, exists_eq_or_imp, Prod.mk.injEq]

/-- In a history in which the runtime reports no error, what exists at the end is what has been created and not destroyed. -/
theorem C97_history (w w' : World) (l : List (Op × Ret)) (h : w.Wf) (hh : Hist w l w') (hd : ∀ x ∈ l, x.1.fate = .done) (n : Nat) :
    (n ∈ w'.trees ↔ (n ∈ w.trees ∨ MadeTree l n) ∧ ¬ FreedTree l n) ∧
      (n ∈ w'.dags ↔ (n ∈ w.dags ∨ MadeDag l n) ∧ ¬ FreedDag l n) := by
  have key : ∀ (w w' : World) (l : List (Op × Ret)), w.Wf → Hist w l w' → (∀ x ∈ l, x.1.fate = .done) →
      (n ∈ w'.trees ↔ (n ∈ w.trees ∨ MadeTree l n) ∧ ¬ FreedTree l n) ∧
      (n ∈ w'.dags ↔ (n ∈ w.dags ∨ MadeDag l n) ∧ ¬ FreedDag l n) ∧
      ((MadeTree l n ∨ FreedTree l n) → n ∈ w.trees ∨ w.next ≤ n) ∧ ((MadeDag l n ∨ FreedDag l n) → n ∈ w.dags ∨ w.next ≤ n) ∧
      (MadeTree l n → w.next ≤ n) ∧ (MadeDag l n → w.next ≤ n) := by
    intro w w' l h hh
    induction hh with
    | nil w => intro _; simp [MadeTree, FreedTree, MadeDag, FreedDag]
    | @cons w w₁ w₂ o r l hg hr hh ih =>
      intro hd
      obtain ⟨hw1, hle⟩ := run_wf h hr
      obtain ⟨i1, i2, i3, i4, i5, i6⟩ := ih hw1 (fun x hx => hd x (List.mem_cons_of_mem _ hx))
      have hf := hd _ List.mem_cons_self
      have ht := h n
      simp only [made_tree, freed_tree, made_dag, freed_dag]
      cases o <;> simp only [Op.fate] at hf <;> subst hf
      case createTree =>
        simp [Op.run, Session.createTree] at hr; obtain ⟨rfl, rfl⟩ := hr
        simp only [Finset.mem_insert] at i1 i2 i3 i4 i5 i6
        simp
        clear hd ih hh hw1 h hg
        grind
      case createDag t =>
        simp [Op.run, Session.createDag] at hr; obtain ⟨-, rfl, rfl⟩ := hr
        simp only [Finset.mem_insert] at i1 i2 i3 i4 i5 i6
        simp
        clear hd ih hh hw1 h hg
        grind
      case execute =>
        simp [Op.run, Session.execute] at hr; obtain ⟨-, rfl, rfl⟩ := hr
        simp; grind
      case reset =>
        simp [Op.run, Session.reset] at hr; obtain ⟨-, rfl, rfl⟩ := hr
        simp; grind
      case destroyDag t d =>
        obtain ⟨⟨a, rfl, ha⟩, k, rfl, hk⟩ := hg
        simp [Op.run, Session.destroyDag, deleteDag, hasTree, hasDag, ha, hk, Session.code] at hr
        obtain ⟨rfl, rfl⟩ := hr
        have hk' := h k (.inr (.inl hk))
        simp only [Finset.mem_erase] at i1 i2 i3 i4 i5 i6
        simp
        clear hd ih hh hw1 h
        grind
      case destroyTree t =>
        obtain ⟨a, rfl, ha⟩ := hg
        simp [Op.run, Session.destroyTree, ha, Session.code] at hr
        obtain ⟨rfl, rfl⟩ := hr
        have hk' := h a (.inl ha)
        simp only [Finset.mem_erase] at i1 i2 i3 i4 i5 i6
        simp
        clear hd ih hh hw1 h
        grind
  have := key w w' l h hh hd
  exact ⟨this.1, this.2.1⟩

/-- A world with an older tree in it meets the hypotheses; in it an evaluation succeeds, one leaves a tree behind and one crashes. -/
def exWorld : World := ⟨{3}, ∅, ∅, 4⟩

theorem exWorld_wf : exWorld.Wf := by intro n hn; simp [exWorld] at hn ⊢; omega

example : (∃ w', evaluate ⟨.done, .done, .done, .done, .done⟩ exWorld = some (.success, w')) ∧
    (∃ w', evaluate ⟨.done, .done, .half, .done, .done⟩ exWorld = some (.runtimeError, w') ∧ 4 ∈ w'.trees) ∧
    evaluate ⟨.lost, .done, .done, .done, .done⟩ exWorld = none := by
  refine ⟨((C97_success_iff _ _ exWorld_wf).1).2 ⟨rfl, rfl, rfl, rfl, rfl⟩, ?_, (C97_unreported _ _).1 (by decide) (by decide)⟩
  obtain ⟨w', hw⟩ := C97_reports_partial ⟨.done, .done, .half, .done, .done⟩ exWorld exWorld_wf rfl rfl
  refine ⟨w', hw, ?_⟩
  rw [(C97_leftovers _ _ _ exWorld_wf rfl rfl hw).1]
  decide

/-- A history: two DAGs one after the other on the older tree, the second one used twice and kept. -/
example : ∃ l w', Hist exWorld l w' ∧ (∀ x ∈ l, x.1.fate = .done) ∧ l.length = 6 := by
  refine ⟨_, _, .cons (o := .createDag .done (some 3)) ⟨3, rfl, by decide⟩ rfl <|
    .cons (o := .execute .done (some 3) (some 4)) ⟨⟨3, rfl, by decide⟩, 4, rfl, by decide⟩ rfl <|
    .cons (o := .destroyDag .done (some 3) (some 4)) ⟨⟨3, rfl, by decide⟩, 4, rfl, by decide⟩ rfl <|
    .cons (o := .createDag .done (some 3)) ⟨3, rfl, by decide⟩ rfl <|
    .cons (o := .execute .done (some 3) (some 5)) ⟨⟨3, rfl, by decide⟩, 5, rfl, by decide⟩ rfl <|
    .cons (o := .reset .done (some 5)) ⟨5, rfl, by decide⟩ rfl <| .nil _, by simp [Op.fate], rfl⟩

end Dashmm
