import Verif.Spec.Branch
import Verif.Spec.Build
import Verif.Spec.Grid
import Verif.Spec.Reduce
import Verif.Spec.LapExec

/-!
Specification vocabulary for evaluations from the input arrays to the results (C78, C79).
-/

namespace Dashmm

open Lap Build Branch
open Grid (gidOf)

section
variable {K : Type} [Field K] [LinearOrder K] {R : Type}

/-- The tree is the one that the counts `cnt` of points in boxes ask for: besides the root, it has exactly the boxes that
hold points and of which no box above, from the uniform level on, has at most `threshold` points. -/
def TreeOver (cnt : Index → Nat) (unif threshold : Nat) (s : Fin 8 → Oct) : Prop :=
  ∀ p, Oct8 p → ((∃ m, TPath ⟨Index.root, s⟩ p m) ↔ p = [] ∨
    (1 ≤ cnt (place p) ∧ ∀ q, q <+: p → q ≠ p → unif ≤ q.length → threshold < cnt (place q)))

/-- The tree `s` with the records `hold` in its nodes is the tree of the records `P`: it has the boxes it should have,
and each node from the uniform level on holds the records of its box, in some order; the nodes above hold none. -/
structure Built (E : Env K R) (unif : Nat) (P : List R) (s : Fin 8 → Oct) (hold : Index → List R) : Prop where
  tree : TreeOver (fun i => (inBox E i P).length) unif E.threshold s
  slices : ∀ p m, TPath ⟨Index.root, s⟩ p m → unif ≤ p.length → (hold m.ix).Perm (inBox E m.ix P)
  top : ∀ i, i.level < unif → hold i = []
  other : ∀ i, (∀ p m, TPath ⟨Index.root, s⟩ p m → m.ix ≠ i) → hold i = []

/-- The branch below a cell of the uniform grid is finished: its tasks ran, in any order, over the records `mem` of the cell, and the completion LCO of the cell
has all its inputs; or, if the targets are the sources, they looked for the split points in the array as the finished
branch of the source tree left it. -/
inductive CellDone (E : Env K R) (i : Index) (mem : List R) : State R → Prop
  | alone {k : Nat} {s : State R} (hs : Steps { E with same := false } i k (start ⟨i, 0, mem.length⟩ mem) s)
      (hc : s.sets i = 8) : CellDone E i mem s
  | same {k : Nat} {s : State R} (hs : Steps { E with same := false } i k (start ⟨i, 0, mem.length⟩ mem) s)
      (hc : s.sets i = 8) {m : Nat} {t : State R}
      (ht : Steps { E with same := true } i m (start ⟨i, 0, s.mem.length⟩ s.mem) t)
      (hc' : t.sets i = 8) : CellDone E i mem t

/-- What happens during the construction of a tree on one rank: the records that arrive in the cells of the uniform grid, what the tasks that divide
the cells arrive at, the pointers between the nodes of a branch, the memory before and after, and the global counts of the cells. Cells are
given by the path from the root. -/
structure Construction (R : Type) where
  mem : List Nat → List R
  run : List Nat → State R
  branch : List Nat → (Fin 8 → Oct)
  before : Heap
  after : Heap
  counts : Nat → Nat

/-- The construction works as described by C21, C22, C24, C28, C29: -/
structure Construction.Ok (C : Construction R) [FloorRing K] (E : Env K R) (unif root : Nat) (P : List R) : Prop where
  /-- each cell gets the records that were assigned to it, -/
  arrive : ∀ q, Oct8 q → q.length = unif → (C.mem q).Perm (P.filter fun x => gidOf E.dom unif (E.pos x) = cellOf unif q)
  /-- the counts are right, -/
  counted : ∀ q, Oct8 q → q.length = unif → C.counts (cellOf unif q) = (C.mem q).length
  /-- the tasks finish, -/
  done : ∀ q, Oct8 q → q.length = unif → C.mem q ≠ [] → CellDone E (place q) (C.mem q) (C.run q)
  /-- the nodes of the branch of a cell are those the tasks made, -/
  shape : ∀ q, Oct8 q → q.length = unif → C.mem q ≠ [] → ∀ p, Oct8 p →
    ((∃ m, TPath ⟨place q, C.branch q⟩ p m) ↔ ∃ v ∈ (C.run q).nodes, v.idx = below (place q) p)
  /-- the uniform top was set up, -/
  top : TopIntact root unif C.before C.after
  /-- and the cells are the roots of (copies of) the branches, outside of the memory of the top. -/
  copy : ∀ q, Oct8 q → q.length = unif → C.mem q ≠ [] → Copy C.after (root + nTop unif + cellOf unif q) ⟨place q, C.branch q⟩
  apart : ∀ q, Oct8 q → q.length = unif → C.mem q ≠ [] → ∀ p b, Linked C.after (root + nTop unif + cellOf unif q) p b →
    ¬ (root ≤ b ∧ b < root + nTop unif)

/-- The addresses of the nodes below the root of a branch that was received into a block at `base`. -/
def InBlock (branch : List Nat → (Fin 8 → Oct)) (e : List Nat × Nat) (x : Nat) : Prop :=
  e.2 ≤ x ∧ x + 1 < e.2 + Branch.Oct.size (.node (branch e.1))

/-- The memory of a rank after it set up the top and received the branches of the cells in the list (one after the other, the
last one first in the list), each with the address of the block that was allocated for it. -/
inductive Received (root unif : Nat) (branch : List Nat → (Fin 8 → Oct)) (H0 : Heap) : List (List Nat × Nat) → Heap → Prop
  | nil : Received root unif branch H0 [] (setupBasics root unif H0)
  | cons {l : List (List Nat × Nat)} {H : Heap} {q : List Nat} {base : Nat} {msg : List Int} (h : Received root unif branch H0 l H)
      (hq : Oct8 q) (hl : q.length = unif) (hnew : q ∉ l.map Prod.fst) (hm : message (cellOf unif q) (branch q) = some msg)
      (hbase : root + nTop unif + 8 ^ unif ≤ base)
      (hfree : ∀ e ∈ l, ∀ x, InBlock branch (q, base) x → ¬ InBlock branch e x) :
      Received root unif branch H0 ((q, base) :: l) (receive (fun i => root + nTop unif + i) base msg H)

/-- The records in the nodes are the slices of the record arrays, on whichever rank these are. -/
structure Construction.Holds (C : Construction R) (unif : Nat) (hold : Index → List R) : Prop where
  slices : ∀ q, Oct8 q → q.length = unif → C.mem q ≠ [] → ∀ v ∈ (C.run q).nodes, hold v.idx = slice (C.run q).mem v
  other : ∀ i, (∀ q, Oct8 q → q.length = unif → C.mem q ≠ [] → ∀ v ∈ (C.run q).nodes, v.idx ≠ i) → hold i = []

end

/-- A target record: its position and the member the results are added to. -/
structure Tgt where
  pos : Point ℝ
  phi : ℝ

/-- Sources, as the tree sees them. -/
def srcEnv (dom : Domain ℝ) (threshold : Nat) : Env ℝ Src := ⟨Src.pos, dom, threshold, false⟩

/-- Targets, as the tree sees them. -/
def tgtEnv (dom : Domain ℝ) (threshold : Nat) : Env ℝ Tgt := ⟨Tgt.pos, dom, threshold, false⟩

/-- The input of an evaluation, as the ranks have it, and the domain that they agree on: each rank contributes the box of its sources and targets (if the targets
are the sources, of its sources), the boxes are combined in any order, and not all points are in one place. -/
structure Input (same : Bool) (ranks : List (List Src × List Tgt)) (dom : Domain ℝ) : Prop where
  domain : ∃ v, Reduce.Combined Grid.boxInit Grid.boxOp
    (ranks.map fun r => Grid.localBox same (r.1.map Src.pos) (r.2.map Tgt.pos)) v ∧ dom = Grid.domainOf v
  same : same = true → ∀ x ∈ ranks.flatMap Prod.snd, ∃ y ∈ ranks.flatMap Prod.fst, y.pos = x.pos
  apart : ∃ x ∈ (ranks.flatMap Prod.fst).map Src.pos ++ (ranks.flatMap Prod.snd).map Tgt.pos,
    ∃ y ∈ (ranks.flatMap Prod.fst).map Src.pos ++ (ranks.flatMap Prod.snd).map Tgt.pos, x ≠ y

/-- The input of the evaluation, from what the nodes of the trees hold. -/
noncomputable def LapData.ofTrees (dom : Domain ℝ) (p : ℕ) (rule : Rule) (hs : Index → List Src) (ht : Index → List Tgt) : LapData where
  dom := dom
  p := p
  rule := rule
  srcs := hs
  tgts i := (ht i).map Tgt.pos
  phi i n := (((ht i)[n]?).map Tgt.phi).getD 0

/-- The nodes of the DAG with the results. -/
def resultNodes (acts : List Act) : List Ref := (nodesOf acts).filter fun r => r.side = .tgt ∧ r.kind = .parts

/-- The results of an evaluation are right up to a relative error `ε`: the result nodes hold the targets `T`, each once, and
each target got its potential due to all sources `P`, added to what it held. -/
def Correct (acts : List Act) (acc : Ref → LapVal) (ht : Index → List Tgt) (P : List Src) (T : List Tgt) (ε : ℝ) : Prop :=
  ((resultNodes acts).flatMap fun r => ht r.ix).Perm T ∧
  ∀ r ∈ resultNodes acts, ∀ i x, (ht r.ix)[i]? = some x →
    ∃ v : ℝ, (acc r).2.2 i = (v : WithTop ℝ) ∧ |v - x.phi - potential P x.pos| ≤ ε * absPotential P x.pos

end Dashmm
