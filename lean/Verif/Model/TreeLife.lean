import Verif.Model.RankTree
import Mathlib.Data.Set.Insert
/-
What the construction and the deletion of one tree allocate and free on each rank: the nodes, the arrays of received branches, the block of the top
nodes, the locks and the completion LCOs (/repo/include/dashmm/node.h, /repo/include/dashmm/tree.h, /repo/include/dashmm/dualtree.h:1236-1276).

Simplifications: those of the model of the construction (Model/RankTree.lean). What a handler both allocates and frees itself (message buffers, LCOs it waits
for) is left out. That a completion LCO triggers the LCO of the parent and is deleted is one event.
-/
namespace Dashmm
namespace RankTree
open Build Branch

/-- What is allocated for a tree on a rank. -/
inductive Obj
  /-- the block `root_`, include/dashmm/tree.h:566 -/
  | top
  /-- the LCO `unif_done_`, include/dashmm/tree.h:556 -/
  | unifDone
  /-- the lock of a cell of the uniform grid, include/dashmm/node.h:132-136, tree.h:598 -/
  | lock (id : Nat)
  /-- the completion LCO of a cell of the uniform grid, include/dashmm/node.h:125-129, tree.h:599 -/
  | done (id : Nat)
  /-- the node a task has made at an address, include/dashmm/node.h:526 -/
  | node (x : Nat)
  /-- its completion LCO (cell and index), include/dashmm/node.h:102 -/
  | nodeDone (q : List Nat) (i : Index)
  /-- the array for a received branch: address and number of nodes, include/dashmm/node.h:322 -/
  | array (x n : Nat)
  /-- the same if it has no nodes (its address is not used for anything) -/
  | empty (id : Nat)

/-- What is allocated on a rank; `none` when something has been freed that was not allocated, or read after it was freed. -/
abbrev Ledger := Option (Set Obj)

open Classical in
/-- An allocation. (`none` cannot happen: new objects are different from those there are.) -/
noncomputable def alloc (o : Obj) (L : Set Obj) : Ledger := if o ∈ L then none else some (insert o L)

open Classical in
/-- A deallocation. -/
noncomputable def dealloc (o : Obj) (L : Set Obj) : Ledger := if o ∈ L then some (L \ {o}) else none

/-- All of some objects. -/
noncomputable def allocAll (l : List Obj) (L : Set Obj) : Ledger := l.foldlM (fun L o => alloc o L) L

/-- What `setup_basics_handler` allocates, include/dashmm/tree.h:555-609. -/
def setupObjs (unif : Nat) : List Obj :=
  .unifDone :: .top :: (List.range (8 ^ unif)).flatMap fun id => [.lock id, .done id]

/-- The state of the construction with what is allocated on each rank, and the cells whose completion LCO each rank has deleted during the construction. -/
structure LWorld (R : Type) where
  w : World R
  live : Nat → Ledger
  dropped : Nat → List (List Nat)

/-- Initially. -/
noncomputable def linit {R : Type} (C : Cfg R) : LWorld R := ⟨init C, fun _ => allocAll (setupObjs C.unif) ∅, fun _ => []⟩

variable {K : Type} [Field K] [LinearOrder K] {R : Type}

/-- The steps of the construction with what they allocate and free. -/
inductive LStep (E : Env K R) (C : Cfg R) : LWorld R → LWorld R → Prop
  /-- A task that finds its node small enough. -/
  | leaf (s : LWorld R) (q : List Nat) (hq : C.IsCell q) (t : State R) (hs : Build.Step E (place q) (s.w.cell q) t)
      (hi : t.inner = (s.w.cell q).inner) (hf : t.fwd = (s.w.cell q).fwd) : LStep E C s { s with w := { s.w with cell := upd s.w.cell q t } }
  /-- A completion is passed on to the parent and the LCO is deleted, include/dashmm/node.h:454-459. -/
  | forward (s : LWorld R) (q : List Nat) (hq : C.IsCell q) (t : State R) (hs : Build.Step E (place q) (s.w.cell q) t) (i : Index)
      (hi : t.inner = (s.w.cell q).inner) (hf : t.fwd = i :: (s.w.cell q).fwd) : LStep E C s { s with
        w := { s.w with cell := upd s.w.cell q t }
        live := upd s.live (C.owner q) ((s.live (C.owner q)).bind (dealloc (.nodeDone q i))) }
  /-- A task that divides its node: each new node has a completion LCO, include/dashmm/node.h:526, 102. -/
  | split (s : LWorld R) (q : List Nat) (hq : C.IsCell q) (v : Cell) (hv : v ∈ (s.w.cell q).pending) (hn : ¬ v.n ≤ E.threshold)
      (c : Nat → List R) (hc : Split8 E v.idx (slice (s.w.cell q).mem v) c) (new : Nat → Nat)
      (hnew : ∀ i ∈ made c, Free C s.w (C.owner q) (new i)) (hdist : ((made c).map new).Nodup) : LStep E C s { s with
        w := { s.w with
          cell := upd s.w.cell q { s.w.cell q with
            mem := overwrite (s.w.cell q).mem v (joined c)
            pending := kids v c ++ (s.w.cell q).pending.erase v
            inner := v :: (s.w.cell q).inner
            sets := fun j => if j = v.idx then (s.w.cell q).sets j + missing c else (s.w.cell q).sets j }
          heap := upd s.w.heap (C.owner q) (addKids (s.w.adr q v.idx) c new (s.w.heap (C.owner q)))
          adr := upd s.w.adr q fun j => match (made c).find? fun i => j = v.idx.child i with
            | some i => new i
            | none => s.w.adr q j
          own := upd s.w.own (C.owner q) (upd (s.w.own (C.owner q)) q ((made c).map new ++ s.w.own (C.owner q) q)) }
        live := upd s.live (C.owner q) ((s.live (C.owner q)).bind
          (allocAll ((made c).flatMap fun i => [.node (new i), .nodeDone q (v.idx.child i)]))) }
  /-- A branch is sent. -/
  | send (s : LWorld R) (q : List Nat) (hq : C.IsCell q) (hm : C.mem q ≠ []) (hc : (s.w.cell q).sets (place q) = 8) (hs : q ∉ s.w.sent)
      (b : Fin 8 → Oct) (hb : Copy (s.w.heap (C.owner q)) (C.grid (C.owner q) (cellOf C.unif q)) ⟨place q, b⟩) (msg : List Int)
      (hmsg : message (cellOf C.unif q) b = some msg) : LStep E C s { s with w := { s.w with
        net := ((List.range C.ranks).filter (· ≠ C.owner q)).map (fun k => (k, q, msg)) ++ s.w.net
        sent := q :: s.w.sent } }
  /-- A branch is received: the array for its nodes, include/dashmm/node.h:322. -/
  | recv (s : LWorld R) (k : Nat) (q : List Nat) (msg : List Int) (net : List (Nat × List Nat × List Int))
      (hm : s.w.net.Perm ((k, q, msg) :: net)) (base : Nat)
      (hbase : ∀ x, base ≤ x → x < base + (msg.getD 1 0).toNat → Free C s.w k x) : LStep E C s { s with
        w := { s.w with
          heap := upd s.w.heap k (receive (C.grid k) base msg (s.w.heap k))
          own := upd s.w.own k (upd (s.w.own k) q ((List.range (msg.getD 1 0).toNat).map (base + ·)))
          net := net
          got := upd s.w.got k (q :: s.w.got k) }
        live := upd s.live k ((s.live k).bind (alloc
          (if (msg.getD 1 0).toNat = 0 then .empty (cellOf C.unif q) else .array base (msg.getD 1 0).toNat))) }
  /-- The completion LCO of a cell whose branch has been received is deleted after it has triggered `dual_tree_complete`, include/dashmm/dualtree.h:1252-1272. -/
  | drop (s : LWorld R) (k : Nat) (q : List Nat) (hg : q ∈ s.w.got k) (hd : q ∉ s.dropped k) : LStep E C s { s with
        live := upd s.live k ((s.live k).bind (dealloc (.done (cellOf C.unif q))))
        dropped := upd s.dropped k (q :: s.dropped k) }

/-- The states that can be reached, with any other work of the ranks in between. -/
inductive LReach (E : Env K R) (C : Cfg R) : LWorld R → Prop
  | init : LReach E C (linit C)
  | step {s s' : LWorld R} : LReach E C s → LStep E C s s' → LReach E C s'
  | other {s : LWorld R} {k : Nat} {H : Heap} (h : LReach E C s) (hH : ∀ x, ¬ Free C s.w k x → H x = s.w.heap k x) :
      LReach E C { s with w := { s.w with heap := upd s.w.heap k H } }

/-! ### Deletion -/

/-- The children of a node that are not null, include/dashmm/node.h:404-408. -/
def kidsAt (H : Heap) (a : Nat) : List Nat := (List.range 8).filterMap fun j => (H a).child j

/-- One round of the outer loop of `destroy_branch`, include/dashmm/node.h:401-412: the pointers collected for the next round. -/
noncomputable def destroyRound (H : Heap) : List Nat → Set Obj → Option (List Nat × Set Obj)
  | [], L => some ([], L)
  | a :: V, L => do
    let L ← dealloc (.node a) L
    let r ← destroyRound H V L
    some (kidsAt H a ++ r.1, r.2)

/-- `Node::destroy_branch`, include/dashmm/node.h:398-415, with a bound on the number of rounds. -/
noncomputable def destroyBranch (H : Heap) : Nat → List Nat → Set Obj → Ledger
  | _, [], L => some L
  | 0, _ :: _, _ => none
  | fuel + 1, V, L => do
    let r ← destroyRound H V L
    destroyBranch H fuel r.1 r.2

open Classical in
/-- `delete []` of an address: the array that begins there. -/
noncomputable def deleteArray (x : Nat) (L : Set Obj) : Ledger :=
  if ∃ n, Obj.array x n ∈ L then some (L \ {o | ∃ n, o = .array x n}) else none

open Classical in
/-- A node of the block of the top nodes is read: the block must be there. -/
noncomputable def readTop (L : Set Obj) : Ledger := if Obj.top ∈ L then some L else none

/-- One cell of the loop of `delete_tree_handler`, include/dashmm/tree.h:885-908; `curr` is in the block of the top nodes. -/
noncomputable def deleteCell (H : Heap) (fuel : Nat) (own : Bool) (curr id : Nat) (L : Set Obj) : Ledger := do
  let L ← readTop L
  let L ← dealloc (.lock id) L
  if own then do
    let L ← (List.range 8).foldlM (fun L j => match (H curr).child j with
      | some x => destroyBranch H fuel [x] L
      | none => some L) L
    dealloc (.done id) L
  else match freed H curr with
    | some x => deleteArray x L
    | none => some L

/-- `delete_tree_handler` on the rank `k`, include/dashmm/tree.h:877-916. -/
noncomputable def deleteTree {R : Type} (C : Cfg R) (rmap : Nat → Nat) (fuel : Nat) (k : Nat) (H : Heap) (L : Set Obj) : Ledger := do
  let L ← (List.range (8 ^ C.unif)).foldlM (fun L id => deleteCell H fuel (rmap id == k) (C.grid k id) id L) L
  let L ← dealloc .top L
  dealloc .unifDone L

end RankTree
end Dashmm
