import Mathlib.Data.Finset.Basic
/-
The public calls of an evaluator and what they do when the runtime reports an error (/repo/include/dashmm/evaluator.h:122-326, 350-461).

Simplifications: one process stands for all ranks (the SPMD calls are collective: hpx_run_spmd returns the same status on every rank). What is in a tree or a
DAG is left out: a tree, a DAG object and the LCOs of a DAG are one object each. What they allocate and free in detail is in Model/TreeLife.lean and
Model/Life.lean.
-/
namespace Dashmm
namespace Session

/-- How a call of hpx_run or hpx_run_spmd ends. The runtime is not modelled: all three are possible for every call. -/
inductive Fate
  /-- the handler has run and HPX_SUCCESS is returned, with the value given to hpx_exit -/
  | done
  /-- an error is returned and nothing has been done -/
  | lost
  /-- an error is returned although the handler has done its work; the value given to hpx_exit does not arrive -/
  | half
  deriving DecidableEq

/-- The return codes used by the evaluator, /repo/include/dashmm/types.h:40-50. -/
inductive Code
  | success
  | runtimeError
  deriving DecidableEq

/-- What exists: trees, DAG objects, LCOs of a DAG; all handles below `next` have been given out. -/
structure World where
  trees : Finset Nat
  dags : Finset Nat
  lcos : Finset Nat
  next : Nat

/-- A call: `none` is a crash (a failed assertion or the use of something that does not exist). -/
abbrev Call (α : Type) := World → Option (α × World)

/-- `create_tree` and its handler, evaluator.h:135-145 and 350-370. The handle stays HPX_NULL unless the value arrives; the status of hpx_run is not looked at. -/
def createTree (f : Fate) : Call (Option Nat) := fun w =>
  match f with
  | .done => some (some w.next, { w with trees := insert w.next w.trees, next := w.next + 1 })
  | .lost => some (none, w)
  | .half => some (none, { w with trees := insert w.next w.trees, next := w.next + 1 })

/-- What a handler does with the handle of a tree first: `global_tree.here()`, rankwise.h:181-198, which asserts that it is not HPX_NULL. -/
def hasTree (w : World) (t : Option Nat) : Bool := match t with
  | some t => decide (t ∈ w.trees)
  | none => false

/-- The dereference of a pointer to a DAG. -/
def hasDag (w : World) (d : Option Nat) : Bool := match d with
  | some d => decide (d ∈ w.dags)
  | none => false

/-- `create_DAG` and its handler, evaluator.h:165-176 and 372-409. The pointer stays null unless the value arrives; the status is not looked at. -/
def createDag (f : Fate) (t : Option Nat) : Call (Option Nat) := fun w =>
  match f with
  | .lost => some (none, w)
  | .done => if hasTree w t then
      some (some w.next, { w with dags := insert w.next w.dags, lcos := insert w.next w.lcos, next := w.next + 1 }) else none
  | .half => if hasTree w t then
      some (none, { w with dags := insert w.next w.dags, lcos := insert w.next w.lcos, next := w.next + 1 }) else none

/-- The code for the status of a call, as in evaluator.h:197-202 and the other three. -/
def code (f : Fate) : Code := match f with
  | .done => .success
  | _ => .runtimeError

/-- `execute_DAG` and its handler, evaluator.h:195-202 and 411-440. -/
def execute (f : Fate) (t d : Option Nat) : Call Code := fun w =>
  match f with
  | .lost => some (code f, w)
  | _ => if hasTree w t && hasDag w d then some (code f, w) else none

/-- `reset_DAG` and its handler, evaluator.h:214-220 and 442-447. -/
def reset (f : Fate) (d : Option Nat) : Call Code := fun w =>
  match f with
  | .lost => some (code f, w)
  | _ => if hasDag w d then some (code f, w) else none

/-- `delete` of a DAG object (`delete nullptr` does nothing). -/
def deleteDag (d : Option Nat) : Call Unit := fun w =>
  match d with
  | none => some ((), w)
  | some d => if d ∈ w.dags then some ((), { w with dags := w.dags.erase d }) else none

/-- `destroy_DAG` and its handler, evaluator.h:237-244 and 449-455. The unique_ptr has been released before the call. -/
def destroyDag (f : Fate) (t d : Option Nat) : Call Code := fun w =>
  match f with
  | .lost => some (code f, w)
  | _ => if hasTree w t && hasDag w d then
      (deleteDag d { w with lcos := match d with | some d => w.lcos.erase d | none => w.lcos }).map fun r => (code f, r.2)
    else none

/-- `destroy_tree` and its handler, evaluator.h:252-258 and 457-461. -/
def destroyTree (f : Fate) (t : Option Nat) : Call Code := fun w =>
  match f with
  | .lost => some (code f, w)
  | _ => match t with
    | some t => if t ∈ w.trees then some (code f, { w with trees := w.trees.erase t }) else none
    | none => none

/-- How the five calls of `evaluate` end. -/
structure Fates where
  tree : Fate
  dag : Fate
  exec : Fate
  freeDag : Fate
  freeTree : Fate

/-- `evaluate`, evaluator.h:301-326. The first return destroys the unique_ptr, which deletes the DAG object (dag.h:131-144); after `std::move` there is
nothing left in it. -/
def evaluate (f : Fates) : Call Code := fun w =>
  (createTree f.tree w).bind fun t =>
  (createDag f.dag t.1 t.2).bind fun d =>
  (execute f.exec t.1 d.1 d.2).bind fun e =>
  if e.1 = .runtimeError then
    (deleteDag d.1 e.2).bind fun r => some (.runtimeError, r.2)
  else
  (destroyDag f.freeDag t.1 d.1 e.2).bind fun e =>
  if e.1 = .runtimeError then some (.runtimeError, e.2)
  else
  (destroyTree f.freeTree t.1 e.2).bind fun e =>
  if e.1 = .runtimeError then some (.runtimeError, e.2) else some (.success, e.2)

end Session
end Dashmm
