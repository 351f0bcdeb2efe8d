import Mathlib.Data.List.Basic
/-
Model of the merging of points into a cell of the uniform grid: `Tree::merge_points_handler`
(/repo/include/dashmm/tree.h:728-747), the copying of the local points in `Tree::initPointExchange`
(tree.h:245-268, the same steps), and `Node::increment_first` (/repo/include/dashmm/node.h:167-175).

One task per message, the tasks run concurrently; a step of the model is one access to the shared state of
the cell. Simplification: `std::copy` and the copying loop are one step.
-/
namespace Dashmm
namespace Merge

/-- Where a task is: before `lock()`, after it, after reading `first()`, after the copy, after
`increment_first` (with its result), after the `if`, after `unlock()`. -/
inductive PC
  | idle
  | locked
  | read (first : Nat)
  | copied
  | counted (full : Bool)
  | spawned
  | done
  deriving DecidableEq

/-- The cell: `parts` (with the memory not yet written as `none`), `first_`, the lock, how many times
`partition` was called, and whether a copy went past the end of `parts`; and the tasks. -/
structure State (R : Type) where
  parts : List (Option R)
  first : Nat
  lock : Option Nat
  started : Nat
  overrun : Bool
  pc : Nat → PC

variable {R : Type}

/-- The cell expecting `n` points. -/
def start (n : Nat) : State R := ⟨List.replicate n none, 0, none, 0, false, fun _ => .idle⟩

/-- Task `i` gets to `p`. -/
def State.goto (s : State R) (i : Nat) (p : PC) : State R := { s with pc := fun j => if j = i then p else s.pc j }

/-- The memory after copying `temp` to position `first`. -/
def copyTo (parts : List (Option R)) (first : Nat) (temp : List R) : List (Option R) :=
  parts.take first ++ temp.map some ++ parts.drop (first + temp.length)

/-- One step of task `i`, whose message is `ts[i]`; include/dashmm/tree.h:737-745. -/
inductive Step (ts : List (List R)) : State R → State R → Prop
  | lock {s i} (hi : i < ts.length) (hp : s.pc i = .idle) (hl : s.lock = none) :
      Step ts s ({ s with lock := some i }.goto i .locked)
  | read {s i} (hp : s.pc i = .locked) : Step ts s (s.goto i (.read s.first))
  | copy {s i f} (hp : s.pc i = .read f) :
      Step ts s ({ s with parts := copyTo s.parts f (ts.getD i []),
                          overrun := s.overrun || decide (s.parts.length < f + (ts.getD i []).length) }.goto i .copied)
  | count {s i} (hp : s.pc i = .copied) :
      Step ts s ({ s with first := s.first + (ts.getD i []).length }.goto i
        (.counted (decide (s.parts.length ≤ s.first + (ts.getD i []).length))))
  | spawn {s i full} (hp : s.pc i = .counted full) :
      Step ts s ({ s with started := if full then s.started + 1 else s.started }.goto i .spawned)
  | unlock {s i} (hp : s.pc i = .spawned) : Step ts s ({ s with lock := none }.goto i .done)

/-- Reachable states. -/
inductive Reach (ts : List (List R)) (n : Nat) : State R → Prop
  | init : Reach ts n (start n)
  | step {s s'} (h : Reach ts n s) (hs : Step ts s s') : Reach ts n s'

end Merge
end Dashmm
