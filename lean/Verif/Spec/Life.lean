import Verif.Model.Life
/-
What is said about the life of the DAG.
-/
namespace Dashmm.Life

/-- The DAG node `r` exists and the LCO `i`, which exists too, serves it. -/
def Serves (h : Mem) (r : Ref) (i : Nat) : Prop :=
  ∃ a, h.ptr r = some a ∧ h.node a = some (r, some i) ∧ h.lco i = true

/-- Nothing that `create_DAG` allocates is left. -/
def Gone (h : Mem) : Prop := (∀ a, h.node a = none) ∧ ∀ i, h.lco i = false

/-- Nothing is allocated and the tree nodes have null pointers, as after `create_tree`. -/
def Blank (h : Mem) : Prop := Gone h ∧ ∀ r, h.ptr r = none

/-- The DAG nodes that are served by an LCO: all but the sources. -/
def NeedsLco (r : Ref) : Prop := ¬ (r.side = .src ∧ r.kind = .parts)

end Dashmm.Life
