import Verif.Model.Distro
/-
The life of the explicit DAG on one rank: the objects `create_DAG` allocates (DAGNodes and the LCOs that serve them), the pointers to them that stay in the `DAGInfo` members of the tree
nodes, and what `destroy_DAG` gives back. Every operation that the code checks with an `assert`, and every use of memory that is not allocated, is `none`.
-/
namespace Dashmm.Life
open Distro (collect)

/-- What one rank has in memory. Addresses are not used twice.
`ptr`: the members `normal_`, `interm_`, `parts_` of the `DAGInfo` of the tree nodes, include/dashmm/dag.h:586-591 (`none` is `nullptr`; a pointer may dangle).
`node`: the `DAGNode` objects that are allocated, dag.h:52-106, with the tree node and member they were made for (`parent_`) and their `global_addx` (`none` is `HPX_NULL`). Edges, in-counts,
localities and colors are in the models Dag, Exec and Distro.
`lco`: the ids of the LCOs of the rank that exist. -/
structure Mem where
  ptr : Ref → Option Nat
  node : Nat → Option (Ref × Option Nat)
  lco : Nat → Bool
  nextNode : Nat
  nextLco : Nat

/-- After `create_tree`: `DAGInfo` is constructed with null pointers, dag.h:191-206. -/
def Mem.clean : Mem := ⟨fun _ => none, fun _ => none, fun _ => false, 0, 0⟩

/-- `DAGInfo::add_normal`, `add_interm`, `add_parts`, dag.h:227-274. The methods check with an `assert` that the first two return true (bh_method.h, fmm_method.h, fmm97_method.h; what happens
without the assertions is property C55), the third asserts that the pointer is null. -/
def add (r : Ref) (h : Mem) : Option Mem :=
  match h.ptr r with
  | some _ => none
  | none => some { h with
      ptr := fun r' => if r' = r then some h.nextNode else h.ptr r'
      node := fun a => if a = h.nextNode then some (r, none) else h.node a
      nextNode := h.nextNode + 1 }

/-- Following a pointer: null pointers are caught by the assertions of `DAGInfo::StoM` … `ItoL`, dag.h:380-532; `none` also if the object is gone. -/
def deref (h : Mem) (r : Ref) : Option (Ref × Option Nat) := (h.ptr r).bind h.node

/-- `link_nodes`, dag.h:563-573: both objects are written to. -/
def link (e : Edge) (h : Mem) : Option Mem :=
  match deref h e.src, deref h e.dst with
  | some _, some _ => some h
  | _, _ => none

def act : Act → Mem → Option Mem
  | .add r, h => add r h
  | .link e, h => link e h

/-- The actions of the method, in the order of the schedule. -/
def actAll (acts : List Act) (h : Mem) : Option Mem := acts.foldlM (fun h a => act a h) h

/-! ### Collecting -/

/-- `DAGInfo::collect_DAG_nodes`, dag.h:540-551: the members that are not null. -/
def internals (ptr : Ref → Option Nat) (sd : Side) (ix : Index) : List Ref :=
  [(⟨sd, ix, .normal⟩ : Ref), ⟨sd, ix, .interm⟩].filter fun r => (ptr r).isSome
def terminals (ptr : Ref → Option Nat) (sd : Side) (ix : Index) : List Ref :=
  [(⟨sd, ix, .parts⟩ : Ref)].filter fun r => (ptr r).isSome

/-- `class DAG`, dag.h:125-172: four vectors of pointers. -/
structure Vectors where
  sourceLeaves : List Nat
  sourceNodes : List Nat
  targetNodes : List Nat
  targetLeaves : List Nat

/-- `DualTree::collect_DAG_nodes`, dualtree.h:258-278, 1322-1348. -/
def vectors (h : Mem) (s t : Fin 8 → Oct) : Vectors where
  sourceLeaves := (collect (terminals h.ptr .src) Index.root (.node s)).filterMap h.ptr
  sourceNodes := (collect (internals h.ptr .src) Index.root (.node s)).filterMap h.ptr
  targetNodes := (collect (internals h.ptr .tgt) Index.root (.node t)).filterMap h.ptr
  targetLeaves := (collect (terminals h.ptr .tgt) Index.root (.node t)).filterMap h.ptr

/-! ### The LCOs -/

/-- The members that `create_S_expansions_from_DAG_handler` looks at, dualtree.h:1363-1414: the normal and the intermediate expansion of each node of the source tree. -/
def lcosS : Index → Oct → List Ref
  | _, .nil => []
  | ix, .node c => [(⟨.src, ix, .normal⟩ : Ref), ⟨.src, ix, .interm⟩] ++
      (List.finRange 8).flatMap fun i : Fin 8 => lcosS (ix.child i) (c i)

/-- The members that `create_T_expansions_from_DAG_handler` looks at, dualtree.h:1430-1488: it does not go below a node that has a parts node. -/
def lcosT (ptr : Ref → Option Nat) : Index → Oct → List Ref
  | _, .nil => []
  | ix, .node c => [(⟨.tgt, ix, .normal⟩ : Ref), ⟨.tgt, ix, .interm⟩] ++
      if (ptr ⟨.tgt, ix, .parts⟩).isSome then [(⟨.tgt, ix, .parts⟩ : Ref)]
      else (List.finRange 8).flatMap fun i : Fin 8 => lcosT ptr (ix.child i) (c i)

/-- One of the `if`s of the two handlers: when the member is not null and the node is to live on this rank, an LCO is made and its address is put into the DAGNode. -/
def mkLco (rank : Int) (loc : Ref → Int) (r : Ref) (h : Mem) : Option Mem :=
  match h.ptr r with
  | none => some h
  | some a =>
    match h.node a with
    | none => none
    | some (o, _) =>
      if loc r = rank then some { h with
        node := fun b => if b = a then some (o, some h.nextLco) else h.node b
        lco := fun i => if i = h.nextLco then true else h.lco i
        nextLco := h.nextLco + 1 }
      else some h

def mkLcos (rank : Int) (loc : Ref → Int) (rs : List Ref) (h : Mem) : Option Mem := rs.foldlM (fun h r => mkLco rank loc r h) h

/-- `Evaluator::create_DAG_handler`, evaluator.h:372-408, on one rank: the schedule `acts` of the method's actions, then the LCOs, made by tasks that run in any order (`order`). The
distribution policy, `loc`, runs between the two (models Distro, property C41, C47). The result is the memory and the DAG object. `partitionLocal` only reorders the vectors; the order of
deletion below is arbitrary. -/
def Created (s t : Fin 8 → Oct) (rank : Int) (loc : Ref → Int) (acts : List Act) (h : Mem) (d : Vectors) (h' : Mem) : Prop :=
  ∃ h₁ order, actAll acts h = some h₁ ∧ d = vectors h₁ s t ∧
    order.Perm (lcosS Index.root (.node s) ++ lcosT h₁.ptr Index.root (.node t)) ∧
    mkLcos rank loc order h₁ = some h'

/-! ### Destroying -/

/-- One iteration of `destroy_DAG_LCOs_handler`, dualtree.h:1926-1945. -/
def rmLco (rank : Int) (loc : Ref → Int) (a : Nat) (h : Mem) : Option Mem :=
  match h.node a with
  | none => none
  | some (o, g) =>
    if loc o = rank then
      match g with
      | none => none
      | some i => if h.lco i then some { h with lco := fun j => if j = i then false else h.lco j } else none
    else some h

def rmLcos (rank : Int) (loc : Ref → Int) (as : List Nat) (h : Mem) : Option Mem := as.foldlM (fun h a => rmLco rank loc a h) h

/-- `delete` in `DAG::~DAG`, dag.h:129-143: `~DAGNode` does nothing (the call of `remove_node` is commented out), so the pointer in the `DAGInfo` stays. Deleting twice is an error. -/
def delNode (a : Nat) (h : Mem) : Option Mem :=
  match h.node a with
  | none => none
  | some _ => some { h with node := fun b => if b = a then none else h.node b }

def delNodes (as : List Nat) (h : Mem) : Option Mem := as.foldlM (fun h a => delNode a h) h

/-- `Evaluator::destroy_DAG_handler`, evaluator.h:447-453, with `DualTree::destroy_DAG_LCOs`, dualtree.h:396-415, whose three tasks run in any order (`order`), and `~DAG`. `order'` is the order of
the vectors after `partitionLocal`. `none`: an assertion fails, something is deleted twice or used after it is gone. -/
def destroy (rank : Int) (loc : Ref → Int) (order order' : List Nat) (h : Mem) : Option Mem :=
  (rmLcos rank loc order h).bind (delNodes order')

/-- The orders `destroy` can have. -/
def Vectors.Orders (d : Vectors) (order order' : List Nat) : Prop :=
  order.Perm (d.targetLeaves ++ d.targetNodes ++ d.sourceNodes) ∧
  order'.Perm (d.sourceLeaves ++ d.sourceNodes ++ d.targetNodes ++ d.targetLeaves)

end Dashmm.Life
