import Verif.Model.ExpMem
/-
What is said about the memory of operations on expansions.
-/
namespace Dashmm.ExpMem

/-- A ledger as it can be: each block was handed out once. -/
structure Led.Wf (L : Led) : Prop where
  heap : L.heap.Nodup
  parc : L.parc.Nodup
  fresh : ∀ b, b ∈ L.heap ∨ b ∈ L.parc → b < L.next

/-- The memory behind a pointer is there. -/
def Led.Live (L : Led) : Ptr → Prop
  | .own b => b ∈ L.heap
  | .inside q => q ∈ L.parc

/-- The blocks that an expansion owns through its views. -/
def viewBlocks : Views → Multiset ℕ
  | [] => 0
  | (_, .own b) :: vs => {b} + viewBlocks vs
  | (_, .inside _) :: vs => viewBlocks vs

/-- The blocks of an expansion made with `new`. -/
def Obj.blocks (o : Obj) : Multiset ℕ := {o.self} + viewBlocks o.views

/-- The views have their own memory, and are those with these indices, in this order. -/
def OwnViews (vs : Views) (idx : List ℕ) : Prop := vs.map Prod.fst = idx ∧ ∀ v ∈ vs, ∃ b, v.2 = .own b

/-- The views that the result of an operation has. -/
def resultViews (k : Expansion) (op : Op) (tags : List ℕ) : Option (List ℕ) :=
  match k, op with
  | .laplaceCOM, .StoM | .laplaceCOM, .MtoM | .laplaceCOMAcc, .StoM | .laplaceCOMAcc, .MtoM => some [0]
  | .laplaceCOM, _ | .laplaceCOMAcc, _ => none
  | .yukawa, .MtoL | .helmholtz, .MtoL => none
  | .helmholtz, .MtoI => some (List.range 9)
  | .helmholtz, .ItoI => some (tags.flatMap fun t => [2 * t, 2 * t + 1])
  | _, .StoM | _, .StoL | _, .MtoM | _, .MtoL | _, .LtoL | _, .ItoL => some [0]
  | _, .MtoI => some (List.range 6)
  | _, .ItoI => some tags
  | _, _ => none

/-- How many views an operation reads of the expansion it is called on. -/
def viewsRead (k : Expansion) : Op → ℕ
  | .MtoM | .MtoL | .LtoL | .MtoT | .LtoT | .MtoI => 1
  | .ItoI => viewCount k .sourceIntermediate
  | .ItoL => viewCount k .targetIntermediate
  | .StoM | .StoL | .StoT => 0

/-- The blocks that an operation allocates, does not free, and does not hand out: those of `yuk_e_to_l` (yukawa.cc:928) and of
`bessel_hn_scaled` (special_function.cc:1370-1371), and the first array of `I_to_I` when its table has no entry for the pair. -/
def leaks (k : Expansion) (z : Sizes) (op : Op) (tags : List ℕ) : ℕ :=
  match k, op with
  | .yukawa, .ItoL => 6 * z.s
  | .helmholtz, .StoL | .helmholtz, .MtoT => 2 * z.points
  | .laplace, .ItoI | .yukawa, .ItoI => if tags = [] then 1 else 0
  | .helmholtz, .ItoI => if tags = [] then 2 else 0
  | _, _ => 0

end Dashmm.ExpMem
