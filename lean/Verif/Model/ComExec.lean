import Verif.Model.MethodExec
import Verif.Model.ComEval
import Verif.Model.Geometry
import Mathlib.Algebra.Order.Monoid.WithTop
import Mathlib.Algebra.Group.Prod

/-!
The execution of a DAG with the numbers of the centre-of-mass expansions: `Model.Exec` with the operations of
`Model.Com` and `Model.ComEval`.  `add_expansion` of these expansions is not a sum: it moves both expansions to the
common centre first, and it may fail.
-/

namespace Dashmm

open Com

/-- What a centre-of-mass expansion offers; `O` is what a target gets.  `none` is a result that is not a finite
number. -/
structure ComKernel (O : Type) where
  /-- `add_expansion` -/
  add : Data ℝ → Data ℝ → Option (Data ℝ)
  /-- what `M_to_T` adds to a target at a position -/
  mToT : Data ℝ → Point ℝ → Option O
  /-- what `S_to_T` adds to a target at a position -/
  sToT : List (Com.Src ℝ) → Point ℝ → O

namespace Com

/-- The square of the distance of a position from the centre of mass, include/builtins/laplace_com.h:198-200,
include/builtins/laplace_com_acc.h:197-199. -/
def Data.away (d : Data ℝ) (t : Point ℝ) : ℝ :=
  (t.x - d.c0) * (t.x - d.c0) + (t.y - d.c1) * (t.y - d.c1) + (t.z - d.c2) * (t.z - d.c2)

open Classical in
/-- `LaplaceCOM`, include/builtins/laplace_com.h:191-237 and 251-298: the result is the potential `phi`.  A target at
the very centre of mass is divided by zero. -/
noncomputable def comKernel : ComKernel ℝ where
  add := addCom
  mToT d t := if d.away t = 0 then none else some (comMToT1 d ⟨t.x, t.y, t.z, 0⟩).phi
  sToT srcs t := comSToTSum srcs ⟨t.x, t.y, t.z, 0⟩

open Classical in
/-- `LaplaceCOMAcc`, include/builtins/laplace_com_acc.h:191-264 and 278-327: the result is the field
`acceleration[3]`. -/
noncomputable def accKernel : ComKernel (ℝ × ℝ × ℝ) where
  add := addAcc
  mToT d t := if d.away t = 0 then none else
    let t' := accMToT1 d ⟨t.x, t.y, t.z, 0, 0, 0⟩
    some (t'.a0, t'.a1, t'.a2)
  sToT srcs t := accSToTSum srcs ⟨t.x, t.y, t.z, 0, 0, 0⟩

end Com

/-- The data of an evaluation: the domain, the sources of each leaf of the source tree, the targets of each leaf of the
target tree and what they hold at first. -/
structure ComData (O : Type) where
  dom : Domain ℝ
  srcs : Index → List (Com.Src ℝ)
  tgts : Index → List (Point ℝ)
  out : Index → ℕ → O

/-- What an LCO holds: the moments (`ExpansionLCO`), or what the targets of a leaf hold, by their position in the leaf
(`TargetLCO`). -/
inductive ComVal {O : Type} (K : ComKernel O) where
  | exp (d : Option (Data ℝ))
  | parts (f : ℕ → WithTop O)

variable {O : Type} [AddCommMonoid O]

/-- Setting an LCO that holds `x` with `y`: `ExpansionLCO::operation_handler` with `add_expansion`,
expansionlco.h:337-367, and `TargetLCO::operation_handler`, targetlco.h:176-218.  An expansion LCO is only ever set with
expansions and a target LCO with contributions to targets. -/
noncomputable def ComVal.add {K : ComKernel O} : ComVal K → ComVal K → ComVal K
  | .exp x, .exp y => .exp (x.bind fun a => y.bind fun b => K.add a b)
  | .parts f, .parts g => .parts fun i => f i + g i
  | x, _ => x

noncomputable instance {K : ComKernel O} : Add (ComVal K) := ⟨ComVal.add⟩

namespace ComVal

/-- The moments an expansion LCO holds. -/
def mom {K : ComKernel O} : ComVal K → Option (Data ℝ)
  | .exp d => d
  | .parts _ => none

end ComVal

namespace ComData

/-- What is added to the targets of a leaf by a function of the position: the loops over targets of
include/builtins/laplace_com.h:193-237, include/builtins/laplace_com_acc.h:193-264. -/
def toTargets (D : ComData O) (ix : Index) (f : Point ℝ → WithTop O) : ℕ → WithTop O := fun i =>
  match (D.tgts ix)[i]? with
  | some t => f t
  | none => 0

/-- The operation along an edge: `instigate_dag_eval_work`, dualtree.h:1666-1705, `spawn_out_edges_work` and the
functions it calls, expansionlco.h:545-687, `ExpansionLCO::S_to_M`, expansionlco.h:200-208,
`TargetLCO::operation_handler`, targetlco.h:182-218.  The centre-of-mass expansions have no other operations
(include/builtins/laplace_com.h:169-172, 183-189, 217, 239-249); the methods Direct and Barnes-Hut use none. -/
noncomputable def op (D : ComData O) (K : ComKernel O) (e : Edge) (x : ComVal K) : ComVal K :=
  match e.op with
  | .StoM => .exp (some (sToM (D.srcs e.src.ix)))
  | .MtoM => .exp (x.mom.map mToM)
  | .MtoT => .parts (D.toTargets e.dst.ix fun t => Option.bind x.mom fun d => K.mToT d t)
  | .StoT => .parts (D.toTargets e.dst.ix fun t => ((K.sToT (D.srcs e.src.ix) t : O) : WithTop O))
  | _ => .exp none

/-- What a node holds at first: the targets as given by the user, or a fresh expansion
(include/builtins/laplace_com.h:71-87). -/
noncomputable def base (D : ComData O) (K : ComKernel O) (r : Ref) : ComVal K :=
  if r.side = .tgt ∧ r.kind = .parts then .parts fun i => (D.out r.ix i : WithTop O) else .exp (some fresh)

end ComData

/-- The DAG of a method with the numbers of a centre-of-mass expansion; as `methodDag`. -/
noncomputable def comDag (D : ComData O) (K : ComKernel O) (acts : List Act) : ExecDag Ref Edge (ComVal K) where
  nodes := nodesOf acts
  starts := (nodesOf acts).filter fun r => r.side = .src ∧ r.kind = .parts
  edges := edgesOf acts
  src := Edge.src
  dst := Edge.dst
  op := D.op K
  base := D.base K

end Dashmm
