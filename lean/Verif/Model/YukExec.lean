import Verif.Model.MethodExec
import Verif.Model.YukShift
import Verif.Model.Geometry
import Mathlib.Algebra.Order.Monoid.WithTop
import Mathlib.Algebra.Group.Prod

/-!
The execution of a DAG with the numbers of the Yukawa kernel: `Model.Exec` with the operations of `Model.Yukawa` and
`Model.YukShift`. The operators through plane waves, which only FMM97 uses, are not modelled here.
-/

namespace Dashmm

open Lap (Src Coef)
open Bessel (Table)

/-- The data of an evaluation with the Yukawa kernel: the domain, the parameter `lam`, the order `p` of the expansions and the
table of Bessel functions, the sources of each leaf of the source tree, the targets of each leaf of the target tree and what
they hold at first (`phi`). -/
structure YukData where
  dom : Domain ℝ
  lam : ℝ
  p : ℕ
  table : Table
  srcs : Index → List Src
  tgts : Index → List (Point ℝ)
  phi : Index → ℕ → ℝ

/-- What an LCO holds: an expansion (`ExpansionLCO`), and the potentials of targets by their position in the leaf (`TargetLCO`).
`⊤` stands for no value: whatever is added to it, it stays. -/
abbrev YukVal := WithTop Coef × (ℕ → WithTop ℝ)

namespace YukData

/-- The centre of the expansion of a box, dualtree.h:1365-1378 and 1432-1446 (`domain_.center_from_index`). -/
noncomputable def center (D : YukData) (ix : Index) : Point ℝ := D.dom.centerFromIndex ix

/-- The scale of the expansion of a box, dualtree.h:1386-1392 (`expansion_t::compute_scale`), include/builtins/yukawa.h:157-160. -/
noncomputable def scale (D : YukData) (ix : Index) : ℝ := Yukawa.scaleOf D.dom.size D.lam ix.level

/-- What is added to the targets of a leaf by a function of the position, include/builtins/yukawa.h:214-253. -/
noncomputable def toTargets (D : YukData) (ix : Index) (f : Point ℝ → WithTop ℝ) : ℕ → WithTop ℝ := fun i =>
  match (D.tgts ix)[i]? with
  | some t => f t
  | none => 0

/-- The operation along an edge: `instigate_dag_eval_work`, dualtree.h:1666-1705, `spawn_out_edges_work` and the
functions it calls, expansionlco.h:545-687, `ExpansionLCO::S_to_M`, `S_to_L`, expansionlco.h:200-233,
`TargetLCO::operation_handler`, targetlco.h:182-218. `M_to_L` returns no expansion (include/builtins/yukawa.h:201-203); the operators
of FMM97 are not modelled: no value. -/
noncomputable def op (D : YukData) (e : Edge) (x : YukVal) : YukVal :=
  match e.op with
  | .StoM => (Yukawa.sToM D.table D.lam D.p (D.center e.dst.ix) (D.scale e.dst.ix) (D.srcs e.src.ix), 0)
  | .StoL => (Yukawa.sToL D.lam D.p (D.center e.dst.ix) (D.scale e.dst.ix) (D.srcs e.src.ix), 0)
  | .MtoM => (Option.bind x.1 (Yukawa.mToM D.table D.dom.size D.lam D.p e.src.ix.whichChild (D.scale e.src.ix)), 0)
  | .LtoL => (Option.bind x.1 (Yukawa.lToL D.table D.dom.size D.lam D.p e.dst.ix.whichChild (D.scale e.src.ix)), 0)
  | .MtoT => (0, D.toTargets e.dst.ix fun t => Option.bind x.1 fun M => Yukawa.mToT D.lam D.p (D.center e.src.ix) (D.scale e.src.ix) M t)
  | .LtoT => (0, D.toTargets e.dst.ix fun t => Option.bind x.1 fun L =>
      Yukawa.lToT D.table D.lam D.p (D.center e.src.ix) (D.scale e.src.ix) L t)
  | .StoT => (0, D.toTargets e.dst.ix fun t => Yukawa.sToT D.lam (D.srcs e.src.ix) t)
  | .MtoL | .MtoI | .ItoI | .ItoL => (⊤, 0)

/-- What a node holds at first: the targets as given by the user, zero expansions. -/
noncomputable def base (D : YukData) (r : Ref) : YukVal :=
  if r.side = .tgt ∧ r.kind = .parts then (0, fun i => (D.phi r.ix i : ℝ)) else (0, 0)

end YukData

/-- The DAG of a method with the numbers of the Yukawa kernel; as `methodDag`. -/
noncomputable def yukDag (D : YukData) (acts : List Act) : ExecDag Ref Edge YukVal where
  nodes := nodesOf acts
  starts := (nodesOf acts).filter fun r => r.side = .src ∧ r.kind = .parts
  edges := edgesOf acts
  src := Edge.src
  dst := Edge.dst
  op := D.op
  base := D.base

end Dashmm
