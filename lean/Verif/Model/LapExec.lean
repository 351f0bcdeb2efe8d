import Verif.Model.MethodExec
import Verif.Model.Laplace
import Verif.Model.PlaneTable
import Verif.Model.Geometry
import Mathlib.Algebra.Order.Monoid.WithTop
import Mathlib.Algebra.Group.Prod

/-!
The execution of a DAG with the numbers of the Laplace kernel: `Model.Exec` with the operations of `Model.Laplace` and
`Model.Plane`.
-/

namespace Dashmm

open Lap

/-- The data of an evaluation with the Laplace kernel: the domain, the order `p` of the expansions, the
quadrature rule of the plane waves (both are of the table for the wanted accuracy), the sources of each leaf of the source tree, the targets of each leaf of the target tree and what they hold at first (`phi`). -/
structure LapData where
  dom : Domain ℝ
  p : ℕ
  rule : Rule
  srcs : Index → List Src
  tgts : Index → List (Point ℝ)
  phi : Index → ℕ → ℝ

/-- What an LCO holds: an expansion (`ExpansionLCO`; the coefficients for the primary roles, the views for the
intermediate ones), and the potentials of targets by their position in the leaf (`TargetLCO`). `⊤` is not-a-number:
whatever is added to it, it stays. -/
abbrev LapVal := WithTop Coef × WithTop Views × (ℕ → WithTop ℝ)

namespace LapData

/-- The centre of the expansion of a box, dualtree.h:1365-1378 and 1432-1446 (`domain_.center_from_index`). -/
noncomputable def center (D : LapData) (ix : Index) : Point ℝ := D.dom.centerFromIndex ix

/-- The scale of the expansion of a box, dualtree.h:1386-1392 (`expansion_t::compute_scale`). -/
noncomputable def scale (D : LapData) (ix : Index) : ℝ := scaleOf D.dom.size ix.level

/-- What is added to the targets of a leaf by a function of the position, include/builtins/laplace.h:260-279. -/
noncomputable def toTargets (D : LapData) (ix : Index) (f : Point ℝ → WithTop ℝ) : ℕ → WithTop ℝ := fun i =>
  match (D.tgts ix)[i]? with
  | some t => f t
  | none => 0

/-- The operation along an edge: `instigate_dag_eval_work`, dualtree.h:1666-1705, `spawn_out_edges_work` and the
functions it calls, expansionlco.h:545-687, `I_to_L` with its scale, include/builtins/laplace.h:299-321, `ExpansionLCO::S_to_M`, `S_to_L`, expansionlco.h:200-233,
`TargetLCO::operation_handler`, targetlco.h:182-218. -/
noncomputable def op (D : LapData) (e : Edge) (x : LapVal) : LapVal :=
  match e.op with
  | .StoM => (sToM (D.center e.dst.ix) (D.scale e.dst.ix) (D.srcs e.src.ix), 0, 0)
  | .StoL => (sToL (D.center e.dst.ix) (D.scale e.dst.ix) (D.srcs e.src.ix), 0, 0)
  | .MtoM => (x.1.map (mToM e.src.ix.whichChild), 0, 0)
  | .MtoL => (x.1.map (mToL D.p (D.scale e.src.ix) ((e.src.ix.x : ℤ) - e.dst.ix.x) ((e.src.ix.y : ℤ) - e.dst.ix.y)
      ((e.src.ix.z : ℤ) - e.dst.ix.z)), 0, 0)
  | .LtoL => (x.1.map (lToL D.p e.dst.ix.whichChild), 0, 0)
  | .MtoT => (0, 0, D.toTargets e.dst.ix fun t =>
      Option.bind x.1 fun M => mToT1 D.p (t.sub (D.center e.src.ix)) (D.scale e.src.ix) M)
  | .LtoT => (0, 0, D.toTargets e.dst.ix fun t =>
      Option.bind x.1 fun L => lToT1 D.p (t.sub (D.center e.src.ix)) (D.scale e.src.ix) L)
  | .StoT => (0, 0, D.toTargets e.dst.ix fun t => sToT1 (D.srcs e.src.ix) t)
  | .MtoI => (0, x.1.map (mToI D.rule D.p), 0)
  | .ItoI =>
    let dx := (e.src.ix.x : ℤ) - 2 * e.dst.ix.x
    let dy := (e.src.ix.y : ℤ) - 2 * e.dst.ix.y
    let dz := (e.src.ix.z : ℤ) - 2 * e.dst.ix.z
    -- a subscript out of range of the table: anything might be read
    (0, if (mergeTags dx dy dz).isSome then x.2.1.map (iToI D.rule dx dy dz) else ⊤, 0)
  | .ItoL => (x.2.1.map (iToL D.rule (toChild e.dst.ix) (D.scale e.src.ix * 2)), 0, 0)

/-- What a node holds at first: the targets as given by the user, zero expansions. -/
noncomputable def base (D : LapData) (r : Ref) : LapVal :=
  if r.side = .tgt ∧ r.kind = .parts then (0, 0, fun i => (D.phi r.ix i : ℝ)) else (0, 0, 0)

end LapData

/-- The DAG of a method with the numbers of the Laplace kernel; as `methodDag`. -/
noncomputable def lapDag (D : LapData) (acts : List Act) : ExecDag Ref Edge LapVal where
  nodes := nodesOf acts
  starts := (nodesOf acts).filter fun r => r.side = .src ∧ r.kind = .parts
  edges := edgesOf acts
  src := Edge.src
  dst := Edge.dst
  op := D.op
  base := D.base

end Dashmm
