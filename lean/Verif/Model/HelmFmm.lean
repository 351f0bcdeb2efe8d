import Verif.Model.YukFmm
import Verif.Model.HelmPlane

/-!
The execution of a DAG with the numbers of the Helmholtz kernel, the plane waves of FMM97 included: `Model.Exec` with the operations of
`Model.Helmholtz`, `Model.HelmShift` and `Model.HelmPlane`.
-/

namespace Dashmm

open Lap (Src Coef PlaneTable)
open Bessel (Table)
open Helm (LCoef PropRule)
open YukFmm (arrays ofArrays ofMade)

/-- The data of an evaluation with the Helmholtz kernel: the domain, the frequency `om`, the order `p` of the expansions and the
tables of Bessel functions, the tables of the two quadrature rules, the sources of each leaf of the source tree, the targets of each
leaf of the target tree and what they hold at first (`phi`). -/
structure HelmFmm where
  dom : Domain ℝ
  om : ℝ
  p : ℕ
  J : Table
  Y : Table
  plane : PlaneTable
  prop : PropRule
  srcs : Index → List Src
  tgts : Index → List (Point ℝ)
  phi : Index → ℕ → ℂ

/-- What an LCO holds: an expansion (`ExpansionLCO`; the coefficients of a multipole or of a local expansion for the primary roles, the
evanescent and propagating views for the intermediate ones), and the potentials of targets by their position in the leaf (`TargetLCO`).
`⊤` stands for no value: whatever is added to it, it stays. -/
abbrev HelmVal := WithTop Coef × WithTop LCoef × WithTop (WaveViews × WaveViews) × (ℕ → WithTop ℂ)

namespace HelmFmm

/-- The centre of the expansion of a box, dualtree.h:1365-1378 and 1432-1446 (`domain_.center_from_index`). -/
noncomputable def center (D : HelmFmm) (ix : Index) : Point ℝ := D.dom.centerFromIndex ix

/-- The scale of the expansion of a box, dualtree.h:1386-1392 (`expansion_t::compute_scale`), include/builtins/helmholtz.h:1068-1070. -/
noncomputable def scale (D : HelmFmm) (ix : Index) : ℝ := Helm.scaleOf D.dom.size D.om ix.level

/-- What is added to the targets of a leaf by a function of the position, include/builtins/helmholtz.h:373-497. -/
noncomputable def toTargets (D : HelmFmm) (ix : Index) (f : Point ℝ → WithTop ℂ) : ℕ → WithTop ℂ := fun i =>
  match (D.tgts ix)[i]? with
  | some t => f t
  | none => 0

/-- The lengths of the views of an expansion of a box, evanescent and propagating, include/builtins/helmholtz.h:69-109 (`nexp_e(scale)`,
`nexp_p(scale)` of the table of the level). -/
noncomputable def entries (D : HelmFmm) (ix : Index) : ℕ × ℕ :=
  match Helm.wavesAt D.plane D.prop D.dom.size D.om ix.level with
  | some L => (L.1.nexp, L.2.nexp)
  | none => (0, 0)

/-- The operation along an edge: `instigate_dag_eval_work`, dualtree.h:1666-1705, `spawn_out_edges_work` and the
functions it calls, expansionlco.h:545-687, `ExpansionLCO::S_to_M`, `S_to_L`, expansionlco.h:200-233,
`TargetLCO::operation_handler`, targetlco.h:182-218, with the operators of include/builtins/helmholtz.h:154-1042. `M_to_L` returns no expansion
(include/builtins/helmholtz.h:316-318): no value. A view that is longer than that of the target would be added past its end
(`add_expansion`, include/builtins/helmholtz.h:1044-1061): no value. -/
noncomputable def op (D : HelmFmm) (e : Edge) (x : HelmVal) : HelmVal :=
  match e.op with
  | .StoM => (Helm.sToM D.J D.om D.p (D.center e.dst.ix) (D.scale e.dst.ix) (D.srcs e.src.ix), 0, 0, 0)
  | .StoL => (0, Helm.sToL D.J D.Y D.om D.p (D.center e.dst.ix) (D.scale e.dst.ix) (D.srcs e.src.ix), 0, 0)
  | .MtoM => (Option.bind x.1 (Helm.mToM D.J D.dom.size D.om D.p e.src.ix.whichChild (D.scale e.src.ix)), 0, 0, 0)
  | .LtoL => (0, Option.bind x.2.1 (Helm.lToL D.J D.dom.size D.om D.p e.dst.ix.whichChild (D.scale e.src.ix)), 0, 0)
  | .MtoT => (0, 0, 0, D.toTargets e.dst.ix fun t => Option.bind x.1 fun M =>
      Helm.mToT D.J D.Y D.om D.p (D.center e.src.ix) (D.scale e.src.ix) M t)
  | .LtoT => (0, 0, 0, D.toTargets e.dst.ix fun t => Option.bind x.2.1 fun L =>
      Helm.lToT D.J D.om D.p (D.center e.src.ix) (D.scale e.src.ix) L t)
  | .StoT => (0, 0, 0, D.toTargets e.dst.ix fun t => Helm.sToT D.om (D.srcs e.src.ix) t)
  | .MtoI => (0, 0, Option.bind x.1 fun M => (Helm.mToI D.plane D.prop D.dom.size D.om D.p (D.scale e.src.ix) M).map fun S =>
      (ofArrays S.1, ofArrays S.2), 0)
  | .ItoI =>
    let dx := (e.src.ix.x : ℤ) - 2 * e.dst.ix.x
    let dy := (e.src.ix.y : ℤ) - 2 * e.dst.ix.y
    let dz := (e.src.ix.z : ℤ) - 2 * e.dst.ix.z
    (0, 0, Option.bind x.2.2.1 fun S => Option.bind
      (Helm.iToI D.plane D.prop D.dom.size D.om (D.scale e.src.ix) dx dy dz
        (arrays (D.entries e.src.ix).1 S.1, arrays (D.entries e.src.ix).2 S.2)) fun vs =>
        if vs.1.all (fun q => q.2.length ≤ (D.entries e.dst.ix).1) && vs.2.all (fun q => q.2.length ≤ (D.entries e.dst.ix).2)
        then some (ofMade vs.1, ofMade vs.2) else none, 0)
  | .ItoL => (0, Option.bind x.2.2.1 fun E => Helm.iToL D.plane D.prop D.dom.size D.om (D.scale e.src.ix) (toChild e.dst.ix)
      (arrays (D.entries e.src.ix).1 E.1) (arrays (D.entries e.src.ix).2 E.2), 0, 0)
  | .MtoL => (0, ⊤, 0, 0)

/-- What a node holds at first: the targets as given by the user, zero expansions. -/
noncomputable def base (D : HelmFmm) (r : Ref) : HelmVal :=
  if r.side = .tgt ∧ r.kind = .parts then (0, 0, 0, fun i => (D.phi r.ix i : ℂ)) else 0

end HelmFmm

/-- The DAG of a method with the numbers of the Helmholtz kernel; as `methodDag`. -/
noncomputable def helmFmmDag (D : HelmFmm) (acts : List Act) : ExecDag Ref Edge HelmVal where
  nodes := nodesOf acts
  starts := (nodesOf acts).filter fun r => r.side = .src ∧ r.kind = .parts
  edges := edgesOf acts
  src := Edge.src
  dst := Edge.dst
  op := D.op
  base := D.base

end Dashmm
