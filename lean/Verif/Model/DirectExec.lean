import Verif.Model.MethodExec
import Verif.Model.Helmholtz
import Mathlib.Algebra.Order.Monoid.WithTop
import Mathlib.Algebra.Group.Prod

/-!
The execution of a DAG with the values of any kernel, and with the targets of the Helmholtz kernel.
-/

namespace Dashmm

open Lap (Src)

/-- The DAG of a method with the operations of a kernel, built in or written by the user: the values the LCOs hold, what an operation makes
of the value of its source, and what the LCOs hold at first; as `methodDag`. (`ExpansionLCO` and `TargetLCO` are templates over the
expansion: include/dashmm/expansionlco.h:73-77, include/dashmm/targetlco.h:60-64.) -/
def kernelDag {V : Type} (op : Edge → V → V) (base : Ref → V) (acts : List Act) : ExecDag Ref Edge V where
  nodes := nodesOf acts
  starts := (nodesOf acts).filter fun r => r.side = .src ∧ r.kind = .parts
  edges := edgesOf acts
  src := Edge.src
  dst := Edge.dst
  op := op
  base := base

/-- The data of an evaluation with the Helmholtz kernel and the direct method: the parameter `om`, the sources of each leaf of the source tree,
the targets of each leaf of the target tree and what they hold at first (`phi`). -/
structure HelmTargets where
  om : ℝ
  srcs : Index → List Src
  tgts : Index → List (Point ℝ)
  phi : Index → ℕ → ℂ

namespace HelmTargets

/-- The operations of the direct method: `S_to_T`, dualtree.h:1666-1705, targetlco.h:182-218, include/builtins/helmholtz.h:480-497. What an LCO
holds is the field at the targets by their position in the leaf; `⊤` stands for no value. The direct method has no other operation: no value. -/
noncomputable def op (D : HelmTargets) (e : Edge) (_ : ℕ → WithTop ℂ) : ℕ → WithTop ℂ :=
  match e.op with
  | .StoT => fun i =>
    match (D.tgts e.dst.ix)[i]? with
    | some t => Helm.sToT D.om (D.srcs e.src.ix) t
    | none => 0
  | _ => fun _ => ⊤

/-- What a node holds at first: the targets as given by the user. -/
noncomputable def base (D : HelmTargets) (r : Ref) : ℕ → WithTop ℂ :=
  if r.side = .tgt ∧ r.kind = .parts then fun i => (D.phi r.ix i : ℂ) else 0

end HelmTargets

end Dashmm
