import Verif.Model.YukExec
import Verif.Model.YukPlane

/-!
The execution of a DAG with the numbers of the Yukawa kernel, the plane waves of FMM97 included: `Model.YukExec` with the operations of
`Model.YukPlane`.
-/

namespace Dashmm

open Lap (Coef PlaneTable)
open Waves (yukLevel)

/-- The data of an evaluation with the Yukawa kernel and plane waves: those of `YukData`, and the tables of the quadrature rule for the
wanted accuracy. -/
structure YukFmm extends YukData where
  plane : PlaneTable

/-- The views of an intermediate expansion, the entries of each by their position. (The code has arrays; their lengths are those of
the level, `YukFmm.entries`.) -/
abbrev WaveViews := ℕ → ℕ → ℂ

/-- What an LCO holds: an expansion (`ExpansionLCO`; the coefficients for the primary roles, the views for the intermediate
ones), and the potentials of targets by their position in the leaf (`TargetLCO`). `⊤` stands for no value: whatever is added to it, it
stays. -/
abbrev YukFmmVal := WithTop Coef × WithTop WaveViews × (ℕ → WithTop ℝ)

namespace YukFmm

/-- The length of the views of an expansion of a box, include/builtins/yukawa.h:95-124 (`nexp(scale)` of the table of the level). -/
noncomputable def entries (D : YukFmm) (ix : Index) : ℕ := (yukLevel D.plane D.lam D.dom.size ix.level).nexp

/-- Views as arrays of the length `n`. -/
def arrays (n : ℕ) (E : WaveViews) : ℕ → List ℂ := fun v => (List.range n).map (E v)

/-- Arrays as views. -/
noncomputable def ofArrays (S : ℕ → List ℂ) : WaveViews := fun v i => (S v).getD i 0

/-- What the views made by `I_to_I` add to each view of the target: `add_expansion`, include/builtins/yukawa.h:282-296. -/
noncomputable def ofMade (vs : List (ℕ × List ℂ)) : WaveViews := fun v i => ((vs.filter fun q => q.1 = v).map fun q => q.2.getD i 0).sum

/-- The operation along an edge: as `YukData.op`, and `MtoI`, `ItoI`, `ItoL`: expansionlco.h:614-687, include/builtins/yukawa.h:254-279. A view
that is longer than that of the target would be added past its end: no value. -/
noncomputable def op (D : YukFmm) (e : Edge) (x : YukFmmVal) : YukFmmVal :=
  match e.op with
  | .MtoI => (0, Option.bind x.1 fun M => (Yukawa.mToI D.plane D.dom.size D.lam D.p (D.scale e.src.ix) M).map ofArrays, 0)
  | .ItoI =>
    let dx := (e.src.ix.x : ℤ) - 2 * e.dst.ix.x
    let dy := (e.src.ix.y : ℤ) - 2 * e.dst.ix.y
    let dz := (e.src.ix.z : ℤ) - 2 * e.dst.ix.z
    (0, Option.bind x.2.1 fun S => Option.bind
      (Yukawa.iToI D.plane D.dom.size D.lam (D.scale e.src.ix) dx dy dz (arrays (D.entries e.src.ix) S)) fun vs =>
        if vs.all (fun q => q.2.length ≤ D.entries e.dst.ix) then some (ofMade vs) else none, 0)
  | .ItoL => (Option.bind x.2.1 fun E =>
      Yukawa.iToL D.plane D.dom.size D.lam (D.scale e.src.ix) (toChild e.dst.ix) (arrays (D.entries e.src.ix) E), 0, 0)
  | _ =>
    let y := D.toYukData.op e (x.1, x.2.2)
    (y.1, 0, y.2)

/-- What a node holds at first: the targets as given by the user, zero expansions. -/
noncomputable def base (D : YukFmm) (r : Ref) : YukFmmVal :=
  let y := D.toYukData.base r
  (y.1, 0, y.2)

end YukFmm

/-- The DAG of a method with the numbers of the Yukawa kernel; as `methodDag`. -/
noncomputable def yukFmmDag (D : YukFmm) (acts : List Act) : ExecDag Ref Edge YukFmmVal where
  nodes := nodesOf acts
  starts := (nodesOf acts).filter fun r => r.side = .src ∧ r.kind = .parts
  edges := edgesOf acts
  src := Edge.src
  dst := Edge.dst
  op := D.op
  base := D.base

end Dashmm
