import Verif.Model.Kernels
import Verif.Model.MergeShift
/-!
Model of the weights that the expansions give to the edges of the DAG: `weight_estimate` of
/repo/include/builtins/laplace.h, yukawa.h, helmholtz.h, laplace_com.h and laplace_com_acc.h.
-/
namespace Dashmm

/-- The three differences and the loop over `merge_and_shift_table[dx + 2][dy + 2][dz + 2][i]` with its `break`,
laplace.h:356-365 (the same in yukawa.h:314-323 and helmholtz.h:1079-1088): how often the loop body gets past the
`break`; `none` if a subscript is out of range. -/
def countTags (s t : Index) : Option Nat :=
  (mergeTags ((s.x : Int) - 2 * t.x) ((s.y : Int) - 2 * t.y) ((s.z : Int) - 2 * t.z)).map List.length

/-- `weight_estimate(op, s, t)`: laplace.h:350-370; yukawa.h:307-328 and helmholtz.h:1072-1094, where the branch for `ItoI`
declares a second variable `weight` and counts in that one, so that the first, still `0`, is returned; laplace_com.h:307-310
and laplace_com_acc.h:336-339. `none` is a read outside of the table. -/
def weightEstimate (k : Expansion) (op : Op) (s t : Index) : Option Int :=
  match k with
  | .laplaceCOM | .laplaceCOMAcc => some 1
  | .laplace =>
    match op with
    | .MtoI => some 6
    | .ItoI => (countTags s t).map fun n => (n : Int)
    | _ => some 1
  | .yukawa | .helmholtz =>
    match op with
    | .MtoI => some 6
    | .ItoI => do
      let weight : Int := 0
      let _inner ← countTags s t
      some weight
    | _ => some 1

/-- `DAGEdge::weight`, dag.h:44, as the methods fill it (fmm97_method.h:175-177 and all other calls in bh_method.h,
fmm_method.h, fmm97_method.h; `s` and `t` are given for `ItoI` only and read for `ItoI` only). `0` stands for the
value of a read outside of the table. -/
def edgeWeight (k : Expansion) (e : Edge) : Int := (weightEstimate k e.op e.src.ix e.dst.ix).getD 0

end Dashmm
