import Verif.Model.Com

/-!
# What the moments of a set of sources are

Sums over all sources at once; nothing here refers to how the code computes.
-/

namespace Dashmm.Com

variable {K : Type} [Field K]

mutual
/-- All sources below a tree node. -/
def MTree.sources : MTree K → List (Src K)
  | .leaf srcs => srcs
  | .node kids => sourcesList kids
/-- All sources below a list of tree nodes. -/
def sourcesList : List (MTree K) → List (Src K)
  | [] => []
  | t :: ts => t.sources ++ sourcesList ts
end

/-- The sum over the sources of `charge * g(source)`. -/
def total (srcs : List (Src K)) (g : Src K → K) : K :=
  (srcs.map (fun s => s.charge * g s)).sum

/-- The entry `3 u v - δ |d|²` of the quadrupole tensor of a unit charge at
displacement `d`, from the two coordinates and `δ |d|²`. -/
def sq (s : Src K) (c0 c1 c2 : K) : K :=
  (s.x - c0) ^ 2 + (s.y - c1) ^ 2 + (s.z - c2) ^ 2

/-- `d` holds the total charge of the sources, a centre of charge of theirs and
their traceless quadrupole tensor about that centre. -/
structure IsMoments (d : Data K) (srcs : List (Src K)) : Prop where
  mtot : d.mtot = total srcs (fun _ => 1)
  cx : d.mtot * d.c0 = total srcs (·.x)
  cy : d.mtot * d.c1 = total srcs (·.y)
  cz : d.mtot * d.c2 = total srcs (·.z)
  qxx : d.qxx = total srcs fun s => 3 * (s.x - d.c0) * (s.x - d.c0) - sq s d.c0 d.c1 d.c2
  qxy : d.qxy = total srcs fun s => 3 * (s.x - d.c0) * (s.y - d.c1)
  qxz : d.qxz = total srcs fun s => 3 * (s.x - d.c0) * (s.z - d.c2)
  qyy : d.qyy = total srcs fun s => 3 * (s.y - d.c1) * (s.y - d.c1) - sq s d.c0 d.c1 d.c2
  qyz : d.qyz = total srcs fun s => 3 * (s.y - d.c1) * (s.z - d.c2)
  qzz : d.qzz = total srcs fun s => 3 * (s.z - d.c2) * (s.z - d.c2) - sq s d.c0 d.c1 d.c2

end Dashmm.Com
