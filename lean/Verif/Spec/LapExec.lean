import Verif.Model.LapExec
import Verif.Spec.Laplace
import Verif.Spec.Plane

/-!
Specification of an evaluation with the Laplace kernel.
-/

namespace Dashmm

open Lap

/-- A position in the (closed) box of an index. -/
def InCube (d : Domain ℝ) (ix : Index) (v : Point ℝ) : Prop :=
  |v.x - (d.centerFromIndex ix).x| ≤ d.sizeFromLevel ix.level / 2 ∧
  |v.y - (d.centerFromIndex ix).y| ≤ d.sizeFromLevel ix.level / 2 ∧
  |v.z - (d.centerFromIndex ix).z| ≤ d.sizeFromLevel ix.level / 2

/-- The input is as the tree construction leaves it: every source and every target is in the box of its leaf. -/
structure LapData.Placed (D : LapData) (s : Fin 8 → Oct) : Prop where
  size : 0 < D.dom.size
  srcs : ∀ x ∈ leaves Index.root (.node s), ∀ q ∈ D.srcs x, InCube D.dom x q.pos
  tgts : ∀ ix, ∀ t ∈ D.tgts ix, InCube D.dom ix t

/-- No source and no target is where the code replaces its direction by another (or fails): seen from the centre of
any box of the DAG, every source and target is regular. -/
structure LapData.Clear (D : LapData) (acts : List Act) : Prop where
  srcs : ∀ r ∈ nodesOf acts, ∀ q ∈ nodesOf acts, q.side = .src → q.kind = .parts → AllRegular (D.center r.ix) (D.srcs q.ix)
  tgts : ∀ r ∈ nodesOf acts, ∀ q ∈ nodesOf acts, q.side = .tgt → q.kind = .parts →
    ∀ t ∈ D.tgts q.ix, Regular (t.sub (D.center r.ix))

/-- All sources. -/
def LapData.all (D : LapData) (s : Fin 8 → Oct) : List Src := (leaves Index.root (.node s)).flatMap D.srcs

/-- The bound on the relative error of FMM with expansions of order `p`. -/
noncomputable def fmmEps (p : ℕ) : ℝ := 2 * (2 + √3) ^ 2 * (√3 / (4 - √3)) ^ (p + 1)

end Dashmm
