import Verif.Model.YukExec
import Verif.Spec.YukShift
import Verif.Spec.LapExec

/-!
Specification of an evaluation with the Yukawa kernel.
-/

namespace Dashmm

open Lap

/-- The input is as the tree construction leaves it: every source and every target is in the box of its leaf. -/
structure YukData.Placed (D : YukData) (s : Fin 8 → Oct) : Prop where
  size : 0 < D.dom.size
  srcs : ∀ x ∈ leaves Index.root (.node s), ∀ q ∈ D.srcs x, InCube D.dom x q.pos
  tgts : ∀ ix, ∀ t ∈ D.tgts ix, InCube D.dom ix t

/-- No source and no target is where the code replaces its direction by another (or fails): seen from the centre of
any box of the DAG, every source and target is regular. -/
structure YukData.Clear (D : YukData) (acts : List Act) : Prop where
  srcs : ∀ r ∈ nodesOf acts, ∀ q ∈ nodesOf acts, q.side = .src → q.kind = .parts → AllRegular (D.center r.ix) (D.srcs q.ix)
  tgts : ∀ r ∈ nodesOf acts, ∀ q ∈ nodesOf acts, q.side = .tgt → q.kind = .parts →
    ∀ t ∈ D.tgts q.ix, Regular (t.sub (D.center r.ix))

/-- All sources. -/
def YukData.all (D : YukData) (s : Fin 8 → Oct) : List Src := (leaves Index.root (.node s)).flatMap D.srcs

namespace YukData

noncomputable section

/-- Half the diagonal of a box. -/
def radius (D : YukData) (lev : ℕ) : ℝ := √3 / 2 * (D.dom.size / 2 ^ lev)

/-- The size of the multipole expansion of the sources of the leaf `x` after `k` translations, `δ` the relative error of the table of
Bessel functions. -/
def sizeUp (D : YukData) (δ : ℝ) (x : Index) (k : ℕ) : ℝ :=
  Yukawa.totalCharge (D.srcs x) * Yukawa.chargeSize D.p D.lam (D.scale x) δ (D.radius x.level) *
    ∏ j ∈ Finset.range k, Yukawa.mToMGrowth D.p D.lam δ (D.radius (x.level - j)) (D.radius (x.level - j))

/-- The bound on the error of the contribution of the leaf `x` to the target `t` through the multipole expansion of its `k`-th
ancestor: that of the expansion of the leaf and those of the `k` translations. -/
def pathError (D : YukData) (δ : ℝ) (x : Index) (t : Point ℝ) (k : ℕ) : ℝ :=
  Yukawa.multipoleBound D.p D.lam (D.scale x) δ (D.center x) (D.srcs x) t +
    ∑ j ∈ Finset.range k, D.sizeUp δ x j *
      Yukawa.mToMBound D.p D.lam δ (D.radius (x.level - j)) (D.radius (x.level - j)) (t.sub (D.center (x.parent (j + 1)))).norm

/-- The bound on the error of the contribution of a leaf to the target `t`, directly (`none`) or through the multipole expansion of
the ancestor `a` (`some a`). -/
def wayError (D : YukData) (δ : ℝ) (t : Point ℝ) : Index × Option Index → ℝ
  | (_, none) => 0
  | (x, some a) => D.pathError δ x t (x.level - a.level)

end
end YukData

/-- `a` is an ancestor of the box `x`, or `x` itself. -/
def Ancestor (a x : Index) : Prop := a.level ≤ x.level ∧ x.parent (x.level - a.level) = a

end Dashmm
