import Verif.Model.HelmFmm
import Verif.Spec.YukFmm
import Verif.Spec.HelmShift

/-!
# Specification of an evaluation with the Helmholtz kernel and FMM97

The ways on which contributions reach a target are those of `Verif.Spec.YukFmm`; here are the errors of each.
-/

namespace Dashmm

open Lap Bessel
open scoped Nat

/-- The input is as the tree construction leaves it: every source and every target is in the box of its leaf. -/
structure HelmFmm.Placed (D : HelmFmm) (s : Fin 8 → Oct) : Prop where
  size : 0 < D.dom.size
  srcs : ∀ x ∈ leaves Index.root (.node s), ∀ q ∈ D.srcs x, InCube D.dom x q.pos
  tgts : ∀ ix, ∀ t ∈ D.tgts ix, InCube D.dom ix t

/-- No source and no target is where the code replaces its direction by another (or fails): seen from the centre of
any box of the DAG, every source and target is regular. -/
structure HelmFmm.Clear (D : HelmFmm) (acts : List Act) : Prop where
  srcs : ∀ r ∈ nodesOf acts, ∀ q ∈ nodesOf acts, q.side = .src → q.kind = .parts → AllRegular (D.center r.ix) (D.srcs q.ix)
  tgts : ∀ r ∈ nodesOf acts, ∀ q ∈ nodesOf acts, q.side = .tgt → q.kind = .parts →
    ∀ t ∈ D.tgts q.ix, Regular (t.sub (D.center r.ix))

/-- All sources. -/
def HelmFmm.all (D : HelmFmm) (s : Fin 8 → Oct) : List Src := (leaves Index.root (.node s)).flatMap D.srcs

noncomputable section

namespace Helm

/-- The errors allowed for the functions `j_n(x) / scale ^ n`: `ε` times their leading terms. -/
def errJ (ε scale x : ℝ) (n : ℕ) : ℝ := ε * ((x / scale) ^ n / ((2 * n + 1)‼ : ℕ))

/-- The errors allowed for the functions `scale ^ n h_n(x)`: `ε` times their leading terms. -/
def errH (ε scale x : ℝ) (n : ℕ) : ℝ := ε * (scale ^ n * ((2 * n - 1)‼ : ℕ) / x ^ (n + 1))

/-- The value of a multipole expansion at the displacement `v`: what `M_to_T` computes, with exact functions `h_n`. -/
def multipoleValue (p : ℕ) (om scale : ℝ) (M : Coef) (v : Point ℝ) : ℂ :=
  evalM p M ((ephi v).getD 1) (ctheta v) fun n => scale ^ n * sphH n (om * v.norm)

/-- The value of a local expansion at the displacement `v`: what `L_to_T` computes, with exact functions `j_n`. -/
def localValue (p : ℕ) (om scale : ℝ) (C : LCoef) (v : Point ℝ) : ℂ :=
  evalL p C ((ephi v).getD 1) (ctheta v) fun n => sphJ n (om * v.norm) / scale ^ n

/-- What the program makes of the multipole expansion `M` of the source box `k` for the child number `c` of the box `n`, through plane waves:
`M_to_I`, `I_to_I`, the addition to the views of the box `n`, `I_to_L`. -/
def oneBox (T : PlaneTable) (Q : PropRule) (d : Domain ℝ) (om : ℝ) (p : ℕ) (n : Index) (c : ℕ) (k : Index) (M : Coef) : Option LCoef := do
  let scale := scaleOf d.size om (n.level + 1)
  let S ← mToI T Q d.size om p scale M
  let vs ← iToI T Q d.size om scale ((k.x : ℤ) - 2 * n.x) ((k.y : ℤ) - 2 * n.y) ((k.z : ℤ) - 2 * n.z) S
  let L ← wavesAt T Q d.size om n.level
  let E ← Waves.addViews (Waves.freshViews L.1.nexp) vs.1
  let F ← Waves.addViews (Waves.freshViews L.2.nexp) vs.2
  iToL T Q d.size om (scaleOf d.size om n.level) c E F

/-- The plane waves between boxes of the level `lev` are accurate to `ε` and grow by no more than `G`: a multipole expansion of unit size
gives a local expansion of a size of at most `G` (for sources one and a half boxes away) that agrees with it to `ε` in the target box. -/
def WavesAccurate (T : PlaneTable) (Q : PropRule) (d : Domain ℝ) (om : ℝ) (p lev : ℕ) (ε G : ℝ) : Prop :=
  let scale := scaleOf d.size om lev
  ∀ (n k : Index) (c : ℕ), n.level + 1 = lev → Yukawa.NearParent n k → c < 8 → Separated k (n.child c) → ∀ (M : Coef) (μ : ℝ), RealZonal M →
    Yukawa.MultipoleSize p om scale M μ (Yukawa.childShift d.size lev) →
    ∃ C, oneBox T Q d om p n c k M = some C ∧ LocalSize p om scale C (G * μ) (3 / 2 * d.sizeFromLevel lev) ∧
      ∀ t, InCube d (n.child c) t → Regular (t.sub (d.centerFromIndex (n.child c))) → Regular (t.sub (d.centerFromIndex k)) →
        ‖localValue p om scale C (t.sub (d.centerFromIndex (n.child c))) - multipoleValue p om scale M (t.sub (d.centerFromIndex k))‖ ≤ ε * μ

/-- What errors of `ε` of the functions `h_n` at a target cost: a multipole expansion of unit size, sources up to `R`, a target at `r`. -/
def farCost (p : ℕ) (om ε R r : ℝ) : ℝ := ε / (om * r) * ∑ n ∈ Finset.range (p + 1), (R / r) ^ n

/-- What errors of `ε` of the functions `j_n` at a target cost: a local expansion of unit size, sources from `d` on, a target at `r`. -/
def nearCost (p : ℕ) (ε d r : ℝ) : ℝ := ε * ∑ n ∈ Finset.range (p + 1), (r / d) ^ n

/-- The largest distance of a source from `c`. -/
def farthest (c : Point ℝ) (srcs : List Src) : ℝ := srcs.foldr (fun s m => max (s.pos.sub c).norm m) 0

end Helm

namespace HelmFmm

/-- The functions the program uses on an edge hold up to the relative error `ε`. -/
structure InRange (D : HelmFmm) (ε : ℝ) (e : Edge) : Prop where
  StoM : e.op = .StoM → ∀ q ∈ D.srcs e.src.ix, let x := D.om * (q.pos.sub (D.center e.dst.ix)).norm
    Helm.NearJ D.p x (D.scale e.dst.ix) (Helm.errJ ε (D.scale e.dst.ix) x) (jnScaled D.J D.p x (D.scale e.dst.ix))
  StoL : e.op = .StoL → ∀ q ∈ D.srcs e.src.ix, let x := D.om * (q.pos.sub (D.center e.dst.ix)).norm
    Helm.NearH D.p x (D.scale e.dst.ix) (Helm.errH ε (D.scale e.dst.ix) x) (Helm.hn D.J D.Y D.p x (D.scale e.dst.ix))
  MtoT : e.op = .MtoT → ∀ t ∈ D.tgts e.dst.ix, let x := D.om * (t.sub (D.center e.src.ix)).norm
    Helm.NearH D.p x (D.scale e.src.ix) (Helm.errH ε (D.scale e.src.ix) x) (Helm.hn D.J D.Y D.p x (D.scale e.src.ix))
  LtoT : e.op = .LtoT → ∀ t ∈ D.tgts e.dst.ix, let x := D.om * (t.sub (D.center e.src.ix)).norm
    Helm.NearJ D.p x (D.scale e.src.ix) (Helm.errJ ε (D.scale e.src.ix) x) (jnScaled D.J D.p x (D.scale e.src.ix))
  MtoM : e.op = .MtoM → Helm.GoodTab D.J D.p ε (D.om * Yukawa.childShift D.dom.size e.src.ix.level)
  LtoL : e.op = .LtoL → Helm.GoodTab D.J D.p ε (D.om * Yukawa.childShift D.dom.size e.dst.ix.level)

/-- Half the diagonal of a box. -/
def radius (D : HelmFmm) (lev : ℕ) : ℝ := √3 / 2 * (D.dom.size / 2 ^ lev)

/-- The length of one and a half boxes. -/
def reach (D : HelmFmm) (lev : ℕ) : ℝ := 3 / 2 * D.dom.sizeFromLevel lev

/-- The size of the multipole expansion of the sources of the leaf `x` after `k` translations. -/
def sizeUp (D : HelmFmm) (ε : ℝ) (x : Index) (k : ℕ) : ℝ :=
  Yukawa.totalCharge (D.srcs x) * (Real.exp ((D.om * D.radius x.level) ^ 2 / 6) + ε) *
    ∏ j ∈ Finset.range k, Helm.mToMGrowth D.om ε (D.radius (x.level - j)) (D.radius (x.level - j))

/-- The bound on the error of the contribution of the leaf `x` to the target `t` in the multipole expansion of its `k`-th
ancestor: that of the expansion of the leaf and those of the `k` translations. -/
def pathError (D : HelmFmm) (ε : ℝ) (x : Index) (t : Point ℝ) (k : ℕ) : ℝ :=
  ((D.srcs x).map fun s => |s.charge| * (Helm.truncation D.p D.om (s.pos.sub (D.center x)).norm (t.sub (D.center x)).norm +
    Helm.functionError D.p D.om (D.scale x) (s.pos.sub (D.center x)).norm (t.sub (D.center x)).norm
      (Helm.errJ ε (D.scale x) (D.om * (s.pos.sub (D.center x)).norm)) 0)).sum +
    ∑ j ∈ Finset.range k, D.sizeUp ε x j *
      Helm.mToMBound D.p D.om ε (D.radius (x.level - j)) (D.radius (x.level - j)) (t.sub (D.center (x.parent (j + 1)))).norm

/-- The size of a local expansion, `μ` at the box `b`, after `j` translations. -/
def sizeDown (D : HelmFmm) (ε μ : ℝ) (b : Index) (j : ℕ) : ℝ :=
  μ * ∏ i ∈ Finset.range j, Helm.lToLGrowth D.om ε (D.radius (b.level + i + 1)) (D.reach (b.level + i))

/-- The errors of the translations of a local expansion of the size `μ` from the box `b` down to the box `ix`, at the target `t`. -/
def downError (D : HelmFmm) (ε μ : ℝ) (b ix : Index) (t : Point ℝ) : ℝ :=
  ∑ j ∈ Finset.range (ix.level - b.level), D.sizeDown ε μ b j *
    Helm.lToLBound D.p D.om ε (D.radius (b.level + j + 1))
      (t.sub (D.center (ix.parent (ix.level - (b.level + j + 1))))).norm (t.sub (D.center (ix.parent (ix.level - (b.level + j))))).norm
      (D.reach (b.level + j))

/-- The size of the local expansion that the leaf `x` adds to the box where it becomes a local expansion. -/
def landSize (D : HelmFmm) (ε : ℝ) (G : ℕ → ℝ) (x : Index) : Way → ℝ
  | .near b => Yukawa.totalCharge (D.srcs x) * ((Real.exp (D.om * Helm.farthest (D.center b) (D.srcs x)) + ε) / (D.om * D.reach b.level))
  | .waves a b => G b.level * D.sizeUp ε x (x.level - a.level)
  | _ => 0

/-- The error of the contribution of the leaf `x` to the expansion that the targets of the box `ix` evaluate, at the target `t`; `δ` and `G` are the
accuracy and the growth of the plane waves of the levels. -/
def reachError (D : HelmFmm) (ε : ℝ) (δ G : ℕ → ℝ) (ix : Index) (t : Point ℝ) (y : Index × Way) : ℝ :=
  match y.2 with
  | .direct => 0
  | .far a => D.pathError ε y.1 t (y.1.level - a.level)
  | .near b => ((D.srcs y.1).map fun s => |s.charge| * (Helm.truncation D.p D.om (t.sub (D.center b)).norm (s.pos.sub (D.center b)).norm +
      Helm.functionError D.p D.om (D.scale b) (t.sub (D.center b)).norm (s.pos.sub (D.center b)).norm 0
        (Helm.errH ε (D.scale b) (D.om * (s.pos.sub (D.center b)).norm)))).sum + D.downError ε (D.landSize ε G y.1 y.2) b ix t
  | .waves a b => D.pathError ε y.1 t (y.1.level - a.level) + δ b.level * D.sizeUp ε y.1 (y.1.level - a.level) +
      D.downError ε (D.landSize ε G y.1 y.2) b ix t

/-- What the errors of the functions at the target `t` cost. -/
def evalError (D : HelmFmm) (ε : ℝ) (G : ℕ → ℝ) (ix : Index) (t : Point ℝ) (y : Index × Way) : ℝ :=
  match y.2 with
  | .direct => 0
  | .far a => D.sizeUp ε y.1 (y.1.level - a.level) * Helm.farCost D.p D.om ε (D.radius a.level) (t.sub (D.center a)).norm
  | .near b | .waves _ b => D.sizeDown ε (D.landSize ε G y.1 y.2) b (ix.level - b.level) *
      Helm.nearCost D.p ε (D.reach ix.level) (t.sub (D.center ix)).norm

/-- The error of the contribution of a leaf to the target `t` of the leaf `ix`. -/
def fmmError (D : HelmFmm) (ε : ℝ) (δ G : ℕ → ℝ) (ix : Index) (t : Point ℝ) (y : Index × Way) : ℝ :=
  D.reachError ε δ G ix t y + D.evalError ε G ix t y

end HelmFmm

end
end Dashmm
