import Verif.Model.YukFmm
import Verif.Spec.YukExec
import Verif.Spec.YukPlane
import Verif.Spec.DagBuild

/-!
# Specification of an evaluation with the Yukawa kernel and FMM97

The ways on which the contribution of a leaf of the source tree can reach the targets of a leaf of the target tree, and the
error of each.
-/

namespace Dashmm

open Lap

/-- How the contribution of a leaf gets to a target: directly; through the multipole expansion of the box `a`, evaluated at the
target; through the local expansion of the box `b`, to which the charges are added; or through the multipole expansion of the box `a`,
plane waves and the local expansion of the box `b`. -/
inductive Way where
  | direct
  | far (a : Index)
  | near (b : Index)
  | waves (a b : Index)

/-- The DAG has this way from the source leaf `x` to the target leaf `ix`. -/
def Way.Ok (edges : List Edge) (ix x : Index) : Way → Prop
  | .direct => (⟨.StoT, ⟨.src, x, .parts⟩, ⟨.tgt, ix, .parts⟩⟩ : Edge) ∈ edges
  | .far a => Ancestor a x ∧ (⟨.MtoT, ⟨.src, a, .normal⟩, ⟨.tgt, ix, .parts⟩⟩ : Edge) ∈ edges
  | .near b => Ancestor b ix ∧ (⟨.StoL, ⟨.src, x, .parts⟩, ⟨.tgt, b, .normal⟩⟩ : Edge) ∈ edges
  | .waves a b => Ancestor a x ∧ Ancestor b ix ∧ a.level = b.level ∧ Separated a b ∧
      (⟨.ItoI, ⟨.src, a, .interm⟩, ⟨.tgt, b.parent, .interm⟩⟩ : Edge) ∈ edges

noncomputable section

namespace Yukawa

/-- The growth of the size in `L_to_L`. -/
def lToLGrowth (p : ℕ) (lam δ ρ d : ℝ) : ℝ :=
  (Real.exp (lam ^ 2 * ρ ^ 2 / 6) + tableError p δ (lam * ρ)) * Real.exp (lam ^ 2 * ρ ^ 2 / 3) * Real.exp (lam ^ 2 * ρ * d / 3) * (d / (d - ρ))

/-- The value of a multipole expansion at the displacement `v`: what `M_to_T` computes, without the limits of the range of the functions `k_n`. -/
def multipoleValue (p : ℕ) (lam scale : ℝ) (M : Coef) (v : Point ℝ) : ℝ :=
  evalAt p M ((ephi v).getD 1) (ctheta v) fun n => scale ^ n * Bessel.sphK n (lam * v.norm)

/-- What the program makes of the multipole expansion `M` of the source box `k` for the child number `c` of the box `n`, through plane waves:
`M_to_I`, `I_to_I`, `I_to_L`. -/
def oneBox (T : PlaneTable) (d : Domain ℝ) (lam : ℝ) (p : ℕ) (n : Index) (c : ℕ) (k : Index) (M : Coef) : Option Coef := do
  let scale := scaleOf d.size lam (n.level + 1)
  let S ← mToI T d.size lam p scale M
  let vs ← iToI T d.size lam scale ((k.x : ℤ) - 2 * n.x) ((k.y : ℤ) - 2 * n.y) ((k.z : ℤ) - 2 * n.z) S
  let E ← Waves.addViews (Waves.freshViews (Waves.yukLevel T lam d.size n.level).nexp) vs
  iToL T d.size lam (scaleOf d.size lam n.level) c E

/-- `k` is a box of the level below `n` that is at most two boxes from the children of `n`. -/
def NearParent (n k : Index) : Prop :=
  k.level = n.level + 1 ∧ (-2 ≤ (k.x : ℤ) - 2 * n.x ∧ (k.x : ℤ) - 2 * n.x ≤ 3) ∧ (-2 ≤ (k.y : ℤ) - 2 * n.y ∧ (k.y : ℤ) - 2 * n.y ≤ 3) ∧
    -2 ≤ (k.z : ℤ) - 2 * n.z ∧ (k.z : ℤ) - 2 * n.z ≤ 3

/-- The plane waves between boxes of the level `lev` are accurate to `ε` and grow by no more than `G`: a multipole expansion of unit size
gives a local expansion of a size of at most `G` (for sources one and a half boxes away) that agrees with it to `ε` in the target box. -/
def WavesAccurate (F : Bessel.Table) (T : PlaneTable) (d : Domain ℝ) (lam : ℝ) (p lev : ℕ) (ε G : ℝ) : Prop :=
  let scale := scaleOf d.size lam lev
  ∀ (n k : Index) (c : ℕ), n.level + 1 = lev → NearParent n k → c < 8 → Separated k (n.child c) → ∀ (M : Coef) (μ : ℝ), RealZonal M →
    MultipoleSize p lam scale M μ (childShift d.size lev) →
    ∃ C, oneBox T d lam p n c k M = some C ∧ RealZonal C ∧ LocalSize p lam scale C (G * μ) (3 / 2 * d.sizeFromLevel lev) ∧
      ∀ t, InCube d (n.child c) t → Regular (t.sub (d.centerFromIndex (n.child c))) → Regular (t.sub (d.centerFromIndex k)) →
        ∃ v, lToT F lam p (d.centerFromIndex (n.child c)) scale C t = some v ∧
          |v - multipoleValue p lam scale M (t.sub (d.centerFromIndex k))| ≤ ε * μ

end Yukawa

namespace YukData

/-- The length of one and a half boxes. -/
def reach (D : YukData) (lev : ℕ) : ℝ := 3 / 2 * D.dom.sizeFromLevel lev

/-- The size of a local expansion, `μ` at the box `b`, after `j` translations. -/
def sizeDown (D : YukData) (δ μ : ℝ) (b : Index) (j : ℕ) : ℝ :=
  μ * ∏ i ∈ Finset.range j, Yukawa.lToLGrowth D.p D.lam δ (D.radius (b.level + i + 1)) (D.reach (b.level + i))

/-- The errors of the translations of a local expansion of the size `μ` from the box `b` down to the box `ix`, at the target `t`. -/
def downError (D : YukData) (δ μ : ℝ) (b ix : Index) (t : Point ℝ) : ℝ :=
  ∑ j ∈ Finset.range (ix.level - b.level), D.sizeDown δ μ b j *
    Yukawa.lToLBound D.p D.lam (Yukawa.scaleOf D.dom.size D.lam (b.level + j)) δ (D.radius (b.level + j + 1))
      (t.sub (D.center (ix.parent (ix.level - (b.level + j + 1))))).norm (t.sub (D.center (ix.parent (ix.level - (b.level + j))))).norm
      (D.reach (b.level + j))

/-- The size of the local expansion that the leaf `x` adds to the box where it becomes a local expansion. -/
def landSize (D : YukData) (δ : ℝ) (G : ℕ → ℝ) (x : Index) : Way → ℝ
  | .near b => Real.pi / (2 * D.lam) * Yukawa.totalCharge (D.srcs x) / D.reach b.level
  | .waves a b => G b.level * D.sizeUp δ x (x.level - a.level)
  | _ => 0

/-- The error of the contribution of the leaf `x` to the target `t` of the leaf `ix`; `ε` and `G` are the accuracy and the growth of the plane
waves of the levels. -/
def fmmError (D : YukData) (δ : ℝ) (ε G : ℕ → ℝ) (ix : Index) (t : Point ℝ) (y : Index × Way) : ℝ :=
  match y.2 with
  | .direct => 0
  | .far a => D.pathError δ y.1 t (y.1.level - a.level)
  | .near b => Yukawa.localBound D.p D.lam (D.scale b) δ (D.center b) (D.srcs y.1) t + D.downError δ (D.landSize δ G y.1 y.2) b ix t
  | .waves a b => D.pathError δ y.1 t (y.1.level - a.level) + ε b.level * D.sizeUp δ y.1 (y.1.level - a.level) +
      D.downError δ (D.landSize δ G y.1 y.2) b ix t

end YukData

end
end Dashmm
