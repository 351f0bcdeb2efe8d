import Verif.Spec.Plane
import Verif.Spec.Waves
import Verif.Spec.Bessel
import Verif.Model.YukPlane
import Verif.Model.Geometry

/-!
# Specification of the plane waves of the Yukawa kernel

In units of the length `1 / λ` the screened potential is an integral of plane waves `exp(w · v)` with complex directions `w`,
`w · w = 1`. The expansions hold, for the nodes of the quadrature rule, the parts of low degree and low frequency of such
waves.
-/

namespace Dashmm.Yukawa

open Complex (I)
open Lap (fourierCut PlaneTable)
open Waves (Level planeWave)

noncomputable section

/-- The Legendre polynomials, by the recurrence of Bonnet. -/
def legendreP (ζ : ℂ) : ℕ → ℂ
  | 0 => 1
  | 1 => ζ
  | n + 2 => ((2 * n + 3) * ζ * legendreP ζ (n + 1) - (n + 1) * legendreP ζ n) / (n + 2)

/-- The inner product of a direction `u` with the complex direction of the wave with the angle `β` that decays as
`exp(-(x + ld) z)` and has the wave number `√(x² + 2 x ld)` across, in units in which `λ` is `ld`. -/
def waveCos (ld x : ℝ) (u : Point ℝ) (β : ℝ) : ℂ :=
  ((ld + x) * u.z - I * (√(x * x + 2 * x * ld) * (u.x * Real.cos β + u.y * Real.sin β))) / ld

/-- The terms of degree up to `p` of a plane wave in the direction `u`, with the radial factors `b`. -/
def waveSeries (p : ℕ) (b : ℕ → ℝ) (ld x : ℝ) (u : Point ℝ) (β : ℝ) : ℂ :=
  ∑ n ∈ Finset.range (p + 1), (2 * n + 1) * b n * legendreP (waveCos ld x u β) n

/-- The same, with frequencies up to `f`. -/
def cutSeries (p f : ℕ) (b : ℕ → ℝ) (ld x : ℝ) (u : Point ℝ) (α : ℝ) : ℂ := fourierCut f (waveSeries p b ld x u) α

/-- The quadrature rule: what a unit charge in the direction `a` from the centre of its box with radial factors `ra` adds to the
potential in the direction `b`, with radial factors `rb`, from the centre of another box that is at `(x, y, z)` from the
first one (in units of the boxes), with waves along the z-axis. -/
def planeRule (T : PlaneTable) (L : Level) (ld : ℝ) (p : ℕ) (ra : ℕ → ℝ) (a : Point ℝ) (d : ℤ × ℤ × ℤ) (rb : ℕ → ℝ) (b : Point ℝ) : ℝ :=
  Real.pi / (2 * ld) * (∑ k ∈ Finset.range L.s, ((T.rule.wt k / L.m k : ℝ) : ℂ) * ∑ j ∈ Finset.Icc 1 (L.m k),
    let x := T.rule.lam k
    let α : ℝ := 2 * Real.pi * j / L.m k
    cutSeries p (L.f k) ra ld x a α * planeWave √(x * x + 2 * x * ld) (x + ld) α d.1 d.2.1 d.2.2 *
      cutSeries p (L.f k) rb ld x ⟨-b.x, -b.y, -b.z⟩ α).re

/-- A source box: its index and the charges in it. -/
structure WaveSrc where
  ix : Index
  srcs : List Lap.Src

/-- Where a source box lies from the first child of the target parent `n`. -/
def WaveSrc.box (b : WaveSrc) (n : Index) : Waves.SrcBox :=
  ⟨(b.ix.x : ℤ) - 2 * n.x, (b.ix.y : ℤ) - 2 * n.y, (b.ix.z : ℤ) - 2 * n.z, fun _ _ _ => 0⟩

/-- What the program does with some source boxes of a target parent `n`, for the child number `c` of `n`: `S_to_M`, `M_to_I` and `I_to_I`
for each of them, the results are added; then `I_to_L`. -/
def throughWaves (F : Bessel.Table) (T : PlaneTable) (d : Domain ℝ) (lam : ℝ) (p : ℕ) (n : Index) (c : ℕ) (boxes : List WaveSrc) :
    Option Lap.Coef := do
  let scale := scaleOf d.size lam (n.level + 1)
  let E ← boxes.foldlM (fun E b => do
    let M ← sToM F lam p (d.centerFromIndex b.ix) scale b.srcs
    let S ← mToI T d.size lam p scale M
    let vs ← iToI T d.size lam scale (b.box n).dx (b.box n).dy (b.box n).dz S
    Waves.addViews E vs) (Waves.freshViews (Waves.yukLevel T lam d.size n.level).nexp)
  iToL T d.size lam (scaleOf d.size lam n.level) c E

/-- The direction of a vector. -/
def unit (v : Point ℝ) : Point ℝ := ⟨v.x / v.norm, v.y / v.norm, v.z / v.norm⟩

/-- The radial factors of the code for a vector: `i_n(λ r)` up to the errors of the table. -/
def radial (F : Bessel.Table) (lam scale : ℝ) (nb : ℕ) (v : Point ℝ) (n : ℕ) : ℝ := Bessel.inScaled F nb (lam * v.norm) scale n * scale ^ n

/-- The relative error of the rule for boxes of the level `lev` is at most `ε`, for charges and targets that the code can take angles of, in
boxes that are two or three boxes apart in the direction of the z-axis and at most three in the other directions; `D` is the
length of a box. -/
def RuleAccurate (F : Bessel.Table) (T : PlaneTable) (d : Domain ℝ) (lam : ℝ) (p lev : ℕ) (ε : ℝ) : Prop :=
  let D := d.sizeFromLevel lev
  let scale := scaleOf d.size lam lev
  ∀ (a b : Point ℝ) (x y z : ℤ), Lap.InUnit ⟨a.x / D, a.y / D, a.z / D⟩ → Lap.InUnit ⟨b.x / D, b.y / D, b.z / D⟩ → a.norm ≠ 0 → b.norm ≠ 0 →
    |x| ≤ 3 → |y| ≤ 3 → 2 ≤ z → z ≤ 3 →
    let R := Point.norm ⟨x * D + b.x - a.x, y * D + b.y - a.y, z * D + b.z - a.z⟩
    |planeRule T (Waves.yukLevel T lam d.size lev) (lam * D) p (radial F lam scale p a) (unit a) (x, y, z) (radial F lam scale (p + 1) b) (unit b) -
      Real.pi / (2 * lam) * (Real.exp (-(lam * R)) / R)| ≤ ε * (Real.pi / (2 * lam) * (Real.exp (-(lam * R)) / R))

end
end Dashmm.Yukawa
