import Verif.Spec.YukPlane
import Verif.Spec.Helmholtz
import Verif.Model.HelmPlane

/-!
# Specification of the plane waves of the Helmholtz kernel

In units of the length `1 / ω` the potential `exp(i R) / (i R)` is an integral of plane waves `exp(i w · v)` with directions `w`,
`w · w = 1`: real directions (propagating waves) and complex ones (evanescent waves, which decay along the axis). The
expansions hold, for the nodes of the two quadrature rules, the parts of low degree and low frequency of such waves.
-/

namespace Dashmm.Helm

open Complex (I)
open Lap (fourierCut PlaneTable)
open Waves (Level planeWave travelWave)
open Yukawa (legendreP WaveSrc)

noncomputable section

/-- The inner product of `u` with the direction that has the angle `θ` to the z-axis and the angle `β` around it. -/
def travelCos (θ : ℝ) (u : Point ℝ) (β : ℝ) : ℂ :=
  Real.sin θ * (u.x * Real.cos β + u.y * Real.sin β) + Real.cos θ * u.z

/-- The inner product of `u` with the complex direction of the wave with the angle `β` that decays as `exp(-x z)` and has the wave
number `√(x² + wd²)` across, in units in which `ω` is `wd`. -/
def decayCos (wd x : ℝ) (u : Point ℝ) (β : ℝ) : ℂ :=
  (√(x * x + wd * wd) * (u.x * Real.cos β + u.y * Real.sin β) + I * (x * u.z)) / wd

/-- The terms of degree up to `p` of the plane wave `exp(-i r w)`, where `w` is the cosine `c` of the angle with the direction of the wave,
with the radial factors `b`. -/
def series (p : ℕ) (b : ℕ → ℝ) (c : ℝ → ℂ) (β : ℝ) : ℂ :=
  ∑ n ∈ Finset.range (p + 1), (2 * n + 1) * b n * (-I) ^ n * legendreP (c β) n

/-- The same, with frequencies up to `f`. -/
def cutSeries (p f : ℕ) (b : ℕ → ℝ) (c : ℝ → ℂ) (α : ℝ) : ℂ := fourierCut f (series p b c) α

/-- The two quadrature rules: what a unit charge in the direction `a` from the centre of its box with radial factors `ra` adds to the
potential in the direction `b`, with radial factors `rb`, from the centre of another box that is at `d` from the
first one (in units of the boxes), with waves along the z-axis: propagating waves of the nodes of `Q`, and evanescent ones of the nodes
of `T`. -/
def planeRule (T : PlaneTable) (Q : PropRule) (L : Level × Level) (wd : ℝ) (p : ℕ) (ra : ℕ → ℝ) (a : Point ℝ) (d : ℤ × ℤ × ℤ) (rb : ℕ → ℝ)
    (b : Point ℝ) : ℂ :=
  (∑ k ∈ Finset.range L.2.s, ((Q.w k / L.2.m k : ℝ) : ℂ) * ∑ j ∈ Finset.Icc 1 (L.2.m k),
    let θ := Q.x k
    let α : ℝ := 2 * Real.pi * j / L.2.m k
    cutSeries p (L.2.f k) ra (travelCos θ a) α * travelWave (wd * Real.sin θ) (wd * Real.cos θ) α d.1 d.2.1 d.2.2 *
      cutSeries p (L.2.f k) rb (travelCos θ ⟨-b.x, -b.y, -b.z⟩) α) +
  -I / wd * ∑ k ∈ Finset.range L.1.s, ((T.rule.wt k / L.1.m k : ℝ) : ℂ) * ∑ j ∈ Finset.Icc 1 (L.1.m k),
    let x := T.rule.lam k
    let α : ℝ := 2 * Real.pi * j / L.1.m k
    cutSeries p (L.1.f k) ra (decayCos wd x a) α * planeWave √(x * x + wd * wd) x α d.1 d.2.1 d.2.2 *
      cutSeries p (L.1.f k) rb (decayCos wd x ⟨-b.x, -b.y, -b.z⟩) α

/-- What the program does with some source boxes of a target parent `n`, for the child number `c` of `n`: `S_to_M`, `M_to_I` and `I_to_I`
for each of them, the results are added; then `I_to_L`. -/
def throughWaves (J : Bessel.Table) (T : PlaneTable) (Q : PropRule) (d : Domain ℝ) (om : ℝ) (p : ℕ) (n : Index) (c : ℕ) (boxes : List WaveSrc) :
    Option LCoef := do
  let scale := scaleOf d.size om (n.level + 1)
  let L ← wavesOf T Q d.size om (scaleOf d.size om n.level)
  let E ← boxes.foldlM (fun (E : (ℕ → List ℂ) × (ℕ → List ℂ)) b => do
    let M ← sToM J om p (d.centerFromIndex b.ix) scale b.srcs
    let S ← mToI T Q d.size om p scale M
    let vs ← iToI T Q d.size om scale (b.box n).dx (b.box n).dy (b.box n).dz S
    let e ← Waves.addViews E.1 vs.1
    let q ← Waves.addViews E.2 vs.2
    some (e, q)) (Waves.freshViews L.1.nexp, Waves.freshViews L.2.nexp)
  iToL T Q d.size om (scaleOf d.size om n.level) c E.1 E.2

/-- The radial factors of the code for a vector: `j_n(ω r)` up to the errors of the table. -/
def radial (J : Bessel.Table) (om scale : ℝ) (nb : ℕ) (v : Point ℝ) (n : ℕ) : ℝ := Bessel.jnScaled J nb (om * v.norm) scale n * scale ^ n

/-- The error of the rules for boxes of the level `lev` is at most `ε` times the size of the kernel, for charges and targets not in the
centres of boxes that are two or three boxes apart in the direction of the z-axis and at most three in the other directions; `D` is the
length of a box. -/
def RuleAccurate (J : Bessel.Table) (T : PlaneTable) (Q : PropRule) (d : Domain ℝ) (om : ℝ) (p lev : ℕ) (ε : ℝ) : Prop :=
  let D := d.sizeFromLevel lev
  let scale := scaleOf d.size om lev
  ∀ (L : Level × Level), wavesAt T Q d.size om lev = some L → ∀ (a b : Point ℝ) (x y z : ℤ),
    Lap.InUnit ⟨a.x / D, a.y / D, a.z / D⟩ → Lap.InUnit ⟨b.x / D, b.y / D, b.z / D⟩ → a.norm ≠ 0 → b.norm ≠ 0 →
    |x| ≤ 3 → |y| ≤ 3 → 2 ≤ z → z ≤ 3 →
    let R := Point.norm ⟨x * D + b.x - a.x, y * D + b.y - a.y, z * D + b.z - a.z⟩
    ‖planeRule T Q L (om * D) p (radial J om scale p a) (Yukawa.unit a) (x, y, z) (radial J om scale p b) (Yukawa.unit b) -
      Complex.exp (I * (om * R : ℝ)) / (I * (om * R : ℝ))‖ ≤ ε / (om * R)

end
end Dashmm.Helm
