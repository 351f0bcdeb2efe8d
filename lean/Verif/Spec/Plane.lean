import Verif.Model.Plane
import Mathlib.MeasureTheory.Integral.IntervalIntegral.Basic
import Mathlib.Analysis.SpecialFunctions.Complex.Circle

/-!
Specification of the plane-wave operators: the quadrature rule they evaluate, and what it means that it is accurate.
-/

namespace Dashmm.Lap

open Complex (I)

/-- The Taylor polynomial of degree `p` of the plane wave `exp(lam (z - i (x cos β + y sin β)))`. -/
noncomputable def planeTaylor (p : ℕ) (lam : ℝ) (v : Point ℝ) (β : ℝ) : ℂ :=
  ∑ n ∈ Finset.range (p + 1), ((lam : ℂ) * (v.z - I * (v.x * Real.cos β + v.y * Real.sin β))) ^ n / n.factorial

/-- The part of the Fourier series of `g` with frequencies up to `f`, at `α`. -/
noncomputable def fourierCut (f : ℕ) (g : ℝ → ℂ) (α : ℝ) : ℂ :=
  ∑ m ∈ Finset.Icc (-(f : ℤ)) f,
    ((2 * Real.pi : ℝ) : ℂ)⁻¹ * (∫ β in (0 : ℝ)..2 * Real.pi, g β * Complex.exp (-(m * β * I))) * Complex.exp (m * α * I)

/-- The plane wave as the expansions hold it: Taylor polynomial of degree `p`, frequencies up to `f`. -/
noncomputable def cutWave (p f : ℕ) (lam : ℝ) (v : Point ℝ) (α : ℝ) : ℂ := fourierCut f (planeTaylor p lam v) α

/-- The quadrature rule: what a unit charge at `a` from the centre of its box adds to the potential at `b` from the
centre of another box, if the second centre is at `d` from the first one, with waves in the direction of the
z-axis. -/
noncomputable def planeKernel (R : Rule) (p : ℕ) (a d b : Point ℝ) : ℝ :=
  (∑ k ∈ Finset.range R.s, ((R.wt k / R.m k : ℝ) : ℂ) * ∑ j ∈ Finset.Icc 1 (R.m k),
    let α : ℝ := 2 * Real.pi * j / R.m k
    cutWave p (R.f k) (R.lam k) a α *
      Complex.exp (R.lam k * (-d.z + I * (d.x * Real.cos α + d.y * Real.sin α))) *
      cutWave p (R.f k) (-R.lam k) b α).re

/-- The rule has an even number of angles for each `λ`. -/
def Rule.Even (R : Rule) : Prop := ∀ k < R.s, 0 < R.m k ∧ R.m k % 2 = 0

/-- A position in the unit box about the origin. -/
def InUnit (v : Point ℝ) : Prop := |v.x| ≤ 1 / 2 ∧ |v.y| ≤ 1 / 2 ∧ |v.z| ≤ 1 / 2

/-- The relative error of the rule is at most `ε` for charges and targets in boxes that are two or three boxes apart in
the direction of the z-axis and at most three in the other directions. -/
def Rule.Accurate (R : Rule) (p : ℕ) (ε : ℝ) : Prop :=
  ∀ (a b : Point ℝ) (x y z : ℤ), InUnit a → InUnit b → |x| ≤ 3 → |y| ≤ 3 → 2 ≤ z → z ≤ 3 →
    |planeKernel R p a ⟨x, y, z⟩ b - 1 / (Point.norm ⟨x + b.x - a.x, y + b.y - a.y, z + b.z - a.z⟩)| ≤
      ε * (1 / (Point.norm ⟨x + b.x - a.x, y + b.y - a.y, z + b.z - a.z⟩))

/-- The frame of the directional expansion number `v` (+x, -x, +y, -y, +z, -z): its third axis is the direction. -/
def turn (v : ℕ) (u : Point ℝ) : Point ℝ :=
  match v with
  | 0 => ⟨-u.z, u.y, u.x⟩
  | 1 => ⟨u.z, -u.y, -u.x⟩
  | 2 => ⟨u.z, u.x, u.y⟩
  | 3 => ⟨-u.z, -u.x, -u.y⟩
  | 4 => ⟨u.x, u.y, u.z⟩
  | _ => ⟨-u.x, -u.y, -u.z⟩

end Dashmm.Lap
