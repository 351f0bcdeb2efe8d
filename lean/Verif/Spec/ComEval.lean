import Verif.Spec.Com
import Mathlib.Analysis.Real.Sqrt

/-!
# What the sources do to a point

The potential `Σ q/|x - y|` and the field `Σ q (x - y)/|x - y|³` of point
sources, a source at the point itself being left out.
-/

namespace Dashmm.Com

/-- Square of the distance of `(x, y, z)` from a source. -/
def dist2 (s : Src ℝ) (x y z : ℝ) : ℝ := (x - s.x) ^ 2 + (y - s.y) ^ 2 + (z - s.z) ^ 2

/-- The potential of the sources at `(x, y, z)`. -/
noncomputable def potential (srcs : List (Src ℝ)) (x y z : ℝ) : ℝ :=
  (srcs.map fun s =>
    if dist2 s x y z = 0 then 0 else s.charge / Real.sqrt (dist2 s x y z)).sum

/-- A component of the field of the sources at `(x, y, z)`; `comp s` is the
component of the displacement from the source. -/
noncomputable def fieldComp (srcs : List (Src ℝ)) (x y z : ℝ) (comp : Src ℝ → ℝ) : ℝ :=
  (srcs.map fun s =>
    if dist2 s x y z = 0 then 0
    else s.charge * comp s / Real.sqrt (dist2 s x y z) ^ 3).sum

noncomputable def fieldX (srcs : List (Src ℝ)) (x y z : ℝ) : ℝ :=
  fieldComp srcs x y z (fun s => x - s.x)
noncomputable def fieldY (srcs : List (Src ℝ)) (x y z : ℝ) : ℝ :=
  fieldComp srcs x y z (fun s => y - s.y)
noncomputable def fieldZ (srcs : List (Src ℝ)) (x y z : ℝ) : ℝ :=
  fieldComp srcs x y z (fun s => z - s.z)

/-- Sum of the absolute values of the charges. -/
noncomputable def absCharge (srcs : List (Src ℝ)) : ℝ := (srcs.map fun s => |s.charge|).sum

/-- The sources lie in the ball of radius `a` around the expansion centre and
`(x, y, z)` is at distance `r` from it. -/
structure Separated (d : Data ℝ) (srcs : List (Src ℝ)) (a r x y z : ℝ) : Prop where
  a_nonneg : 0 ≤ a
  near : ∀ s ∈ srcs, (s.x - d.c0) ^ 2 + (s.y - d.c1) ^ 2 + (s.z - d.c2) ^ 2 ≤ a ^ 2
  r_nonneg : 0 ≤ r
  dist : (x - d.c0) ^ 2 + (y - d.c1) ^ 2 + (z - d.c2) ^ 2 = r ^ 2
  apart : a < r

end Dashmm.Com
