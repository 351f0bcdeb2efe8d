import Verif.Model.Geometry
import Mathlib.Analysis.Real.Sqrt
/-
Model of the acceptance test of the Barnes-Hut method (/repo/include/builtins/bh_method.h:150-184).
Simplification: `double` is replaced by the real numbers.
-/
namespace Dashmm

/-- `point_sub`, src/point.cc. -/
def Point.sub (a b : Point ℝ) : Point ℝ := ⟨a.x - b.x, a.y - b.y, a.z - b.z⟩

/-- `Point::norm`, include/dashmm/point.h (square root of the sum of the squares). -/
noncomputable def Point.norm (a : Point ℝ) : ℝ := Real.sqrt (a.x * a.x + a.y * a.y + a.z * a.z)

/-- `BH::MAC`, bh_method.h:150-154: `size / disp.norm() < theta_`. For a zero displacement the
division yields infinity (or not-a-number), and the test fails. -/
noncomputable def bhMac (theta : ℝ) (expPoint : Point ℝ) (size : ℝ) (pos : Point ℝ) : Prop :=
  let disp := pos.sub expPoint
  disp.norm ≠ 0 ∧ size / disp.norm < theta

/-- One coordinate of `BH::nearest`, bh_method.h:171-178: `fabs(offset) > len ? len : offset`, then
`+= tcenter`. -/
noncomputable def nearest1 (s t len : ℝ) : ℝ := (if |s - t| > len then len else s - t) + t

/-- `BH::nearest`, bh_method.h:168-180. -/
noncomputable def bhNearest (scenter tcenter : Point ℝ) (tsize : ℝ) : Point ℝ :=
  let len := tsize / 2
  ⟨nearest1 scenter.x tcenter.x len, nearest1 scenter.y tcenter.y len,
   nearest1 scenter.z tcenter.z len⟩

/-- The decision `can_use` of `BH::process` for a source and a target index, bh_method.h:102-110. -/
noncomputable def bhAccepts (theta : ℝ) (d : Domain ℝ) (source target : Index) : Prop :=
  let icenter := d.centerFromIndex source
  bhMac theta icenter (d.sizeFromLevel source.level)
    (bhNearest icenter (d.centerFromIndex target) (d.sizeFromLevel target.level))

end Dashmm
