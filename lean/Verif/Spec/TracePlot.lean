import Verif.Spec.TraceZero
import Verif.Spec.TraceCover
import Verif.Model.TracePlot

/-!
Specification: the rounding of `double`, and where the bar of a worker is.
-/

namespace Dashmm.Trace

/-- Rounding to nearest of IEEE 754 as long as there is no overflow or underflow. -/
structure IsRounding (R : ℚ → ℚ) : Prop where
  mono : ∀ x y, x ≤ y → R x ≤ R y
  err : ∀ x, |R x - x| ≤ |x| / 2 ^ 53

/-- The record of `k` in a list by worker. -/
def entry {α : Type} (W : List ((Int × Int) × α)) (k : Int × Int) : Option α := (W.find? fun x => decide (x.1 = k)).map Prod.snd

/-- The rows of pixels of a rectangle. -/
def Rect.rows (r : Rect) (y : Int) : Prop := r.low ≤ y ∧ y ≤ r.high

end Dashmm.Trace
