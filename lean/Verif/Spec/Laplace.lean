import Verif.Model.Laplace
import Verif.Model.Geometry

/-!
Specification of the Laplace kernel: the potential of point charges, which inputs the expansions accept, and the
bounds on the error of each way from sources to targets.
-/

namespace Dashmm.Lap

/-- The potential of the charges at `t`; a charge at `t` itself does not count. -/
noncomputable def potential (srcs : List Src) (t : Point ℝ) : ℝ :=
  (srcs.map fun s => if (t.sub s.pos).norm = 0 then 0 else s.charge / (t.sub s.pos).norm).sum

/-- The same with the absolute values of the charges. -/
noncomputable def absPotential (srcs : List Src) (t : Point ℝ) : ℝ :=
  (srcs.map fun s => if (t.sub s.pos).norm = 0 then 0 else |s.charge| / (t.sub s.pos).norm).sum

/-- Positions (seen from the centre of an expansion) whose spherical coordinates are computed as they are: farther
than `1e-14` from the centre, and on the vertical through the centre or at an angle of more than `1e-14` to it. -/
def Regular (v : Point ℝ) : Prop :=
  10⁻¹ ^ 14 < v.norm ∧ ((v.x = 0 ∧ v.y = 0) ∨ 10⁻¹ ^ 14 < √(v.x ^ 2 + v.y ^ 2) / v.norm)

/-- All charges are regular for a centre. -/
def AllRegular (c : Point ℝ) (srcs : List Src) : Prop := ∀ s ∈ srcs, Regular (s.pos.sub c)

/-- An expansion as the operators make them: the coefficients of order zero are real. -/
def RealZonal (L : Coef) : Prop := ∀ n, (L n 0).im = 0

/-- Bound on the error of a multipole expansion with terms up to degree `p` about `c` at `t`. -/
noncomputable def multipoleBound (p : ℕ) (c : Point ℝ) (srcs : List Src) (t : Point ℝ) : ℝ :=
  (srcs.map fun s => |s.charge| * (((s.pos.sub c).norm / (t.sub c).norm) ^ (p + 1) /
    ((t.sub c).norm - (s.pos.sub c).norm))).sum

/-- Bound on the error of a local expansion with terms up to degree `p` about `c` at `t`. -/
noncomputable def localBound (p : ℕ) (c : Point ℝ) (srcs : List Src) (t : Point ℝ) : ℝ :=
  (srcs.map fun s => |s.charge| * (((t.sub c).norm / (s.pos.sub c).norm) ^ (p + 1) /
    ((s.pos.sub c).norm - (t.sub c).norm))).sum

/-- Bound on the error of a multipole expansion about `c` translated to a local expansion about `c'`, at `t`: with
`a` the distance of a charge from `c`, `b` that of `t` from `c'` and `d` that of the centres,
`((a / (d - b))^(p+1) + (b / (d - a))^(p+1)) / (d - a - b)` for a unit charge. -/
noncomputable def translationBound (p : ℕ) (c c' : Point ℝ) (srcs : List Src) (t : Point ℝ) : ℝ :=
  (srcs.map fun s =>
    let a := (s.pos.sub c).norm
    let b := (t.sub c').norm
    let d := (c.sub c').norm
    |s.charge| * (((a / (d - b)) ^ (p + 1) + (b / (d - a)) ^ (p + 1)) / (d - a - b))).sum

/-- The box reached from `ix` by going down to the children `cs` in turn. -/
def descend (ix : Index) : List (Fin 8) → Index
  | [] => ix
  | c :: cs => descend (ix.child c) cs

/-- `M_to_M` applied from the box `descend ix cs` up to `ix`. -/
noncomputable def upward : List (Fin 8) → Coef → Coef
  | [], M => M
  | c :: cs, M => mToM c (upward cs M)

/-- `L_to_L` applied from `ix` down to the box `descend ix cs`. -/
noncomputable def downward (p : ℕ) : List (Fin 8) → Coef → Coef
  | [], L => L
  | c :: cs, L => downward p cs (lToL p c L)

/-- The charges turned by the angle `-α` about the z-axis through the origin. -/
noncomputable def turnZ (α : ℝ) (v : Point ℝ) : Point ℝ :=
  ⟨v.x * Real.cos α + v.y * Real.sin α, v.y * Real.cos α - v.x * Real.sin α, v.z⟩

/-- The same about the y-axis, by the angle `-β`. -/
noncomputable def turnY (β : ℝ) (v : Point ℝ) : Point ℝ :=
  ⟨v.x * Real.cos β - v.z * Real.sin β, v.y, v.z * Real.cos β + v.x * Real.sin β⟩

end Dashmm.Lap
