import Verif.Model.Waves
import Verif.Spec.PlaneTable
import Verif.Spec.MergeShift
import Mathlib.Analysis.Calculus.Deriv.Basic

/-!
Specification for the plane waves of Yukawa and Helmholtz.
-/

namespace Dashmm.Waves

open Complex (I)
open Dashmm.Lap

/-- The numbers of angles the scan is to choose among: those of the node `j` and of the nodes after it up to and with the
first one that is not less than `t`. -/
def candidates (T : PlaneTable) (t : ℝ) (j : ℕ) : Set ℕ :=
  {n | ∃ k, j ≤ k ∧ k < T.s ∧ (∀ i, j < i → i < k → T.rule.lam i < t) ∧ n = T.rule.m k}

/-- A plane wave at `(x, y, z)`: it decays along the z-axis and has wave number `kappa` in the direction `alpha` across. -/
noncomputable def planeWave (kappa decay alpha x y z : ℝ) : ℂ :=
  Complex.exp (-decay * z + I * (kappa * (x * Real.cos alpha + y * Real.sin alpha)))

/-- A propagating wave at `(x, y, z)`: wave number `kappa` across, `along` along the z-axis. -/
noncomputable def travelWave (kappa along alpha x y z : ℝ) : ℂ :=
  Complex.exp (I * (along * z + kappa * (x * Real.cos alpha + y * Real.sin alpha)))

/-- The angle number `j` (from one) of the node `k`. -/
noncomputable def Level.angle (L : Level) (k j : ℕ) : ℝ := j * (2 * Real.pi / L.m k)

/-- The array holds the numbers `W k j`, `1 ≤ j ≤ cnt k`, at the places of the level (and may be longer). -/
def Holds (s : ℕ) (cnt : ℕ → ℕ) (a : List ℂ) (W : Wave) : Prop :=
  ∀ k < s, ∀ j < cnt k, a[running cnt k + j]? = some (W k (j + 1))

/-- The array of the numbers `W k j`. -/
def arrayOf (s : ℕ) (cnt : ℕ → ℕ) (W : Wave) : List ℂ :=
  (List.range s).flatMap fun k => (List.range (cnt k)).map fun j => W k (j + 1)

/-- The entries of an expansion for one node: half the angles. -/
def Level.half (L : Level) : ℕ → ℕ := fun k => L.m k / 2

/-- A source box of a target parent: its offset from the first child of the parent, and the numbers of its six expansions
(directions +x, -x, +y, -y, +z, -z). -/
structure SrcBox where
  dx : ℤ
  dy : ℤ
  dz : ℤ
  S : ℕ → Wave

/-- The offset is in the table. -/
def SrcBox.Near (b : SrcBox) : Prop := (-2 ≤ b.dx ∧ b.dx ≤ 3) ∧ (-2 ≤ b.dy ∧ b.dy ≤ 3) ∧ -2 ≤ b.dz ∧ b.dz ≤ 3

/-- The first of the axes z, y, x along which `d` is at least `hi` or at most `lo`, with the direction back to the origin
(+x, -x, +y, -y, +z, -z: 0 ... 5). -/
def axis (lo hi : ℤ) (d : ℤ × ℤ × ℤ) : Option ℕ :=
  if hi ≤ d.2.2 then some 5 else if d.2.2 ≤ lo then some 4
  else if hi ≤ d.2.1 then some 3 else if d.2.1 ≤ lo then some 2
  else if hi ≤ d.1 then some 1 else if d.1 ≤ lo then some 0 else none

/-- Offset of the source box from the child number `c` of the parent. -/
def SrcBox.from (b : SrcBox) (c : ℕ) : ℤ × ℤ × ℤ :=
  (b.dx - (c % 2 : ℕ), b.dy - (c / 2 % 2 : ℕ), b.dz - (c / 4 % 2 : ℕ))

/-- The direction in which the waves go from a source box to the child number `c`: the first axis along which the source
box is two or more boxes from all children of the parent, else the first one along which it is two or more boxes from the
child; `none` if there is none. -/
def SrcBox.direction (b : SrcBox) (c : ℕ) : Option ℕ := (axis (-2) 3 (b.dx, b.dy, b.dz)).orElse fun _ => axis (-2) 2 (b.from c)

/-- Where the child number `c` lies from the source box, in the frame of the direction `v`. -/
def SrcBox.toChild (b : SrcBox) (c v : ℕ) : ℤ × ℤ × ℤ :=
  frame v (b.from c)

/-- What the program does with the waves of some source boxes: the views each `I_to_I` makes are added to the 28 views of
the target parent (`N` entries each), in any order; then `I_to_L` for the child number `c`, for the direction `v`
(`slotView`: the slots are numbered from -z to +x). -/
noncomputable def gather (make : SrcBox → Option (List (ℕ × List ℂ))) (shift : Shift) (N nexp c v : ℕ) (boxes : List SrcBox) :
    Option (List ℂ) := do
  let E ← boxes.foldlM (fun E b => do addViews E (← make b)) (freshViews N)
  slotArr shift nexp c E (5 - v)

end Dashmm.Waves

namespace Dashmm.Waves

/-- The Laplace operator. -/
noncomputable def laplacian (u : ℝ → ℝ → ℝ → ℂ) (x y z : ℝ) : ℂ :=
  deriv (fun a => deriv (fun b => u b y z) a) x + deriv (fun a => deriv (fun b => u x b z) a) y +
    deriv (fun a => deriv (fun b => u x y b) a) z

end Dashmm.Waves
