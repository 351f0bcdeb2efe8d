import Verif.Model.ComExec
import Verif.Spec.ComEval
import Verif.Spec.LapExec

/-!
Specification of an evaluation with a centre-of-mass expansion.
-/

namespace Dashmm

open Com

variable {O : Type}

/-- The position of a source. -/
def Com.Src.pos (q : Com.Src ℝ) : Point ℝ := ⟨q.x, q.y, q.z⟩

/-- The input is as the tree construction leaves it: every source and every target is in the box of its leaf, and no
leaf of the source tree is empty. -/
structure ComData.Placed (D : ComData O) (s : Fin 8 → Oct) : Prop where
  size : 0 < D.dom.size
  srcs : ∀ x ∈ leaves Index.root (.node s), ∀ q ∈ D.srcs x, InCube D.dom x q.pos
  some : ∀ x ∈ leaves Index.root (.node s), D.srcs x ≠ []
  tgts : ∀ ix, ∀ t ∈ D.tgts ix, InCube D.dom ix t

/-- All sources. -/
def ComData.all (D : ComData O) (s : Fin 8 → Oct) : List (Com.Src ℝ) := (leaves Index.root (.node s)).flatMap D.srcs

/-- The sum of `|charge| / distance ^ n` over the sources, a source at the point itself being left out. -/
noncomputable def Com.strength (n : ℕ) (srcs : List (Com.Src ℝ)) (t : Point ℝ) : ℝ :=
  (srcs.map fun s => if dist2 s t.x t.y t.z = 0 then 0 else |s.charge| / √(dist2 s t.x t.y t.z) ^ n).sum

/-- A box is accepted with ratio `κ` by a box of targets if, seen from any point `c` of the source box, any other of its
points is nearer than `κ` times any point of the target box. -/
def Accepts (d : Domain ℝ) (κ : ℝ) (src dst : Index) : Prop :=
  ∀ a b c, InCube d src a → InCube d dst b → InCube d src c →
    0 < (b.sub c).norm ∧ (a.sub c).norm ≤ κ * (b.sub c).norm

/-- The relative error of Barnes-Hut with `LaplaceCOM`. -/
noncomputable def comEps (κ : ℝ) : ℝ := (2 * κ ^ 2 + 6 * κ ^ 3 / (1 - κ)) * (1 + κ)

/-- The relative error of Barnes-Hut with `LaplaceCOMAcc`. -/
noncomputable def accEps (κ : ℝ) : ℝ := 76 * κ ^ 3 / (1 - κ) ^ 3 * (1 + κ) ^ 2

/-- The expansion of the box `r` is made, through the expansions of boxes in between, from that of the leaf `a`. -/
inductive MadeFrom (es : List Edge) (a : Index) : Ref → Prop
  | leaf {e : Edge} (he : e ∈ es) (ho : e.op = .StoM) (hs : e.src = ⟨.src, a, .parts⟩) : MadeFrom es a e.dst
  | up {e : Edge} (he : e ∈ es) (ho : e.op = .MtoM) (h : MadeFrom es a e.src) : MadeFrom es a e.dst

end Dashmm
