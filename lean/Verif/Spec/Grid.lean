import Verif.Model.Geometry
/-
Specification vocabulary for the uniform grid (C19-C21).
-/
namespace Dashmm
namespace Grid
variable {K : Type*} [Field K] [LinearOrder K]

/-- The value `p` lies in the `n`-th of `dim` equal intervals of length `h` which begin at `lo`; the
last one is closed above. -/
def InSlot (lo h : K) (dim n : Nat) (p : K) : Prop :=
  n < dim ∧ (n : K) * h + lo ≤ p ∧ (p < ((n : K) + 1) * h + lo ∨ (n + 1 = dim ∧ p ≤ ((n : K) + 1) * h + lo))

/-- The point lies in the box of the index, which is one of the boxes of its level; faces at the top
of the domain belong to the boxes below them. -/
def InBoxOf (d : Domain K) (i : Index) (p : Point K) : Prop :=
  let h := d.size / 2 ^ i.level
  InSlot d.low.x h (2 ^ i.level) i.x p.x ∧ InSlot d.low.y h (2 ^ i.level) i.y p.y ∧
    InSlot d.low.z h (2 ^ i.level) i.z p.z

/-- The point lies in the closed cube. -/
def InDomain (d : Domain K) (p : Point K) : Prop :=
  (d.low.x ≤ p.x ∧ p.x ≤ d.low.x + d.size) ∧ (d.low.y ≤ p.y ∧ p.y ≤ d.low.y + d.size) ∧
    (d.low.z ≤ p.z ∧ p.z ≤ d.low.z + d.size)

end Grid
end Dashmm
