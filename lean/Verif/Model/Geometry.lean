import Verif.Model.Index
import Mathlib.Algebra.Order.Field.Basic
/-
Model of `dashmm::Point` (/repo/include/dashmm/point.h) and `dashmm::DomainGeometry`
(/repo/include/dashmm/domaingeometry.h, /repo/src/domaingeometry.cc).

Simplification: `double` is replaced by an arbitrary linearly ordered field `K` (exact
arithmetic); rounding is not modelled.
-/
namespace Dashmm

variable {K : Type*} [Field K] [LinearOrder K]

/-- `class Point`, include/dashmm/point.h (`pos_[3]`). -/
structure Point (K : Type*) where
  x : K
  y : K
  z : K
  deriving DecidableEq

/-- `class DomainGeometry`, include/dashmm/domaingeometry.h:33-113 (`low_`, `size_`). -/
structure Domain (K : Type*) where
  low : Point K
  size : K

namespace Domain

/-- `DomainGeometry::high()`, include/dashmm/domaingeometry.h:65-67. -/
def high (d : Domain K) : Point K := ⟨d.low.x + d.size, d.low.y + d.size, d.low.z + d.size⟩

/-- `DomainGeometry::center()`, include/dashmm/domaingeometry.h:70-73 (`0.5 *` is `/ 2`). -/
def center (d : Domain K) : Point K :=
  ⟨d.low.x + d.size / 2, d.low.y + d.size / 2, d.low.z + d.size / 2⟩

/-- Cubifying constructor, src/domaingeometry.cc:27-38. -/
def cubify (low high : Point K) (factor : K) : Domain K :=
  let cx := low.x / 2 + high.x / 2
  let cy := low.y / 2 + high.y / 2
  let cz := low.z / 2 + high.z / 2
  let sx := high.x - low.x
  let sy := high.y - low.y
  let sz := high.z - low.z
  let m := if sx > sy then sx else sy
  let m := if m > sz then m else sz
  let size := m * factor
  let half := size / 2
  ⟨⟨cx - half, cy - half, cz - half⟩, size⟩

/-- `DomainGeometry::size_from_level`, src/domaingeometry.cc:65-67. -/
def sizeFromLevel (d : Domain K) (level : Nat) : K := d.size / 2 ^ level

/-- `DomainGeometry::low_from_index`, src/domaingeometry.cc:41-46. -/
def lowFromIndex (d : Domain K) (i : Index) : Point K :=
  let s := d.sizeFromLevel i.level
  ⟨(i.x : K) * s + d.low.x, (i.y : K) * s + d.low.y, (i.z : K) * s + d.low.z⟩

/-- `DomainGeometry::high_from_index`, src/domaingeometry.cc:49-54. -/
def highFromIndex (d : Domain K) (i : Index) : Point K :=
  let s := d.sizeFromLevel i.level
  ⟨((i.x : K) + 1) * s + d.low.x, ((i.y : K) + 1) * s + d.low.y, ((i.z : K) + 1) * s + d.low.z⟩

/-- `DomainGeometry::center_from_index`, src/domaingeometry.cc:57-62 (`+ 0.5` is `+ 1/2`). -/
def centerFromIndex (d : Domain K) (i : Index) : Point K :=
  let s := d.sizeFromLevel i.level
  ⟨((i.x : K) + 1 / 2) * s + d.low.x, ((i.y : K) + 1 / 2) * s + d.low.y,
   ((i.z : K) + 1 / 2) * s + d.low.z⟩

end Domain
end Dashmm
