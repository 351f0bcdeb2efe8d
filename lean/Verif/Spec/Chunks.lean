/-!
Specification of a division of work.
-/
namespace Dashmm

/-- The half-open ranges are non-empty, follow one another without gap or overlap, begin at `lo` and
end at `hi`. -/
def Tiles : Nat → Nat → List (Nat × Nat) → Prop
  | lo, hi, [] => lo = hi
  | lo, hi, c :: l => c.1 = lo ∧ c.1 < c.2 ∧ Tiles c.2 hi l

end Dashmm
