import Mathlib.Data.Int.Init

/-! What it means for an index map to fill an array without gaps or overlaps. -/

namespace Dashmm.Coeff

/-- The index map `idx`, used on the index tuples `dom`, fills an array of length `size`:
no access is outside the array, different tuples use different cells, no cell is unused. -/
structure Packs {α : Type} (dom : α → Prop) (idx : α → Int) (size : Int) : Prop where
  inside : ∀ a, dom a → 0 ≤ idx a ∧ idx a < size
  separate : ∀ a b, dom a → dom b → idx a = idx b → a = b
  gapless : ∀ k, 0 ≤ k → k < size → ∃ a, dom a ∧ idx a = k

end Dashmm.Coeff
