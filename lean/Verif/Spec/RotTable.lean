import Mathlib.Data.Real.Basic
import Mathlib.Algebra.Order.AbsoluteValue.Basic

/-! Rounding, and what a strict weak order is. -/

namespace Dashmm.Rot

/-- Rounding to double, in whatever mode: a relative error of at most `2^-52`. -/
def Rounding (rnd : ℝ → ℝ) : Prop := ∀ x, |rnd x - x| ≤ |x| / 2 ^ 52

/-- What `std::map` demands of its comparison. -/
structure StrictWeak {α : Type} (lt : α → α → Prop) : Prop where
  irrefl : ∀ a, ¬ lt a a
  trans : ∀ a b c, lt a b → lt b c → lt a c
  incomp_trans : ∀ a b c, (¬ lt a b ∧ ¬ lt b a) → (¬ lt b c ∧ ¬ lt c b) → (¬ lt a c ∧ ¬ lt c a)

end Dashmm.Rot
