import Verif.Model.Geometry
import Verif.Proofs.Index
import Mathlib.Tactic.Ring
import Mathlib.Tactic.Linarith
import Mathlib.Tactic.FieldSimp
import Mathlib.Tactic.Positivity
/-! One-dimensional helper lemmas about boxes. -/
namespace Dashmm
variable {K : Type*} [Field K] [LinearOrder K] [IsStrictOrderedRing K]

/-- One-dimensional half-open cell number `n` of width `s` starting at `o`. -/
def cell1 (o s : K) (n : Nat) (p : K) : Prop := (n : K) * s + o ≤ p ∧ p < ((n : K) + 1) * s + o

theorem cell1_split (o s : K) (_hs : 0 < s) (n : Nat) (p : K) :
    cell1 o s n p ↔ cell1 o (s / 2) (2 * n) p ∨ cell1 o (s / 2) (2 * n + 1) p := by
  unfold cell1
  push_cast
  constructor
  · rintro ⟨h1, h2⟩
    rcases lt_or_ge p ((2 * (n : K) + 1) * (s / 2) + o) with h | h
    · left; constructor <;> linarith
    · right; constructor <;> linarith
  · rintro (⟨h1, h2⟩ | ⟨h1, h2⟩) <;> constructor <;> linarith

theorem cell1_disjoint (o s : K) (hs : 0 < s) (m n : Nat) (p : K)
    (hm : cell1 o s m p) (hn : cell1 o s n p) : m = n := by
  unfold cell1 at *
  have key : ∀ a b : Nat, (a : K) * s + o ≤ p → p < ((b : K) + 1) * s + o → a ≤ b := by
    intro a b h1 h2
    by_contra hab
    have : b + 1 ≤ a := by omega
    have hc : ((b : K) + 1) ≤ a := by exact_mod_cast this
    have := mul_le_mul_of_nonneg_right hc hs.le
    linarith
  exact le_antisymm (key _ _ hm.1 hn.2) (key _ _ hn.1 hm.2)

theorem sizeFromLevel_succ (d : Domain K) (l : Nat) :
    d.sizeFromLevel (l + 1) = d.sizeFromLevel l / 2 := by
  unfold Domain.sizeFromLevel
  rw [pow_succ, div_div]

theorem sizeFromLevel_pos (d : Domain K) (h : 0 < d.size) (l : Nat) : 0 < d.sizeFromLevel l := by
  unfold Domain.sizeFromLevel; positivity

end Dashmm
