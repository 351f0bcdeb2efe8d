import Verif.Spec.Chunks
import Mathlib.Data.List.Perm.Basic
namespace Dashmm

theorem Tiles.split {lo hi : Nat} {x m y : Nat} (h1 : x < m) (h2 : m < y) :
    ∀ {a : List (Nat × Nat)} {b}, Tiles lo hi (a ++ (x, y) :: b) →
      Tiles lo hi (a ++ (x, m) :: (m, y) :: b) := by
  intro a
  induction a generalizing lo with
  | nil =>
    intro b h
    obtain ⟨e, _, h⟩ := h
    exact ⟨e, h1, rfl, h2, h⟩
  | cons c a ih =>
    intro b h
    exact ⟨h.1, h.2.1, ih h.2.2⟩

theorem Tiles.le {lo hi : Nat} {l : List (Nat × Nat)} (h : Tiles lo hi l) : lo ≤ hi := by
  induction l generalizing lo with
  | nil => exact Nat.le_of_eq h
  | cons c l ih =>
    have h1 := h.1
    have h2 := h.2.1
    have := ih h.2.2
    omega

theorem Tiles.bound {lo hi : Nat} {l : List (Nat × Nat)} (h : Tiles lo hi l) {c : Nat × Nat}
    (hc : c ∈ l) : lo ≤ c.1 ∧ c.1 < c.2 ∧ c.2 ≤ hi := by
  induction l generalizing lo with
  | nil => cases hc
  | cons d l ih =>
    have h1 := h.1
    have h2 := h.2.1
    have h3 := h.2.2.le
    rcases List.mem_cons.1 hc with rfl | hc
    · omega
    · have := ih h.2.2 hc
      omega

theorem Tiles.pairwise {lo hi : Nat} {l : List (Nat × Nat)} (h : Tiles lo hi l) :
    l.Pairwise fun p q => p.2 ≤ q.1 := by
  induction l generalizing lo with
  | nil => exact .nil
  | cons d l ih =>
    refine .cons ?_ (ih h.2.2)
    intro q hq
    exact (h.2.2.bound hq).1

theorem Tiles.cover {lo hi : Nat} {l : List (Nat × Nat)} (h : Tiles lo hi l) {i : Nat}
    (h1 : lo ≤ i) (h2 : i < hi) : ∃ c ∈ l, c.1 ≤ i ∧ i < c.2 := by
  induction l generalizing lo with
  | nil => have : lo = hi := h; omega
  | cons d l ih =>
    by_cases hd : i < d.2
    · have := h.1
      exact ⟨d, by simp, by omega, hd⟩
    · obtain ⟨c, hc, hh⟩ := ih h.2.2 (by omega)
      exact ⟨c, by simp [hc], hh⟩

end Dashmm
