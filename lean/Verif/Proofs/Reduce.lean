import Verif.Model.Reduce
import Verif.Spec.Reduce
import Mathlib.Algebra.BigOperators.Group.List.Basic
import Mathlib.Algebra.BigOperators.Fin
import Mathlib.Data.Nat.ModEq
namespace Dashmm
namespace Reduce

theorem foldl_combined {α : Type} {ident : α} {op : α → α → α} (ys : List α) :
    ∀ {xs : List α} {a : α}, Combined ident op xs a → Combined ident op (xs ++ ys) (ys.foldl op a) := by
  induction ys with
  | nil => intro xs a h; simpa using h
  | cons y ys ih =>
    intro xs a h
    have := ih (h.op (.one y))
    simpa using this

theorem lco_combined {α : Type} {ident : α} {op : α → α → α} {xs arrivals : List α}
    (h : arrivals.Perm xs) : Combined ident op xs (lco ident op arrivals) := by
  have := foldl_combined (ident := ident) (op := op) arrivals .ident
  exact Combined.reorder h (by simpa [lco] using this)

theorem intSum {n : Nat} {xs : List (Fin n → Int)} {v : Fin n → Int}
    (h : Combined intSumIdent intSumOp xs v) (i : Fin n) : v i = (xs.map (· i)).sum := by
  induction h with
  | ident => simp [intSumIdent]
  | one x => simp
  | op _ _ h1 h2 => simp [intSumOp, h1, h2]
  | reorder hp _ ih => rw [ih]; exact (hp.map _).sum_eq

theorem sizeSum {n : Nat} {xs : List (Fin n → Nat)} {v : Fin n → Nat}
    (h : Combined sizeSumIdent sizeSumOp xs v) (hx : ∀ x ∈ xs, ∀ i, x i < sizeMod) (i : Fin n) :
    v i = (xs.map (· i)).sum % sizeMod := by
  induction h with
  | ident => simp [sizeSumIdent]
  | one x => simp [Nat.mod_eq_of_lt (hx x (by simp) i)]
  | op _ _ h1 h2 =>
    simp only [sizeSumOp, List.map_append, List.sum_append]
    rw [h1 fun x m => hx x (by simp [m]), h2 fun x m => hx x (by simp [m])]
    exact (Nat.add_mod _ _ _).symm
  | reorder hp _ ih =>
    rw [ih fun x m => hx x (hp.mem_iff.1 m)]
    rw [(hp.map _).sum_eq]

theorem intMax {n : Nat} {xs : List (Fin n → Int)} {v : Fin n → Int}
    (h : Combined intMaxIdent intMaxOp xs v) (hx : ∀ x ∈ xs, ∀ i, intMin ≤ x i) (i : Fin n) :
    intMin ≤ v i ∧ (∀ x ∈ xs, x i ≤ v i) ∧ (v i = intMin ∨ ∃ x ∈ xs, v i = x i) := by
  induction h with
  | ident => simp [intMaxIdent]
  | one x => simp [hx x]
  | op _ _ h1 h2 =>
    have a := h1 fun x m => hx x (by simp [m])
    have b := h2 fun x m => hx x (by simp [m])
    obtain ⟨a1, a2, a3⟩ := a
    obtain ⟨b1, b2, b3⟩ := b
    simp only [intMaxOp, List.mem_append]
    refine ⟨by omega, ?_, ?_⟩
    · rintro x (m | m)
      · have := a2 x m; omega
      · have := b2 x m; omega
    · rcases Int.le_total (_ : Int) _ with h | h
      · rw [max_eq_right h]
        rcases b3 with h | ⟨x, m, h⟩
        · exact .inl h
        · exact .inr ⟨x, .inr m, h⟩
      · rw [max_eq_left h]
        rcases a3 with h | ⟨x, m, h⟩
        · exact .inl h
        · exact .inr ⟨x, .inl m, h⟩
  | reorder hp _ ih =>
    have := ih fun x m => hx x (hp.mem_iff.1 m)
    simpa only [hp.mem_iff] using this

theorem intMax_nonempty {n : Nat} {xs : List (Fin n → Int)} {v : Fin n → Int}
    (h : Combined intMaxIdent intMaxOp xs v) (hx : ∀ x ∈ xs, ∀ i, intMin ≤ x i) (hne : xs ≠ [])
    (i : Fin n) : (∀ x ∈ xs, x i ≤ v i) ∧ ∃ x ∈ xs, v i = x i := by
  obtain ⟨h1, h2, h3⟩ := intMax h hx i
  refine ⟨h2, ?_⟩
  rcases h3 with h3 | h3
  · cases xs with
    | nil => exact absurd rfl hne
    | cons x l =>
      refine ⟨x, by simp, ?_⟩
      have a := h2 x (by simp)
      have b := hx x (by simp) i
      omega
  · exact h3

end Reduce
end Dashmm
