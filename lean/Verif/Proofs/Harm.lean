import Mathlib.Algebra.Polynomial.Coeff
import Mathlib.Data.Complex.BigOperators
import Mathlib.Data.Nat.Factorial.Basic
import Mathlib.Data.Nat.Choose.Sum
import Mathlib.Algebra.BigOperators.NatAntidiagonal
import Mathlib.Algebra.BigOperators.Intervals
import Mathlib.Order.Interval.Finset.Basic
import Mathlib.Algebra.Order.Group.Pointwise.Interval
import Mathlib.Data.Int.Interval
import Mathlib.Tactic.Ring
import Mathlib.Algebra.BigOperators.Field
import Mathlib.Tactic.LinearCombination
import Mathlib.Tactic.FieldSimp
import Mathlib.Tactic.Positivity

/-!
Solid harmonics as coefficients of powers of a quadratic form: `har w w' z n m` is the coefficient of
`ξ^(n+m) η^(n-m)` in `(z ξ η + (w ξ² - w' η²) / 2) ^ n / n!`.
-/

namespace Dashmm.Harm

noncomputable section

/-- The coefficients. -/
def har (w w' z : ℂ) : ℕ → ℤ → ℂ
  | 0, m => if m = 0 then 1 else 0
  | n + 1, m => (z * har w w' z n m + w / 2 * har w w' z n (m - 1) - w' / 2 * har w w' z n (m + 1)) / (n + 1)

variable (w w' z : ℂ)

theorem har_zero (m : ℤ) : har w w' z 0 m = if m = 0 then 1 else 0 := rfl

theorem har_succ (n : ℕ) (m : ℤ) : ((n : ℂ) + 1) * har w w' z (n + 1) m =
    z * har w w' z n m + w / 2 * har w w' z n (m - 1) - w' / 2 * har w w' z n (m + 1) := by
  have : ((n : ℂ) + 1) ≠ 0 := by exact_mod_cast Nat.succ_ne_zero n
  rw [har]; field_simp

theorem har_out : ∀ (n : ℕ) (m : ℤ), (n : ℤ) < |m| → har w w' z n m = 0
  | 0, m, h => by
    rw [har_zero, if_neg]; rintro rfl; simp at h
  | n + 1, m, h => by
    have h1 : (n : ℤ) < |m| := by rw [lt_abs] at *; push_cast at h; omega
    have h2 : (n : ℤ) < |m - 1| := by rw [lt_abs] at *; push_cast at h; omega
    have h3 : (n : ℤ) < |m + 1| := by rw [lt_abs] at *; push_cast at h; omega
    rw [har, har_out n m h1, har_out n _ h2, har_out n _ h3]; simp

/-- First derivative in ξ. -/
theorem har_d1 : ∀ (n : ℕ) (m : ℤ), ((n : ℂ) + 1 + m) * har w w' z (n + 1) m =
    z * har w w' z n m + w * har w w' z n (m - 1)
  | 0, m => by
    simp only [har]
    rcases eq_or_ne m 0 with rfl | h0
    · simp
    rcases eq_or_ne m 1 with rfl | h1
    · simp; ring
    rcases eq_or_ne m (-1) with rfl | h2
    · simp
    have e1 : ¬ m - 1 = 0 := by omega
    have e2 : ¬ m + 1 = 0 := by omega
    simp [h0, e1, e2]
  | n + 1, m => by
    have hn : ((n : ℂ) + 2) ≠ 0 := by exact_mod_cast Nat.succ_ne_zero (n + 1)
    have i1 := har_d1 n m
    have i2 := har_d1 n (m - 1)
    have i3 := har_d1 n (m + 1)
    have s1 := har_succ w w' z (n + 1) m
    have r1 := har_succ w w' z n m
    have r2 := har_succ w w' z n (m - 1)
    have r3 := har_succ w w' z n (m + 1)
    simp only [sub_add_cancel, add_sub_cancel_right] at i1 i2 i3 s1 r1 r2 r3
    push_cast at *
    apply mul_left_cancel₀ hn
    linear_combination ((n : ℂ) + 2 + m) * s1 + z * i1 + w / 2 * i2 - w' / 2 * i3 + z * r1 + w * r2 - 2 * z * r1 - 2 * w * r2

/-- First derivative in η. -/
theorem har_d2 (n : ℕ) (m : ℤ) : ((n : ℂ) + 1 - m) * har w w' z (n + 1) m =
    z * har w w' z n m - w' * har w w' z n (m + 1) := by
  have h1 := har_d1 w w' z n m
  have h2 := har_succ w w' z n m
  linear_combination 2 * h2 - h1

/-- The three-term recurrence. -/
theorem har_three (n : ℕ) (m : ℤ) : ((n : ℂ) + 2 + m) * ((n : ℂ) + 2 - m) * har w w' z (n + 2) m =
    (2 * (n : ℂ) + 3) * z * har w w' z (n + 1) m - (z ^ 2 + w * w') * har w w' z n m := by
  have h1 := har_d2 w w' z (n + 1) m
  have h2 := har_d1 w w' z n (m + 1)
  have h3 := har_d2 w w' z n m
  simp only [add_sub_cancel_right] at h2
  push_cast at *
  linear_combination ((n : ℂ) + 2 + m) * h1 - w' * h2 - z * h3

theorem har_diag : ∀ n : ℕ, har w w' z n n = (w / 2) ^ n / (n.factorial : ℂ)
  | 0 => by simp [har]
  | n + 1 => by
    have h := har_succ w w' z n (n + 1 : ℕ)
    have e1 : ((n + 1 : ℕ) : ℤ) - 1 = n := by push_cast; ring
    have o1 : har w w' z n ((n + 1 : ℕ) : ℤ) = 0 := har_out _ _ _ _ _ (by rw [lt_abs]; push_cast; omega)
    have o2 : har w w' z n (((n + 1 : ℕ) : ℤ) + 1) = 0 := har_out _ _ _ _ _ (by rw [lt_abs]; push_cast; omega)
    rw [e1, o1, o2, har_diag n] at h
    have hn : ((n : ℂ) + 1) ≠ 0 := by exact_mod_cast Nat.succ_ne_zero n
    have hf : (n.factorial : ℂ) ≠ 0 := by exact_mod_cast n.factorial_ne_zero
    rw [Nat.factorial_succ]
    push_cast at h ⊢
    rw [eq_div_iff (mul_ne_zero hn hf)]
    field_simp at h
    linear_combination 1 / 2 * h

theorem har_offdiag (n : ℕ) : har w w' z (n + 1) n = z * har w w' z n n := by
  have h := har_d2 w w' z n n
  have o2 : har w w' z n ((n : ℤ) + 1) = 0 := har_out _ _ _ _ _ (by rw [lt_abs]; omega)
  rw [o2] at h
  push_cast at h
  linear_combination h

/-- Conjugation. -/
theorem har_conj (z : ℝ) : ∀ (n : ℕ) (m : ℤ),
    starRingEnd ℂ (har w (starRingEnd ℂ w) z n m) = (-1) ^ m.natAbs * har w (starRingEnd ℂ w) z n (-m)
  | 0, m => by
    rw [har_zero, har_zero]
    rcases eq_or_ne m 0 with rfl | h0
    · simp
    · have : ¬ -m = 0 := by omega
      simp [h0, this]
  | n + 1, m => by
    have hp : ((-1 : ℂ)) ^ (m - 1).natAbs = - (-1) ^ m.natAbs := by
      have : (m - 1).natAbs % 2 ≠ m.natAbs % 2 := by omega
      rcases Nat.even_or_odd m.natAbs with h | h
      · have h' : Odd (m - 1).natAbs := by rw [Nat.odd_iff]; rw [Nat.even_iff] at h; omega
        rw [h.neg_one_pow, h'.neg_one_pow]
      · have h' : Even (m - 1).natAbs := by rw [Nat.even_iff]; rw [Nat.odd_iff] at h; omega
        rw [h.neg_one_pow, h'.neg_one_pow]; ring
    have hq : ((-1 : ℂ)) ^ (m + 1).natAbs = - (-1) ^ m.natAbs := by
      rcases Nat.even_or_odd m.natAbs with h | h
      · have h' : Odd (m + 1).natAbs := by rw [Nat.odd_iff]; rw [Nat.even_iff] at h; omega
        rw [h.neg_one_pow, h'.neg_one_pow]
      · have h' : Even (m + 1).natAbs := by rw [Nat.even_iff]; rw [Nat.odd_iff] at h; omega
        rw [h.neg_one_pow, h'.neg_one_pow]; ring
    rw [har, har]
    simp only [map_div₀, map_add, map_sub, map_mul, map_one, map_natCast, Complex.conj_ofReal, map_ofNat,
      Complex.conj_conj]
    rw [har_conj z n m, har_conj z n (m - 1), har_conj z n (m + 1), hp, hq]
    rw [show -(m - 1) = -m + 1 by ring, show -(m + 1) = -m - 1 by ring]
    ring

/-! ### Polynomials -/

open Polynomial

/-- The quadratic form. -/
def quad : ℂ[X] := C (w / 2) * X ^ 2 + C z * X - C (w' / 2)

theorem quad_pow_coeff : ∀ (n k : ℕ), (quad w w' z ^ n).coeff k = (n.factorial : ℂ) * har w w' z n ((k : ℤ) - n)
  | 0, k => by
    rcases eq_or_ne k 0 with rfl | h
    · simp [har]
    · simp [har, coeff_one, h]
  | n + 1, k => by
    have hs := har_succ w w' z n ((k : ℤ) - (n + 1 : ℕ))
    have e : quad w w' z ^ (n + 1) = C (w / 2) * (quad w w' z ^ n * X ^ 2) + C z * (quad w w' z ^ n * X)
        - C (w' / 2) * quad w w' z ^ n := by rw [quad]; ring
    have e0 : (k : ℤ) - (n + 1 : ℕ) + 1 = k - n := by push_cast; ring
    rw [e, coeff_sub, coeff_add, coeff_C_mul, coeff_C_mul, coeff_C_mul, Nat.factorial_succ, coeff_mul_X_pow']
    rw [e0] at hs
    have c0 := quad_pow_coeff n k
    have c1 : (quad w w' z ^ n * X).coeff k = (n.factorial : ℂ) * har w w' z n ((k : ℤ) - (n + 1 : ℕ)) := by
      cases k with
      | zero => rw [har_out]; · simp
                · rw [lt_abs]; push_cast; omega
      | succ k => rw [coeff_mul_X, quad_pow_coeff n k]; congr 2; push_cast; ring
    have c2 : (if 2 ≤ k then (quad w w' z ^ n).coeff (k - 2) else 0) =
        (n.factorial : ℂ) * har w w' z n ((k : ℤ) - (n + 1 : ℕ) - 1) := by
      split_ifs with h
      · rw [quad_pow_coeff n (k - 2)]; congr 2; push_cast [h]; ring
      · rw [har_out]; · simp
        rw [lt_abs]; push_cast; omega
    rw [c0, c1, c2]
    push_cast at *
    linear_combination -(n.factorial : ℂ) * hs

theorem har_eq_coeff (n : ℕ) (m : ℤ) (h : -(n : ℤ) ≤ m) :
    har w w' z n m = (quad w w' z ^ n).coeff (n + m).toNat / n.factorial := by
  have hf : (n.factorial : ℂ) ≠ 0 := by exact_mod_cast n.factorial_ne_zero
  rw [quad_pow_coeff, show (((n + m).toNat : ℕ) : ℤ) - n = m by omega]
  field_simp

/-- Shift along the axis. -/
theorem har_shift (ρ : ℂ) (n : ℕ) (m : ℤ) : har w w' (z + ρ) n m =
    ∑ k ∈ Finset.range (n + 1), ρ ^ k / k.factorial * har w w' z (n - k) m := by
  by_cases hm : -(n : ℤ) ≤ m
  · rw [har_eq_coeff _ _ _ _ _ hm]
    have e : quad w w' (z + ρ) = C ρ * X + quad w w' z := by rw [quad, quad, C_add]; ring
    rw [e, add_pow, finsetSum_coeff, Finset.sum_div]
    refine Finset.sum_congr rfl fun k hk => ?_
    have hk' : k ≤ n := by simpa [Nat.lt_succ_iff] using hk
    have hf : (n.factorial : ℂ) ≠ 0 := by exact_mod_cast n.factorial_ne_zero
    have hf1 : (k.factorial : ℂ) ≠ 0 := by exact_mod_cast k.factorial_ne_zero
    have hf2 : ((n - k).factorial : ℂ) ≠ 0 := by exact_mod_cast (n - k).factorial_ne_zero
    have hc : (n.choose k : ℂ) * k.factorial * (n - k).factorial = n.factorial := by
      exact_mod_cast Nat.choose_mul_factorial_mul_factorial hk'
    have e2 : (C ρ * X) ^ k * quad w w' z ^ (n - k) * ((n.choose k : ℕ) : ℂ[X]) =
        C (ρ ^ k * (n.choose k : ℂ)) * (quad w w' z ^ (n - k) * X ^ k) := by
      rw [mul_pow, ← C_pow, C_mul, ← C_eq_natCast]; ring
    rw [e2, coeff_C_mul, coeff_mul_X_pow']
    split_ifs with h
    · rw [quad_pow_coeff]
      have e3 : (((n + m).toNat - k : ℕ) : ℤ) - ((n - k : ℕ) : ℤ) = m := by omega
      rw [e3]
      have hc0 : (n.choose k : ℂ) ≠ 0 := by
        intro h; rw [h] at hc; simp at hc; exact hf hc.symm
      rw [← hc]
      field_simp
    · rw [har_out]; · simp
      rw [lt_abs]; omega
  · rw [har_out _ _ _ _ _ (by rw [lt_abs]; omega)]
    symm
    refine Finset.sum_eq_zero fun k _ => ?_
    rw [har_out, mul_zero]
    rw [lt_abs]; omega

/-- Addition theorem, middle coefficient. -/
theorem har_add (w₁ w₁' z₁ w₂ w₂' z₂ : ℂ) (l : ℕ) : har (w₁ + w₂) (w₁' + w₂') (z₁ + z₂) l 0 =
    ∑ q ∈ Finset.antidiagonal l, ∑ m ∈ Finset.Icc (-(q.1 : ℤ)) q.1,
      har w₁ w₁' z₁ q.1 m * har w₂ w₂' z₂ q.2 (-m) := by
  have hf : (l.factorial : ℂ) ≠ 0 := by exact_mod_cast l.factorial_ne_zero
  rw [har_eq_coeff _ _ _ _ _ (by omega)]
  have e : quad (w₁ + w₂) (w₁' + w₂') (z₁ + z₂) = quad w₁ w₁' z₁ + quad w₂ w₂' z₂ := by
    simp only [quad, add_div, C_add]; ring
  rw [e, (Commute.all _ _).add_pow', finsetSum_coeff, Finset.sum_div]
  refine Finset.sum_congr rfl fun q hq => ?_
  have hq' : q.1 + q.2 = l := by simpa using hq
  obtain ⟨n, j⟩ := q
  simp only at hq' ⊢
  have hf1 : (n.factorial : ℂ) ≠ 0 := by exact_mod_cast n.factorial_ne_zero
  have hf2 : (j.factorial : ℂ) ≠ 0 := by exact_mod_cast j.factorial_ne_zero
  have hc : (l.choose n : ℂ) * n.factorial * j.factorial = l.factorial := by
    rw [← hq']; rw [Nat.choose_symm_add]; exact_mod_cast Nat.add_choose_mul_factorial_mul_factorial n j
  rw [nsmul_eq_mul, ← C_eq_natCast, coeff_C_mul, coeff_mul]
  have e1 : ∀ x ∈ Finset.antidiagonal ((l : ℤ) + 0).toNat,
      (quad w₁ w₁' z₁ ^ n).coeff x.1 * (quad w₂ w₂' z₂ ^ j).coeff x.2 =
      (n.factorial : ℂ) * j.factorial * (har w₁ w₁' z₁ n ((x.1 : ℤ) - n) * har w₂ w₂' z₂ j (-((x.1 : ℤ) - n))) := by
    intro x hx
    have hx' : x.1 + x.2 = l := by simpa using hx
    rw [quad_pow_coeff, quad_pow_coeff, show ((x.2 : ℤ) - j) = -((x.1 : ℤ) - n) by omega]
    ring
  rw [Finset.sum_congr rfl e1, ← Finset.mul_sum]
  have e2 : ∑ x ∈ Finset.antidiagonal ((l : ℤ) + 0).toNat,
      (har w₁ w₁' z₁ n ((x.1 : ℤ) - n) * har w₂ w₂' z₂ j (-((x.1 : ℤ) - n))) =
      ∑ m ∈ Finset.Icc (-(n : ℤ)) n, har w₁ w₁' z₁ n m * har w₂ w₂' z₂ j (-m) := by
    have e3 : ∑ x ∈ Finset.antidiagonal ((l : ℤ) + 0).toNat,
        (har w₁ w₁' z₁ n ((x.1 : ℤ) - n) * har w₂ w₂' z₂ j (-((x.1 : ℤ) - n))) =
        ∑ m ∈ Finset.Icc (-(n : ℤ)) j, har w₁ w₁' z₁ n m * har w₂ w₂' z₂ j (-m) := by
      refine Finset.sum_nbij' (fun x => (x.1 : ℤ) - n) (fun m => ((m + n).toNat, (j - m).toNat)) ?_ ?_ ?_ ?_ ?_
      · intro x hx
        have hx' : x.1 + x.2 = l := by simpa using hx
        simp only [Finset.mem_Icc]; omega
      · intro m hm
        simp only [Finset.mem_Icc] at hm
        simp only [Finset.mem_antidiagonal]; omega
      · intro x hx
        have hx' : x.1 + x.2 = l := by simpa using hx
        ext <;> simp only <;> omega
      · intro m hm
        simp only [Finset.mem_Icc] at hm
        simp only; omega
      · intro x _; rfl
    rw [e3]
    rcases le_total n j with h | h
    · symm
      apply Finset.sum_subset
      · apply Finset.Icc_subset_Icc_right; omega
      · intro m hm hm'
        simp only [Finset.mem_Icc] at hm hm'
        rw [har_out _ _ _ n m (by rw [lt_abs]; omega)]; simp
    · apply Finset.sum_subset
      · apply Finset.Icc_subset_Icc_right; omega
      · intro m hm hm'
        simp only [Finset.mem_Icc] at hm hm'
        rw [har_out _ _ _ j (-m) (by rw [lt_abs]; omega)]; simp
  rw [e2]
  have hc0 : (l.choose n : ℂ) ≠ 0 := by
    intro h; rw [h] at hc; simp at hc; exact hf hc.symm
  rw [← hc]
  field_simp

end
end Dashmm.Harm
