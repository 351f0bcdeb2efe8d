import Verif.Proofs.BesselErr
import Mathlib.Analysis.SpecialFunctions.Trigonometric.Series

/-!
# The spherical Bessel functions of order 0 and 1 as elementary functions
-/

namespace Dashmm.Bessel

open scoped Nat

theorem odd_fact (k : ℕ) : ((2 * k + 1)! : ℝ) = 2 ^ k * k ! * ((2 * k + 1)‼ : ℕ) := by
  have : (2 * k + 1)! = 2 ^ k * k ! * (2 * k + 1)‼ := by
    rw [← Nat.doubleFactorial_two_mul, Nat.factorial_eq_mul_doubleFactorial, mul_comm]
  exact_mod_cast this

theorem sphI_zero (x : ℝ) (hx : x ≠ 0) : sphI 0 x = Real.sinh x / x := by
  have h := Real.hasSum_sinh x
  have e : ∀ k : ℕ, (x ^ (0 + 2 * k) / (2 ^ k * k ! * ((2 * 0 + 2 * k + 1)‼ : ℕ)) : ℝ) = x ^ (2 * k + 1) / (2 * k + 1)! / x := by
    intro k
    rw [odd_fact, mul_zero, zero_add, pow_succ]
    field_simp
  rw [sphI, tsum_congr e, tsum_div_const, h.tsum_eq]

theorem sphJ_zero (x : ℝ) (hx : x ≠ 0) : sphJ 0 x = Real.sin x / x := by
  have h := Real.hasSum_sin x
  have e : ∀ k : ℕ, ((-1) ^ k * x ^ (0 + 2 * k) / (2 ^ k * k ! * ((2 * 0 + 2 * k + 1)‼ : ℕ)) : ℝ) =
      (-1) ^ k * x ^ (2 * k + 1) / (2 * k + 1)! / x := by
    intro k
    rw [odd_fact, mul_zero, zero_add, pow_succ]
    field_simp
  rw [sphJ, tsum_congr e, tsum_div_const, h.tsum_eq]

theorem sphJ_one (x : ℝ) (hx : x ≠ 0) : sphJ 1 x = Real.sin x / x ^ 2 - Real.cos x / x := by
  have h := ((Real.hasSum_sin x).div_const (x ^ 2)).sub ((Real.hasSum_cos x).div_const x)
  rw [← hasSum_nat_add_iff' 1] at h
  rw [Finset.sum_range_one] at h
  have e0 : ((-1) ^ 0 * x ^ (2 * 0 + 1) / ((2 * 0 + 1)! : ℕ) / x ^ 2 - (-1) ^ 0 * x ^ (2 * 0) / ((2 * 0)! : ℕ) / x : ℝ) = 0 := by
    simp; field_simp; ring
  rw [e0, sub_zero] at h
  rw [← h.tsum_eq, sphJ]
  refine tsum_congr fun k => ?_
  have e1 : ((2 * (k + 1) + 1)! : ℝ) = (2 * k + 3) * ((2 * (k + 1))! : ℕ) := by
    rw [Nat.factorial_succ]; push_cast; ring
  have e2 : ((2 * (k + 1))! : ℝ) = 2 ^ (k + 1) * (k + 1)! * ((2 * k + 1)‼ : ℕ) := by
    have := odd_fact (k + 1)
    rw [e1, show 2 * (k + 1) + 1 = 2 * k + 1 + 2 by ring, Nat.doubleFactorial_add_two] at this
    push_cast at this
    have h3 := Yuk.odd3_ne (K := ℝ) k
    apply mul_left_cancel₀ h3
    linear_combination this
  have e3 : (((2 * 1 + 2 * k + 1)‼ : ℕ) : ℝ) = (2 * k + 3) * ((2 * k + 1)‼ : ℕ) := by
    rw [show 2 * 1 + 2 * k + 1 = 2 * k + 1 + 2 by ring, Nat.doubleFactorial_add_two]; push_cast; ring
  have hd := (dfact_pos (2 * k + 1)).ne'
  have hk : ((k ! : ℕ) : ℝ) ≠ 0 := by positivity
  have h3 := Yuk.odd3_ne (K := ℝ) k
  have hk1 : ((k : ℝ) + 1) ≠ 0 := by positivity
  rw [e1, e2, e3, Nat.factorial_succ]
  push_cast
  rw [show x ^ (2 * (k + 1) + 1) = x ^ (1 + 2 * k) * x ^ 2 by ring, show x ^ (2 * (k + 1)) = x ^ (1 + 2 * k) * x by ring,
    show ((-1 : ℝ)) ^ (k + 1) = -(-1) ^ k by ring]
  field_simp
  ring

end Dashmm.Bessel
