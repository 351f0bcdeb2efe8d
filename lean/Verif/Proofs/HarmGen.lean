import Mathlib.RingTheory.PowerSeries.Derivative
import Mathlib.RingTheory.PowerSeries.WellKnown
import Mathlib.Algebra.BigOperators.Field
import Mathlib.Analysis.SpecificLimits.Normed
import Mathlib.Analysis.Normed.Ring.InfiniteSum
import Mathlib.Analysis.Complex.Basic
import Mathlib.Analysis.Normed.Module.Basic
import Mathlib.Data.Nat.Choose.Central
import Mathlib.Tactic.Ring
import Mathlib.Tactic.LinearCombination
import Mathlib.Tactic.FieldSimp

/-!
The generating function of the Legendre polynomials, from that of the central binomial coefficients.
-/

namespace Dashmm.Harm

open PowerSeries Finset

noncomputable section

/-- Coefficients of `(1 - x)^(-1/2)`. -/
def half : ℕ → ℝ
  | 0 => 1
  | j + 1 => half j * (2 * j + 1) / (2 * j + 2)

theorem half_nonneg : ∀ j, 0 ≤ half j
  | 0 => by simp [half]
  | j + 1 => by have := half_nonneg j; rw [half]; positivity

theorem half_le_one : ∀ j, half j ≤ 1
  | 0 => by simp [half]
  | j + 1 => by
    have := half_le_one j
    have h0 := half_nonneg j
    rw [half, div_le_one (by positivity)]
    nlinarith [(Nat.cast_nonneg j : (0 : ℝ) ≤ j)]

theorem half_succ (j : ℕ) : (2 * (j : ℝ) + 2) * half (j + 1) = (2 * j + 1) * half j := by
  rw [half]; field_simp

/-- The series with ratio `ζ`. -/
def hs (ζ : ℂ) : ℂ⟦X⟧ := PowerSeries.mk fun j => (half j : ℂ) * ζ ^ j

theorem hs_deriv (ζ : ℂ) : 2 * (1 - C ζ * X) * d⁄dX ℂ (hs ζ) = C ζ * hs ζ := by
  ext n
  have h : ∀ j : ℕ, (2 * (j : ℂ) + 2) * half (j + 1) = (2 * j + 1) * half j := by
    intro j; exact_mod_cast half_succ j
  have e : 2 * (1 - C ζ * X) * d⁄dX ℂ (hs ζ) = C 2 * d⁄dX ℂ (hs ζ) - C (2 * ζ) * (X * d⁄dX ℂ (hs ζ)) := by
    have : (2 : ℂ⟦X⟧) = C 2 := (map_ofNat (C (R := ℂ)) 2).symm
    rw [this, map_mul]; ring
  rw [e, map_sub, coeff_C_mul, coeff_C_mul, coeff_C_mul]
  cases n with
  | zero =>
    rw [coeff_zero_X_mul, coeff_derivative]
    simp only [hs, coeff_mk]
    have := h 0
    push_cast at *
    linear_combination ζ * this
  | succ n =>
    rw [coeff_succ_X_mul, coeff_derivative, coeff_derivative]
    simp only [hs, coeff_mk]
    have := h (n + 1)
    push_cast at *
    linear_combination ζ ^ (n + 2) * this

/-- The product of two conjugate series satisfies the equation of the generating function. -/
theorem hs_mul_deriv (ζ ξ : ℂ) : 2 * ((1 - C ζ * X) * (1 - C ξ * X)) * d⁄dX ℂ (hs ζ * hs ξ) =
    (C (ζ + ξ) - 2 * C (ζ * ξ) * X) * (hs ζ * hs ξ) := by
  have h1 := hs_deriv ζ
  have h2 := hs_deriv ξ
  rw [Derivation.leibniz]
  simp only [smul_eq_mul, map_add, map_mul]
  linear_combination (1 - C ξ * X) * hs ξ * h1 + (1 - C ζ * X) * hs ζ * h2

theorem hs_sq : (1 - X) * (hs 1 * hs 1) = (1 : ℂ⟦X⟧) := by
  apply derivative.ext
  · have h := hs_deriv 1
    simp only [map_one, one_mul] at h
    rw [Derivation.leibniz, Derivation.leibniz, derivative_one]
    simp only [smul_eq_mul, map_sub, derivative_one, derivative_X]
    linear_combination hs 1 * h
  · simp [hs, half]

theorem half_conv (l : ℕ) : ∑ q ∈ antidiagonal l, half q.1 * half q.2 = 1 := by
  have h : hs 1 * hs 1 = PowerSeries.mk (1 : ℕ → ℂ) := by
    have h1 : (1 - X) * PowerSeries.mk (1 : ℕ → ℂ) = 1 := by
      rw [mul_comm]; exact PowerSeries.mk_one_mul_one_sub_eq_one ℂ
    have h2 := hs_sq
    have h0 : (1 - X : ℂ⟦X⟧) ≠ 0 := by
      intro h; rw [h] at h1; simp at h1
    exact mul_left_cancel₀ h0 (h2.trans h1.symm)
  have := congrArg (coeff l) h
  rw [coeff_mul] at this
  simp only [hs, coeff_mk, one_pow, mul_one, Pi.one_apply] at this
  exact_mod_cast this

/-- The coefficients of the product. -/
def gen (ζ ξ : ℂ) (l : ℕ) : ℂ := ∑ q ∈ antidiagonal l, (half q.1 : ℂ) * ζ ^ q.1 * ((half q.2 : ℂ) * ξ ^ q.2)

theorem coeff_hs_mul (ζ ξ : ℂ) (l : ℕ) : coeff l (hs ζ * hs ξ) = gen ζ ξ l := by
  rw [coeff_mul]; simp [hs, gen]

theorem gen_zero (ζ ξ : ℂ) : gen ζ ξ 0 = 1 := by simp [gen, half]

theorem gen_one (ζ ξ : ℂ) : 2 * gen ζ ξ 1 = ζ + ξ := by
  rw [gen, show antidiagonal 1 = {(0, 1), (1, 0)} from rfl, sum_pair (by simp)]
  simp [half]; ring

theorem gen_three (ζ ξ : ℂ) (l : ℕ) : 2 * ((l : ℂ) + 2) * gen ζ ξ (l + 2) =
    (2 * l + 3) * (ζ + ξ) * gen ζ ξ (l + 1) - 2 * (l + 1) * (ζ * ξ) * gen ζ ξ l := by
  have h := congrArg (coeff (l + 1)) (hs_mul_deriv ζ ξ)
  have e1 : 2 * ((1 - C ζ * X) * (1 - C ξ * X)) * d⁄dX ℂ (hs ζ * hs ξ) =
      C 2 * d⁄dX ℂ (hs ζ * hs ξ) - C (2 * (ζ + ξ)) * (X * d⁄dX ℂ (hs ζ * hs ξ)) +
        C (2 * (ζ * ξ)) * (X ^ 2 * d⁄dX ℂ (hs ζ * hs ξ)) := by
    have : (2 : ℂ⟦X⟧) = C 2 := (map_ofNat (C (R := ℂ)) 2).symm
    rw [this]; simp only [map_mul, map_add]; ring
  have e2 : (C (ζ + ξ) - 2 * C (ζ * ξ) * X) * (hs ζ * hs ξ) =
      C (ζ + ξ) * (hs ζ * hs ξ) - C (2 * (ζ * ξ)) * (X * (hs ζ * hs ξ)) := by
    have : (2 : ℂ⟦X⟧) = C 2 := (map_ofNat (C (R := ℂ)) 2).symm
    rw [this]; simp only [map_mul, map_add]; ring
  rw [e1, e2] at h
  rw [map_sub (coeff (l + 1)), map_add (coeff (l + 1)), map_sub (coeff (l + 1))] at h
  simp only [coeff_C_mul, coeff_succ_X_mul] at h
  rw [coeff_derivative, coeff_derivative, coeff_X_pow_mul'] at h
  simp only [coeff_hs_mul] at h
  cases l with
  | zero =>
    rw [if_neg (by omega)] at h
    push_cast at *
    linear_combination h
  | succ l =>
    rw [if_pos (by omega), show l + 1 + 1 - 2 = l by omega, coeff_derivative, coeff_hs_mul] at h
    push_cast at *
    linear_combination h

theorem half_summable (x : ℂ) (hx : ‖x‖ < 1) : Summable fun j => ‖(half j : ℂ) * x ^ j‖ := by
  refine Summable.of_nonneg_of_le (fun _ => norm_nonneg _) (fun j => ?_) (summable_geometric_of_lt_one (norm_nonneg x) hx)
  rw [norm_mul, norm_pow, Complex.norm_real, Real.norm_of_nonneg (half_nonneg j)]
  exact mul_le_of_le_one_left (by positivity) (half_le_one j)

/-- The function. -/
def hfun (x : ℂ) : ℂ := ∑' j, (half j : ℂ) * x ^ j

theorem hfun_sq (x : ℂ) (hx : ‖x‖ < 1) : hfun x * hfun x = 1 / (1 - x) := by
  rw [hfun, tsum_mul_tsum_eq_tsum_sum_antidiagonal_of_summable_norm (half_summable x hx) (half_summable x hx)]
  rw [one_div, ← tsum_geometric_of_norm_lt_one hx]
  congr 1; funext l
  have : ∀ q ∈ antidiagonal l, (half q.1 : ℂ) * x ^ q.1 * ((half q.2 : ℂ) * x ^ q.2) =
      ((half q.1 * half q.2 : ℝ) : ℂ) * x ^ l := by
    intro q hq
    rw [mem_antidiagonal] at hq
    rw [← hq, pow_add]; push_cast; ring
  rw [sum_congr rfl this, ← sum_mul, ← Complex.ofReal_sum, half_conv]; simp

theorem hfun_conj (x : ℂ) : starRingEnd ℂ (hfun x) = hfun (starRingEnd ℂ x) := by
  rw [hfun, hfun, Complex.conj_tsum]
  congr 1; funext j
  simp

theorem gen_norm_le (ζ ξ : ℂ) (r : ℝ) (h1 : ‖ζ‖ ≤ r) (h2 : ‖ξ‖ ≤ r) (l : ℕ) : ‖gen ζ ξ l‖ ≤ r ^ l := by
  have hr : 0 ≤ r := (norm_nonneg _).trans h1
  calc ‖gen ζ ξ l‖ ≤ ∑ q ∈ antidiagonal l, ‖(half q.1 : ℂ) * ζ ^ q.1 * ((half q.2 : ℂ) * ξ ^ q.2)‖ := norm_sum_le _ _
    _ ≤ ∑ q ∈ antidiagonal l, half q.1 * half q.2 * r ^ l := by
      refine sum_le_sum fun q hq => ?_
      rw [mem_antidiagonal] at hq
      rw [norm_mul, norm_mul, norm_mul, norm_pow, norm_pow, Complex.norm_real, Complex.norm_real,
        Real.norm_of_nonneg (half_nonneg _), Real.norm_of_nonneg (half_nonneg _), ← hq, pow_add]
      have a := half_nonneg q.1
      have b := half_nonneg q.2
      have c := pow_le_pow_left₀ (norm_nonneg ζ) h1 q.1
      have d := pow_le_pow_left₀ (norm_nonneg ξ) h2 q.2
      calc half q.1 * ‖ζ‖ ^ q.1 * (half q.2 * ‖ξ‖ ^ q.2) = (half q.1 * half q.2) * (‖ζ‖ ^ q.1 * ‖ξ‖ ^ q.2) := by ring
        _ ≤ (half q.1 * half q.2) * (r ^ q.1 * r ^ q.2) := by gcongr
    _ = r ^ l := by rw [← sum_mul, half_conv, one_mul]

/-- The generating function. -/
theorem gen_hasSum (ζ : ℂ) (ρ : ℝ) (h : ‖ζ‖ < ρ) :
    HasSum (fun l => gen ζ (starRingEnd ℂ ζ) l / (ρ : ℂ) ^ (l + 1)) ((1 / ‖(ρ : ℂ) - ζ‖ : ℝ) : ℂ) := by
  have hρ : 0 < ρ := lt_of_le_of_lt (norm_nonneg _) h
  have hρ' : (ρ : ℂ) ≠ 0 := by exact_mod_cast hρ.ne'
  set x := ζ / ρ with hx
  have hxn : ‖x‖ < 1 := by
    rw [hx, norm_div, Complex.norm_real, Real.norm_of_nonneg hρ.le, div_lt_one hρ]; exact h
  have hxc : ‖starRingEnd ℂ x‖ < 1 := by rwa [Complex.norm_conj]
  have s1 := half_summable x hxn
  have s2 := half_summable _ hxc
  have e := tsum_mul_tsum_eq_tsum_sum_antidiagonal_of_summable_norm s1 s2
  have sm := (summable_norm_sum_mul_antidiagonal_of_summable_norm s1 s2).of_norm
  have hl : ∀ l, ∑ q ∈ antidiagonal l, (half q.1 : ℂ) * x ^ q.1 * ((half q.2 : ℂ) * (starRingEnd ℂ x) ^ q.2) =
      gen ζ (starRingEnd ℂ ζ) l / (ρ : ℂ) ^ l := by
    intro l
    rw [gen, sum_div]
    refine sum_congr rfl fun q hq => ?_
    rw [mem_antidiagonal] at hq
    rw [← hq, hx, map_div₀, Complex.conj_ofReal, div_pow, div_pow, pow_add]
    field_simp
  simp only [hl] at e sm
  have hv : hfun x * starRingEnd ℂ (hfun x) = ((ρ / ‖(ρ : ℂ) - ζ‖ : ℝ) : ℂ) := by
    rw [Complex.mul_conj, Complex.normSq_eq_norm_sq]
    congr 1
    rw [sq, ← norm_mul, hfun_sq x hxn, norm_div, norm_one, hx]
    have : (1 : ℂ) - ζ / ρ = (ρ - ζ) / ρ := by field_simp
    rw [this, norm_div, Complex.norm_real, Real.norm_of_nonneg hρ.le, one_div_div]
  rw [hfun_conj] at hv
  have hs := sm.hasSum
  rw [← e] at hs
  change HasSum _ (hfun x * hfun (starRingEnd ℂ x)) at hs
  rw [hv] at hs
  have := hs.div_const (ρ : ℂ)
  have e2 : ((ρ / ‖(ρ : ℂ) - ζ‖ : ℝ) : ℂ) / ρ = ((1 / ‖(ρ : ℂ) - ζ‖ : ℝ) : ℂ) := by
    push_cast; field_simp
  rw [e2] at this
  have e3 : (fun l => gen ζ (starRingEnd ℂ ζ) l / (ρ : ℂ) ^ (l + 1)) =
      fun l => gen ζ (starRingEnd ℂ ζ) l / (ρ : ℂ) ^ l / ρ := by
    funext l; rw [pow_succ]; field_simp
  rw [e3]; exact this

end
end Dashmm.Harm
