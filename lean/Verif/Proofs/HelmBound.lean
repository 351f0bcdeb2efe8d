import Verif.Proofs.YukOps
import Verif.Proofs.BesselElem
import Verif.Spec.Helmholtz

/-!
# The series of the Helmholtz kernel
-/

namespace Dashmm.Helm

open Bessel Finset Harm Lap Yuk
open scoped Nat

noncomputable section

theorem sphJ_three (n : ℕ) (x : ℝ) (hx : x ≠ 0) : sphJ (n + 2) x = (2 * n + 3) / x * sphJ (n + 1) x - sphJ n x := by
  have h := erl_diff n (-x ^ 2)
  rw [sphJ_eq, sphJ_eq, sphJ_eq, dfact_succ, dfact_succ]
  have h0 := (dfact_pos (2 * n + 1)).ne'
  have h3 := odd3_ne (K := ℝ) n
  have h5 := odd5_ne (K := ℝ) n
  push_cast
  rw [show (2 * ((n : ℝ) + 1) + 3) = 2 * n + 5 by ring, pow_succ, pow_succ]
  have e : erl n (-x ^ 2) = erl (n + 1) (-x ^ 2) + -x ^ 2 / ((2 * n + 3) * (2 * n + 5)) * erl (n + 2) (-x ^ 2) := by linarith
  rw [e]
  field_simp
  ring

theorem sphH_three (n : ℕ) (x : ℝ) (hx : x ≠ 0) : sphH (n + 2) x = (2 * n + 3) / x * sphH (n + 1) x - sphH n x := by
  rw [sphH, sphH, sphH, sphJ_three n x hx, sphY]
  push_cast; ring

theorem sphH_theta (x : ℝ) (hx : x ≠ 0) (n : ℕ) : sphH n x =
    Complex.exp (Complex.I * x) * theta (-(Complex.I * x)) n * (((2 * n - 1)‼ : ℕ) : ℝ) / (Complex.I * x ^ (n + 1)) := by
  have hxc : (x : ℂ) ≠ 0 := by exact_mod_cast hx
  have hI := Complex.I_ne_zero
  have hexp : Complex.exp (Complex.I * x) = Real.cos x + Real.sin x * Complex.I := by
    rw [mul_comm, Complex.exp_mul_I]; simp
  have hI2 := Complex.I_sq
  induction n using Nat.twoStepInduction with
  | zero =>
    rw [sphH, sphJ_zero x hx, sphY, hexp, theta]
    push_cast
    field_simp
    simp only [Nat.mul_zero, Nat.zero_sub, Nat.doubleFactorial, Nat.cast_one, zero_add, pow_one]
    linear_combination (-Complex.cos x) * hI2
  | one =>
    rw [sphH, sphJ_one x hx, sphY, hexp, theta]
    push_cast
    field_simp
    simp only [Nat.mul_one, Nat.doubleFactorial, Nat.cast_one]
    linear_combination (-Complex.cos x) * hI2
  | more n h0 h1 =>
    rw [sphH_three n x hx, h0, h1, theta]
    have h3 := odd3_ne (K := ℂ) n
    have h1' := odd_ne (K := ℂ) n
    have d1 := dfact_pred (n + 1)
    have d0 := dfact_pred n
    rw [d1, d0]
    push_cast
    field_simp
    rw [hI2]
    ring

/-- One term of the series. -/
theorem helm_term (om : ℝ) (ho : 0 < om) (n : ℕ) (ρ r γ : ℝ) (hr : 0 < r) :
    (2 * n + 1) * (sphJ n (om * ρ) : ℂ) * sphH n (om * r) * (leg γ 1 n : ℂ) =
      term (-(Complex.I * om)) n (ρ ^ 2) r (r * ρ * γ) / (Complex.I * om) := by
  have hleg : leg (r * ρ * γ) (ρ ^ 2 * r ^ 2) n = (r * ρ) ^ n * leg γ 1 n := by
    rw [← leg_homog, mul_one, show (r * ρ) ^ 2 = ρ ^ 2 * r ^ 2 by ring]
  have hI2 := Complex.I_sq
  rw [term, ffun, hleg, sphH_theta _ (by positivity), sphJ_eq]
  have e1 : (-(Complex.I * om)) ^ 2 * ((ρ ^ 2 : ℝ) : ℂ) = ((-(om * ρ) ^ 2 : ℝ) : ℂ) := by
    push_cast; rw [neg_sq, mul_pow, hI2]; ring
  have e2 : -(Complex.I * om) * (r : ℂ) = -(Complex.I * ((om * r : ℝ) : ℂ)) := by push_cast; ring
  rw [e1, e2, efun_ofReal, neg_neg, dfact_odd]
  have h2 : (((2 * n - 1)‼ : ℕ) : ℂ) ≠ 0 := by exact_mod_cast (dfact_pos (2 * n - 1)).ne'
  have h3 := odd_ne (K := ℂ) n
  have hrc : (r : ℂ) ≠ 0 := by exact_mod_cast hr.ne'
  have hoc : (om : ℂ) ≠ 0 := by exact_mod_cast ho.ne'
  have hI := Complex.I_ne_zero
  rw [show 2 * n + 1 = n + n + 1 by ring, pow_succ, pow_succ, pow_add]
  push_cast
  rw [mul_pow, mul_pow, mul_pow]
  generalize theta (-(Complex.I * (↑om * ↑r))) n = T
  generalize Complex.exp (Complex.I * (↑om * ↑r)) = E
  field_simp
  rw [mul_pow]; ring

theorem helm_addition_error (om : ℝ) (ho : 0 < om) (p : ℕ) (ρ r γ : ℝ) (hρ : 0 ≤ ρ) (hr : ρ < r) (hγ : |γ| ≤ 1) :
    ‖∑ n ∈ range (p + 1), (2 * n + 1) * (sphJ n (om * ρ) : ℂ) * sphH n (om * r) * (leg γ 1 n : ℂ) -
      Complex.exp (Complex.I * (om * √(r ^ 2 - 2 * (r * ρ * γ) + ρ ^ 2) : ℝ)) /
        (Complex.I * (om * √(r ^ 2 - 2 * (r * ρ * γ) + ρ ^ 2) : ℝ))‖ ≤ truncation p om ρ r := by
  have hr0 : 0 < r := lt_of_le_of_lt hρ hr
  have hg : |r * ρ * γ| ≤ r * ρ := by
    rw [abs_mul, abs_of_nonneg (a := r * ρ) (by positivity)]
    exact mul_le_of_le_one_right (by positivity) hγ
  have key := addition_error (-(Complex.I * om)) p ρ r (r * ρ * γ) hρ hr hg
  have hno : ‖Complex.I * (om : ℂ)‖ = om := by rw [norm_mul, Complex.norm_I, one_mul, Complex.norm_real, Real.norm_of_nonneg ho.le]
  have hre : (-(Complex.I * (om : ℂ))).re = 0 := by simp
  rw [cst, norm_neg, hno, hre, sub_zero] at key
  rw [sum_congr rfl fun n _ => helm_term om ho n ρ r γ hr0, ← sum_div]
  generalize √(r ^ 2 - 2 * (r * ρ * γ) + ρ ^ 2) = R at key ⊢
  have e : Complex.exp (Complex.I * ((om * R : ℝ) : ℂ)) / (Complex.I * ((om * R : ℝ) : ℂ)) =
      Complex.exp (-(-(Complex.I * om) * (R : ℂ))) / (R : ℂ) / (Complex.I * om) := by
    rw [div_div]
    congr 1
    · congr 1; push_cast; ring
    · push_cast; ring
  rw [e, ← sub_div, norm_div, hno, truncation]
  exact div_le_div_of_nonneg_right key ho.le

/-- The series with approximate functions. -/
theorem helm_radial_error (om : ℝ) (ho : 0 < om) (p : ℕ) (scale ρ r γ : ℝ) (hs : 0 < scale) (hρ : 0 ≤ ρ) (hr : ρ < r)
    (hγ : |γ| ≤ 1) (α β : ℕ → ℝ) (a : ℕ → ℝ) (b : ℕ → ℂ) (ha : NearJ p (om * ρ) scale α a) (hb : NearH p (om * r) scale β b) :
    ‖∑ n ∈ range (p + 1), (2 * n + 1) * (a n : ℂ) * b n * (leg γ 1 n : ℂ) -
      Complex.exp (Complex.I * (om * √(r ^ 2 - 2 * (r * ρ * γ) + ρ ^ 2) : ℝ)) /
        (Complex.I * (om * √(r ^ 2 - 2 * (r * ρ * γ) + ρ ^ 2) : ℝ))‖ ≤
      truncation p om ρ r + functionError p om scale ρ r α β := by
  have key := helm_addition_error om ho p ρ r γ hρ hr hγ
  have hleg1 : ∀ n, |leg γ 1 n| ≤ 1 := by
    intro n
    have := leg_abs_le γ 1 (by rw [← sq_abs]; nlinarith [abs_nonneg γ]) n
    simpa using this
  have hsum : ‖∑ n ∈ range (p + 1), (2 * n + 1) * (a n : ℂ) * b n * (leg γ 1 n : ℂ) -
      ∑ n ∈ range (p + 1), (2 * n + 1) * (sphJ n (om * ρ) : ℂ) * sphH n (om * r) * (leg γ 1 n : ℂ)‖ ≤
      functionError p om scale ρ r α β := by
    rw [← sum_sub_distrib, functionError]
    refine (norm_sum_le _ _).trans (sum_le_sum fun n hn => ?_)
    have hn' : n ≤ p := by have := mem_range.1 hn; omega
    have h1 := ha n hn'
    have h2 := hb n hn'
    have hsc : (scale : ℂ) ^ n ≠ 0 := by exact_mod_cast (pow_pos hs n).ne'
    set j : ℝ := sphJ n (om * ρ) / scale ^ n with hj
    set h : ℂ := (scale : ℂ) ^ n * sphH n (om * r) with hh
    have e : (2 * n + 1) * (a n : ℂ) * b n * (leg γ 1 n : ℂ) - (2 * n + 1) * (sphJ n (om * ρ) : ℂ) * sphH n (om * r) * (leg γ 1 n : ℂ) =
        ((2 * n + 1 : ℝ) : ℂ) * (((a n - j : ℝ) : ℂ) * h + (a n : ℂ) * (b n - h)) * (leg γ 1 n : ℂ) := by
      have : (sphJ n (om * ρ) : ℂ) * sphH n (om * r) = (j : ℂ) * h := by
        rw [hj, hh]; push_cast; field_simp
      push_cast
      linear_combination (-(2 * (n : ℂ) + 1) * (leg γ 1 n : ℂ)) * this
    rw [e, norm_mul, norm_mul, Complex.norm_real, Complex.norm_real, Real.norm_of_nonneg (by positivity), Real.norm_eq_abs]
    have ha2 : |a n| ≤ |sphJ n (om * ρ)| / scale ^ n + α n := by
      have h3 : |j| = |sphJ n (om * ρ)| / scale ^ n := by rw [hj, abs_div, abs_of_pos (pow_pos hs n)]
      have := abs_add_le (a n - j) j
      rw [sub_add_cancel] at this
      linarith
    have hα : 0 ≤ α n := (abs_nonneg _).trans h1
    have h4 : ‖((a n - j : ℝ) : ℂ) * h + (a n : ℂ) * (b n - h)‖ ≤ α n * ‖h‖ + (|sphJ n (om * ρ)| / scale ^ n + α n) * β n := by
      refine (norm_add_le _ _).trans ?_
      rw [norm_mul ((a n - j : ℝ) : ℂ) h, norm_mul (a n : ℂ) (b n - h), Complex.norm_real, Complex.norm_real, Real.norm_eq_abs,
        Real.norm_eq_abs]
      have : 0 ≤ |sphJ n (om * ρ)| / scale ^ n + α n := (abs_nonneg _).trans ha2
      gcongr
    calc (2 * n + 1) * ‖((a n - j : ℝ) : ℂ) * h + (a n : ℂ) * (b n - h)‖ * |leg γ 1 n|
        ≤ (2 * n + 1) * ‖((a n - j : ℝ) : ℂ) * h + (a n : ℂ) * (b n - h)‖ * 1 := by gcongr; exact hleg1 n
      _ ≤ _ := by rw [mul_one]; gcongr
  rw [← sub_add_sub_cancel, add_comm]
  exact (norm_add_le _ _).trans (add_le_add key hsum)

end
end Dashmm.Helm
