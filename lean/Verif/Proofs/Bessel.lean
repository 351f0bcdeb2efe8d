import Verif.Model.Bessel
import Verif.Spec.Bessel
import Verif.Proofs.BesselPoly
import Mathlib.Analysis.SpecialFunctions.Trigonometric.Bounds

/-!
# The scaled spherical Bessel functions
-/

namespace Dashmm.Bessel

open Dashmm.Yuk
open scoped Nat

noncomputable section

/-! ### The first kind -/

/-- The real entire function. -/
def erl (n : ℕ) (w : ℝ) : ℝ := ∑' k, ecoef n k * w ^ k

theorem ecoef_eq (n k : ℕ) : ecoef n k = ((2 * n + 1)‼ : ℕ) / (2 ^ k * k ! * ((2 * n + 2 * k + 1)‼ : ℕ)) := by
  induction k generalizing n with
  | zero =>
    have : (((2 * n + 1)‼ : ℕ) : ℝ) ≠ 0 := by exact_mod_cast (Nat.doubleFactorial_pos _).ne'
    simp [ecoef, this]
  | succ k ih =>
    rw [ecoef, ih (n + 1), show 2 * (n + 1) + 1 = 2 * n + 1 + 2 by ring, Nat.doubleFactorial_add_two,
      show 2 * (n + 1) + 2 * k + 1 = 2 * n + 2 * (k + 1) + 1 by ring, Nat.factorial_succ]
    have h1 : (((2 * n + 2 * (k + 1) + 1)‼ : ℕ) : ℝ) ≠ 0 := by exact_mod_cast (Nat.doubleFactorial_pos _).ne'
    have h2 : ((k ! : ℕ) : ℝ) ≠ 0 := by exact_mod_cast k.factorial_ne_zero
    have h3 := odd3_ne (K := ℝ) n
    push_cast
    rw [show (2 * (n : ℝ) + 1 + 2) = 2 * n + 3 by ring, pow_succ]
    field_simp

theorem erl_summable (n : ℕ) (w : ℝ) : Summable fun k => ecoef n k * w ^ k := by
  refine Summable.of_norm_bounded (Real.summable_pow_div_factorial (|w| / (2 * (2 * n + 3)))) fun k => ?_
  have := eterm_norm_le n k (w : ℂ)
  rw [← Complex.ofReal_pow, ← Complex.ofReal_mul, Complex.norm_real, Complex.norm_real] at this
  exact this

theorem efun_ofReal (n : ℕ) (w : ℝ) : efun n (w : ℂ) = (erl n w : ℂ) := by
  rw [efun, erl, Complex.ofReal_tsum]; push_cast; rfl

theorem sphI_eq (n : ℕ) (x : ℝ) : sphI n x = x ^ n / ((2 * n + 1)‼ : ℕ) * erl n (x ^ 2) := by
  rw [sphI, erl, ← tsum_mul_left]
  refine tsum_congr fun k => ?_
  have h0 : (((2 * n + 1)‼ : ℕ) : ℝ) ≠ 0 := by exact_mod_cast (Nat.doubleFactorial_pos _).ne'
  rw [ecoef_eq, pow_add, pow_mul]
  field_simp

theorem sphJ_eq (n : ℕ) (x : ℝ) : sphJ n x = x ^ n / ((2 * n + 1)‼ : ℕ) * erl n (-x ^ 2) := by
  rw [sphJ, erl, ← tsum_mul_left]
  refine tsum_congr fun k => ?_
  have h0 : (((2 * n + 1)‼ : ℕ) : ℝ) ≠ 0 := by exact_mod_cast (Nat.doubleFactorial_pos _).ne'
  rw [ecoef_eq, pow_add, pow_mul, neg_pow (x ^ 2) k]
  field_simp

theorem erl_one_le (n : ℕ) (w : ℝ) (hw : 0 ≤ w) : 1 ≤ erl n w := by
  have h := (erl_summable n w).sum_le_tsum {0} fun k _ => mul_nonneg (ecoef_pos n k).le (pow_nonneg hw k)
  rw [erl]; simpa [ecoef] using h

theorem erl_anti (n : ℕ) (w : ℝ) (hw : 0 ≤ w) : erl (n + 1) w ≤ erl n w :=
  (erl_summable _ _).tsum_le_tsum (fun k => mul_le_mul_of_nonneg_right (ecoef_anti n k) (pow_nonneg hw k)) (erl_summable _ _)

theorem erl_le (n : ℕ) (w : ℝ) (hw : 0 ≤ w) : erl n w ≤ Real.exp (w / (2 * (2 * n + 3))) := by
  have h := efun_norm_le n (w : ℂ)
  rw [efun_ofReal, Complex.norm_real, Complex.norm_real, Real.norm_of_nonneg hw,
    Real.norm_of_nonneg (by linarith [erl_one_le n w hw])] at h
  exact h

/-- Two terms of the series. -/
theorem erl_two (n : ℕ) (w : ℝ) (hw : |w| ≤ 1) : |erl n w - (1 + w / (2 * (2 * n + 3)))| ≤ w ^ 2 / 36 := by
  have h0 := (erl_summable n w).sum_add_tsum_nat_add 2
  have e2 : ∑ i ∈ Finset.range 2, ecoef n i * w ^ i = 1 + w / (2 * (2 * n + 3)) := by
    rw [Finset.sum_range_succ, Finset.sum_range_one, ecoef, ecoef, ecoef]; push_cast; ring
  rw [e2] at h0
  have e3 : erl n w - (1 + w / (2 * (2 * n + 3))) = ∑' k, ecoef n (k + 2) * w ^ (k + 2) := by rw [erl, ← h0]; ring
  rw [e3]
  have hb : ∀ k, ‖ecoef n (k + 2) * w ^ (k + 2)‖ ≤ w ^ 2 / 72 * (1 / 2) ^ k := by
    intro k
    rw [norm_mul, norm_pow, Real.norm_of_nonneg (ecoef_pos _ _).le, Real.norm_eq_abs, pow_add, sq_abs]
    have h1 : ecoef n (k + 2) ≤ (1 / 6) ^ (k + 2) / ((k + 2)! : ℝ) := by
      refine (ecoef_le n (k + 2)).trans ?_
      gcongr
      have : (0 : ℝ) ≤ n := by positivity
      linarith
    have h2 : ((1 : ℝ) / 6) ^ (k + 2) / ((k + 2)! : ℝ) ≤ 1 / 72 * (1 / 2) ^ k := by
      have h3 : (2 : ℝ) ≤ ((k + 2)! : ℝ) := by
        have := Nat.factorial_le (show 2 ≤ k + 2 by omega)
        exact_mod_cast this
      calc ((1 : ℝ) / 6) ^ (k + 2) / ((k + 2)! : ℝ) ≤ (1 / 6) ^ (k + 2) / 2 := by gcongr
        _ = 1 / 72 * (1 / 6) ^ k := by rw [pow_add]; ring
        _ ≤ 1 / 72 * (1 / 2) ^ k := by gcongr; norm_num
    calc ecoef n (k + 2) * (|w| ^ k * w ^ 2) ≤ (1 / 72 * (1 / 2) ^ k) * (1 * w ^ 2) := by
          have := pow_le_one₀ (abs_nonneg w) hw (n := k)
          have := ecoef_pos n (k + 2)
          gcongr; exact h1.trans h2
      _ = _ := by ring
  have hs : HasSum (fun k : ℕ => w ^ 2 / 72 * (1 / 2 : ℝ) ^ k) (w ^ 2 / 72 * 2) := by
    have := (hasSum_geometric_of_lt_one (r := (1 / 2 : ℝ)) (by norm_num) (by norm_num)).mul_left (w ^ 2 / 72)
    have e : (w ^ 2 / 72 * (1 - 1 / 2)⁻¹ : ℝ) = w ^ 2 / 72 * 2 := by norm_num
    rwa [e] at this
  have := tsum_of_norm_bounded hs hb
  rw [Real.norm_eq_abs] at this
  refine this.trans_eq (by ring)

theorem sphI_nonneg (n : ℕ) (x : ℝ) (hx : 0 ≤ x) : 0 ≤ sphI n x := by
  rw [sphI_eq]
  have := erl_one_le n (x ^ 2) (by positivity)
  have : 0 ≤ erl n (x ^ 2) := by linarith
  positivity

theorem sphI_succ_le (n : ℕ) (x : ℝ) (hx : 0 ≤ x) : sphI (n + 1) x ≤ sphI n x * x := by
  rw [sphI_eq, sphI_eq, show 2 * (n + 1) + 1 = 2 * n + 1 + 2 by ring, Nat.doubleFactorial_add_two]
  have h1 := erl_anti n (x ^ 2) (by positivity)
  have h2 := erl_one_le (n + 1) (x ^ 2) (by positivity)
  have h0 : (0 : ℝ) < ((2 * n + 1)‼ : ℕ) := by exact_mod_cast (Nat.doubleFactorial_pos _)
  have h3 : x ^ (n + 1) / ((((2 * n + 1 + 2) * (2 * n + 1)‼ : ℕ)) : ℝ) ≤ x ^ (n + 1) / ((2 * n + 1)‼ : ℕ) := by
    gcongr
    push_cast
    have : (0 : ℝ) ≤ n := by positivity
    nlinarith
  calc _ ≤ x ^ (n + 1) / ((2 * n + 1)‼ : ℕ) * erl n (x ^ 2) := by
        refine mul_le_mul h3 h1 (by linarith) (by positivity)
    _ = _ := by ring

/-! ### The second kind -/

/-- The coefficients of the Bessel polynomials. -/
def bcoef (n k : ℕ) : ℝ := if k ≤ n then ((n + k)! : ℝ) / (k ! * (n - k)!) / 2 ^ k else 0

theorem bcoef_zero (n : ℕ) : bcoef n 0 = 1 := by
  have : ((n ! : ℕ) : ℝ) ≠ 0 := by exact_mod_cast n.factorial_ne_zero
  simp [bcoef, this]

theorem bcoef_step (n k : ℕ) : bcoef (n + 2) (k + 1) = (2 * n + 3) * bcoef (n + 1) k + bcoef n (k + 1) := by
  unfold bcoef
  rcases lt_trichotomy (k + 1) (n + 1) with h | h | h
  · obtain ⟨j, rfl⟩ : ∃ j, n = k + 1 + j := ⟨n - (k + 1), by omega⟩
    rw [if_pos (by omega), if_pos (by omega), if_pos (by omega)]
    rw [show k + 1 + j + 2 + (k + 1) = (k + 1 + j + 1 + k) + 1 + 1 by ring, show k + 1 + j + 2 - (k + 1) = j + 1 + 1 by omega,
      show k + 1 + j + 1 - k = j + 1 + 1 by omega, show k + 1 + j - (k + 1) = j by omega,
      show k + 1 + j + (k + 1) = k + 1 + j + 1 + k by ring]
    rw [Nat.factorial_succ (k + 1 + j + 1 + k + 1), Nat.factorial_succ (k + 1 + j + 1 + k), Nat.factorial_succ (j + 1),
      Nat.factorial_succ j, Nat.factorial_succ k, pow_succ]
    have h1 : ((j ! : ℕ) : ℝ) ≠ 0 := by exact_mod_cast j.factorial_ne_zero
    have h2 : ((k ! : ℕ) : ℝ) ≠ 0 := by exact_mod_cast k.factorial_ne_zero
    have h3 : ((j : ℝ) + 1) ≠ 0 := by positivity
    have h4 : ((j : ℝ) + 1 + 1) ≠ 0 := by positivity
    have h5 : ((k : ℝ) + 1) ≠ 0 := by positivity
    push_cast
    field_simp
    ring
  · obtain rfl : k = n := by omega
    rw [if_pos (by omega), if_pos (by omega), if_neg (by omega)]
    rw [show k + 2 + (k + 1) = (k + 1 + k) + 1 + 1 by ring, show k + 2 - (k + 1) = 1 by omega, show k + 1 - k = 1 by omega,
      Nat.factorial_succ (k + 1 + k + 1), Nat.factorial_succ (k + 1 + k), Nat.factorial_succ k, pow_succ]
    have h2 : ((k ! : ℕ) : ℝ) ≠ 0 := by exact_mod_cast k.factorial_ne_zero
    have h5 : ((k : ℝ) + 1) ≠ 0 := by positivity
    push_cast
    field_simp
    ring
  · rcases Nat.lt_or_ge (n + 2) (k + 1) with h' | h'
    · rw [if_neg (by omega), if_neg (by omega), if_neg (by omega)]; ring
    · obtain rfl : k = n + 1 := by omega
      rw [if_pos (by omega), if_pos (by omega), if_neg (by omega)]
      rw [show n + 2 + (n + 1 + 1) = (n + 1 + (n + 1)) + 1 + 1 by ring, show n + 2 - (n + 1 + 1) = 0 by omega,
        show n + 1 - (n + 1) = 0 by omega, Nat.factorial_succ (n + 1 + (n + 1) + 1), Nat.factorial_succ (n + 1 + (n + 1)),
        Nat.factorial_succ (n + 1), pow_succ]
      have h2 : (((n + 1)! : ℕ) : ℝ) ≠ 0 := by exact_mod_cast (n + 1).factorial_ne_zero
      have h5 : ((n : ℝ) + 1 + 1) ≠ 0 := by positivity
      push_cast
      field_simp
      ring

theorem sphK_bcoef (n N : ℕ) (h : n < N) (x : ℝ) :
    sphK n x = Real.pi / 2 * Real.exp (-x) * ∑ k ∈ Finset.range N, bcoef n k / x ^ (k + 1) := by
  rw [sphK]
  congr 1
  rw [← Finset.sum_subset (Finset.range_mono (show n + 1 ≤ N by omega))]
  · refine Finset.sum_congr rfl fun k hk => ?_
    rw [bcoef, if_pos (by simpa using Nat.lt_succ_iff.1 (Finset.mem_range.1 hk)), ← div_div _ (2 ^ k)]
  · intro k _ hk
    rw [bcoef, if_neg (by simp at hk; omega), zero_div]

theorem sphK_three (n : ℕ) (x : ℝ) : sphK (n + 2) x = (2 * n + 3) / x * sphK (n + 1) x + sphK n x := by
  rw [sphK_bcoef (n + 2) (n + 3) (by omega), sphK_bcoef (n + 1) (n + 2) (by omega), sphK_bcoef n (n + 3) (by omega),
    Finset.sum_range_succ' _ (n + 2), Finset.sum_range_succ' _ (n + 2), bcoef_zero, bcoef_zero]
  have : ∑ k ∈ Finset.range (n + 2), bcoef (n + 2) (k + 1) / x ^ (k + 1 + 1) =
      (2 * n + 3) / x * (∑ k ∈ Finset.range (n + 2), bcoef (n + 1) k / x ^ (k + 1)) +
        ∑ k ∈ Finset.range (n + 2), bcoef n (k + 1) / x ^ (k + 1 + 1) := by
    rw [Finset.mul_sum, ← Finset.sum_add_distrib]
    refine Finset.sum_congr rfl fun k _ => ?_
    rw [bcoef_step, pow_succ x (k + 1)]
    rcases eq_or_ne x 0 with rfl | hx
    · simp
    · field_simp
  rw [this]; ring

theorem sphK_theta (n : ℕ) (x : ℝ) (hx : x ≠ 0) :
    sphK n x = Real.pi / 2 * Real.exp (-x) * ((2 * n - 1)‼ : ℕ) * theta x n / x ^ (n + 1) := by
  induction n using Nat.twoStepInduction with
  | zero => simp [sphK, theta]; field_simp
  | one => simp [sphK, theta, Finset.sum_range_succ]; field_simp; ring
  | more n h0 h1 =>
    have hd : (((2 * (n + 2) - 1)‼ : ℕ) : ℝ) = (2 * n + 3) * ((2 * (n + 1) - 1)‼ : ℕ) := by
      rw [show 2 * (n + 2) - 1 = 2 * n + 1 + 2 by omega, Nat.doubleFactorial_add_two, show 2 * (n + 1) - 1 = 2 * n + 1 by omega]
      push_cast; ring
    have hd' : (((2 * (n + 1) - 1)‼ : ℕ) : ℝ) = (2 * n + 1) * ((2 * n - 1)‼ : ℕ) := by
      cases n with
      | zero => norm_num
      | succ n =>
        rw [show 2 * (n + 1 + 1) - 1 = 2 * n + 1 + 2 by omega, Nat.doubleFactorial_add_two, show 2 * (n + 1) - 1 = 2 * n + 1 by omega]
        push_cast; ring
    have e1 := odd_ne (K := ℝ) n
    have e3 := odd3_ne (K := ℝ) n
    rw [sphK_three, h0, h1, theta.eq_3, hd, hd']
    rw [show x ^ (n + 2 + 1) = x ^ n * x ^ 3 by ring, show x ^ (n + 1 + 1) = x ^ n * x ^ 2 by ring, pow_succ x n]
    field_simp

theorem knEntry_eq (x scale : ℝ) (hx : x ≠ 0) (n : ℕ) : knEntry x scale n = scale ^ n * sphK n x := by
  induction n using Nat.twoStepInduction with
  | zero => simp [knEntry, sphK]; ring
  | one => simp [knEntry, sphK, Finset.sum_range_succ]; field_simp
  | more n h0 h1 =>
    rw [knEntry, h0, h1, sphK_three]
    push_cast
    rw [pow_succ, pow_succ]
    field_simp
    ring

theorem sphK_pos (n : ℕ) (x : ℝ) (hx : 0 < x) : 0 < sphK n x := by
  rw [sphK_theta n x hx.ne']
  have := theta_real_pos x hx.le n
  have : (0 : ℝ) < ((2 * n - 1)‼ : ℕ) := by exact_mod_cast (Nat.doubleFactorial_pos _)
  have := Real.pi_pos
  positivity

theorem sphK_le (n : ℕ) (x : ℝ) (hx : 0 < x) : sphK n x ≤ Real.pi / 2 * ((2 * n - 1)‼ : ℕ) / x ^ (n + 1) := by
  rw [sphK_theta n x hx.ne']
  have h := theta_real_le x hx.le n
  have hpi := Real.pi_pos
  have : Real.exp (-x) * theta x n ≤ 1 := by
    rw [Real.exp_neg, inv_mul_le_iff₀ (Real.exp_pos x), mul_one]; exact h
  rw [div_le_div_iff_of_pos_right (by positivity)]
  calc Real.pi / 2 * Real.exp (-x) * ((2 * n - 1)‼ : ℕ) * theta x n =
      Real.pi / 2 * ((2 * n - 1)‼ : ℕ) * (Real.exp (-x) * theta x n) := by ring
    _ ≤ Real.pi / 2 * ((2 * n - 1)‼ : ℕ) * 1 := by gcongr
    _ = Real.pi / 2 * ((2 * n - 1)‼ : ℕ) := by ring

end
end Dashmm.Bessel
