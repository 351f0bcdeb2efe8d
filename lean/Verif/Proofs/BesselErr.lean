import Verif.Proofs.Bessel
import Mathlib.Analysis.Real.Pi.Bounds

/-!
# The accuracy of the scaled spherical Bessel functions
-/

namespace Dashmm.Bessel

open Dashmm.Yuk
open scoped Nat

noncomputable section

theorem dfact_pos (n : ℕ) : (0 : ℝ) < (n‼ : ℕ) := by exact_mod_cast Nat.doubleFactorial_pos n

theorem enmten_pos : 0 < enmten := by unfold enmten; positivity

theorem xmin_pos : 0 < xmin := by unfold xmin; positivity

theorem dfact_succ (n : ℕ) : (((2 * (n + 1) + 1)‼ : ℕ) : ℝ) = (2 * n + 3) * ((2 * n + 1)‼ : ℕ) := by
  rw [show 2 * (n + 1) + 1 = 2 * n + 1 + 2 by ring, Nat.doubleFactorial_add_two]; push_cast; ring

theorem taylorT1_cases (y : ℝ) (hy : 0 ≤ y) (n : ℕ) : taylorT1 y n = y ^ n / ((2 * n + 1)‼ : ℕ) ∨
    (taylorT1 y n = 0 ∧ y ^ n / ((2 * n + 1)‼ : ℕ) ≤ enmten * max 1 y ^ n) := by
  have htiny := enmten_pos
  have hM : (1 : ℝ) ≤ max 1 y := le_max_left _ _
  induction n with
  | zero => left; simp [taylorT1]
  | succ n ih =>
    have hd := dfact_pos (2 * n + 1)
    have hn : (0 : ℝ) ≤ n := by positivity
    rw [taylorT1]
    rcases ih with h | ⟨h1, h2⟩
    · have e : taylorT1 y n * y / (2 * ((n + 1 : ℕ) : ℝ) + 1) = y ^ (n + 1) / ((2 * (n + 1) + 1)‼ : ℕ) := by
        rw [h, dfact_succ]; push_cast
        rw [show 2 * ((n : ℝ) + 1) + 1 = 2 * n + 3 by ring, pow_succ]
        field_simp
      rw [e]
      split
      · next hc =>
        right
        refine ⟨rfl, hc.trans ?_⟩
        exact le_mul_of_one_le_right (by positivity) (one_le_pow₀ hM)
      · left; rfl
    · right
      rw [h1, zero_mul, zero_div, if_pos (by positivity)]
      refine ⟨rfl, ?_⟩
      have e : y ^ (n + 1) / ((2 * (n + 1) + 1)‼ : ℕ) ≤ y ^ n / ((2 * n + 1)‼ : ℕ) * y := by
        rw [dfact_succ, pow_succ, div_mul_eq_mul_div]
        gcongr
        nlinarith
      refine e.trans ?_
      rw [pow_succ, ← mul_assoc]
      exact mul_le_mul h2 (le_max_right _ _) hy (by positivity)

theorem factorAt_cases (F : Table) (δ : ℝ) (hδ : δ ≤ 1 / 2) (hF : AccurateI F δ) (nb : ℕ) (x scale : ℝ) (hs : 0 < scale)
    (hx : 10⁻¹ ^ 4 < x) (hx2 : x ≤ 100) (n : ℕ) (hn : n ≤ nb) :
    factorAt (F nb x) x scale n = √(Real.pi / 2 / x) / scale ^ n ∨
    (factorAt (F nb x) x scale n = 0 ∧ sphI n x / scale ^ n ≤ 2 * enmten * max 1 (x / scale) ^ n) := by
  have hx0 : 0 < x := lt_trans (by positivity) hx
  have htiny := enmten_pos
  have hM : (1 : ℝ) ≤ max 1 (x / scale) := le_max_left _ _
  have step : ∀ n, sphI n x / scale ^ n ≤ 2 * enmten * max 1 (x / scale) ^ n →
      sphI (n + 1) x / scale ^ (n + 1) ≤ 2 * enmten * max 1 (x / scale) ^ (n + 1) := by
    intro n h
    have e : sphI (n + 1) x / scale ^ (n + 1) ≤ sphI n x / scale ^ n * (x / scale) := by
      rw [div_mul_div_comm, ← pow_succ]
      gcongr
      exact sphI_succ_le n x hx0.le
    refine e.trans ?_
    have := enmten_pos
    rw [pow_succ, ← mul_assoc]
    exact mul_le_mul h (le_max_right _ _) (by positivity) (by positivity)
  induction n with
  | zero => left; simp [factorAt]
  | succ n ih =>
    have hi := sphI_nonneg n x hx0.le
    rw [factorAt]
    rcases ih (by omega) with h | ⟨h1, h2⟩
    · split
      · next hc =>
        right
        refine ⟨rfl, step n ?_⟩
        rw [h, ← mul_div_assoc, abs_div, abs_of_pos (pow_pos hs n)] at hc
        have ha := hF nb x hx hx2 n (by omega)
        have hb : sphI n x / 2 ≤ |F nb x n * √(Real.pi / 2 / x)| := by
          have h1 : sphI n x ≤ |sphI n x - F nb x n * √(Real.pi / 2 / x)| + |F nb x n * √(Real.pi / 2 / x)| := by
            have := abs_add_le (sphI n x - F nb x n * √(Real.pi / 2 / x)) (F nb x n * √(Real.pi / 2 / x))
            rw [sub_add_cancel, abs_of_nonneg hi] at this
            exact this
          rw [abs_sub_comm] at h1
          nlinarith
        have hc2 : sphI n x / 2 / scale ^ n ≤ enmten := le_trans (by gcongr) hc
        have : sphI n x / scale ^ n ≤ 2 * enmten := by
          have e : sphI n x / scale ^ n = 2 * (sphI n x / 2 / scale ^ n) := by ring
          rw [e]; linarith
        exact this.trans (le_mul_of_one_le_right (by positivity) (one_le_pow₀ hM))
      · left; rw [h, div_div, ← pow_succ]
    · right
      rw [h1, mul_zero, abs_zero, if_pos (by positivity)]
      exact ⟨rfl, step n h2⟩

theorem taylor_error (x scale w : ℝ) (hs : 0 < scale) (hx : 0 ≤ x) (hx4 : x ≤ 10⁻¹ ^ 4) (hw : |w| = x ^ 2) (n : ℕ) :
    |taylorT1 (x / scale) n * (1 + w / (2 * (2 * n + 3))) - (x / scale) ^ n / ((2 * n + 1)‼ : ℕ) * erl n w| ≤
      10⁻¹ ^ 17 * ((x / scale) ^ n / ((2 * n + 1)‼ : ℕ)) + 2 * enmten * max 1 (x / scale) ^ n := by
  have hd := dfact_pos (2 * n + 1)
  have htiny := enmten_pos
  have hM : (1 : ℝ) ≤ max 1 (x / scale) := le_max_left _ _
  have hx2 : x ^ 2 ≤ 10⁻¹ ^ 8 := by
    have := pow_le_pow_left₀ hx hx4 2
    refine this.trans_eq (by norm_num)
  have hw2 : w ^ 2 ≤ 10⁻¹ ^ 16 := by
    rw [← sq_abs, hw]
    have := pow_le_pow_left₀ (sq_nonneg x) hx2 2
    refine this.trans_eq (by norm_num)
  have hw1 : |w| ≤ 1 := by rw [hw]; exact hx2.trans (by norm_num)
  have he := erl_two n w hw1
  set t := (x / scale) ^ n / ((2 * n + 1)‼ : ℕ) with ht
  have ht0 : 0 ≤ t := by positivity
  rcases taylorT1_cases (x / scale) (by positivity) n with h | ⟨h1, h2⟩
  · rw [h, ← mul_sub, abs_mul, abs_of_nonneg ht0, abs_sub_comm]
    have : t * |erl n w - (1 + w / (2 * (2 * n + 3)))| ≤ 10⁻¹ ^ 17 * t := by
      rw [mul_comm]
      refine mul_le_mul_of_nonneg_right (he.trans ?_) ht0
      refine (div_le_div_of_nonneg_right hw2 (by norm_num)).trans ?_
      norm_num
    have h3 : (0 : ℝ) ≤ 2 * enmten * max 1 (x / scale) ^ n := by positivity
    linarith
  · rw [h1, zero_mul, zero_sub, abs_neg, abs_mul, abs_of_nonneg ht0]
    have hE : |erl n w| ≤ 2 := by
      have h3 : |w / (2 * (2 * n + 3))| ≤ 1 / 2 := by
        rw [abs_div, abs_of_pos (show (0 : ℝ) < 2 * (2 * n + 3) by positivity), div_le_iff₀ (by positivity)]
        have : (0 : ℝ) ≤ n := by positivity
        nlinarith
      have h4 := abs_le.1 he
      have h5 := abs_le.1 h3
      have h6 : w ^ 2 / 36 ≤ 1 / 2 := (div_le_div_of_nonneg_right hw2 (by norm_num)).trans (by norm_num)
      rw [abs_le]; constructor <;> linarith
    have : t * |erl n w| ≤ enmten * max 1 (x / scale) ^ n * 2 := mul_le_mul h2 hE (abs_nonneg _) (by positivity)
    have h7 : 0 ≤ 10⁻¹ ^ 17 * t := by positivity
    linarith

theorem in_error (F : Table) (δ : ℝ) (hδ0 : 10⁻¹ ^ 17 ≤ δ) (hδ : δ ≤ 1 / 2) (hF : AccurateI F δ) (nb : ℕ) (x scale : ℝ)
    (hs : 0 < scale) (hx : 0 ≤ x) (hx2 : x ≤ 100) (n : ℕ) (hn : n ≤ nb) :
    |inScaled F nb x scale n - sphI n x / scale ^ n| ≤ δ * (sphI n x / scale ^ n) +
      2 * enmten * max 1 (x / scale) ^ n := by
  have htiny := enmten_pos
  have hM : (1 : ℝ) ≤ max 1 (x / scale) := le_max_left _ _
  have hd0 : 0 ≤ δ := le_trans (by positivity) hδ0
  rw [inScaled]
  split
  · next h4 =>
    have h := taylor_error x scale (x ^ 2) hs hx h4 (abs_of_nonneg (by positivity)) n
    have e1 : (0.5 * x * x / (2 * n + 3) : ℝ) = x ^ 2 / (2 * (2 * n + 3)) := by
      have := odd3_ne (K := ℝ) n
      field_simp; ring
    have e2 : sphI n x / scale ^ n = (x / scale) ^ n / ((2 * n + 1)‼ : ℕ) * erl n (x ^ 2) := by
      rw [sphI_eq, div_pow]; ring
    rw [e1, e2]
    refine h.trans (add_le_add ?_ le_rfl)
    have hd := dfact_pos (2 * n + 1)
    have := erl_one_le n (x ^ 2) (by positivity)
    refine mul_le_mul hδ0 (le_mul_of_one_le_right (by positivity) this) (by positivity) hd0
  · next h4 =>
    rw [if_neg (not_lt.2 hx2)]
    have h4' : 10⁻¹ ^ 4 < x := not_le.1 h4
    have hi : 0 ≤ sphI n x / scale ^ n := div_nonneg (sphI_nonneg n x hx) (by positivity)
    rcases factorAt_cases F δ hδ hF nb x scale hs h4' hx2 n hn with h | ⟨h1, h2⟩
    · rw [h, ← mul_div_assoc, ← sub_div, abs_div, abs_of_pos (pow_pos hs n)]
      have := hF nb x h4' hx2 n hn
      have h3 : |F nb x n * √(Real.pi / 2 / x) - sphI n x| / scale ^ n ≤ δ * (sphI n x / scale ^ n) := by
        rw [← mul_div_assoc]; gcongr
      have h5 : (0 : ℝ) ≤ 2 * enmten * max 1 (x / scale) ^ n := by positivity
      linarith
    · rw [h1, mul_zero, zero_sub, abs_neg, abs_of_nonneg hi]
      have : 0 ≤ δ * (sphI n x / scale ^ n) := by positivity
      linarith

/-! ### Success of `bessel_kn_scaled` -/

theorem kn_succeeds (nb : ℕ) (x scale : ℝ) (hnb : 1 ≤ nb) (hx : xmin ≤ x) (hx8 : x < 10 ^ 8) (hs : 0 < scale)
    (hb : ∀ n ≤ nb, Real.pi / 2 * ((2 * n - 1)‼ : ℕ) * scale ^ n / x ^ (n + 1) < xinf) :
    knScaled nb x scale = some (knEntry x scale) := by
  have hx0 : 0 < x := lt_of_lt_of_le xmin_pos hx
  rw [knScaled, if_pos]
  refine ⟨hnb, hx, hx8, fun n h2 hn hstop => ?_⟩
  obtain ⟨m, rfl⟩ : ∃ m, n = m + 2 := ⟨n - 2, by omega⟩
  have hk1 := sphK_pos (m + 1) x hx0
  have hk0 := sphK_pos m x hx0
  have hpos : (0 : ℝ) < 2 * ((m + 2 : ℕ) : ℝ) - 1 := by push_cast; have : (0 : ℝ) ≤ m := by positivity
                                                        linarith
  rw [knStop, div_le_iff₀ hpos, show m + 2 - 1 = m + 1 from rfl, knEntry_eq x scale hx0.ne', abs_of_pos (by positivity)] at hstop
  have e : scale ^ (m + 1) * sphK (m + 1) x * (scale / x) * (2 * ((m + 2 : ℕ) : ℝ) - 1) ≤ scale ^ (m + 2) * sphK (m + 2) x := by
    rw [sphK_three]
    have : scale ^ (m + 1) * sphK (m + 1) x * (scale / x) * (2 * ((m + 2 : ℕ) : ℝ) - 1) =
        scale ^ (m + 2) * ((2 * m + 3) / x * sphK (m + 1) x) := by push_cast; ring
    rw [this]
    refine mul_le_mul_of_nonneg_left ?_ (by positivity)
    linarith
  have e2 : scale ^ (m + 2) * sphK (m + 2) x ≤ Real.pi / 2 * ((2 * (m + 2) - 1)‼ : ℕ) * scale ^ (m + 2) / x ^ (m + 2 + 1) := by
    calc _ ≤ scale ^ (m + 2) * (Real.pi / 2 * ((2 * (m + 2) - 1)‼ : ℕ) / x ^ (m + 2 + 1)) :=
          mul_le_mul_of_nonneg_left (sphK_le (m + 2) x hx0) (by positivity)
      _ = _ := by ring
  exact absurd (hstop.trans (e.trans e2)) (not_le.2 (hb _ hn))

/-! ### The third kind -/

/-- `y_n(x)` divided by the leading term `-(2 n - 1)!! / x ^ (n + 1)`. -/
def yfun (x : ℝ) : ℕ → ℝ
  | 0 => Real.cos x
  | 1 => Real.cos x + x * Real.sin x
  | n + 2 => yfun x (n + 1) - x ^ 2 / ((2 * n + 1) * (2 * n + 3)) * yfun x n

theorem dfact_pred (n : ℕ) : (((2 * (n + 1) - 1)‼ : ℕ) : ℝ) = (2 * n + 1) * ((2 * n - 1)‼ : ℕ) := by
  cases n with
  | zero => norm_num
  | succ n =>
    rw [show 2 * (n + 1 + 1) - 1 = 2 * n + 1 + 2 by omega, Nat.doubleFactorial_add_two, show 2 * (n + 1) - 1 = 2 * n + 1 by omega]
    push_cast; ring

theorem sphY_eq (x : ℝ) (hx : x ≠ 0) (n : ℕ) : sphY x n = -(((2 * n - 1)‼ : ℕ) / x ^ (n + 1) * yfun x n) := by
  induction n using Nat.twoStepInduction with
  | zero => simp [sphY, yfun]; ring
  | one => simp [sphY, yfun]; field_simp; ring
  | more n h0 h1 =>
    have e1 := odd_ne (K := ℝ) n
    have e3 := odd3_ne (K := ℝ) n
    rw [sphY, h0, h1, yfun, dfact_pred (n + 1), dfact_pred n]
    push_cast
    rw [show x ^ (n + 2 + 1) = x ^ n * x ^ 3 by ring, show x ^ (n + 1 + 1) = x ^ n * x ^ 2 by ring, pow_succ x n,
      show 2 * ((n : ℝ) + 1) + 1 = 2 * n + 3 by ring]
    field_simp
    ring

theorem yfun_bounds (x : ℝ) (hx : 0 ≤ x) (hx1 : x ≤ 1 / 2) (n : ℕ) : 1 / 2 ≤ yfun x n ∧ yfun x n ≤ 2 := by
  have hs0 : 0 ≤ Real.sin x := Real.sin_nonneg_of_nonneg_of_le_pi hx (by linarith [Real.pi_gt_three])
  have hs1 := Real.sin_le_one x
  have hc1 := Real.cos_le_one x
  have hc0 := Real.one_sub_sq_div_two_le_cos (x := x)
  have key : ∀ n : ℕ, (1 / 2 ≤ yfun x n ∧ yfun x n ≤ 2) ∧ (1 - x ^ 2 / 2 - x ^ 2 * (1 - 1 / (2 * n + 1)) ≤ yfun x (n + 1) ∧
      yfun x (n + 1) ≤ 2) := by
    intro n
    induction n with
    | zero =>
      simp only [yfun]
      refine ⟨⟨by nlinarith, by linarith⟩, ?_, by nlinarith⟩
      norm_num; nlinarith [mul_nonneg hx hs0]
    | succ n ih =>
      obtain ⟨⟨a1, a2⟩, b1, b2⟩ := ih
      have hn : (0 : ℝ) ≤ n := by positivity
      have hlow : (1 : ℝ) / 2 ≤ yfun x (n + 1) := by
        have : 1 - 1 / (2 * (n : ℝ) + 1) ≤ 1 := by
          have : (0 : ℝ) ≤ 1 / (2 * n + 1) := by positivity
          linarith
        nlinarith [sq_nonneg x]
      refine ⟨⟨hlow, b2⟩, ?_, ?_⟩
      · rw [yfun]
        have h1 : x ^ 2 / ((2 * n + 1) * (2 * n + 3)) * yfun x n ≤ x ^ 2 / ((2 * n + 1) * (2 * n + 3)) * 2 :=
          mul_le_mul_of_nonneg_left a2 (by positivity)
        have h2 : x ^ 2 / ((2 * (n : ℝ) + 1) * (2 * n + 3)) * 2 = x ^ 2 * (1 / (2 * n + 1) - 1 / (2 * n + 3)) := by
          have e1 := odd_ne (K := ℝ) n
          have e3 := odd3_ne (K := ℝ) n
          field_simp; ring
        rw [h2] at h1
        push_cast
        rw [show 2 * ((n : ℝ) + 1) + 1 = 2 * n + 3 by ring]
        nlinarith
      · rw [yfun]
        have : 0 ≤ x ^ 2 / ((2 * n + 1) * (2 * n + 3)) * yfun x n := mul_nonneg (by positivity) (by linarith)
        linarith
  exact (key n).1

theorem hnT2_eq (x scale : ℝ) (n : ℕ) : hnT2 x scale n = ((2 * n - 1)‼ : ℕ) * (scale / x) ^ n := by
  induction n with
  | zero => simp [hnT2]
  | succ n ih => rw [hnT2, ih, dfact_pred]; push_cast; ring

/-- The defect of `bessel_hn_scaled`: for small arguments the imaginary part lacks a factor `1 / x`. -/
theorem hn_wrong (Y : Table) (nb : ℕ) (x scale : ℝ) (hx : 0 < x) (hx4 : x < 10⁻¹ ^ 4) (hs : 0 < scale) (n : ℕ) :
    |hnIm Y nb x scale (n + 1)| ≤ 3 * x * |scale ^ (n + 1) * sphY x (n + 1)| := by
  have hx1 : x ≤ 1 / 2 := hx4.le.trans (by norm_num)
  have hd := dfact_pos (2 * (n + 1) - 1)
  obtain ⟨h1, h2⟩ := yfun_bounds x hx.le hx1 (n + 1)
  rw [hnIm, if_pos hx4, hnY, hnT2_eq, sphY_eq x hx.ne', mul_neg, abs_neg, neg_mul, abs_neg]
  have e1 : (1 - 0.5 * x * x / (1 - 2 * ((n + 1 : ℕ) : ℝ)) : ℝ) = 1 + x ^ 2 / (2 * (2 * n + 1)) := by
    have e1 := odd_ne (K := ℝ) n
    have e2 : (1 - 2 * ((n + 1 : ℕ) : ℝ)) = -(2 * n + 1) := by push_cast; ring
    rw [e2, div_neg, sub_neg_eq_add]
    congr 1
    field_simp; norm_num
  have h3 : x ^ 2 / (2 * (2 * n + 1)) ≤ 1 / 2 := by
    rw [div_le_iff₀ (by positivity)]
    have : (0 : ℝ) ≤ n := by positivity
    nlinarith
  rw [e1, abs_of_pos (by positivity), abs_of_pos (by have : 0 < yfun x (n + 1) := by linarith
                                                     positivity)]
  have e2 : ((2 * (n + 1) - 1)‼ : ℕ) * (scale / x) ^ (n + 1) * (1 + x ^ 2 / (2 * (2 * n + 1))) ≤
      ((2 * (n + 1) - 1)‼ : ℕ) * (scale / x) ^ (n + 1) * (3 * yfun x (n + 1)) := by
    refine mul_le_mul_of_nonneg_left ?_ (by positivity)
    linarith
  refine e2.trans_eq ?_
  rw [div_pow, show x ^ (n + 1 + 1) = x ^ (n + 1) * x by ring]
  field_simp

end
end Dashmm.Bessel
