import Verif.Proofs.BesselElem

/-!
# C85: the scaled spherical Bessel functions
-/

namespace Dashmm

open Bessel
open scoped Nat

/-- **C85, `k_n`.** When `bessel_kn_scaled` returns, every entry is exactly the scaled function. -/
theorem C85_kn_exact (nb : ℕ) (x scale : ℝ) (B : ℕ → ℝ) (h : knScaled nb x scale = some B) (n : ℕ) :
    B n = scale ^ n * sphK n x := by
  rw [knScaled] at h
  split at h
  · next h' =>
    injection h with h; subst h
    exact knEntry_eq x scale (lt_of_lt_of_le xmin_pos h'.2.1).ne' n
  · exact absurd h (by simp)

/-- **C85, `k_n`.** It returns whenever the entries fit in a `double`. -/
theorem C85_kn_returns (nb : ℕ) (x scale : ℝ) (hnb : 1 ≤ nb) (hx : xmin ≤ x) (hx8 : x < 10 ^ 8) (hs : 0 < scale)
    (hb : ∀ n ≤ nb, Real.pi / 2 * ((2 * n - 1)‼ : ℕ) * scale ^ n / x ^ (n + 1) < xinf) :
    ∃ B, knScaled nb x scale = some B := ⟨_, kn_succeeds nb x scale hnb hx hx8 hs hb⟩

/-- **C85, `k_n`.** It does not return outside the range of arguments, in particular for two points at one place, nor when one
entry only is asked for (`p = 0`). -/
theorem C85_kn_aborts (nb : ℕ) (x scale : ℝ) (h : nb = 0 ∨ x < xmin ∨ 10 ^ 8 ≤ x) : knScaled nb x scale = none := by
  rw [knScaled, if_neg]
  rintro ⟨h1, h2, h3, _⟩
  rcases h with h | h | h
  · omega
  · exact absurd h2 (not_le.2 h)
  · exact absurd h3 (not_lt.2 h)

/-- **C85, `i_n`.** For `x ≤ 100` every entry of `bessel_in_scaled` is the scaled function up to the relative error of
the table of `I_{n+1/2}` and what is flushed to zero. -/
theorem C85_in_error_partial (F : Table) (δ : ℝ) (hδ0 : 10⁻¹ ^ 17 ≤ δ) (hδ : δ ≤ 1 / 2) (hF : AccurateI F δ) (nb : ℕ) (x scale : ℝ)
    (hs : 0 < scale) (hx : 0 ≤ x) (hx2 : x ≤ 100) (n : ℕ) (hn : n ≤ nb) :
    |inScaled F nb x scale n - sphI n x / scale ^ n| ≤ δ * (sphI n x / scale ^ n) + 2 * 10⁻¹ ^ 300 * max 1 (x / scale) ^ n :=
  in_error F δ hδ0 hδ hF nb x scale hs hx hx2 n hn

/-- **C85, `i_n`, what is false.** For `x > 100` every entry is zero, although the function is not. -/
theorem C85_in_large_wrong (F : Table) (nb : ℕ) (x scale : ℝ) (hx : 100 < x) :
    (∀ n, inScaled F nb x scale n = 0) ∧ Real.exp 99 / (2 * x) ≤ sphI 0 x := by
  constructor
  · intro n
    rw [inScaled, if_neg, if_pos hx]
    exact not_le.2 (lt_trans (by norm_num) hx)
  · rw [show sphI 0 x = Real.sinh x / x from ?_]
    · rw [Real.sinh_eq, div_div, div_le_div_iff_of_pos_right (by linarith)]
      have h1 : Real.exp 99 * 2 ≤ Real.exp x := by
        have : Real.exp 99 * Real.exp 1 ≤ Real.exp x := by
          rw [← Real.exp_add]; exact Real.exp_le_exp.2 (by linarith)
        have h2 := Real.add_one_le_exp (1 : ℝ)
        nlinarith [Real.exp_pos 99]
      have h3 : Real.exp (-x) ≤ Real.exp 99 := Real.exp_le_exp.2 (by linarith)
      linarith
    · exact sphI_zero x (by linarith)

/-- **C85, `j_n`.** For `x ≤ 10⁻⁴` every entry of `bessel_jn_scaled` is the scaled function, up to a relative `10⁻¹⁷` and
what is flushed to zero. -/
theorem C85_jn_small (F : Table) (nb : ℕ) (x scale : ℝ) (hs : 0 < scale) (hx : 0 ≤ x) (hx4 : x ≤ 10⁻¹ ^ 4) (n : ℕ) :
    |jnScaled F nb x scale n - sphJ n x / scale ^ n| ≤
      10⁻¹ ^ 17 * ((x / scale) ^ n / ((2 * n + 1)‼ : ℕ)) + 2 * 10⁻¹ ^ 300 * max 1 (x / scale) ^ n := by
  have h := taylor_error x scale (-x ^ 2) hs hx hx4 (by rw [abs_neg]; exact abs_of_nonneg (by positivity)) n
  rw [jnScaled, if_pos hx4, sphJ_eq]
  have e1 : (1 - 0.5 * x * x / (2 * n + 3) : ℝ) = 1 + -x ^ 2 / (2 * (2 * n + 3)) := by
    have := Yuk.odd3_ne (K := ℝ) n
    field_simp; ring
  have e2 : x ^ n / ((2 * n + 1)‼ : ℕ) * erl n (-x ^ 2) / scale ^ n = (x / scale) ^ n / ((2 * n + 1)‼ : ℕ) * erl n (-x ^ 2) := by
    rw [div_pow]; ring
  rw [e1, e2]
  exact h

/-- **C85, `j_n`, what is false.** Where one of the functions vanishes, all that follow are stored as zero, whatever they
are. -/
theorem C85_jn_zero_wrong (F : Table) (nb : ℕ) (x scale : ℝ) (hx : 10⁻¹ ^ 4 < x) (k : ℕ) (hk : F nb x k = 0) (n : ℕ) (hn : k < n) :
    jnScaled F nb x scale n = 0 := by
  rw [jnScaled, if_neg (not_le.2 hx)]
  suffices h : factorAt (F nb x) x scale n = 0 by rw [h, mul_zero]
  induction n, hn using Nat.le_induction with
  | base => rw [factorAt, hk, zero_mul, abs_zero, if_pos enmten_pos.le]
  | succ n hn ih => rw [factorAt, ih, mul_zero, abs_zero, if_pos enmten_pos.le]

/-- **C85, `h_n`.** For `x ≥ 10⁻⁴` the entries are the scaled functions up to the error of the tables. -/
theorem C85_hn_error_partial (J Y : Table) (ε : ℝ) (nb : ℕ) (x scale : ℝ) (hx : 10⁻¹ ^ 4 ≤ x) (hs : 0 < scale) (n : ℕ)
    (hJ : |J nb x n * √(Real.pi / 2 / x) - sphJ n x| ≤ ε) (hY : |Y nb x n * √(Real.pi / 2 / x) - sphY x n| ≤ ε) :
    |hnRe J nb x scale n - scale ^ n * sphJ n x| ≤ scale ^ n * ε ∧
    |hnIm Y nb x scale n - scale ^ n * sphY x n| ≤ scale ^ n * ε := by
  have hp : 0 < scale ^ n := by positivity
  rw [hnRe, hnIm, if_neg (not_lt.2 hx), if_neg (not_lt.2 hx)]
  constructor
  · rw [show J nb x n * (√(Real.pi / 2 / x) * scale ^ n) - scale ^ n * sphJ n x =
      scale ^ n * (J nb x n * √(Real.pi / 2 / x) - sphJ n x) by ring, abs_mul, abs_of_pos hp]
    exact mul_le_mul_of_nonneg_left hJ hp.le
  · rw [show Y nb x n * (√(Real.pi / 2 / x) * scale ^ n) - scale ^ n * sphY x n =
      scale ^ n * (Y nb x n * √(Real.pi / 2 / x) - sphY x n) by ring, abs_mul, abs_of_pos hp]
    exact mul_le_mul_of_nonneg_left hY hp.le

/-- **C85, `h_n`, what is false.** For `x < 10⁻⁴` the imaginary part of every entry but the first is at most `3 x` times what it
should be: less than a thousandth. -/
theorem C85_hn_small_wrong (Y : Table) (nb : ℕ) (x scale : ℝ) (hx : 0 < x) (hx4 : x < 10⁻¹ ^ 4) (hs : 0 < scale) (n : ℕ) :
    |hnIm Y nb x scale (n + 1)| ≤ 3 * x * |scale ^ (n + 1) * sphY x (n + 1)| ∧ sphY x (n + 1) ≠ 0 := by
  refine ⟨hn_wrong Y nb x scale hx hx4 hs n, ?_⟩
  have h := (yfun_bounds x hx.le (hx4.le.trans (by norm_num)) (n + 1)).1
  have hd := dfact_pos (2 * (n + 1) - 1)
  rw [sphY_eq x hx.ne', neg_ne_zero]
  positivity

/-! ### Cases that meet the hypotheses -/

/-- A table that meets the hypothesis of `C85_in_error_partial`: the exact one. -/
example : AccurateI (fun _ x n => sphI n x / √(Real.pi / 2 / x)) (10⁻¹ ^ 17) := by
  intro nb x hx hx2 n _
  have hx0 : 0 < x := lt_trans (by positivity) hx
  have : 0 < √(Real.pi / 2 / x) := Real.sqrt_pos.2 (by have := Real.pi_pos; positivity)
  have e : sphI n x / √(Real.pi / 2 / x) * √(Real.pi / 2 / x) - sphI n x = 0 := by field_simp; ring
  rw [e, abs_zero]
  have := sphI_nonneg n x hx0.le
  positivity

/-- `bessel_kn_scaled(1, 1.0, 1.0, B)` returns. -/
example : ∃ B, knScaled 1 1 1 = some B := by
  have hm : xmin ≤ 1 := by
    have : (10⁻¹ : ℝ) ^ 308 ≤ 10⁻¹ ^ 1 := pow_le_pow_of_le_one (by norm_num) (by norm_num) (by norm_num)
    unfold xmin; generalize (10⁻¹ : ℝ) ^ 308 = t at this ⊢; norm_num at this ⊢; linarith
  have hi : 4 < xinf := by
    have : (10 : ℝ) ^ 1 ≤ 10 ^ 308 := pow_le_pow_right₀ (by norm_num) (by norm_num)
    unfold xinf; generalize (10 : ℝ) ^ 308 = t at this ⊢; norm_num at this ⊢; linarith
  apply C85_kn_returns 1 1 1 le_rfl hm (by norm_num) one_pos
  intro n hn
  have h4 := Real.pi_lt_four
  have : n = 0 ∨ n = 1 := by omega
  rcases this with rfl | rfl <;> simp <;> linarith

/-- `C85_jn_zero_wrong` is about a case that occurs: the exact table at `x = π`. -/
example : let F : Table := fun _ x n => sphJ n x / √(Real.pi / 2 / x)
    F 1 Real.pi 0 = 0 ∧ jnScaled F 1 Real.pi 1 1 = 0 ∧ sphJ 1 Real.pi = 1 / Real.pi := by
  have h4 : (10⁻¹ ^ 4 : ℝ) < Real.pi := lt_trans (by norm_num) Real.pi_gt_three
  have h0 : sphJ 0 Real.pi = 0 := by rw [sphJ_zero _ Real.pi_ne_zero]; simp
  refine ⟨by simp only [h0, zero_div], ?_, by rw [sphJ_one _ Real.pi_ne_zero]; simp; ring⟩
  exact C85_jn_zero_wrong _ 1 Real.pi 1 h4 0 (by simp only [h0, zero_div]) 1 one_pos

end Dashmm
