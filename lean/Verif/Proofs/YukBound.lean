import Verif.Proofs.BesselElem
import Verif.Proofs.YukErr

/-!
# A bound on the addition theorem for `exp (-λ R) / R`, `λ > 0`, that is uniform in `λ`

The Wronskian of the modified spherical Bessel functions bounds every term of the series by the term of the series
for `1 / R`.
-/

namespace Dashmm.Yuk

open Bessel Finset
open scoped Nat

noncomputable section

theorem sphI_one (x : ℝ) (hx : x ≠ 0) : sphI 1 x = Real.cosh x / x - Real.sinh x / x ^ 2 := by
  have h := ((Real.hasSum_cosh x).div_const x).sub ((Real.hasSum_sinh x).div_const (x ^ 2))
  rw [← hasSum_nat_add_iff' 1] at h
  rw [Finset.sum_range_one] at h
  have e0 : (x ^ (2 * 0) / ((2 * 0)! : ℕ) / x - x ^ (2 * 0 + 1) / ((2 * 0 + 1)! : ℕ) / x ^ 2 : ℝ) = 0 := by
    simp; field_simp; ring
  rw [e0, sub_zero] at h
  rw [← h.tsum_eq, sphI]
  refine tsum_congr fun k => ?_
  have e1 : ((2 * (k + 1) + 1)! : ℝ) = (2 * k + 3) * ((2 * (k + 1))! : ℕ) := by
    rw [Nat.factorial_succ]; push_cast; ring
  have e2 : ((2 * (k + 1))! : ℝ) = 2 ^ (k + 1) * (k + 1)! * ((2 * k + 1)‼ : ℕ) := by
    have := odd_fact (k + 1)
    rw [e1, show 2 * (k + 1) + 1 = 2 * k + 1 + 2 by ring, Nat.doubleFactorial_add_two] at this
    push_cast at this
    have h3 := odd3_ne (K := ℝ) k
    apply mul_left_cancel₀ h3
    linear_combination this
  have e3 : (((2 * 1 + 2 * k + 1)‼ : ℕ) : ℝ) = (2 * k + 3) * ((2 * k + 1)‼ : ℕ) := by
    rw [show 2 * 1 + 2 * k + 1 = 2 * k + 1 + 2 by ring, Nat.doubleFactorial_add_two]; push_cast; ring
  have hd := (dfact_pos (2 * k + 1)).ne'
  have hk : ((k ! : ℕ) : ℝ) ≠ 0 := by positivity
  have h3 := odd3_ne (K := ℝ) k
  have hk1 : ((k : ℝ) + 1) ≠ 0 := by positivity
  rw [e1, e2, e3, Nat.factorial_succ]
  push_cast
  rw [show x ^ (2 * (k + 1) + 1) = x ^ (1 + 2 * k) * x ^ 2 by ring, show x ^ (2 * (k + 1)) = x ^ (1 + 2 * k) * x by ring]
  field_simp
  ring

theorem erl_diff (n : ℕ) (w : ℝ) : erl n w - erl (n + 1) w = w / ((2 * n + 3) * (2 * n + 5)) * erl (n + 2) w := by
  have h := efun_diff n (w : ℂ)
  rw [efun_ofReal, efun_ofReal, efun_ofReal] at h
  exact_mod_cast h

/-- The Wronskian. -/
theorem wronskian (x : ℝ) (hx : x ≠ 0) (n : ℕ) :
    erl n (x ^ 2) * (Real.exp (-x) * theta x (n + 1)) +
      x ^ 2 / ((2 * n + 1) * (2 * n + 3)) * erl (n + 1) (x ^ 2) * (Real.exp (-x) * theta x n) = 1 := by
  induction n with
  | zero =>
    have h0 := sphI_zero x hx
    have h1 := sphI_one x hx
    rw [sphI_eq] at h0 h1
    simp only [Nat.mul_zero, zero_add, pow_zero, Nat.doubleFactorial, Nat.cast_one, div_one, one_mul, pow_one] at h0 h1
    have e1 : erl 1 (x ^ 2) = 3 / x * (Real.cosh x / x - Real.sinh x / x ^ 2) := by
      rw [← h1]; push_cast [Nat.doubleFactorial]; field_simp
    rw [h0, e1]
    have e : Real.exp (-x) * (Real.sinh x + Real.cosh x) = 1 := by
      rw [Real.sinh_add_cosh, ← Real.exp_add, neg_add_cancel, Real.exp_zero]
    simp only [theta]
    push_cast
    field_simp
    linear_combination (3 * x) * e
  | succ n ih =>
    have hd := erl_diff n (x ^ 2)
    have e1 := odd_ne (K := ℝ) n
    have e3 := odd3_ne (K := ℝ) n
    have e5 := odd5_ne (K := ℝ) n
    rw [theta]
    push_cast
    rw [show (2 * ((n : ℝ) + 1) + 1) = 2 * n + 3 by ring, show (2 * ((n : ℝ) + 1) + 3) = 2 * n + 5 by ring, ← hd]
    linear_combination ih

theorem theta_mono (x : ℝ) (hx : 0 ≤ x) (n : ℕ) : theta x n ≤ theta x (n + 1) := by
  cases n with
  | zero => simp [theta]; exact hx
  | succ n =>
    rw [theta.eq_3]
    have := theta_real_pos x hx n
    have : 0 ≤ x ^ 2 / ((2 * n + 1) * (2 * n + 3)) * theta x n := by positivity
    linarith

theorem erl_mono (n : ℕ) (v w : ℝ) (hv : 0 ≤ v) (h : v ≤ w) : erl n v ≤ erl n w :=
  (erl_summable _ _).tsum_le_tsum (fun k => mul_le_mul_of_nonneg_left (pow_le_pow_left₀ hv h k) (ecoef_pos n k).le)
    (erl_summable _ _)

theorem product_le_one (x y : ℝ) (hx : 0 ≤ x) (hy : 0 < y) (h : x ≤ y) (n : ℕ) :
    erl n (x ^ 2) * (Real.exp (-y) * theta y n) ≤ 1 := by
  have hw := wronskian y hy.ne' n
  have h1 := erl_mono n (x ^ 2) (y ^ 2) (by positivity) (by gcongr)
  have h2 := theta_mono y hy.le n
  have h3 := theta_real_pos y hy.le n
  have h4 := erl_one_le n (y ^ 2) (by positivity)
  have h5 := erl_one_le (n + 1) (y ^ 2) (by positivity)
  have h6 : 0 ≤ erl (n + 1) (y ^ 2) := by linarith
  have h7 : 0 ≤ erl n (y ^ 2) := by linarith
  have h8 : 0 ≤ y ^ 2 / ((2 * n + 1) * (2 * n + 3)) * erl (n + 1) (y ^ 2) * (Real.exp (-y) * theta y n) := by positivity
  calc erl n (x ^ 2) * (Real.exp (-y) * theta y n) ≤ erl n (y ^ 2) * (Real.exp (-y) * theta y (n + 1)) := by gcongr
    _ ≤ 1 := by linarith

/-- The terms of the series, for real `κ = lam`. -/
def rterm (lam : ℝ) (n : ℕ) (ρ r g : ℝ) : ℝ :=
  erl n ((lam * ρ) ^ 2) * (Real.exp (-(lam * r)) * theta (lam * r) n) / r ^ (2 * n + 1) * leg g (ρ ^ 2 * r ^ 2) n

theorem theta_ofReal (x : ℝ) (n : ℕ) : theta (x : ℂ) n = ((theta x n : ℝ) : ℂ) := by
  induction n using Nat.twoStepInduction with
  | zero => simp [theta]
  | one => simp [theta]
  | more n h0 h1 => simp only [theta, h0, h1]; push_cast; ring

theorem term_real (lam : ℝ) (n : ℕ) (ρ r g : ℝ) : term lam n (ρ ^ 2) r g = (rterm lam n ρ r g : ℂ) := by
  rw [term, rterm, ffun]
  have : ((lam : ℂ) ^ 2 * ((ρ ^ 2 : ℝ) : ℂ)) = (((lam * ρ) ^ 2 : ℝ) : ℂ) := by push_cast; ring
  have h2 : theta ((lam : ℂ) * (r : ℂ)) n = ((theta (lam * r) n : ℝ) : ℂ) := by rw [← Complex.ofReal_mul, theta_ofReal]
  rw [this, efun_ofReal, h2]
  push_cast
  ring

theorem leg_axis (ρ r : ℝ) (n : ℕ) : leg (r * ρ) (ρ ^ 2 * r ^ 2) n = (r * ρ) ^ n := by
  have h := leg_homog (r * ρ) 1 1 n
  rw [mul_one, mul_one, show (r * ρ) ^ 2 = ρ ^ 2 * r ^ 2 by ring] at h
  have h1 : ∀ n, leg 1 1 n = 1 := by
    intro n
    induction n using Nat.twoStepInduction with
    | zero => rfl
    | one => rfl
    | more n h0 h1 =>
      have h2 := leg_three 1 1 n
      rw [h0, h1] at h2
      have h3 : ((n : ℝ) + 2) ≠ 0 := by positivity
      apply mul_left_cancel₀ h3
      linarith
  rw [h, h1, mul_one]

theorem rterm_axis_nonneg (lam : ℝ) (hl : 0 ≤ lam) (n : ℕ) (ρ r : ℝ) (hρ : 0 ≤ ρ) (hr : 0 < r) : 0 ≤ rterm lam n ρ r (r * ρ) := by
  rw [rterm, leg_axis]
  have h4 := erl_one_le n ((lam * ρ) ^ 2) (by positivity)
  have : 0 ≤ erl n ((lam * ρ) ^ 2) := by linarith
  have := theta_real_pos (lam * r) (by positivity) n
  positivity

theorem rterm_le_axis (lam : ℝ) (hl : 0 ≤ lam) (n : ℕ) (ρ r g : ℝ) (hρ : 0 ≤ ρ) (hr : 0 < r) (hg : |g| ≤ r * ρ) :
    |rterm lam n ρ r g| ≤ rterm lam n ρ r (r * ρ) := by
  rw [rterm, rterm, leg_axis, abs_mul]
  have h4 := erl_one_le n ((lam * ρ) ^ 2) (by positivity)
  have : 0 ≤ erl n ((lam * ρ) ^ 2) := by linarith
  have := theta_real_pos (lam * r) (by positivity) n
  rw [abs_of_nonneg (a := erl n ((lam * ρ) ^ 2) * _ / _) (by positivity)]
  have h5 : g ^ 2 ≤ ρ ^ 2 * r ^ 2 := by
    rw [← sq_abs]
    calc |g| ^ 2 ≤ (r * ρ) ^ 2 := by gcongr
      _ = _ := by ring
  have h6 := leg_abs_le g (ρ ^ 2 * r ^ 2) h5 n
  rw [show ρ ^ 2 * r ^ 2 = (r * ρ) ^ 2 by ring, Real.sqrt_sq (by positivity)] at h6
  rw [show ρ ^ 2 * r ^ 2 = (r * ρ) ^ 2 by ring]
  gcongr

theorem rterm_axis_le (lam : ℝ) (hl : 0 < lam) (n : ℕ) (ρ r : ℝ) (hρ : 0 ≤ ρ) (hr : ρ < r) :
    rterm lam n ρ r (r * ρ) ≤ (ρ / r) ^ n / r := by
  have hr0 : 0 < r := lt_of_le_of_lt hρ hr
  have h := product_le_one (lam * ρ) (lam * r) (by positivity) (by positivity) (by gcongr) n
  rw [rterm, leg_axis]
  calc _ ≤ 1 / r ^ (2 * n + 1) * (r * ρ) ^ n := by gcongr
    _ = _ := by rw [mul_pow, div_pow, show 2 * n + 1 = n + n + 1 by ring, pow_succ, pow_add]; field_simp

theorem geo_hasSum (ρ r : ℝ) (hρ : 0 ≤ ρ) (hr : ρ < r) : HasSum (fun n : ℕ => (ρ / r) ^ n / r) (1 / (r - ρ)) := by
  have hr0 : 0 < r := lt_of_le_of_lt hρ hr
  have h := (hasSum_geometric_of_lt_one (by positivity) ((div_lt_one hr0).2 hr)).div_const r
  have h1 : r - ρ ≠ 0 := by linarith
  rwa [show 1 - ρ / r = (r - ρ) / r by field_simp, inv_div, div_div_cancel_left' hr0.ne', ← one_div] at h

theorem rterm_summable (lam : ℝ) (hl : 0 < lam) (ρ r g : ℝ) (hρ : 0 ≤ ρ) (hr : ρ < r) (hg : |g| ≤ r * ρ) :
    Summable fun n => rterm lam n ρ r g :=
  Summable.of_norm_bounded (geo_hasSum ρ r hρ hr).summable fun n =>
    (rterm_le_axis lam hl.le n ρ r g hρ (lt_of_le_of_lt hρ hr) hg).trans (rterm_axis_le lam hl n ρ r hρ hr)

theorem cst_le (lam : ℝ) (p : ℕ) (ρ r : ℝ) (hρ : 0 ≤ ρ) (hr : ρ < r) : cst lam p ρ r ≤ cst lam 0 ρ r := by
  have hr0 : 0 < r := lt_of_le_of_lt hρ hr
  have hp : (0 : ℝ) ≤ p := by positivity
  unfold cst
  push_cast
  gcongr

/-- The addition theorem. -/
theorem rterm_hasSum (lam : ℝ) (hl : 0 < lam) (ρ r g : ℝ) (hρ : 0 ≤ ρ) (hr : ρ < r) (hg : |g| ≤ r * ρ) :
    HasSum (fun n => rterm lam n ρ r g) (Real.exp (-(lam * √(r ^ 2 - 2 * g + ρ ^ 2))) / √(r ^ 2 - 2 * g + ρ ^ 2)) := by
  have hr0 : 0 < r := lt_of_le_of_lt hρ hr
  have hd : 0 < r - ρ := by linarith
  have hs := rterm_summable lam hl ρ r g hρ hr hg
  rw [hs.hasSum_iff_tendsto_nat, ← Filter.tendsto_add_atTop_iff_nat 1, tendsto_iff_norm_sub_tendsto_zero]
  have hlim : Filter.Tendsto (fun p : ℕ => cst lam 0 ρ r * ((ρ / r) ^ (p + 1) / (r - ρ))) Filter.atTop (nhds 0) := by
    have h := tendsto_pow_atTop_nhds_zero_of_lt_one (r := ρ / r) (by positivity) ((div_lt_one hr0).2 hr)
    rw [← Filter.tendsto_add_atTop_iff_nat 1] at h
    simpa using (h.div_const (r - ρ)).const_mul (cst lam 0 ρ r)
  refine squeeze_zero (fun _ => norm_nonneg _) (fun p => ?_) hlim
  have h := addition_error (lam : ℂ) p ρ r g hρ hr hg
  have e : (∑ n ∈ Finset.range (p + 1), term lam n (ρ ^ 2) r g -
      Complex.exp (-((lam : ℂ) * (√(r ^ 2 - 2 * g + ρ ^ 2) : ℝ))) / (√(r ^ 2 - 2 * g + ρ ^ 2) : ℝ)) =
      ((∑ n ∈ Finset.range (p + 1), rterm lam n ρ r g -
        Real.exp (-(lam * √(r ^ 2 - 2 * g + ρ ^ 2))) / √(r ^ 2 - 2 * g + ρ ^ 2) : ℝ) : ℂ) := by
    push_cast [term_real]; ring
  rw [e, Complex.norm_real] at h
  refine h.trans ?_
  have := cst_le lam p ρ r hρ hr
  gcongr

theorem axis_dist (ρ r : ℝ) (hr : ρ < r) : √(r ^ 2 - 2 * (r * ρ) + ρ ^ 2) = r - ρ := by
  rw [show r ^ 2 - 2 * (r * ρ) + ρ ^ 2 = (r - ρ) ^ 2 by ring, Real.sqrt_sq (by linarith)]

/-- The partial sums of the series on the axis. -/
theorem axis_sum_le (lam : ℝ) (hl : 0 < lam) (p : ℕ) (ρ r : ℝ) (hρ : 0 ≤ ρ) (hr : ρ < r) :
    ∑ n ∈ range (p + 1), rterm lam n ρ r (r * ρ) ≤ Real.exp (-(lam * (r - ρ))) / (r - ρ) := by
  have hr0 : 0 < r := lt_of_le_of_lt hρ hr
  have h := rterm_hasSum lam hl ρ r (r * ρ) hρ hr (by rw [abs_of_nonneg (by positivity)])
  rw [axis_dist ρ r hr] at h
  exact sum_le_hasSum _ (fun n _ => rterm_axis_nonneg lam hl.le n ρ r hρ hr0) h

/-- The remainder after the terms up to degree `p` is at most what it is for `1 / R`, and at most the potential at the
distance `r - ρ`. -/
theorem yuk_addition_error (lam : ℝ) (hl : 0 < lam) (p : ℕ) (ρ r g : ℝ) (hρ : 0 ≤ ρ) (hr : ρ < r) (hg : |g| ≤ r * ρ) :
    |∑ n ∈ range (p + 1), rterm lam n ρ r g - Real.exp (-(lam * √(r ^ 2 - 2 * g + ρ ^ 2))) / √(r ^ 2 - 2 * g + ρ ^ 2)| ≤
      min ((ρ / r) ^ (p + 1)) (Real.exp (-(lam * (r - ρ)))) / (r - ρ) := by
  have hr0 : 0 < r := lt_of_le_of_lt hρ hr
  have hd : 0 < r - ρ := by linarith
  have hga : |r * ρ| ≤ r * ρ := by rw [abs_of_nonneg (by positivity)]
  have h1 := rterm_hasSum lam hl ρ r g hρ hr hg
  have h2 := rterm_hasSum lam hl ρ r (r * ρ) hρ hr hga
  rw [axis_dist ρ r hr] at h2
  have hA := rterm_summable lam hl ρ r (r * ρ) hρ hr hga
  have hs := rterm_summable lam hl ρ r g hρ hr hg
  rw [← h1.tsum_eq, ← hs.sum_add_tsum_nat_add (p + 1), sub_add_cancel_left, abs_neg]
  have t1 : |∑' n, rterm lam (n + (p + 1)) ρ r g| ≤ ∑' n, rterm lam (n + (p + 1)) ρ r (r * ρ) :=
    tsum_of_norm_bounded (f := fun n => rterm lam (n + (p + 1)) ρ r g) ((summable_nat_add_iff (p + 1)).2 hA).hasSum
      fun n => rterm_le_axis lam hl.le _ ρ r g hρ hr0 hg
  have t2 : ∑' n, rterm lam (n + (p + 1)) ρ r (r * ρ) ≤ Real.exp (-(lam * (r - ρ))) / (r - ρ) := by
    have := hA.sum_add_tsum_nat_add (p + 1)
    rw [h2.tsum_eq] at this
    have : 0 ≤ ∑ n ∈ range (p + 1), rterm lam n ρ r (r * ρ) :=
      Finset.sum_nonneg fun n _ => rterm_axis_nonneg lam hl.le n ρ r hρ hr0
    linarith
  have t3 : ∑' n, rterm lam (n + (p + 1)) ρ r (r * ρ) ≤ (ρ / r) ^ (p + 1) / (r - ρ) := by
    have hg := (geo_hasSum ρ r hρ hr).mul_left ((ρ / r) ^ (p + 1))
    have := hasSum_le (fun n => ?_) ((summable_nat_add_iff (p + 1)).2 hA).hasSum hg
    · rwa [mul_one_div] at this
    · refine (rterm_axis_le lam hl _ ρ r hρ hr).trans_eq ?_
      rw [pow_add]; ring
  rw [← min_div_div_right hd.le]
  exact le_min (t1.trans t3) (t1.trans t2)

end
end Dashmm.Yuk
