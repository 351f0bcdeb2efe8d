import Mathlib.Analysis.SpecialFunctions.ExpDeriv
import Mathlib.Analysis.Calculus.MeanValue
import Mathlib.Analysis.Calculus.Deriv.MeanValue
import Mathlib.Analysis.Calculus.Deriv.Pow
import Mathlib.Topology.Algebra.InfiniteSum.NatInt
import Mathlib.Analysis.Calculus.SmoothSeries
import Mathlib.Analysis.Complex.RealDeriv

/-!
# Reverse Bessel polynomials and the entire part of the spherical Bessel functions

`theta z n` is the reverse Bessel polynomial of degree `n` divided by its value at 0; `efun n w` is the entire
function with `x ^ n * efun n (x ^ 2) = (2 n + 1)!! i_n(x)`.
-/

namespace Dashmm.Yuk

noncomputable section

/-! ### The polynomials -/

def theta {K : Type*} [Field K] (z : K) : ℕ → K
  | 0 => 1
  | 1 => 1 + z
  | n + 2 => theta z (n + 1) + z ^ 2 / ((2 * n + 1) * (2 * n + 3)) * theta z n

/-- The derivative of `theta`. -/
def thetaD {K : Type*} [Field K] (z : K) : ℕ → K
  | 0 => 0
  | n + 1 => theta z (n + 1) - z / (2 * n + 1) * theta z n

theorem odd_ne {K : Type*} [Field K] [CharZero K] (n : ℕ) : (2 * (n : K) + 1) ≠ 0 := by
  exact_mod_cast Nat.succ_ne_zero (2 * n)

theorem odd3_ne {K : Type*} [Field K] [CharZero K] (n : ℕ) : (2 * (n : K) + 3) ≠ 0 := by
  exact_mod_cast Nat.succ_ne_zero (2 * n + 2)

theorem odd5_ne {K : Type*} [Field K] [CharZero K] (n : ℕ) : (2 * (n : K) + 5) ≠ 0 := by
  exact_mod_cast Nat.succ_ne_zero (2 * n + 4)

theorem theta_hasDeriv {K : Type*} [NontriviallyNormedField K] [CharZero K] (z : K) (n : ℕ) :
    HasDerivAt (fun z : K => theta z n) (thetaD z n) z := by
  induction n using Nat.twoStepInduction with
  | zero => simpa [theta, thetaD] using hasDerivAt_const z (1 : K)
  | one =>
    have : HasDerivAt (fun z : K => 1 + z) 1 z := by simpa using (hasDerivAt_id z).const_add 1
    convert this using 1
    · funext z; simp [theta]
    · change thetaD z (0 + 1) = 1
      rw [thetaD, theta, theta]; simp
  | more n h0 h1 =>
    have h2 : HasDerivAt (fun z : K => z ^ 2 / ((2 * n + 1) * (2 * n + 3))) (2 * z / ((2 * n + 1) * (2 * n + 3))) z := by
      have := (hasDerivAt_pow 2 z).div_const ((2 * n + 1) * (2 * n + 3) : K)
      simpa using this
    have h3 := h1.add (h2.mul h0)
    refine h3.congr_deriv ?_
    have e1 := odd_ne (K := K) n
    have e2 := odd3_ne (K := K) n
    cases n with
    | zero => simp [thetaD, theta]; ring
    | succ n =>
      have e0 := odd_ne (K := K) n
      have e5 := odd5_ne (K := K) n
      simp only [thetaD, theta]
      push_cast at *
      rw [show 2 * ((n : K) + 1) + 1 = 2 * n + 3 by ring, show 2 * ((n : K) + 1) + 3 = 2 * n + 5 by ring,
        show 2 * ((n : K) + 2) + 1 = 2 * n + 5 by ring]
      have e3 := odd3_ne (K := K) n
      field_simp
      ring

theorem theta_real_pos (x : ℝ) (hx : 0 ≤ x) (n : ℕ) : 0 < theta x n := by
  induction n using Nat.twoStepInduction with
  | zero => simp [theta]
  | one => simp [theta]; linarith
  | more n h0 h1 => rw [theta]; positivity

theorem theta_zero (n : ℕ) : theta (0 : ℝ) n = 1 := by
  induction n using Nat.twoStepInduction with
  | zero => simp [theta]
  | one => simp [theta]
  | more n h0 h1 => rw [theta, h1]; simp

theorem theta_real_le (x : ℝ) (hx : 0 ≤ x) (n : ℕ) : theta x n ≤ Real.exp x := by
  have hd : ∀ y : ℝ, HasDerivAt (fun y : ℝ => Real.exp (-y) * theta y n)
      (Real.exp (-y) * (thetaD y n - theta y n)) y := by
    intro y
    have h1 : HasDerivAt (fun y : ℝ => Real.exp (-y)) (-Real.exp (-y)) y := by
      simpa using (hasDerivAt_neg y).exp
    refine (h1.mul (theta_hasDeriv y n)).congr_deriv ?_
    ring
  have hanti : AntitoneOn (fun y : ℝ => Real.exp (-y) * theta y n) (Set.Ici 0) := by
    refine antitoneOn_of_hasDerivWithinAt_nonpos (convex_Ici 0) (fun y _ => (hd y).continuousAt.continuousWithinAt)
      (fun y _ => (hd y).hasDerivWithinAt) fun y hy => ?_
    rw [interior_Ici] at hy
    have hy0 : (0 : ℝ) ≤ y := le_of_lt hy
    refine mul_nonpos_of_nonneg_of_nonpos (Real.exp_pos _).le ?_
    cases n with
    | zero => simp [theta, thetaD]
    | succ n =>
      simp only [thetaD]
      have := theta_real_pos y hy0 n
      have : 0 ≤ y / (2 * n + 1) * theta y n := by positivity
      linarith
  have := hanti (Set.mem_Ici.2 le_rfl) (Set.mem_Ici.2 hx) hx
  simp only [theta_zero, neg_zero, Real.exp_zero, mul_one] at this
  rw [Real.exp_neg, inv_mul_le_iff₀ (Real.exp_pos x), mul_one] at this
  exact this

theorem theta_norm_le (z : ℂ) (n : ℕ) : ‖theta z n‖ ≤ theta ‖z‖ n := by
  induction n using Nat.twoStepInduction with
  | zero => simp [theta]
  | one => simp only [theta]; exact (norm_add_le _ _).trans (by simp)
  | more n h0 h1 =>
    rw [theta, theta]
    refine (norm_add_le _ _).trans (add_le_add h1 ?_)
    rw [norm_mul, norm_div, norm_pow]
    have : ‖(2 * (n : ℂ) + 1) * (2 * n + 3)‖ = (2 * n + 1) * (2 * n + 3) := by
      have : ((2 * (n : ℂ) + 1) * (2 * n + 3)) = (((2 * n + 1) * (2 * n + 3) : ℝ) : ℂ) := by push_cast; ring
      rw [this, Complex.norm_real, Real.norm_of_nonneg (by positivity)]
    rw [this]
    exact mul_le_mul_of_nonneg_left h0 (by positivity)

/-! ### The entire functions -/

/-- The coefficients: `1 / (2 ^ k k! (2 n + 3) (2 n + 5) ... (2 n + 2 k + 1))`. -/
def ecoef : ℕ → ℕ → ℝ
  | _, 0 => 1
  | n, k + 1 => ecoef (n + 1) k / (2 * (k + 1) * (2 * n + 3))

theorem ecoef_pos (n k : ℕ) : 0 < ecoef n k := by
  induction k generalizing n with
  | zero => simp [ecoef]
  | succ k ih => rw [ecoef]; have := ih (n + 1); positivity

theorem ecoef_step (n k : ℕ) : (2 * (n : ℝ) + 3) * ecoef n k = (2 * n + 2 * k + 3) * ecoef (n + 1) k := by
  induction k generalizing n with
  | zero => simp [ecoef]
  | succ k ih =>
    have h := ih (n + 1)
    rw [ecoef, ecoef]
    push_cast at *
    have e1 := odd3_ne (K := ℝ) n
    have e2 := odd5_ne (K := ℝ) n
    have e3 : (2 * ((n : ℝ) + 1) + 3) ≠ 0 := by rw [show 2 * ((n : ℝ) + 1) + 3 = 2 * n + 5 by ring]; exact e2
    have e4 : ((k : ℝ) + 1) ≠ 0 := by positivity
    field_simp
    linear_combination h

theorem ecoef_diff (n k : ℕ) : ecoef n (k + 1) - ecoef (n + 1) (k + 1) =
    ecoef (n + 2) k / ((2 * n + 3) * (2 * n + 5)) := by
  have h := ecoef_step (n + 1) k
  rw [ecoef, ecoef]
  push_cast at *
  have e1 := odd3_ne (K := ℝ) n
  have e2 := odd5_ne (K := ℝ) n
  rw [show 2 * ((n : ℝ) + 1) + 3 = 2 * n + 5 by ring] at *
  have e4 : ((k : ℝ) + 1) ≠ 0 := by positivity
  field_simp
  rw [show n + 1 + 1 = n + 2 from rfl] at *
  linear_combination h

theorem ecoef_le (n k : ℕ) : ecoef n k ≤ (1 / (2 * (2 * n + 3))) ^ k / k.factorial := by
  induction k generalizing n with
  | zero => simp [ecoef]
  | succ k ih =>
    rw [ecoef, Nat.factorial_succ]
    have h := ih (n + 1)
    push_cast at *
    have h2 : (1 / (2 * (2 * ((n : ℝ) + 1) + 3))) ^ k ≤ (1 / (2 * (2 * n + 3))) ^ k := by
      refine pow_le_pow_left₀ (by positivity) ?_ _
      refine one_div_le_one_div_of_le (by positivity) (by linarith)
    have h3 : ecoef (n + 1) k ≤ (1 / (2 * (2 * n + 3))) ^ k / k.factorial := h.trans (by gcongr)
    calc ecoef (n + 1) k / (2 * (k + 1) * (2 * n + 3)) ≤ (1 / (2 * (2 * n + 3))) ^ k / k.factorial / (2 * (k + 1) * (2 * n + 3)) := by
          gcongr
      _ = _ := by
          rw [pow_succ]
          have := odd3_ne (K := ℝ) n
          have e4 : ((k : ℝ) + 1) ≠ 0 := by positivity
          field_simp

theorem ecoef_anti (n k : ℕ) : ecoef (n + 1) k ≤ ecoef n k := by
  have h := ecoef_step n k
  have h0 := ecoef_pos (n + 1) k
  have hn : (0 : ℝ) < 2 * n + 3 := by positivity
  have : (2 * (n : ℝ) + 3) * ecoef (n + 1) k ≤ (2 * n + 3) * ecoef n k := by
    rw [h]; refine mul_le_mul_of_nonneg_right ?_ h0.le
    have : (0 : ℝ) ≤ k := by positivity
    linarith
  exact le_of_mul_le_mul_left this hn

def efun (n : ℕ) (w : ℂ) : ℂ := ∑' k, (ecoef n k : ℂ) * w ^ k

theorem eterm_norm_le (n k : ℕ) (w : ℂ) : ‖(ecoef n k : ℂ) * w ^ k‖ ≤ (‖w‖ / (2 * (2 * n + 3))) ^ k / k.factorial := by
  rw [norm_mul, norm_pow, Complex.norm_real, Real.norm_of_nonneg (ecoef_pos n k).le]
  calc ecoef n k * ‖w‖ ^ k ≤ (1 / (2 * (2 * n + 3))) ^ k / k.factorial * ‖w‖ ^ k := by
        gcongr; exact ecoef_le n k
    _ = _ := by rw [div_pow, div_pow, one_pow]; ring

theorem eterm_summable (n : ℕ) (w : ℂ) : Summable fun k => (ecoef n k : ℂ) * w ^ k :=
  Summable.of_norm_bounded (Real.summable_pow_div_factorial _) (eterm_norm_le n · w)

theorem efun_norm_le (n : ℕ) (w : ℂ) : ‖efun n w‖ ≤ Real.exp (‖w‖ / (2 * (2 * n + 3))) := by
  rw [Real.exp_eq_exp_ℝ, NormedSpace.exp_eq_tsum_div]
  exact tsum_of_norm_bounded (Real.summable_pow_div_factorial _).hasSum (eterm_norm_le n · w)

theorem efun_zero_arg (n : ℕ) : efun n 0 = 1 := by
  rw [efun, tsum_eq_single 0]
  · simp [ecoef]
  · intro k hk; simp [hk]

theorem efun_diff (n : ℕ) (w : ℂ) : efun n w - efun (n + 1) w =
    w / ((2 * n + 3) * (2 * n + 5)) * efun (n + 2) w := by
  rw [efun, efun, ← (eterm_summable n w).tsum_sub (eterm_summable (n + 1) w)]
  rw [(((eterm_summable n w).sub (eterm_summable (n + 1) w))).tsum_eq_zero_add]
  rw [efun, ← tsum_mul_left]
  simp only [ecoef, pow_zero, sub_self, zero_add]
  refine tsum_congr fun k => ?_
  have h := ecoef_diff n k
  rw [ecoef, ecoef] at h
  have h' : ((ecoef (n + 1) k / (2 * (k + 1) * (2 * n + 3)) : ℝ) : ℂ) -
    ((ecoef (n + 1 + 1) k / (2 * (k + 1) * (2 * (n + 1 : ℕ) + 3)) : ℝ) : ℂ) =
      ((ecoef (n + 2) k / ((2 * n + 3) * (2 * n + 5)) : ℝ) : ℂ) := by exact_mod_cast h
  push_cast at *
  linear_combination w ^ (k + 1) * h'

theorem efun_hasDeriv (n : ℕ) (w : ℂ) : HasDerivAt (efun n) (efun (n + 1) w / (2 * (2 * n + 3))) w := by
  set R := ‖w‖ + 1 with hR
  have hR0 : 0 ≤ R := by positivity
  have key := hasDerivAt_tsum_of_isPreconnected (𝕜 := ℂ) (t := Metric.ball (0 : ℂ) R)
    (g := fun k w => (ecoef n k : ℂ) * w ^ k) (g' := fun k w => (ecoef n k : ℂ) * ((k : ℂ) * w ^ (k - 1)))
    (u := fun k => (ecoef n k) * (k * R ^ (k - 1))) (y₀ := 0) (y := w) ?_ Metric.isOpen_ball
    (convex_ball 0 R).isPreconnected ?_ ?_ (by simp; positivity) (eterm_summable n 0) (by simp [hR])
  · change HasDerivAt (fun z => ∑' k, (ecoef n k : ℂ) * z ^ k) _ w
    refine key.congr_deriv ?_
    rw [Summable.tsum_eq_zero_add, efun, ← tsum_div_const]
    · simp only [CharP.cast_eq_zero, zero_mul, mul_zero, zero_add, Nat.add_sub_cancel]
      refine tsum_congr fun k => ?_
      rw [ecoef]; push_cast
      have e1 := odd3_ne (K := ℂ) n
      have e4 : ((k : ℂ) + 1) ≠ 0 := by exact_mod_cast Nat.succ_ne_zero k
      field_simp
    · rw [← summable_nat_add_iff 1]
      have := (eterm_summable (n + 1) w).div_const (2 * (2 * n + 3))
      refine this.congr fun k => ?_
      rw [ecoef, Nat.add_sub_cancel]; push_cast
      have e1 := odd3_ne (K := ℂ) n
      have e4 : ((k : ℂ) + 1) ≠ 0 := by exact_mod_cast Nat.succ_ne_zero k
      field_simp
  · rw [← summable_nat_add_iff 1]
    have : Summable fun k => ecoef (n + 1) k * R ^ k / (2 * (2 * n + 3)) := by
      refine Summable.div_const ?_ _
      refine Summable.of_nonneg_of_le (fun k => mul_nonneg (ecoef_pos _ _).le (pow_nonneg hR0 _)) (fun k => ?_)
        (Real.summable_pow_div_factorial (R / (2 * (2 * (n + 1 : ℕ) + 3))))
      refine (mul_le_mul_of_nonneg_right (ecoef_le (n + 1) k) (pow_nonneg hR0 k)).trans_eq ?_
      rw [div_pow, div_pow, one_pow]; ring
    refine this.congr fun k => ?_
    rw [ecoef, Nat.add_sub_cancel]; push_cast
    have e1 := odd3_ne (K := ℝ) n
    have e4 : ((k : ℝ) + 1) ≠ 0 := by positivity
    field_simp
  · intro k y _
    exact (hasDerivAt_pow k y).const_mul _
  · intro k y hy
    rw [norm_mul, norm_mul, norm_pow, Complex.norm_real, Real.norm_of_nonneg (ecoef_pos n k).le, Complex.norm_natCast]
    have : ‖y‖ ≤ R := by simpa using (mem_ball_zero_iff.1 hy).le
    have := ecoef_pos n k
    gcongr

end
end Dashmm.Yuk
