import Verif.Spec.Plane
import Verif.Proofs.HarmCode
import Mathlib.Analysis.SpecialFunctions.Integrals.Basic

/-!
Plane waves: the expansion of `(z - i (x cos β + y sin β))^n` in the angle, and its Fourier cut.
-/

namespace Dashmm.Harm

open Lap Polynomial
open Complex (I)

noncomputable section

variable (w w' z : ℂ)

theorem quad_eval (X : ℂ) : (quad w w' z).eval X = w / 2 * X ^ 2 + z * X - w' / 2 := by simp [quad]

theorem quad_natDegree : (quad w w' z).natDegree ≤ 2 := by
  unfold quad; compute_degree

theorem har_sum (n : ℕ) (X : ℂ) (hX : X ≠ 0) :
    ∑ m ∈ Finset.Icc (-(n : ℤ)) n, har w w' z n m * X ^ m = (w / 2 * X + z - w' / 2 * X⁻¹) ^ n / n.factorial := by
  have hf : (n.factorial : ℂ) ≠ 0 := by exact_mod_cast n.factorial_ne_zero
  have h1 : (quad w w' z ^ n).eval X = ∑ k ∈ Finset.range (2 * n + 1), (quad w w' z ^ n).coeff k * X ^ k :=
    Polynomial.eval_eq_sum_range' (lt_of_le_of_lt (Polynomial.natDegree_pow_le_of_le n (quad_natDegree w w' z)) (by omega)) X
  have h2 : w / 2 * X + z - w' / 2 * X⁻¹ = (quad w w' z).eval X * X⁻¹ := by
    rw [quad_eval]; field_simp
  rw [h2, mul_pow, ← Polynomial.eval_pow, h1, eq_div_iff hf, Finset.sum_mul, Finset.sum_mul]
  refine Finset.sum_bij' (fun m _ => (m + n).toNat) (fun k _ => (k : ℤ) - n) ?_ ?_ ?_ ?_ ?_
  · intro m hm; rw [Finset.mem_Icc] at hm; rw [Finset.mem_range]; omega
  · intro k hk; rw [Finset.mem_range] at hk; rw [Finset.mem_Icc]; omega
  · intro m hm; rw [Finset.mem_Icc] at hm; omega
  · intro k hk; simp
  · intro m hm
    rw [Finset.mem_Icc] at hm
    have e : ((m + n).toNat : ℤ) = m + n := by omega
    rw [quad_pow_coeff, show (((m + n).toNat : ℕ) : ℤ) - n = m by omega, ← zpow_natCast X (m + n).toNat, e, zpow_add₀ hX,
      inv_pow, zpow_natCast]
    field_simp

/-- `cis` of a sum of angles. -/
theorem cis_eq (α : ℝ) : cis α = Complex.exp (α * I) := by
  rw [cis, Complex.exp_mul_I, ← Complex.ofReal_cos, ← Complex.ofReal_sin]

theorem cis_zpow (α : ℝ) (m : ℤ) : cis α ^ m = Complex.exp (m * α * I) := by
  rw [cis_eq, ← Complex.exp_int_mul]; congr 1; ring

/-- The Taylor coefficients of a plane wave, by frequency. -/
theorem harP_wave (v : Point ℝ) (n : ℕ) (β : ℝ) :
    (v.z - I * (v.x * Real.cos β + v.y * Real.sin β) : ℂ) ^ n / n.factorial =
      ∑ m ∈ Finset.Icc (-(n : ℤ)) n, harP v n m * (-I) ^ m * Complex.exp (m * β * I) := by
  have hX : -I * cis β ≠ 0 := mul_ne_zero (neg_ne_zero.2 Complex.I_ne_zero) (cis_ne β)
  have h := har_sum (v.x - v.y * I) (v.x + v.y * I) v.z n (-I * cis β) hX
  have e : ((v.x - v.y * I : ℂ) / 2 * (-I * cis β) + v.z - (v.x + v.y * I) / 2 * (-I * cis β)⁻¹) =
      v.z - I * (v.x * Real.cos β + v.y * Real.sin β) := by
    rw [mul_inv, inv_neg, Complex.inv_I, neg_neg, cis_inv]
    simp only [cis, Real.cos_neg, Real.sin_neg]
    push_cast
    linear_combination ((v.y : ℂ) * Complex.sin β * I) * Complex.I_sq
  rw [← e, ← h]
  refine Finset.sum_congr rfl fun m _ => ?_
  rw [mul_zpow, cis_zpow]; unfold harP; ring

theorem integral_exp_int (m : ℤ) : (∫ β in (0 : ℝ)..2 * Real.pi, Complex.exp (m * β * I)) =
    if m = 0 then ((2 * Real.pi : ℝ) : ℂ) else 0 := by
  split_ifs with h
  · subst h; simp
  · have hm : (m : ℂ) * I ≠ 0 := mul_ne_zero (by exact_mod_cast h) Complex.I_ne_zero
    have := integral_exp_mul_complex (a := 0) (b := 2 * Real.pi) hm
    rw [show (fun β : ℝ => Complex.exp (m * β * I)) = fun β : ℝ => Complex.exp (m * I * β) by
      funext β; congr 1; ring, this]
    have e : Complex.exp (m * I * ((2 * Real.pi : ℝ) : ℂ)) = 1 := by
      rw [Complex.exp_eq_one_iff]; exact ⟨m, by push_cast; ring⟩
    rw [e]; simp

/-- The cut of a trigonometric polynomial. -/
theorem fourierCut_trig (f N : ℕ) (c : ℤ → ℂ) (α : ℝ) :
    fourierCut f (fun β => ∑ m ∈ Finset.Icc (-(N : ℤ)) N, c m * Complex.exp (m * β * I)) α =
      ∑ m ∈ Finset.Icc (-(min N f : ℕ) : ℤ) (min N f : ℕ), c m * Complex.exp (m * α * I) := by
  have hpi : ((2 * Real.pi : ℝ) : ℂ) ≠ 0 := by
    rw [Complex.ofReal_ne_zero]; exact (by positivity : (0 : ℝ) < 2 * Real.pi).ne'
  have key : ∀ m : ℤ, (∫ β in (0 : ℝ)..2 * Real.pi, (∑ m' ∈ Finset.Icc (-(N : ℤ)) N, c m' * Complex.exp (m' * β * I)) *
      Complex.exp (-(m * β * I))) = if m ∈ Finset.Icc (-(N : ℤ)) N then c m * ((2 * Real.pi : ℝ) : ℂ) else 0 := by
    intro m
    have e : ∀ β : ℝ, (∑ m' ∈ Finset.Icc (-(N : ℤ)) N, c m' * Complex.exp (m' * β * I)) * Complex.exp (-(m * β * I)) =
        ∑ m' ∈ Finset.Icc (-(N : ℤ)) N, c m' * Complex.exp (((m' - m : ℤ) : ℂ) * β * I) := by
      intro β
      rw [Finset.sum_mul]
      refine Finset.sum_congr rfl fun m' _ => ?_
      rw [mul_assoc, ← Complex.exp_add]; congr 2; push_cast; ring
    simp only [e]
    rw [intervalIntegral.integral_finsetSum]
    · simp only [intervalIntegral.integral_const_mul, integral_exp_int, sub_eq_zero]
      simp
    · intro m' _
      apply Continuous.intervalIntegrable
      fun_prop
  unfold fourierCut
  simp only [key]
  have e : Finset.Icc (-(min N f : ℕ) : ℤ) (min N f : ℕ) = (Finset.Icc (-(f : ℤ)) f).filter (· ∈ Finset.Icc (-(N : ℤ)) N) := by
    ext m; simp only [Finset.mem_Icc, Finset.mem_filter]; omega
  rw [e, Finset.sum_filter]
  refine Finset.sum_congr rfl fun m _ => ?_
  split_ifs
  · field_simp
  · ring

/-- A cut wave by degree and frequency. -/
theorem cutWave_eq (p f : ℕ) (lam : ℝ) (v : Point ℝ) (α : ℝ) : cutWave p f lam v α =
    ∑ n ∈ Finset.range (p + 1), (lam : ℂ) ^ n * ∑ m ∈ Finset.Icc (-(min n f : ℕ) : ℤ) (min n f : ℕ),
      harP v n m * (-I) ^ m * Complex.exp (m * α * I) := by
  have h1 : planeTaylor p lam v = fun β : ℝ => ∑ m ∈ Finset.Icc (-(p : ℤ)) p,
      (∑ n ∈ Finset.range (p + 1), (lam : ℂ) ^ n * (harP v n m * (-I) ^ m)) * Complex.exp (m * β * I) := by
    funext β
    unfold planeTaylor
    simp only [Finset.sum_mul]
    rw [Finset.sum_comm]
    refine Finset.sum_congr rfl fun n hn => ?_
    rw [mul_pow, mul_div_assoc, harP_wave, Finset.mul_sum]
    have hs : Finset.Icc (-(n : ℤ)) n ⊆ Finset.Icc (-(p : ℤ)) p := by
      rw [Finset.mem_range] at hn
      intro m; simp only [Finset.mem_Icc]; omega
    rw [← Finset.sum_subset hs]
    · refine Finset.sum_congr rfl fun m _ => ?_
      ring
    · intro m _ hm
      have : harP v n m = 0 := har_out _ _ _ n m (by
        rw [Finset.mem_Icc] at hm; rw [lt_abs]; omega)
      rw [this]; ring
  unfold cutWave
  rw [h1, fourierCut_trig]
  simp only [Finset.sum_mul, Finset.mul_sum]
  rw [Finset.sum_comm]
  refine Finset.sum_congr rfl fun n hn => ?_
  have hs : Finset.Icc (-(min n f : ℕ) : ℤ) (min n f : ℕ) ⊆ Finset.Icc (-(min p f : ℕ) : ℤ) (min p f : ℕ) := by
    rw [Finset.mem_range] at hn
    intro m; simp only [Finset.mem_Icc]; omega
  rw [← Finset.sum_subset hs]
  · refine Finset.sum_congr rfl fun m _ => ?_
    ring
  · intro m hm' hm
    have : harP v n m = 0 := har_out _ _ _ n m (by
      rw [Finset.mem_Icc] at hm hm'; rw [lt_abs]; omega)
    rw [this]; ring

/-- Without a cut, the wave is the Taylor polynomial. -/
theorem cutWave_full (p f : ℕ) (h : p ≤ f) (lam : ℝ) (v : Point ℝ) (α : ℝ) : cutWave p f lam v α = planeTaylor p lam v α := by
  rw [cutWave_eq]
  unfold planeTaylor
  refine Finset.sum_congr rfl fun n hn => ?_
  rw [Finset.mem_range] at hn
  rw [mul_pow, mul_div_assoc, harP_wave, min_eq_left (by omega)]

theorem har_homog' (v : Point ℝ) (n : ℕ) (m : ℤ) : harP ⟨-v.x, -v.y, -v.z⟩ n m = (-1) ^ n * harP v n m := by
  have := har_homog (v.x - v.y * I) (v.x + v.y * I) v.z (-1) n m
  unfold harP
  rw [← this]
  congr 1 <;> push_cast <;> ring

theorem cutWave_neg (p f : ℕ) (lam : ℝ) (v : Point ℝ) (α : ℝ) :
    cutWave p f (-lam) v α = cutWave p f lam ⟨-v.x, -v.y, -v.z⟩ α := by
  rw [cutWave_eq, cutWave_eq]
  refine Finset.sum_congr rfl fun n _ => ?_
  rw [Finset.mul_sum, Finset.mul_sum]
  refine Finset.sum_congr rfl fun m _ => ?_
  rw [har_homog']; push_cast; rw [neg_pow]; ring

/-- The terms of opposite frequencies. -/
theorem wave_pair (v : Point ℝ) (n : ℕ) (m : ℤ) (α : ℝ) : starRingEnd ℂ (harP v n m * (-I) ^ m * Complex.exp (m * α * I)) =
    (powM1 m : ℂ) * (harP v n (-m) * (-I) ^ (-m) * Complex.exp ((-m : ℤ) * α * I)) := by
  rw [map_mul, map_mul, harP_conj, map_zpow₀, ← Complex.exp_conj]
  have e1 : starRingEnd ℂ (-I) = (-I)⁻¹ := by
    rw [map_neg, Complex.conj_I, inv_neg, Complex.inv_I]
  rw [e1, inv_zpow, zpow_neg]
  have e2 : starRingEnd ℂ ((m : ℂ) * α * I) = ((-m : ℤ) : ℂ) * α * I := by
    simp
  rw [e2]; ring

/-- Opposite angles belong to conjugate waves. -/
theorem cutWave_conj (p f : ℕ) (lam : ℝ) (v : Point ℝ) (α : ℝ) :
    starRingEnd ℂ (cutWave p f lam v α) = cutWave p f lam v (α + Real.pi) := by
  rw [cutWave_eq, cutWave_eq, map_sum]
  refine Finset.sum_congr rfl fun n _ => ?_
  rw [map_mul, map_pow, Complex.conj_ofReal, map_sum]
  congr 1
  refine Finset.sum_bij' (fun m _ => -m) (fun m _ => -m) ?_ ?_ ?_ ?_ ?_
  · intro m hm; rw [Finset.mem_Icc] at hm ⊢; omega
  · intro m hm; rw [Finset.mem_Icc] at hm ⊢; omega
  · intro m _; simp
  · intro m _; simp
  · intro m _
    rw [wave_pair]
    have : Complex.exp (((-m : ℤ) : ℂ) * ((α + Real.pi : ℝ) : ℂ) * I) = (powM1 m : ℂ) * Complex.exp (((-m : ℤ) : ℂ) * α * I) := by
      rw [show ((-m : ℤ) : ℂ) * ((α + Real.pi : ℝ) : ℂ) * I = ((-m : ℤ) : ℂ) * (Real.pi * I) + ((-m : ℤ) : ℂ) * α * I by
        push_cast; ring, Complex.exp_add, Complex.exp_int_mul, Complex.exp_pi_mul_I]
      congr 1
      rcases Int.emod_two_eq_zero_or_one m with h | h
      · rw [powM1, if_neg (by omega), (Int.even_iff.2 (by omega) : Even (-m)).neg_one_zpow]; simp
      · rw [powM1, if_pos (by omega), (Int.odd_iff.2 (by omega) : Odd (-m)).neg_one_zpow]; simp
    rw [this]; ring

end
end Dashmm.Harm
