import Verif.Proofs.GaussExact
import Mathlib.Algebra.Polynomial.Eval.Degree
import Mathlib.Algebra.Polynomial.Degree.Lemmas
/-!
Property C123: the rule of the propagating waves integrates polynomials.
-/
namespace Dashmm

open GaussQ

/-! ### C123 -/

/-- C123: the rule with `N` nodes integrates every power below `2 * N` from -1 to 1, up to the error of the
eigenvalues. -/
theorem C123_powers {N : ℕ} (hN : 0 < N) {junk : ℝ} {r : (ℕ → ℝ) × (ℕ → ℝ)} (h : rule N junk = some r) {j : ℕ}
    (hj : j < 2 * N) :
    |(∑ k ∈ Finset.range N, r.2 k * r.1 k ^ j) - ∫ t in (-1 : ℝ)..1, t ^ j| ≤
      2 * ((1 + 2 / 10 ^ 14) ^ (31 * N * j) - 1) := by
  obtain ⟨s, hs, rfl⟩ := Option.map_eq_some_iff.1 h
  obtain ⟨⟨V, v0, v1, v2, v3⟩, -⟩ := imtql2_spec hN zero_le_one (fun _ => rfl) (jacobi_form hN junk) hs
  have he : IsEigen N (fun _ => 0) legendreE s.D s.Z (err 1 (31 * N)) :=
    ⟨V, v0, v1, fun y => by rw [← form_jacobi N junk]; exact v2 y, v3⟩
  have h0 : 0 ≤ err 1 (31 * N) := by simpa [err] using err_mono zero_le_one (Nat.zero_le (31 * N))
  have h1 := he.moment hN h0 j
  rw [moment, ← powN_eq hN (show j + 0 < 2 * N by omega)]
  have e : ∑ k ∈ Finset.range N, (2.0 * s.Z k * s.Z k) * s.D k ^ j - 2 * powN N j 0 =
      2 * ((∑ k ∈ Finset.range N, s.Z k ^ 2 * s.D k ^ j) - powN N j 0) := by
    rw [mul_sub, Finset.mul_sum]
    congr 1
    exact Finset.sum_congr rfl fun k _ => by norm_num; ring
  dsimp only
  rw [e, abs_mul, abs_two]
  have e2 : (1 + err 1 (31 * N)) ^ j = (1 + 2 / 10 ^ 14 : ℝ) ^ (31 * N * j) := by
    rw [pow_mul]; congr 1; unfold err epsilon; ring
  rw [e2] at h1
  linarith

/-- C123: so it integrates every polynomial of degree below `2 * N`, up to that error times the sum of the sizes
of the coefficients. -/
theorem C123_polynomials {N : ℕ} (hN : 0 < N) {junk : ℝ} {r : (ℕ → ℝ) × (ℕ → ℝ)} (h : rule N junk = some r)
    (p : Polynomial ℝ) (hp : p.natDegree < 2 * N) :
    |(∑ k ∈ Finset.range N, r.2 k * p.eval (r.1 k)) - ∫ t in (-1 : ℝ)..1, p.eval t| ≤
      (∑ j ∈ Finset.range (2 * N), |p.coeff j|) * (2 * ((1 + 2 / 10 ^ 14) ^ (31 * N * (2 * N)) - 1)) := by
  have e1 : ∀ t, p.eval t = ∑ j ∈ Finset.range (2 * N), p.coeff j * t ^ j := fun t =>
    Polynomial.eval_eq_sum_range' hp t
  have e2 : ∫ t in (-1 : ℝ)..1, p.eval t = ∑ j ∈ Finset.range (2 * N), p.coeff j * ∫ t in (-1 : ℝ)..1, t ^ j := by
    simp only [e1]
    have hc : ∀ j, Continuous fun t : ℝ => p.coeff j * t ^ j := fun j => continuous_const.mul (continuous_pow j)
    rw [intervalIntegral.integral_finsetSum fun j _ => (hc j).intervalIntegrable _ _]
    exact Finset.sum_congr rfl fun j _ => intervalIntegral.integral_const_mul _ _
  have e3 : ∑ k ∈ Finset.range N, r.2 k * p.eval (r.1 k) =
      ∑ j ∈ Finset.range (2 * N), p.coeff j * ∑ k ∈ Finset.range N, r.2 k * r.1 k ^ j := by
    simp only [e1, Finset.mul_sum]
    rw [Finset.sum_comm]
    exact Finset.sum_congr rfl fun j _ => Finset.sum_congr rfl fun k _ => by ring
  rw [e2, e3, ← Finset.sum_sub_distrib, Finset.sum_mul]
  refine (Finset.abs_sum_le_sum_abs _ _).trans (Finset.sum_le_sum fun j hj => ?_)
  rw [Finset.mem_range] at hj
  rw [← mul_sub, abs_mul]
  refine mul_le_mul_of_nonneg_left ((C123_powers hN h hj).trans ?_) (abs_nonneg _)
  have := pow_le_pow_right₀ (show (1 : ℝ) ≤ 1 + 2 / 10 ^ 14 by norm_num)
    (show 31 * N * j ≤ 31 * N * (2 * N) from Nat.mul_le_mul_left _ hj.le)
  linarith

/-- C123: for up to a hundred nodes the error of a power is less than `10⁻⁷`. -/
theorem C123_error {N j : ℕ} (hN : N ≤ 100) (hj : j < 2 * N) :
    2 * ((1 + 2 / 10 ^ 14 : ℝ) ^ (31 * N * j) - 1) ≤ 1 / 10 ^ 7 := by
  have hm : 31 * N * j ≤ 620000 := by
    calc 31 * N * j ≤ 31 * 100 * 200 := Nat.mul_le_mul (by omega) (by omega)
      _ = 620000 := by norm_num
  have h0 : (1 + 2 / 10 ^ 14 : ℝ) ^ (31 * N * j) ≤ Real.exp (620000 * (2 / 10 ^ 14)) := by
    have : (1 + 2 / 10 ^ 14 : ℝ) ≤ Real.exp (2 / 10 ^ 14) := by
      have := Real.add_one_le_exp (2 / 10 ^ 14 : ℝ); linarith
    calc (1 + 2 / 10 ^ 14 : ℝ) ^ (31 * N * j) ≤ (1 + 2 / 10 ^ 14) ^ 620000 := pow_le_pow_right₀ (by norm_num) hm
      _ ≤ Real.exp (2 / 10 ^ 14) ^ 620000 := pow_le_pow_left₀ (by positivity) this _
      _ = Real.exp (620000 * (2 / 10 ^ 14)) := by rw [← Real.exp_nat_mul]; norm_num
  have h1 := Real.add_one_le_exp (-(620000 * (2 / 10 ^ 14)) : ℝ)
  have h2 : Real.exp (620000 * (2 / 10 ^ 14)) * Real.exp (-(620000 * (2 / 10 ^ 14))) = 1 := by
    rw [← Real.exp_add, add_neg_cancel, Real.exp_zero]
  have h3 := Real.exp_pos (620000 * (2 / 10 ^ 14))
  generalize Real.exp (620000 * (2 / 10 ^ 14)) = E at *
  generalize Real.exp (-(620000 * (2 / 10 ^ 14))) = F at *
  have h4 : E * (1 - 620000 * (2 / 10 ^ 14)) ≤ 1 := by
    rw [← h2]
    exact mul_le_mul_of_nonneg_left (by linarith) h3.le
  norm_num at h4 ⊢
  linarith

/-! Non-vacuity: two nodes and the cube. -/

example : ∃ r, rule 2 0 = some r ∧
    |(∑ k ∈ Finset.range 2, r.2 k * r.1 k ^ 3) - ∫ t in (-1 : ℝ)..1, t ^ 3| ≤ 1 / 10 ^ 7 := by
  obtain ⟨s, h, -⟩ := two_nodes 0
  have hr : rule 2 0 = some (s.D, fun i => 2.0 * s.Z i * s.Z i) := by rw [rule, h]; rfl
  exact ⟨_, hr, (C123_powers (by norm_num) hr (by norm_num)).trans (C123_error (by norm_num) (by norm_num))⟩

end Dashmm
