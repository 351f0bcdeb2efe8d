import Verif.Proofs.GaussQ
/-!
Property C122: the angles and weights of the propagating waves.

Exact arithmetic. Whether 30 turns are enough is the assertion of the code: where it fails there is no rule
(`none`). With `NDEBUG` the whole call is left out with its assertion.
-/
namespace Dashmm

open GaussQ

/-! ### C122 -/

/-- C122: for every symmetric tridiagonal matrix, `imtql2` gives, if it says that it did, its eigenvalues in
ascending order and the first components of orthonormal eigenvectors, up to an error that 31 elements of the
relative size `2 * epsilon` for every row can make. -/
theorem C122_eigenvalues {N : ℕ} {B : ℝ} (hN : 0 < N) (hB0 : 0 ≤ B) {s s' : QL} (hZ : ∀ k, s.Z k = 0)
    (hB : ∀ y, |form N s.D s.E y| ≤ B * lengthSq N y) (h : imtql2 N s = some s') :
    IsEigen N s.D s.E s'.D s'.Z (B * (1 + 2 / 10 ^ 14) ^ (31 * N) - B) ∧ ∀ a b, a < b → b < N → s'.D a ≤ s'.D b := by
  have := imtql2_spec hN hB0 hZ hB h
  rwa [err, epsilon, mul_one_div] at this

/-- C122: the nodes are in ascending order, up to the error the eigenvalues of the matrix of the Legendre
polynomials, and the weights twice the squares of the first components of its eigenvectors: the Gauss rule. -/
theorem C122_rule {N : ℕ} (hN : 0 < N) {junk : ℝ} {r : (ℕ → ℝ) × (ℕ → ℝ)} (h : rule N junk = some r) :
    (∀ a b, a < b → b < N → r.1 a ≤ r.1 b) ∧
    ∃ z, (∀ k, r.2 k = 2 * z k ^ 2) ∧ IsEigen N (fun _ => 0) legendreE r.1 z ((1 + 2 / 10 ^ 14) ^ (31 * N) - 1) := by
  obtain ⟨s, hs, rfl⟩ := Option.map_eq_some_iff.1 h
  obtain ⟨h1, h2⟩ := C122_eigenvalues hN zero_le_one (fun _ => rfl) (jacobi_form hN junk) hs
  refine ⟨h2, s.Z, fun k => by norm_num; ring, ?_⟩
  obtain ⟨V, v0, v1, v2, v3⟩ := h1
  refine ⟨V, v0, v1, fun y => ?_, v3⟩
  rw [← form_jacobi N junk, ← one_mul ((1 + 2 / 10 ^ 14 : ℝ) ^ (31 * N))]
  exact v2 y

/-- C122: the weights are not negative and their sum is 2, the length of the interval. -/
theorem C122_weights {N : ℕ} (hN : 0 < N) {junk : ℝ} {r : (ℕ → ℝ) × (ℕ → ℝ)} (h : rule N junk = some r) :
    (∀ k, 0 ≤ r.2 k) ∧ ∑ k ∈ Finset.range N, r.2 k = 2 := by
  obtain ⟨-, z, hz, he⟩ := C122_rule hN h
  refine ⟨fun k => by rw [hz]; positivity, ?_⟩
  have := he.sum_sq hN
  unfold lengthSq at this
  simp only [hz]
  rw [← Finset.mul_sum, this]
  norm_num

/-- C122: the rule integrates linear functions, up to the error. -/
theorem C122_linear {N : ℕ} (hN : 0 < N) {junk : ℝ} {r : (ℕ → ℝ) × (ℕ → ℝ)} (h : rule N junk = some r) (a b : ℝ) :
    |(∑ k ∈ Finset.range N, r.2 k * (a + b * r.1 k)) - 2 * a| ≤ 2 * |b| * ((1 + 2 / 10 ^ 14) ^ (31 * N) - 1) := by
  obtain ⟨-, z, hz, he⟩ := C122_rule hN h
  have hs := (C122_weights hN h).2
  have hm := he.first_moment hN
  have : (∑ k ∈ Finset.range N, r.2 k * (a + b * r.1 k)) - 2 * a =
      2 * b * ∑ k ∈ Finset.range N, r.1 k * z k ^ 2 := by
    have e : ∀ k, r.2 k * (a + b * r.1 k) = a * r.2 k + 2 * b * (r.1 k * z k ^ 2) := fun k => by rw [hz]; ring
    simp only [e]
    rw [Finset.sum_add_distrib, ← Finset.mul_sum, ← Finset.mul_sum, hs]
    ring
  rw [this, abs_mul, abs_mul, abs_two]
  exact mul_le_mul_of_nonneg_left hm (by positivity)

/-- C122: the angles are between 0 and `π / 2`, up to the error, and in ascending order; the weight of an angle
is the weight of its node with the factors of the substitution and the sine of the angle. -/
theorem C122_angles {N : ℕ} (hN : 0 < N) {junk : ℝ} {q : (ℕ → ℝ) × (ℕ → ℝ)} (h : gaussq N junk = some q) :
    (∀ k < N, |q.1 k - Real.pi / 4| ≤ Real.pi / 4 * (1 + 2 / 10 ^ 14) ^ (31 * N)) ∧
    (∀ a b, a < b → b < N → q.1 a ≤ q.1 b) ∧
    ∃ r, rule N junk = some r ∧
      ∀ k, q.1 k = Real.pi / 4 * (1 + r.1 k) ∧ q.2 k = Real.pi / 4 * r.2 k * Real.sin (q.1 k) := by
  obtain ⟨r, hr, rfl⟩ := Option.map_eq_some_iff.1 h
  obtain ⟨h1, z, -, he⟩ := C122_rule hN hr
  refine ⟨fun k hk => ?_, fun a b hab hb => ?_, r, hr, fun k => ⟨by ring, by ring⟩⟩
  · have h2 := he.le (B := 1) (fun y => by rw [← form_jacobi N 0]; exact jacobi_form hN 0 y) hk
    have e : (r.1 k + 1) / 4 * Real.pi - Real.pi / 4 = Real.pi / 4 * r.1 k := by ring
    dsimp only
    rw [e, abs_mul, abs_of_pos (by positivity)]
    refine mul_le_mul_of_nonneg_left ?_ (by positivity)
    linarith
  · have := h1 a b hab hb
    dsimp only
    have hp := Real.pi_pos
    gcongr

/-- C122: the element of the subdiagonal that is not initialised is not used. -/
theorem C122_initialised (N : ℕ) (junk junk' : ℝ) : gaussq N junk = gaussq N junk' := by
  unfold gaussq
  rw [rule_same N junk junk']

/-- C122: for up to a hundred nodes the error is less than `10⁻¹⁰`. -/
theorem C122_error {N : ℕ} (hN : N ≤ 100) : (1 + 2 / 10 ^ 14 : ℝ) ^ (31 * N) - 1 ≤ 1 / 10 ^ 10 := by
  have h0 : (1 + 2 / 10 ^ 14 : ℝ) ^ (31 * N) ≤ Real.exp (2 / 10 ^ 14 * (31 * 100)) := by
    have : (1 + 2 / 10 ^ 14 : ℝ) ≤ Real.exp (2 / 10 ^ 14) := by
      have := Real.add_one_le_exp (2 / 10 ^ 14 : ℝ); linarith
    calc (1 + 2 / 10 ^ 14 : ℝ) ^ (31 * N) ≤ (1 + 2 / 10 ^ 14) ^ (31 * 100) := pow_le_pow_right₀ (by norm_num) (by omega)
      _ ≤ Real.exp (2 / 10 ^ 14) ^ (31 * 100) := pow_le_pow_left₀ (by positivity) this _
      _ = Real.exp (2 / 10 ^ 14 * (31 * 100)) := by rw [← Real.exp_nat_mul]; norm_num
  have h1 := Real.add_one_le_exp (-(2 / 10 ^ 14 * (31 * 100)) : ℝ)
  rw [Real.exp_neg] at h1
  have h2 : Real.exp (2 / 10 ^ 14 * (31 * 100)) ≤ 1 / (1 - 2 / 10 ^ 14 * (31 * 100)) := by
    rw [le_div_iff₀ (by norm_num)]
    have := mul_le_mul_of_nonneg_left h1 (Real.exp_pos (2 / 10 ^ 14 * (31 * 100))).le
    rw [mul_inv_cancel₀ (Real.exp_pos _).ne'] at this
    linarith
  refine (sub_le_sub_right (h0.trans h2) 1).trans ?_
  norm_num

/-- C122: with two nodes it is the Gauss rule, without error. -/
theorem C122_two (junk : ℝ) : ∃ r, rule 2 junk = some r ∧ r.1 0 = -(1 / √3) ∧ r.1 1 = 1 / √3 ∧ r.2 0 = 1 ∧ r.2 1 = 1 := by
  obtain ⟨s, h, h1, h2, h3, h4⟩ := two_nodes junk
  refine ⟨_, by rw [rule, h]; rfl, h1, h2, ?_, ?_⟩ <;> norm_num <;> nlinarith

/-! Non-vacuity: `C122_two` is a case of the hypotheses of the others. -/

/-- The matrix of two rows meets the hypothesis on the size, with `B = 1`. -/
example : ∃ r, rule 2 0 = some r ∧ ∑ k ∈ Finset.range 2, r.2 k = 2 := by
  obtain ⟨r, h, -⟩ := C122_two 0
  exact ⟨r, h, (C122_weights (by norm_num) h).2⟩

end Dashmm
