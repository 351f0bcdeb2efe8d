import Verif.Model.ComEval
import Verif.Proofs.Com
import Mathlib.Tactic.Positivity

/-! Remainder estimates for the quadrupole expansion of `1/r` and of its gradient. -/

namespace Dashmm.Com

/-- The degree two Taylor polynomial of `1/√(1 - 2ut + t²)`. -/
noncomputable def pol (u t : ℝ) : ℝ := 1 + u * t + (3 * u ^ 2 - 1) / 2 * t ^ 2

theorem w_ge {u t : ℝ} (hu : |u| ≤ 1) (ht : 0 ≤ t) :
    (1 - t) ^ 2 ≤ 1 - 2 * u * t + t ^ 2 := by
  have := (abs_le.1 hu).2
  nlinarith [mul_nonneg ht (sub_nonneg.2 this)]

theorem pol_nonneg {u t : ℝ} (ht : 0 ≤ t) (ht1 : t < 1) :
    0 ≤ pol u t := by
  unfold pol
  nlinarith [sq_nonneg (1 + 3 * (u * t)), mul_nonneg ht ht, mul_self_nonneg (u * t)]

theorem pol_le {u t : ℝ} (hu : |u| ≤ 1) (ht : 0 ≤ t) : pol u t ≤ 1 + t + t ^ 2 := by
  unfold pol
  obtain ⟨h1, h2⟩ := abs_le.1 hu
  have : u ^ 2 ≤ 1 := by nlinarith
  nlinarith [mul_le_mul_of_nonneg_right h2 ht, sq_nonneg t]

theorem bd1 {u : ℝ} (h1 : -1 ≤ u) (h2 : u ≤ 1) : |5 * u ^ 3 - 3 * u| ≤ 2 := by
  have p1 : 0 ≤ (1 - u) * (5 * u ^ 2 + 5 * u + 2) :=
    mul_nonneg (by linarith) (by nlinarith [sq_nonneg (2 * u + 1)])
  have p2 : 0 ≤ (1 + u) * (5 * u ^ 2 - 5 * u + 2) :=
    mul_nonneg (by linarith) (by nlinarith [sq_nonneg (2 * u - 1)])
  rw [abs_le]; constructor
  · have : (1 + u) * (5 * u ^ 2 - 5 * u + 2) = 5 * u ^ 3 - 3 * u + 2 := by ring
    linarith
  · have : (1 - u) * (5 * u ^ 2 + 5 * u + 2) = 2 - (5 * u ^ 3 - 3 * u) := by ring
    linarith

theorem bd2 {v : ℝ} (h0 : 0 ≤ v) (h1 : v ≤ 1) :
    |-(15 / 4) * (v * v) + 9 / 2 * v - 3 / 4| ≤ 3 / 4 := by
  rw [abs_le]; constructor <;> nlinarith [sq_nonneg (v - 3 / 5), mul_nonneg h0 (sub_nonneg.2 h1)]

theorem bd3 {u b : ℝ} (hu : |u| ≤ 1) (hb0 : -(1 / 2) ≤ b) (hb1 : b ≤ 1) :
    |2 * u * b * (1 - b)| ≤ 2 := by
  have : |b * (1 - b)| ≤ 1 := by rw [abs_le]; constructor <;> nlinarith [sq_nonneg (b - 1 / 2)]
  rw [show 2 * u * b * (1 - b) = 2 * (u * (b * (1 - b))) by ring, abs_mul, abs_mul,
    abs_of_pos (by norm_num : (0:ℝ) < 2)]
  nlinarith [abs_nonneg u, abs_nonneg (b * (1 - b))]

theorem bdm {x c y : ℝ} (hx : |x| ≤ c) (hy : 0 ≤ y) (hy1 : y ≤ 1) : |x * y| ≤ c := by
  rw [abs_mul, abs_of_nonneg hy]
  nlinarith [abs_nonneg x]

theorem rem_poly {u t : ℝ} (hu : |u| ≤ 1) (ht : 0 ≤ t) (ht1 : t ≤ 1) :
    |1 - pol u t ^ 2 * (1 - 2 * u * t + t ^ 2)| ≤ 6 * t ^ 3 := by
  obtain ⟨h1, h2⟩ := abs_le.1 hu
  have hv0 : 0 ≤ u ^ 2 := sq_nonneg u
  have hv1 : u ^ 2 ≤ 1 := by nlinarith
  obtain ⟨b, hb⟩ : ∃ b : ℝ, b = (3 * u ^ 2 - 1) / 2 := ⟨_, rfl⟩
  have hb0 : -(1 / 2) ≤ b := by rw [hb]; linarith
  have hb1 : b ≤ 1 := by rw [hb]; linarith
  have key : 1 - pol u t ^ 2 * (1 - 2 * u * t + t ^ 2) =
      t ^ 3 * ((5 * u ^ 3 - 3 * u) - (-(15 / 4) * (u ^ 2 * u ^ 2) + 9 / 2 * u ^ 2 - 3 / 4) * t
        - (2 * u * b * (1 - b)) * t ^ 2 - b ^ 2 * t ^ 3) := by
    unfold pol; rw [hb]; ring
  rw [key, abs_mul, abs_of_nonneg (pow_nonneg ht 3), mul_comm 6]
  apply mul_le_mul_of_nonneg_left _ (pow_nonneg ht 3)
  have t2 : t ^ 2 ≤ 1 := pow_le_one₀ ht ht1
  have t3 : t ^ 3 ≤ 1 := pow_le_one₀ ht ht1
  have e4 : |b ^ 2| ≤ 1 := by rw [abs_le]; constructor <;> nlinarith
  obtain ⟨a1, a2⟩ := abs_le.1 (bd1 h1 h2)
  obtain ⟨b1, b2⟩ := abs_le.1 (bdm (bd2 hv0 hv1) ht ht1)
  obtain ⟨c1, c2⟩ := abs_le.1 (bdm (bd3 hu hb0 hb1) (sq_nonneg t) t2)
  obtain ⟨d1, d2⟩ := abs_le.1 (bdm e4 (pow_nonneg ht 3) t3)
  rw [abs_le]
  constructor <;> linarith

/-- Remainder of the expansion of `1/√(1 - 2ut + t²)`. -/
theorem rem_inv {u t : ℝ} (hu : |u| ≤ 1) (ht : 0 ≤ t) (ht1 : t < 1) :
    |1 / Real.sqrt (1 - 2 * u * t + t ^ 2) - pol u t| ≤ 6 * t ^ 3 / (1 - t) := by
  set w := 1 - 2 * u * t + t ^ 2 with hw
  have h1 : 0 < 1 - t := by linarith
  have hge : 1 - t ≤ Real.sqrt w := Real.le_sqrt_of_sq_le (w_ge hu ht)
  have hpos : 0 < Real.sqrt w := lt_of_lt_of_le h1 hge
  have hw0 : 0 ≤ w := le_trans (sq_nonneg _) (w_ge hu ht)
  have hsq : Real.sqrt w ^ 2 = w := Real.sq_sqrt hw0
  have hp := pol_nonneg (u := u) ht ht1
  have h6 := rem_poly hu ht ht1.le
  rw [← hw, ← hsq] at h6
  have hfac : 1 - pol u t ^ 2 * Real.sqrt w ^ 2 =
      (1 - pol u t * Real.sqrt w) * (1 + pol u t * Real.sqrt w) := by ring
  have hone : (1 : ℝ) ≤ 1 + pol u t * Real.sqrt w := by
    have := mul_nonneg hp hpos.le; linarith
  have hnum : |1 - pol u t * Real.sqrt w| ≤ 6 * t ^ 3 := by
    rw [hfac, abs_mul, abs_of_nonneg (by linarith : (0:ℝ) ≤ 1 + pol u t * Real.sqrt w)] at h6
    nlinarith [abs_nonneg (1 - pol u t * Real.sqrt w)]
  have heq : 1 / Real.sqrt w - pol u t = (1 - pol u t * Real.sqrt w) / Real.sqrt w := by
    field_simp
  rw [heq, abs_div, abs_of_pos hpos]
  exact div_le_div₀ (by positivity) hnum h1 hge

/-- Remainder of the expansion of `(1 - 2ut + t²)^(-3/2)`. -/
theorem rem_inv3 {u t : ℝ} (hu : |u| ≤ 1) (ht : 0 ≤ t) (ht1 : t < 1) :
    |1 / Real.sqrt (1 - 2 * u * t + t ^ 2) ^ 3 - (1 + 3 * u * t + (15 * u ^ 2 - 3) / 2 * t ^ 2)|
      ≤ 35 * t ^ 3 / (1 - t) ^ 3 := by
  set w := 1 - 2 * u * t + t ^ 2 with hw
  obtain ⟨hu1, hu2⟩ := abs_le.1 hu
  have h1 : 0 < 1 - t := by linarith
  have hge : 1 - t ≤ Real.sqrt w := Real.le_sqrt_of_sq_le (w_ge hu ht)
  have hpos : 0 < Real.sqrt w := lt_of_lt_of_le h1 hge
  set g := 1 / Real.sqrt w with hg
  set k := 1 / (1 - t) with hk
  have hkpos : 0 < k := by positivity
  have hg0 : 0 ≤ g := by positivity
  have hgk : g ≤ k := one_div_le_one_div_of_le h1 hge
  have hk1 : 1 ≤ k := by rw [hk, le_div_iff₀ h1]; linarith
  have hkt : k * (1 - t) = 1 := by rw [hk]; field_simp
  have hp0 := pol_nonneg (u := u) ht ht1
  have hpk : pol u t ≤ k := by
    refine (pol_le hu ht).trans ?_
    rw [hk, le_div_iff₀ h1]
    nlinarith [pow_nonneg ht 3]
  have he : |g - pol u t| ≤ 6 * t ^ 3 * k := by
    have := rem_inv hu ht ht1
    rw [← hw, ← hg] at this
    rwa [hk, mul_one_div]
  have hA : |g ^ 3 - pol u t ^ 3| ≤ 18 * t ^ 3 * k ^ 3 := by
    have : g ^ 3 - pol u t ^ 3 = (g - pol u t) * (g ^ 2 + g * pol u t + pol u t ^ 2) := by ring
    rw [this, abs_mul]
    have hs0 : 0 ≤ g ^ 2 + g * pol u t + pol u t ^ 2 := by positivity
    have hs : g ^ 2 + g * pol u t + pol u t ^ 2 ≤ 3 * k ^ 2 := by nlinarith
    rw [abs_of_nonneg hs0]
    calc _ ≤ (6 * t ^ 3 * k) * (3 * k ^ 2) := mul_le_mul he hs hs0 (by positivity)
      _ = _ := by ring
  set b : ℝ := (3 * u ^ 2 - 1) / 2 with hb
  have hb0 : |b| ≤ 1 := by
    rw [abs_le, hb]; constructor <;> nlinarith
  have hB : |pol u t ^ 3 - (1 + 3 * u * t + (15 * u ^ 2 - 3) / 2 * t ^ 2)| ≤ 17 * t ^ 3 := by
    have : pol u t ^ 3 - (1 + 3 * u * t + (15 * u ^ 2 - 3) / 2 * t ^ 2) =
        t ^ 3 * (6 * (u * b) + 3 * (b ^ 2 * t) + (u + b * t) ^ 3) := by
      unfold pol; rw [hb]; ring
    rw [this, abs_mul, abs_of_nonneg (pow_nonneg ht 3), mul_comm 17]
    apply mul_le_mul_of_nonneg_left _ (pow_nonneg ht 3)
    have c1 : |u * b| ≤ 1 := by
      rw [abs_mul]; nlinarith [abs_nonneg u, abs_nonneg b]
    have c2 : |b ^ 2 * t| ≤ 1 := by
      rw [abs_mul, abs_of_nonneg ht, abs_pow]
      have : |b| ^ 2 ≤ 1 := by nlinarith [abs_nonneg b]
      nlinarith
    have c3 : |u + b * t| ≤ 2 := by
      refine (abs_add_le _ _).trans ?_
      have : |b * t| ≤ 1 := by rw [abs_mul, abs_of_nonneg ht]; nlinarith [abs_nonneg b]
      linarith
    have c4 : |(u + b * t) ^ 3| ≤ 8 := by
      rw [abs_pow]
      calc _ ≤ (2:ℝ) ^ 3 := pow_le_pow_left₀ (abs_nonneg _) c3 3
        _ = 8 := by norm_num
    rw [abs_le] at c1 c2 c4 ⊢
    constructor <;> linarith [c1.1, c1.2, c2.1, c2.2, c4.1, c4.2]
  have hgg : 1 / Real.sqrt w ^ 3 = g ^ 3 := by rw [hg]; field_simp
  rw [hgg]
  have hk3 : 1 ≤ k ^ 3 := one_le_pow₀ hk1
  have : 35 * t ^ 3 / (1 - t) ^ 3 = 35 * t ^ 3 * k ^ 3 := by rw [hk]; field_simp
  rw [this]
  calc |g ^ 3 - (1 + 3 * u * t + (15 * u ^ 2 - 3) / 2 * t ^ 2)|
      ≤ |g ^ 3 - pol u t ^ 3| + |pol u t ^ 3 - (1 + 3 * u * t + (15 * u ^ 2 - 3) / 2 * t ^ 2)| :=
        abs_sub_le _ _ _
    _ ≤ 18 * t ^ 3 * k ^ 3 + 17 * t ^ 3 := add_le_add hA hB
    _ ≤ _ := by nlinarith [pow_nonneg ht 3]

end Dashmm.Com
