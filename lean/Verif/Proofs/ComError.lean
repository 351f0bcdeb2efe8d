import Verif.Proofs.ComEval

/-! Error of the quadrupole approximation for one source, then for all of them. -/

namespace Dashmm.Com

/-- `x³/(r-x)` style bounds are monotone. -/
theorem cube_mono {σ a r : ℝ} (h0 : 0 ≤ σ) (h1 : σ ≤ a) (h2 : a < r) (n : ℕ) :
    σ ^ 3 / (r - σ) ^ n ≤ a ^ 3 / (r - a) ^ n := by
  have ha : 0 ≤ a := h0.trans h1
  have hra : 0 < r - a := by linarith
  exact div_le_div₀ (by positivity) (pow_le_pow_left₀ h0 h1 3) (by positivity)
    (pow_le_pow_left₀ hra.le (by linarith) n)

section one
variable {P r σ a : ℝ}

theorem scaled (hr : 0 < r) (hσ : 0 < σ) (hσr : σ < r) (hP : P ^ 2 ≤ r ^ 2 * σ ^ 2) :
    ∃ u t : ℝ, |u| ≤ 1 ∧ 0 < t ∧ t < 1 ∧ σ = r * t ∧ P = r ^ 2 * (u * t) ∧
      Real.sqrt (r ^ 2 - 2 * P + σ ^ 2) = r * Real.sqrt (1 - 2 * u * t + t ^ 2) := by
  refine ⟨P / (r * σ), σ / r, ?_, by positivity, (div_lt_one hr).2 hσr, by field_simp,
    by field_simp, ?_⟩
  · rw [abs_le_one_iff_mul_self_le_one]
    have : P / (r * σ) * (P / (r * σ)) = P ^ 2 / (r ^ 2 * σ ^ 2) := by field_simp
    rw [this]
    exact div_le_one_of_le₀ hP (by positivity)
  · have : r ^ 2 - 2 * P + σ ^ 2 = r ^ 2 * (1 - 2 * (P / (r * σ)) * (σ / r) + (σ / r) ^ 2) := by
      field_simp
    rw [this, Real.sqrt_mul (by positivity), Real.sqrt_sq hr.le]

theorem pot_one (hr : 0 < r) (hσ : 0 ≤ σ) (hσa : σ ≤ a) (har : a < r)
    (hP : P ^ 2 ≤ r ^ 2 * σ ^ 2) :
    |1 / Real.sqrt (r ^ 2 - 2 * P + σ ^ 2)
        - (1 / r + P / r ^ 3 + (3 * P ^ 2 - r ^ 2 * σ ^ 2) / (2 * r ^ 5))|
      ≤ 6 * (a ^ 3 / (r ^ 3 * (r - a))) := by
  have hra : 0 < r - a := by linarith
  have ha : 0 ≤ a := hσ.trans hσa
  rcases hσ.eq_or_lt with h0 | h0
  · subst h0
    have : P = 0 := by
      have : P ^ 2 = 0 := le_antisymm (by simpa using hP) (sq_nonneg P)
      simpa using this
    subst this
    have : Real.sqrt (r ^ 2 - 2 * 0 + 0 ^ 2) = r := by simp [hr.le]
    rw [this]
    have : 1 / r - (1 / r + 0 / r ^ 3 + (3 * 0 ^ 2 - r ^ 2 * 0 ^ 2) / (2 * r ^ 5)) = 0 := by simp
    rw [this, abs_zero]; positivity
  · obtain ⟨u, t, hu, ht, ht1, rfl, rfl, hs⟩ := scaled hr h0 (by linarith) hP
    rw [hs]
    have h1t : 0 < 1 - t := by linarith
    have hw : 0 < Real.sqrt (1 - 2 * u * t + t ^ 2) :=
      lt_of_lt_of_le h1t (Real.le_sqrt_of_sq_le (w_ge hu ht.le))
    have e : 1 / (r * Real.sqrt (1 - 2 * u * t + t ^ 2))
        - (1 / r + r ^ 2 * (u * t) / r ^ 3 +
          (3 * (r ^ 2 * (u * t)) ^ 2 - r ^ 2 * (r * t) ^ 2) / (2 * r ^ 5)) =
        (1 / Real.sqrt (1 - 2 * u * t + t ^ 2) - pol u t) / r := by
      unfold pol; field_simp
    rw [e, abs_div, abs_of_pos hr]
    have h := div_le_div_of_nonneg_right (rem_inv hu ht.le ht1) hr.le
    refine h.trans ?_
    have hm := cube_mono h0.le hσa har 1
    have e2 : 6 * t ^ 3 / (1 - t) / r = 6 * ((r * t) ^ 3 / (r - r * t) ^ 1) / r ^ 3 := by
      have : r - r * t ≠ 0 := by nlinarith
      field_simp
    have e3 : 6 * (a ^ 3 / (r ^ 3 * (r - a))) = 6 * (a ^ 3 / (r - a) ^ 1) / r ^ 3 := by
      field_simp
    rw [e2, e3]
    exact div_le_div_of_nonneg_right (by linarith) (by positivity)

theorem acc_one {dk sk : ℝ} (hr : 0 < r) (hσ : 0 ≤ σ) (hσa : σ ≤ a) (har : a < r)
    (hP : P ^ 2 ≤ r ^ 2 * σ ^ 2) (hd : |dk| ≤ r) (hs : |sk| ≤ σ) :
    |(dk - sk) / ((r ^ 2 - 2 * P + σ ^ 2) * Real.sqrt (r ^ 2 - 2 * P + σ ^ 2))
        - (dk / r ^ 3 + 5 / 2 * (3 * P ^ 2 - r ^ 2 * σ ^ 2) * dk / r ^ 7
            - (3 * sk * P - σ ^ 2 * dk) / r ^ 5 + (3 * P * dk / r ^ 5 - sk / r ^ 3))|
      ≤ 76 * (a ^ 3 / (r ^ 2 * (r - a) ^ 3)) := by
  have hra : 0 < r - a := by linarith
  have ha : 0 ≤ a := hσ.trans hσa
  rcases hσ.eq_or_lt with h0 | h0
  · subst h0
    have : P = 0 := by
      have : P ^ 2 = 0 := le_antisymm (by simpa using hP) (sq_nonneg P)
      simpa using this
    subst this
    have : sk = 0 := abs_eq_zero.1 (le_antisymm hs (abs_nonneg _))
    subst this
    have : Real.sqrt (r ^ 2 - 2 * 0 + 0 ^ 2) = r := by simp [hr.le]
    rw [this]
    have : (dk - 0) / ((r ^ 2 - 2 * 0 + 0 ^ 2) * r) -
        (dk / r ^ 3 + 5 / 2 * (3 * 0 ^ 2 - r ^ 2 * 0 ^ 2) * dk / r ^ 7
            - (3 * 0 * 0 - 0 ^ 2 * dk) / r ^ 5 + (3 * 0 * dk / r ^ 5 - 0 / r ^ 3)) = 0 := by
      field_simp; ring
    rw [this, abs_zero]; positivity
  · have hq : r ^ 2 - 2 * P + σ ^ 2 = Real.sqrt (r ^ 2 - 2 * P + σ ^ 2) ^ 2 := by
      rw [Real.sq_sqrt]
      nlinarith [abs_le_of_sq_le_sq' (by nlinarith : P ^ 2 ≤ (r * σ) ^ 2) (by positivity),
        sq_nonneg (r - σ)]
    have hden : (r ^ 2 - 2 * P + σ ^ 2) * Real.sqrt (r ^ 2 - 2 * P + σ ^ 2) =
        Real.sqrt (r ^ 2 - 2 * P + σ ^ 2) ^ 3 := by
      calc _ = Real.sqrt (r ^ 2 - 2 * P + σ ^ 2) ^ 2 * Real.sqrt (r ^ 2 - 2 * P + σ ^ 2) := by
            rw [← hq]
        _ = _ := by ring
    rw [hden]
    clear hden hq
    obtain ⟨u, t, hu, ht, ht1, rfl, rfl, hsq⟩ := scaled hr h0 (by linarith) hP
    rw [hsq]
    have h1t : 0 < 1 - t := by linarith
    have hw : 0 < Real.sqrt (1 - 2 * u * t + t ^ 2) :=
      lt_of_lt_of_le h1t (Real.le_sqrt_of_sq_le (w_ge hu ht.le))
    have hrem := rem_inv3 hu ht.le ht1
    set g := 1 / Real.sqrt (1 - 2 * u * t + t ^ 2) ^ 3 with hg
    set q := 1 + 3 * u * t + (15 * u ^ 2 - 3) / 2 * t ^ 2 with hqd
    have e : (dk - sk) / (r * Real.sqrt (1 - 2 * u * t + t ^ 2)) ^ 3
        - (dk / r ^ 3 + 5 / 2 * (3 * (r ^ 2 * (u * t)) ^ 2 - r ^ 2 * (r * t) ^ 2) * dk / r ^ 7
            - (3 * sk * (r ^ 2 * (u * t)) - (r * t) ^ 2 * dk) / r ^ 5
            + (3 * (r ^ 2 * (u * t)) * dk / r ^ 5 - sk / r ^ 3)) =
        (dk * (g - q) - sk * ((g - q) + (15 * u ^ 2 - 3) / 2 * t ^ 2)) / r ^ 3 := by
      rw [hg, hqd]; field_simp; ring
    rw [e, abs_div, abs_of_pos (by positivity : (0:ℝ) < r ^ 3)]
    set B := t ^ 3 / (1 - t) ^ 3 with hB
    have hB0 : 0 ≤ B := by positivity
    have hrem' : |g - q| ≤ 35 * B := by rw [hB, ← mul_div_assoc]; exact hrem
    have hv : |(15 * u ^ 2 - 3) / 2 * t ^ 2| ≤ 6 * t ^ 2 := by
      have hu2 : u ^ 2 ≤ 1 := by
        have := (abs_le.1 hu).1; have := (abs_le.1 hu).2; nlinarith
      rw [abs_mul, abs_of_nonneg (sq_nonneg t)]
      apply mul_le_mul_of_nonneg_right _ (sq_nonneg t)
      rw [abs_le]; constructor <;> nlinarith [sq_nonneg u]
    have hBt : t ^ 3 ≤ B := by
      rw [hB, le_div_iff₀ (by positivity)]
      have : (1 - t) ^ 3 ≤ 1 := pow_le_one₀ h1t.le (by linarith)
      nlinarith [pow_nonneg ht.le 3]
    have h1 : |dk * (g - q)| ≤ r * (35 * B) := by
      rw [abs_mul]; exact mul_le_mul hd hrem' (abs_nonneg _) hr.le
    have h2 : |sk * ((g - q) + (15 * u ^ 2 - 3) / 2 * t ^ 2)| ≤ (r * t) * (35 * B + 6 * t ^ 2) := by
      rw [abs_mul]
      exact mul_le_mul hs ((abs_add_le _ _).trans (add_le_add hrem' hv)) (abs_nonneg _) h0.le
    have h3 : |dk * (g - q) - sk * ((g - q) + (15 * u ^ 2 - 3) / 2 * t ^ 2)| ≤ 76 * (r * B) := by
      refine (abs_sub _ _).trans ((add_le_add h1 h2).trans ?_)
      have a1 : (r * t) * (35 * B) ≤ r * (35 * B) := by
        apply mul_le_mul_of_nonneg_right _ (by linarith); nlinarith
      have a2 : (r * t) * (35 * B + 6 * t ^ 2) = (r * t) * (35 * B) + r * (6 * t ^ 3) := by ring
      have a3 : r * (6 * t ^ 3) ≤ r * (6 * B) :=
        mul_le_mul_of_nonneg_left (by linarith) hr.le
      rw [a2]; linarith
    refine (div_le_div_of_nonneg_right h3 (by positivity)).trans ?_
    have hm := cube_mono h0.le hσa har 3
    have e2 : 76 * (r * B) / r ^ 3 = 76 * ((r * t) ^ 3 / (r - r * t) ^ 3) / r ^ 2 := by
      have : r - r * t = r * (1 - t) := by ring
      rw [hB, this]; field_simp
    have e3 : 76 * (a ^ 3 / (r ^ 2 * (r - a) ^ 3)) = 76 * (a ^ 3 / (r - a) ^ 3) / r ^ 2 := by
      field_simp
    rw [e2, e3]
    exact div_le_div_of_nonneg_right (by linarith) (by positivity)

end one

end Dashmm.Com
