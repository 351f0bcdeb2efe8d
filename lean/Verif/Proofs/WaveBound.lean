import Verif.Proofs.WaveFlux

/-!
# Bounds for the coefficients of the translation
-/

namespace Dashmm.Wave

open Finset Yuk Bessel Harm
open scoped Nat

noncomputable section

/-- `Qf` for an arbitrary table of the radial functions. -/
def Qb (b : ℕ → ℂ) (w : ℂ) (m : ℤ) (n j : ℕ) (s : ℝ) : ℂ :=
  ∑ k ∈ range (j + 1), (qc m n j k : ℂ) * (w ^ (j - k) * (s : ℂ) ^ (n + j - 2 * k) * b (n + j - k))

theorem Qf_eq (w : ℂ) (m : ℤ) (n j : ℕ) (s : ℝ) : Qf w m n j s = Qb (fun i => fn w i s) w m n j s := rfl

/-- `√((n - m)! (n + m)!)`. -/
def rt (m : ℤ) (n : ℕ) : ℝ := sf (n - m) * sf (n + m)

theorem rt_pos (m : ℤ) (n : ℕ) : 0 < rt m n := mul_pos (sf_pos _) (sf_pos _)

theorem rt_sq (m : ℤ) (n : ℕ) : rt m n ^ 2 = wt m n := by rw [rt, mul_pow, sf_sq, sf_sq, wt]

/-- The coefficients for normalized waves. -/
def tauB (b : ℕ → ℂ) (w : ℂ) (m : ℤ) (n j : ℕ) (s : ℝ) : ℂ :=
  ((((2 * n + 1)‼ : ℕ) * rt m n * (rt m j / ((2 * j - 1)‼ : ℕ)) : ℝ) : ℂ) * Qb b w m n j s

theorem rf_wt (m : ℤ) (k : ℕ) (h : |m| ≤ k) : rf (k - m) * rf (k + m) = 1 / wt m k := by
  rw [abs_le] at h
  rw [rf, rf, if_neg (by omega), if_neg (by omega), wt]; field_simp

theorem wt_chain (m : ℤ) (n k : ℕ) (hm : |m| ≤ k) (hk : k ≤ n) (i : ℕ) :
    3 ^ i * (wt m (k + i) * ((2 * k - 1)‼ : ℕ) * ((2 * n + 1)‼ : ℕ)) ≤
      wt m k * ((2 * (k + i) - 1)‼ : ℕ) * ((2 * (n + i) + 1)‼ : ℕ) := by
  induction i with
  | zero => simp
  | succ i ih =>
    rw [show k + (i + 1) = k + i + 1 by ring, show n + (i + 1) = n + i + 1 by ring, wt_succ m (k + i) (by push_cast; omega), dfact_pred,
      dfact_succ, pow_succ]
    have h0 : 0 ≤ wt m (k + i) * ((2 * k - 1)‼ : ℕ) * ((2 * n + 1)‼ : ℕ) := by have := wt_pos m (k + i); positivity
    have hkn : (k : ℝ) ≤ n := by exact_mod_cast hk
    have h1 : 3 * ((((k + i : ℕ) : ℝ) + 1) ^ 2 - (m : ℝ) ^ 2) ≤ (2 * ((k + i : ℕ) : ℝ) + 1) * (2 * ((n + i : ℕ) : ℝ) + 3) := by
      push_cast
      have : (0 : ℝ) ≤ k := by positivity
      have : (0 : ℝ) ≤ i := by positivity
      nlinarith [sq_nonneg (m : ℝ), mul_nonneg (add_nonneg ‹(0:ℝ) ≤ k› ‹(0:ℝ) ≤ i›) (sub_nonneg.2 hkn), sq_nonneg ((k : ℝ) + i)]
    have h2 : (0 : ℝ) ≤ (2 * ((k + i : ℕ) : ℝ) + 1) * (2 * ((n + i : ℕ) : ℝ) + 3) := by positivity
    calc 3 ^ i * 3 * (((((k + i : ℕ) : ℝ) + 1) ^ 2 - (m : ℝ) ^ 2) * wt m (k + i) * ((2 * k - 1)‼ : ℕ) * ((2 * n + 1)‼ : ℕ))
        = 3 * ((((k + i : ℕ) : ℝ) + 1) ^ 2 - (m : ℝ) ^ 2) * (3 ^ i * (wt m (k + i) * ((2 * k - 1)‼ : ℕ) * ((2 * n + 1)‼ : ℕ))) := by ring
      _ ≤ (2 * ((k + i : ℕ) : ℝ) + 1) * (2 * ((n + i : ℕ) : ℝ) + 3) *
          (3 ^ i * (wt m (k + i) * ((2 * k - 1)‼ : ℕ) * ((2 * n + 1)‼ : ℕ))) := mul_le_mul_of_nonneg_right h1 (by positivity)
      _ ≤ (2 * ((k + i : ℕ) : ℝ) + 1) * (2 * ((n + i : ℕ) : ℝ) + 3) *
          (wt m k * ((2 * (k + i) - 1)‼ : ℕ) * ((2 * (n + i) + 1)‼ : ℕ)) := mul_le_mul_of_nonneg_left ih h2
      _ = _ := by ring

/-- The bound of one term. -/
theorem term_le (m : ℤ) (n j k : ℕ) (hk : k ≤ j) (b : ℕ → ℂ) (β : ℝ) (hβ : 0 ≤ β) (w : ℂ) (s : ℝ)
    (hb : ‖b (n + j - k)‖ ≤ β / ((2 * (n + j - k) + 1)‼ : ℕ)) :
    ‖((((2 * n + 1)‼ : ℕ) * rt m n * (rt m j / ((2 * j - 1)‼ : ℕ)) : ℝ) : ℂ) *
      ((qc m n j k : ℂ) * (w ^ (j - k) * (s : ℂ) ^ (n + j - 2 * k) * b (n + j - k)))‖ ≤
    β * (rt m n / rt m j * rf (n - k) * rf (j - k) * ((‖w‖ / 3) ^ (j - k) * |s| ^ (n + j - 2 * k))) := by
  have p1 := rt_pos m n
  have p2 := rt_pos m j
  have d1 := dfact_pos (2 * j - 1)
  have d2 := dfact_pos (2 * (n + j - k) + 1)
  have r1 := rf_nonneg (n - k)
  have r2 := rf_nonneg (j - k)
  have hR : 0 ≤ β * (rt m n / rt m j * rf (n - k) * rf (j - k) * ((‖w‖ / 3) ^ (j - k) * |s| ^ (n + j - 2 * k))) := by positivity
  by_cases hm : |m| ≤ k
  swap
  · rw [qc_low m n j k (by omega)]; simpa using hR
  by_cases hn : k ≤ n
  swap
  · rw [qc_left m n j k (by omega)]; simpa using hR
  obtain ⟨i, rfl⟩ := Nat.exists_eq_add_of_le hk
  have hc := wt_chain m n k hm hn i
  rw [show n + (k + i) - k = n + i by omega] at *
  rw [show k + i - k = i by omega]
  have hw := wt_pos m k
  have hq : 0 ≤ qc m n (k + i : ℕ) k := by
    rw [qc]
    have := rf_nonneg (k - m); have := rf_nonneg (k + m)
    push_cast at *; positivity
  rw [norm_mul, norm_mul, norm_mul, norm_mul, Complex.norm_real, Complex.norm_real, norm_pow, norm_pow, Complex.norm_real, Real.norm_eq_abs,
    Real.norm_eq_abs, Real.norm_eq_abs, abs_of_nonneg hq, abs_of_pos (by positivity)]
  set Sp := |s| ^ (n + (k + i) - 2 * k) with hSp
  have hS : 0 ≤ Sp := by positivity
  have key : ((2 * n + 1)‼ : ℕ) * rt m n * (rt m (k + i) / ((2 * (k + i) - 1)‼ : ℕ)) * qc m n (k + i : ℕ) k / ((2 * (n + i) + 1)‼ : ℕ) ≤
      rt m n / rt m (k + i) * rf (n - k) * rf ((k + i : ℕ) - k) * (1 / 3) ^ i := by
    rw [qc, show (((2 * k - 1)‼ : ℕ) : ℝ) * rf (k - m) * rf (k + m) * rf (n - k) * rf ((k + i : ℕ) - k) =
      ((2 * k - 1)‼ : ℕ) * (rf (k - m) * rf (k + m)) * rf (n - k) * rf ((k + i : ℕ) - k) by ring, rf_wt m k hm]
    have e : ((2 * n + 1)‼ : ℕ) * rt m n * (rt m (k + i) / ((2 * (k + i) - 1)‼ : ℕ)) *
        (((2 * k - 1)‼ : ℕ) * (1 / wt m k) * rf (n - k) * rf ((k + i : ℕ) - k)) / ((2 * (n + i) + 1)‼ : ℕ) =
      (rt m n / rt m (k + i) * rf (n - k) * rf ((k + i : ℕ) - k)) *
        (rt m (k + i) ^ 2 * ((2 * k - 1)‼ : ℕ) * ((2 * n + 1)‼ : ℕ) /
          (wt m k * ((2 * (k + i) - 1)‼ : ℕ) * ((2 * (n + i) + 1)‼ : ℕ))) := by field_simp
    rw [e, rt_sq]
    refine mul_le_mul_of_nonneg_left ?_ (by positivity)
    rw [div_le_iff₀ (by positivity), one_div, inv_pow, inv_mul_eq_div, le_div_iff₀ (by positivity)]
    linarith
  calc ((2 * n + 1)‼ : ℕ) * rt m n * (rt m (k + i) / ((2 * (k + i) - 1)‼ : ℕ)) * (qc m n (k + i : ℕ) k * (‖w‖ ^ i * Sp * ‖b (n + i)‖))
      ≤ ((2 * n + 1)‼ : ℕ) * rt m n * (rt m (k + i) / ((2 * (k + i) - 1)‼ : ℕ)) *
          (qc m n (k + i : ℕ) k * (‖w‖ ^ i * Sp * (β / ((2 * (n + i) + 1)‼ : ℕ)))) := by gcongr
    _ = (((2 * n + 1)‼ : ℕ) * rt m n * (rt m (k + i) / ((2 * (k + i) - 1)‼ : ℕ)) * qc m n (k + i : ℕ) k / ((2 * (n + i) + 1)‼ : ℕ)) *
          (β * (‖w‖ ^ i * Sp)) := by ring
    _ ≤ (rt m n / rt m (k + i) * rf (n - k) * rf ((k + i : ℕ) - k) * (1 / 3) ^ i) * (β * (‖w‖ ^ i * Sp)) :=
        mul_le_mul_of_nonneg_right key (by positivity)
    _ = _ := by rw [div_pow, div_pow, one_pow]; ring

/-! ### Sums -/

theorem rt_mono (m : ℤ) (n j : ℕ) (hm : |m| ≤ n) (h : n ≤ j) : rt m n ≤ rt m j := by
  induction j, h using Nat.le_induction with
  | base => exact le_rfl
  | succ j hj ih =>
    refine ih.trans ?_
    rw [← sq_le_sq₀ (rt_pos m j).le (rt_pos m (j + 1)).le, rt_sq, rt_sq, wt_succ m j (by omega)]
    refine le_mul_of_one_le_left (wt_pos m j).le ?_
    have h1 : (|m| : ℝ) ≤ j := by exact_mod_cast hm.trans (by exact_mod_cast hj)
    have h2 : (m : ℝ) ^ 2 ≤ (j : ℝ) ^ 2 := by rw [← sq_abs (m : ℝ)]; gcongr
    nlinarith [(Nat.cast_nonneg j : (0 : ℝ) ≤ j)]

theorem rt_fact (m : ℤ) (n j : ℕ) (hm : |m| ≤ j) (h : j ≤ n) : rt m n * j ! ≤ rt m j * n ! := by
  induction n, h using Nat.le_induction with
  | base => exact le_rfl
  | succ n hn ih =>
    have h1 : rt m (n + 1) ≤ (n + 1) * rt m n := by
      rw [← sq_le_sq₀ (rt_pos m _).le (by have := rt_pos m n; positivity), mul_pow, rt_sq, rt_sq, wt_succ m n (by omega)]
      refine mul_le_mul_of_nonneg_right ?_ (wt_pos m n).le
      nlinarith [sq_nonneg (m : ℝ)]
    calc rt m (n + 1) * j ! ≤ (n + 1) * rt m n * j ! := by gcongr
      _ = (n + 1) * (rt m n * j !) := by ring
      _ ≤ (n + 1) * (rt m j * n !) := by gcongr
      _ = _ := by rw [Nat.factorial_succ]; push_cast; ring

theorem exp_partial (x : ℝ) (hx : 0 ≤ x) (N : ℕ) : ∑ i ∈ range N, x ^ i / (i ! : ℝ) ≤ Real.exp x :=
  Real.sum_le_exp_of_nonneg hx N

theorem rf_le (a b : ℕ) (h : a ≤ b) : rf b ≤ 1 / (a ! : ℝ) := by
  rw [rf_nat]
  exact one_div_le_one_div_of_le (by positivity) (by exact_mod_cast Nat.factorial_le h)

/-- Towards a higher degree. -/
theorem tauB_left (b : ℕ → ℂ) (β : ℝ) (hβ : 0 ≤ β) (w : ℂ) (m : ℤ) (n j : ℕ) (s : ℝ)
    (hb : ∀ i, i ≤ n + j → ‖b i‖ ≤ β / ((2 * i + 1)‼ : ℕ)) (hm : |m| ≤ j) (h : j ≤ n) :
    ‖tauB b w m n j s‖ ≤ β * Real.exp (‖w‖ * s ^ 2 / 3) * (n.choose j * |s| ^ (n - j)) := by
  rw [tauB, Qb, mul_sum]
  have hr1 := rt_pos m n
  have hr2 := rt_pos m j
  have hc : rt m n / rt m j * (1 / ((n - j) ! : ℝ)) ≤ n.choose j := by
    have := rt_fact m n j hm h
    rw [Nat.choose_eq_factorial_div_factorial h, Nat.cast_div (Nat.factorial_mul_factorial_dvd_factorial h) (by positivity)]
    push_cast
    rw [div_mul_div_comm, mul_one, div_le_div_iff₀ (by positivity) (by positivity)]
    nlinarith [(by positivity : (0 : ℝ) < ((n - j) ! : ℝ))]
  calc ‖∑ k ∈ range (j + 1), _‖ ≤ ∑ k ∈ range (j + 1), β * ((n.choose j * |s| ^ (n - j)) * ((‖w‖ * s ^ 2 / 3) ^ (j - k) / ((j - k) ! : ℝ))) := by
        refine norm_sum_le_of_le _ fun k hk => ?_
        rw [mem_range] at hk
        refine (term_le m n j k (by omega) b β hβ w s (hb _ (by omega))).trans ?_
        refine mul_le_mul_of_nonneg_left ?_ hβ
        have e1 : rf ((n : ℤ) - k) ≤ 1 / ((n - j) ! : ℝ) := by
          rw [show (n : ℤ) - k = ((n - k : ℕ) : ℤ) by omega]; exact rf_le _ _ (by omega)
        have e2 : rf ((j : ℤ) - k) = 1 / ((j - k) ! : ℝ) := by rw [show (j : ℤ) - k = ((j - k : ℕ) : ℤ) by omega, rf_nat]
        have e3 : (‖w‖ / 3) ^ (j - k) * |s| ^ (n + j - 2 * k) = |s| ^ (n - j) * (‖w‖ * s ^ 2 / 3) ^ (j - k) := by
          rw [show n + j - 2 * k = (n - j) + 2 * (j - k) by omega, pow_add, pow_mul, sq_abs, div_pow, div_pow, mul_pow]; ring
        rw [e2, e3]
        calc rt m n / rt m j * rf (n - k) * (1 / ((j - k) ! : ℝ)) * (|s| ^ (n - j) * (‖w‖ * s ^ 2 / 3) ^ (j - k))
            ≤ rt m n / rt m j * (1 / ((n - j) ! : ℝ)) * (1 / ((j - k) ! : ℝ)) * (|s| ^ (n - j) * (‖w‖ * s ^ 2 / 3) ^ (j - k)) := by gcongr
          _ ≤ n.choose j * (1 / ((j - k) ! : ℝ)) * (|s| ^ (n - j) * (‖w‖ * s ^ 2 / 3) ^ (j - k)) := by gcongr
          _ = _ := by ring
    _ = β * ((n.choose j * |s| ^ (n - j)) * ∑ i ∈ range (j + 1), (‖w‖ * s ^ 2 / 3) ^ i / (i ! : ℝ)) := by
        rw [← mul_sum, ← mul_sum, ← sum_range_reflect (fun i => (‖w‖ * s ^ 2 / 3) ^ i / (i ! : ℝ))]
        congr 2
    _ ≤ β * ((n.choose j * |s| ^ (n - j)) * Real.exp (‖w‖ * s ^ 2 / 3)) := by
        gcongr; exact exp_partial _ (by positivity) _
    _ = _ := by ring

/-- Towards a lower degree. -/
theorem tauB_right (b : ℕ → ℂ) (β : ℝ) (hβ : 0 ≤ β) (w : ℂ) (m : ℤ) (n j : ℕ) (s : ℝ)
    (hb : ∀ i, i ≤ n + j → ‖b i‖ ≤ β / ((2 * i + 1)‼ : ℕ)) (hm : |m| ≤ n) (h : n ≤ j) :
    ‖tauB b w m n j s‖ ≤ β * Real.exp (‖w‖ * s ^ 2 / 3) * ((‖w‖ * |s| / 3) ^ (j - n) / ((j - n) ! : ℝ)) := by
  rw [tauB, Qb, mul_sum]
  have hr1 := rt_pos m n
  have hr2 := rt_pos m j
  have hc : rt m n / rt m j ≤ 1 := (div_le_one hr2).2 (rt_mono m n j hm h)
  calc ‖∑ k ∈ range (j + 1), _‖ ≤ ∑ k ∈ range (j + 1), if k < n + 1 then
      β * (((‖w‖ * |s| / 3) ^ (j - n) / ((j - n) ! : ℝ)) * ((‖w‖ * s ^ 2 / 3) ^ (n - k) / ((n - k) ! : ℝ))) else 0 := by
        refine norm_sum_le_of_le _ fun k hk => ?_
        rw [mem_range] at hk
        split_ifs with hkn
        swap
        · rw [qc_left m n j k (by omega)]; simp
        refine (term_le m n j k (by omega) b β hβ w s (hb _ (by omega))).trans ?_
        refine mul_le_mul_of_nonneg_left ?_ hβ
        have e1 : rf ((j : ℤ) - k) ≤ 1 / ((j - n) ! : ℝ) := by
          rw [show (j : ℤ) - k = ((j - k : ℕ) : ℤ) by omega]; exact rf_le _ _ (by omega)
        have e2 : rf ((n : ℤ) - k) = 1 / ((n - k) ! : ℝ) := by rw [show (n : ℤ) - k = ((n - k : ℕ) : ℤ) by omega, rf_nat]
        have e3 : (‖w‖ / 3) ^ (j - k) * |s| ^ (n + j - 2 * k) = (‖w‖ * |s| / 3) ^ (j - n) * (‖w‖ * s ^ 2 / 3) ^ (n - k) := by
          rw [show n + j - 2 * k = (j - n) + 2 * (n - k) by omega, show j - k = (j - n) + (n - k) by omega, pow_add, pow_add, pow_mul, sq_abs,
            div_pow, div_pow, div_pow, div_pow, mul_pow, mul_pow]; ring
        rw [e2, e3]
        have := rf_nonneg (j - k)
        calc rt m n / rt m j * (1 / ((n - k) ! : ℝ)) * rf (j - k) * ((‖w‖ * |s| / 3) ^ (j - n) * (‖w‖ * s ^ 2 / 3) ^ (n - k))
            ≤ 1 * (1 / ((n - k) ! : ℝ)) * (1 / ((j - n) ! : ℝ)) * ((‖w‖ * |s| / 3) ^ (j - n) * (‖w‖ * s ^ 2 / 3) ^ (n - k)) := by gcongr
          _ = _ := by ring
    _ = β * (((‖w‖ * |s| / 3) ^ (j - n) / ((j - n) ! : ℝ)) * ∑ i ∈ range (n + 1), (‖w‖ * s ^ 2 / 3) ^ i / (i ! : ℝ)) := by
        rw [← sum_filter]
        have : (range (j + 1)).filter (fun k => k < n + 1) = range (n + 1) := by
          ext k; simp only [mem_filter, mem_range]; omega
        rw [this, ← mul_sum, ← mul_sum, ← sum_range_reflect (fun i => (‖w‖ * s ^ 2 / 3) ^ i / (i ! : ℝ))]
        congr 2
    _ ≤ β * (((‖w‖ * |s| / 3) ^ (j - n) / ((j - n) ! : ℝ)) * Real.exp (‖w‖ * s ^ 2 / 3)) := by
        gcongr; exact exp_partial _ (by positivity) _
    _ = _ := by ring

/-- The exact table. -/
theorem fn_le (w : ℂ) (i : ℕ) (s : ℝ) : ‖fn w i s‖ ≤ Real.exp (‖w‖ * s ^ 2 / 6) / ((2 * i + 1)‼ : ℕ) := by
  have hd := dfact_pos (2 * i + 1)
  rw [fn, norm_div, Complex.norm_natCast]
  refine div_le_div_of_nonneg_right ?_ hd.le
  refine (efun_norm_le i _).trans (Real.exp_le_exp.2 ?_)
  rw [norm_mul, norm_pow, Complex.norm_real, Real.norm_eq_abs, sq_abs]
  have : (0 : ℝ) ≤ i := Nat.cast_nonneg i
  gcongr
  linarith

end
end Dashmm.Wave
