import Verif.Proofs.WaveSum

/-!
# Local expansions, the size of shifted expansions, and inexact tables
-/

namespace Dashmm.Wave

open Finset Harm Lap Bessel Yuk
open scoped Nat

noncomputable section

/-! ### Local expansions -/

/-- The field of a local expansion. -/
def fieldL (w : ℂ) (p : ℕ) (C : Coef) (v : Point ℝ) : ℂ := ∑ n ∈ range (p + 1), efun n (w * (v.norm ^ 2 : ℝ)) * form C v n

/-- The same on the way to the other centre, for any coefficients. -/
def pathL (a : ℤ → ℕ → ℕ → ℂ) (w : ℂ) (p : ℕ) (L : Coef) (v : Point ℝ) : ℂ :=
  ∑ n ∈ range (p + 1), ∑ m ∈ Icc (-(n : ℤ)) n, Harm.ext L n m * ((powM1 m : ℂ) * ∑ j ∈ range (p + 1), a (-m) n j * Uh w (-m) j v)

theorem fieldL_eq (w : ℂ) (p : ℕ) (C : Coef) (v : Point ℝ) :
    fieldL w p C v = ∑ n ∈ range (p + 1), ∑ m ∈ Icc (-(n : ℤ)) n, Harm.ext C n m * ((powM1 m : ℂ) * Uh w (-m) n v) := by
  rw [fieldL]
  refine sum_congr rfl fun n _ => ?_
  rw [form, mul_sum]
  refine sum_congr rfl fun m _ => ?_
  rw [nrm_conj, Uh_eq]; ring

theorem pathL_zero (w : ℂ) (p : ℕ) (L : Coef) (v : Point ℝ) : pathL (fun m n j => tau w m n j 0) w p L v = fieldL w p L v := by
  rw [fieldL_eq, pathL]
  refine sum_congr rfl fun n hn => sum_congr rfl fun m hm => ?_
  rw [mem_Icc] at hm
  congr 2
  rw [sum_eq_single n]
  · rw [tau_zero _ _ _ _ (by rw [abs_neg]; exact abs_le.2 hm), if_pos rfl, one_mul]
  · intro j _ hj
    by_cases h : |-m| ≤ j
    · rw [tau_zero _ _ _ _ h, if_neg (Ne.symm hj), zero_mul]
    · rw [tau, tauB_low _ _ _ _ _ _ (by omega), zero_mul]
  · intro h; exact absurd hn h

theorem fieldL_shL (w : ℂ) (hw : starRingEnd ℂ w = w) (p : ℕ) (L : Coef) (s : ℝ) (b : ℕ → ℂ)
    (hb : ∀ i, starRingEnd ℂ (b i) = b i) (v : Point ℝ) :
    fieldL w p (shL b w p s L) v = pathL (fun m n j => tauB b w m n j s) w p L v := by
  rw [fieldL_eq, pathL]
  have e1 : ∀ j ∈ range (p + 1), ∑ m ∈ Icc (-(j : ℤ)) j, Harm.ext (shL b w p s L) j m * ((powM1 m : ℂ) * Uh w (-m) j v) =
      ∑ m ∈ Icc (-(p : ℤ)) p, ∑ n ∈ range (p + 1), tauB b w (-m) n j s * Harm.ext L n m * ((powM1 m : ℂ) * Uh w (-m) j v) := by
    intro j hj
    rw [mem_range] at hj
    rw [sum_widen j p (by omega)]
    · refine sum_congr rfl fun m _ => ?_
      rw [ext_shL _ hb _ hw, sum_mul]
      exact sum_congr rfl fun n _ => by rw [tauB_neg]
    · intro m hm
      rw [Uh_eq, nrm_out _ _ _ (by rwa [abs_neg])]; simp
  have e2 : ∀ n ∈ range (p + 1), ∑ m ∈ Icc (-(n : ℤ)) n, Harm.ext L n m * ((powM1 m : ℂ) * ∑ j ∈ range (p + 1), tauB b w (-m) n j s * Uh w (-m) j v) =
      ∑ m ∈ Icc (-(p : ℤ)) p, ∑ j ∈ range (p + 1), tauB b w (-m) n j s * Harm.ext L n m * ((powM1 m : ℂ) * Uh w (-m) j v) := by
    intro n hn
    rw [mem_range] at hn
    rw [sum_widen n p (by omega)]
    · refine sum_congr rfl fun m _ => ?_
      rw [mul_sum, mul_sum]
      exact sum_congr rfl fun n _ => by ring
    · intro m hm
      rw [sum_eq_zero, mul_zero, mul_zero]
      intro j _
      rw [tauB_low' _ _ _ _ _ _ (by rwa [abs_neg]), zero_mul]
  rw [sum_congr rfl e1, sum_congr rfl e2, sum_comm]
  conv_rhs => rw [sum_comm]
  refine sum_congr rfl fun m _ => sum_comm

theorem efun_le (w : ℂ) (n : ℕ) (r R : ℝ) (h0 : 0 ≤ r) (h : r ≤ R) : ‖efun n (w * (r ^ 2 : ℝ))‖ ≤ Real.exp (‖w‖ * R ^ 2 / 6) := by
  refine (efun_norm_le n _).trans (Real.exp_le_exp.2 ?_)
  rw [norm_mul, Complex.norm_real, Real.norm_of_nonneg (by positivity)]
  have hn : (0 : ℝ) ≤ n := Nat.cast_nonneg n
  gcongr
  linarith

theorem sum_exp_le (x d : ℝ) (hx : 0 ≤ x) (hd : 0 < d) (p N : ℕ) (h : p ≤ N) :
    ∑ n ∈ range (p + 1), 1 / d ^ n * (x ^ (N - n) / ((N - n) ! : ℝ)) ≤ Real.exp (x * d) / d ^ N := by
  have e : ∀ n ∈ range (p + 1), 1 / d ^ n * (x ^ (N - n) / ((N - n) ! : ℝ)) = (x * d) ^ (N - n) / ((N - n) ! : ℝ) / d ^ N := by
    intro n hn
    rw [mem_range] at hn
    have : d ^ N = d ^ (N - n) * d ^ n := by rw [← pow_add]; congr 1; omega
    rw [mul_pow, this]
    field_simp
  rw [sum_congr rfl e, ← sum_div]
  refine div_le_div_of_nonneg_right ?_ (by positivity)
  refine le_trans ?_ (exp_partial (x * d) (by positivity) (N + 1))
  rw [← sum_range_reflect (fun i => (x * d) ^ i / (i ! : ℝ))]
  refine (sum_le_sum_of_subset_of_nonneg (range_subset_range.2 (by omega : p + 1 ≤ N + 1)) fun _ _ _ => by positivity).trans
    (sum_le_sum fun j _ => le_of_eq ?_)
  rw [Nat.add_sub_cancel]

/-- **The truncated translation of a local expansion.** -/
theorem shiftL_error (w : ℂ) (hw : starRingEnd ℂ w = w) (hb : ∀ i (s : ℝ), starRingEnd ℂ (fn w i s) = fn w i s)
    (p : ℕ) (L : Coef) (μ d : ℝ) (hd : 0 < d) (hL : ∀ n ≤ p, Bd L n (μ / d ^ n)) (ρ : ℝ) (v : Point ℝ) (R : ℝ)
    (hseg : ∀ s ∈ Set.uIcc 0 ρ, (addz (ρ - s) v).norm ≤ R) :
    ‖fieldL w p (shL (fun i => fn w i ρ) w p ρ L) v - fieldL w p L (addz ρ v)‖ ≤
      |ρ| * (μ * Real.exp (‖w‖ * (ρ ^ 2 / 2 + R ^ 2 / 6 + |ρ| * d / 3)) * ((R / d) ^ p * ((p + 1) / d + ‖w‖ * R / 3))) := by
  have hμ : 0 ≤ μ := by have := (hL 0 (Nat.zero_le _)).1; simpa using this
  have hR : 0 ≤ R := (norm_nonneg' _).trans (hseg 0 Set.left_mem_uIcc)
  rw [fieldL_shL w hw p L ρ _ (fun i => hb i ρ), ← pathL_zero]
  have hder : ∀ s ∈ Set.uIcc 0 ρ, HasDerivAt (fun s : ℝ => pathL (fun m n j => tau w m n j s) w p L (addz (ρ - s) v))
      (∑ n ∈ range (p + 1), ∑ m ∈ Icc (-(n : ℤ)) n, Harm.ext L n m * ((powM1 m : ℂ) *
        (gr (-m) p * tau w (-m) n (p + 1) s * Uh w (-m) p (addz (ρ - s) v) -
          w * ((gr (-m) p / ((2 * p + 1) * (2 * p + 3)) : ℝ) : ℂ) * tau w (-m) n p s * Uh w (-m) (p + 1) (addz (ρ - s) v)))) s := by
    intro s hs
    refine HasDerivAt.fun_sum fun n hn => HasDerivAt.fun_sum fun m hm => ?_
    rw [mem_range] at hn
    rw [mem_Icc] at hm
    have hm' : |-m| ≤ p := by rw [abs_neg, abs_le]; omega
    exact ((sumU_hasDeriv w (-m) n p hm' ρ s v).const_mul _).const_mul _
  have hbound : ∀ s ∈ Set.uIcc 0 ρ, ‖∑ n ∈ range (p + 1), ∑ m ∈ Icc (-(n : ℤ)) n, Harm.ext L n m * ((powM1 m : ℂ) *
        (gr (-m) p * tau w (-m) n (p + 1) s * Uh w (-m) p (addz (ρ - s) v) -
          w * ((gr (-m) p / ((2 * p + 1) * (2 * p + 3)) : ℝ) : ℂ) * tau w (-m) n p s * Uh w (-m) (p + 1) (addz (ρ - s) v)))‖ ≤
      μ * Real.exp (‖w‖ * (ρ ^ 2 / 2 + R ^ 2 / 6 + |ρ| * d / 3)) * ((R / d) ^ p * ((p + 1) / d + ‖w‖ * R / 3)) := by
    intro s hs
    have hr := hseg s hs
    set u := addz (ρ - s) v with hu
    have hu0 : 0 ≤ u.norm := norm_nonneg' u
    have hsρ' : |s| ≤ |ρ| := by
      have := Set.abs_sub_left_of_mem_uIcc hs
      simpa using this
    have hsρ : s ^ 2 ≤ ρ ^ 2 := by rwa [sq_le_sq]
    have hexp : Real.exp (‖w‖ * s ^ 2 / 2) ≤ Real.exp (‖w‖ * ρ ^ 2 / 2) := by gcongr
    set X := Real.exp (‖w‖ * ρ ^ 2 / 2) with hX
    have hX0 : 0 < X := Real.exp_pos _
    set Z := Real.exp (‖w‖ * R ^ 2 / 6) with hZ
    have hZ0 : 0 < Z := Real.exp_pos _
    set y := ‖w‖ * |ρ| / 3 with hy
    have hy0 : 0 ≤ y := by positivity
    have hpm : ∀ m : ℤ, ‖((powM1 m : ℝ) : ℂ)‖ = 1 := fun m => by
      rw [Complex.norm_real]; unfold powM1; split <;> simp
    have key : ∀ n ∈ range (p + 1), ‖∑ m ∈ Icc (-(n : ℤ)) n, Harm.ext L n m * ((powM1 m : ℂ) *
        (gr (-m) p * tau w (-m) n (p + 1) s * Uh w (-m) p u -
          w * ((gr (-m) p / ((2 * p + 1) * (2 * p + 3)) : ℝ) : ℂ) * tau w (-m) n p s * Uh w (-m) (p + 1) u))‖ ≤
        μ / d ^ n * ((p + 1) * (X * (y ^ (p + 1 - n) / ((p + 1 - n)! : ℝ))) * (Z * R ^ p)) +
          μ / d ^ n * (‖w‖ / 3 * (X * (y ^ (p - n) / ((p - n)! : ℝ))) * (Z * R ^ (p + 1))) := by
      intro n hn
      rw [mem_range] at hn
      have e : ∑ m ∈ Icc (-(n : ℤ)) n, Harm.ext L n m * ((powM1 m : ℂ) *
        (gr (-m) p * tau w (-m) n (p + 1) s * Uh w (-m) p u -
          w * ((gr (-m) p / ((2 * p + 1) * (2 * p + 3)) : ℝ) : ℂ) * tau w (-m) n p s * Uh w (-m) (p + 1) u)) =
          (∑ m ∈ Icc (-(n : ℤ)) n, Harm.ext L n m * ((powM1 m : ℂ) * (gr (-m) p * tau w (-m) n (p + 1) s * Uh w (-m) p u))) -
          ∑ m ∈ Icc (-(n : ℤ)) n, Harm.ext L n m * ((powM1 m : ℂ) *
            (w * ((gr (-m) p / ((2 * p + 1) * (2 * p + 3)) : ℝ) : ℂ) * tau w (-m) n p s * Uh w (-m) (p + 1) u)) := by
        rw [← sum_sub_distrib]; exact sum_congr rfl fun m _ => by ring
      rw [e]
      refine (norm_sub_le _ _).trans (add_le_add ?_ ?_)
      · refine (Bd.le (hL n (by omega)) p u _ ((p + 1) * (X * (y ^ (p + 1 - n) / ((p + 1 - n)! : ℝ))) * ‖efun p (w * (u.norm ^ 2 : ℝ))‖)
          (by positivity) ?_).trans ?_
        · intro m hm
          have hm' : |-m| ≤ p := by rw [abs_neg]; omega
          have ht : ‖tau w (-m) n (p + 1) s‖ ≤ X * (y ^ (p + 1 - n) / ((p + 1 - n)! : ℝ)) :=
            (tau_right w (-m) n (p + 1) s (by rwa [abs_neg]) (by omega)).trans (by rw [hy]; gcongr)
          have hg := gr_le (-m) p hm'
          have hg0 := gr_nonneg (-m) p
          rw [norm_mul, hpm, one_mul, norm_mul, norm_mul, Uh_eq, norm_mul, nrm_norm_neg, Complex.norm_real,
            Real.norm_of_nonneg hg0]
          calc gr (-m) p * ‖tau w (-m) n (p + 1) s‖ * (‖efun p (w * (u.norm ^ 2 : ℝ))‖ * ‖nrm u p m‖)
              ≤ (p + 1) * (X * (y ^ (p + 1 - n) / ((p + 1 - n)! : ℝ))) * (‖efun p (w * (u.norm ^ 2 : ℝ))‖ * ‖nrm u p m‖) := by gcongr
            _ = _ := by ring
        · have := efun_le w p u.norm R hu0 hr
          rw [mul_assoc _ ‖efun p _‖]
          have hμR : 0 ≤ μ / d ^ n := by positivity
          gcongr
      · refine (Bd.le (hL n (by omega)) (p + 1) u _ (‖w‖ / 3 * (X * (y ^ (p - n) / ((p - n)! : ℝ))) * ‖efun (p + 1) (w * (u.norm ^ 2 : ℝ))‖)
          (by positivity) ?_).trans ?_
        · intro m hm
          have hm' : |-m| ≤ p := by rw [abs_neg]; omega
          have ht : ‖tau w (-m) n p s‖ ≤ X * (y ^ (p - n) / ((p - n)! : ℝ)) :=
            (tau_right w (-m) n p s (by rwa [abs_neg]) (by omega)).trans (by rw [hy]; gcongr)
          have hg := gr_quot (-m) p hm'
          have hg0 : 0 ≤ gr (-m) p / ((2 * p + 1) * (2 * p + 3)) := div_nonneg (gr_nonneg _ _) (by positivity)
          rw [norm_mul, hpm, one_mul, norm_mul, norm_mul, norm_mul, Uh_eq, norm_mul, nrm_norm_neg, Complex.norm_real,
            Real.norm_of_nonneg hg0]
          calc ‖w‖ * (gr (-m) p / ((2 * p + 1) * (2 * p + 3))) * ‖tau w (-m) n p s‖ * (‖efun (p + 1) (w * (u.norm ^ 2 : ℝ))‖ * ‖nrm u (p + 1) m‖)
              ≤ ‖w‖ * (1 / 3) * (X * (y ^ (p - n) / ((p - n)! : ℝ))) * (‖efun (p + 1) (w * (u.norm ^ 2 : ℝ))‖ * ‖nrm u (p + 1) m‖) := by gcongr
            _ = _ := by ring
        · have := efun_le w (p + 1) u.norm R hu0 hr
          rw [mul_assoc _ ‖efun (p + 1) _‖]
          have hμR : 0 ≤ μ / d ^ n := by positivity
          gcongr
    refine (norm_sum_le_of_le _ key).trans ?_
    rw [sum_add_distrib]
    have h1 := sum_exp_le y d hy0 hd p (p + 1) (by omega)
    have h2 := sum_exp_le y d hy0 hd p p le_rfl
    have hE : Real.exp (‖w‖ * (ρ ^ 2 / 2 + R ^ 2 / 6 + |ρ| * d / 3)) = X * Z * Real.exp (y * d) := by
      rw [hX, hZ, ← Real.exp_add, ← Real.exp_add]; congr 1; rw [hy]; ring
    rw [hE]
    calc _ = μ * X * Z * ((p + 1) * R ^ p * (∑ n ∈ range (p + 1), 1 / d ^ n * (y ^ (p + 1 - n) / ((p + 1 - n) ! : ℝ)))) +
          μ * X * Z * (‖w‖ / 3 * R ^ (p + 1) * (∑ n ∈ range (p + 1), 1 / d ^ n * (y ^ (p - n) / ((p - n) ! : ℝ)))) := by
          congr 1
          · rw [mul_sum, mul_sum]; exact sum_congr rfl fun j _ => by ring
          · rw [mul_sum, mul_sum]; exact sum_congr rfl fun j _ => by ring
      _ ≤ μ * X * Z * ((p + 1) * R ^ p * (Real.exp (y * d) / d ^ (p + 1))) +
          μ * X * Z * (‖w‖ / 3 * R ^ (p + 1) * (Real.exp (y * d) / d ^ p)) := by gcongr
      _ = _ := by rw [div_pow, pow_succ, pow_succ]; field_simp
  have := Convex.norm_image_sub_le_of_norm_hasDerivWithin_le (fun s hs => (hder s hs).hasDerivWithinAt) hbound
    (convex_uIcc 0 ρ) Set.left_mem_uIcc Set.right_mem_uIcc
  simp only [sub_self, sub_zero] at this
  have ez : addz 0 v = v := by simp [addz]
  rw [ez, Real.norm_eq_abs, mul_comm] at this
  exact this

/-! ### The size of the shifted coefficients -/

/-- The bound for one coefficient. -/
def cf (w : ℂ) (s : ℝ) (n j : ℕ) : ℝ := if j ≤ n then n.choose j * |s| ^ (n - j) else (‖w‖ * |s| / 3) ^ (j - n) / ((j - n) ! : ℝ)

theorem cf_nonneg (w : ℂ) (s : ℝ) (n j : ℕ) : 0 ≤ cf w s n j := by rw [cf]; split <;> positivity

theorem tauB_cf (b : ℕ → ℂ) (β : ℝ) (hβ : 0 ≤ β) (w : ℂ) (m : ℤ) (n j : ℕ) (s : ℝ)
    (hb : ∀ i, i ≤ n + j → ‖b i‖ ≤ β / ((2 * i + 1)‼ : ℕ)) : ‖tauB b w m n j s‖ ≤ β * Real.exp (‖w‖ * s ^ 2 / 3) * cf w s n j := by
  have h0 : 0 ≤ β * Real.exp (‖w‖ * s ^ 2 / 3) * cf w s n j := mul_nonneg (by positivity) (cf_nonneg _ _ _ _)
  by_cases h1 : |m| ≤ j
  swap
  · rw [tauB_low _ _ _ _ _ _ (by omega), norm_zero]; exact h0
  by_cases h2 : |m| ≤ n
  swap
  · rw [tauB_low' _ _ _ _ _ _ (by omega), norm_zero]; exact h0
  rw [cf]
  split
  · next h => exact tauB_left b β hβ w m n j s hb h1 h
  · next h => exact tauB_right b β hβ w m n j s hb h2 (by omega)

theorem sum_cf (w : ℂ) (s R : ℝ) (hR : 0 ≤ R) (n p : ℕ) (h : n ≤ p) :
    ∑ j ∈ range (p + 1), R ^ j * cf w s n j ≤ Real.exp (‖w‖ * |s| * R / 3) * (R + |s|) ^ n := by
  rw [← sum_range_add_sum_Ico _ (by omega : n + 1 ≤ p + 1), sum_Ico_eq_sum_range]
  have h1 : ∑ j ∈ range (n + 1), R ^ j * cf w s n j ≤ (R + |s|) ^ n := by
    refine le_trans (le_of_eq ?_) (sum_choose_le R |s| hR (abs_nonneg s) n n le_rfl)
    refine sum_congr rfl fun j hj => ?_
    rw [mem_range] at hj
    rw [cf, if_pos (by omega)]
  have h2 : ∑ k ∈ range (p + 1 - (n + 1)), R ^ (n + 1 + k) * cf w s n (n + 1 + k) ≤ R ^ n * (Real.exp (‖w‖ * |s| * R / 3) - 1) := by
    have e : ∀ k ∈ range (p + 1 - (n + 1)), R ^ (n + 1 + k) * cf w s n (n + 1 + k) =
        R ^ n * ((‖w‖ * |s| * R / 3) ^ (k + 1) / ((k + 1)! : ℝ)) := by
      intro k _
      rw [cf, if_neg (by omega), show n + 1 + k - n = k + 1 by omega, show n + 1 + k = n + (k + 1) by omega, pow_add,
        show ‖w‖ * |s| * R / 3 = ‖w‖ * |s| / 3 * R by ring, mul_pow _ R]
      ring
    rw [sum_congr rfl e, ← mul_sum]
    refine mul_le_mul_of_nonneg_left ?_ (by positivity)
    have h3 := exp_partial (‖w‖ * |s| * R / 3) (by positivity) (p + 1 - (n + 1) + 1)
    rw [sum_range_succ'] at h3
    simp at h3 ⊢
    linarith
  have h3 : R ^ n ≤ (R + |s|) ^ n := pow_le_pow_left₀ hR (by linarith [abs_nonneg s]) n
  have h4 : 0 ≤ Real.exp (‖w‖ * |s| * R / 3) - 1 := by
    have := Real.add_one_le_exp (‖w‖ * |s| * R / 3)
    have : 0 ≤ ‖w‖ * |s| * R / 3 := by positivity
    linarith
  nlinarith [mul_le_mul_of_nonneg_right h3 h4]

/-- Each degree of a shifted multipole expansion. -/
theorem Bd_shM (b : ℕ → ℂ) (hbc : ∀ i, starRingEnd ℂ (b i) = b i) (w : ℂ) (hw : starRingEnd ℂ w = w) (β : ℝ) (hβ : 0 ≤ β) (p : ℕ)
    (hb : ∀ i ≤ 2 * p, ‖b i‖ ≤ β / ((2 * i + 1)‼ : ℕ)) (s : ℝ) (T : Coef) (μ R : ℝ) (hR : 0 ≤ R) (hT : ∀ j ≤ p, Bd T j (μ * R ^ j))
    (n : ℕ) (hn : n ≤ p) :
    Bd (shM b w p s T) n (μ * (β * Real.exp (‖w‖ * s ^ 2 / 3) * Real.exp (‖w‖ * |s| * R / 3)) * (R + |s|) ^ n) := by
  have hμ : 0 ≤ μ := by have := (hT 0 (Nat.zero_le _)).1; simpa using this
  have hs := abs_nonneg s
  refine ⟨by positivity, fun y => ?_⟩
  set Y := √(∑ m ∈ Icc (-(n : ℤ)) n, ‖y m‖ ^ 2) with hY
  have hY0 : 0 ≤ Y := Real.sqrt_nonneg _
  have e : ∑ m ∈ Icc (-(n : ℤ)) n, Harm.ext (shM b w p s T) n m * y m =
      ∑ j ∈ range (p + 1), ∑ m ∈ Icc (-(j : ℤ)) j, Harm.ext T j m * (tauB b w m n j s * y m) := by
    have e1 : ∑ m ∈ Icc (-(n : ℤ)) n, Harm.ext (shM b w p s T) n m * y m =
        ∑ m ∈ Icc (-(n : ℤ)) n, ∑ j ∈ range (p + 1), Harm.ext T j m * (tauB b w m n j s * y m) := by
      refine sum_congr rfl fun m _ => ?_
      rw [ext_shM b hbc w hw, sum_mul]
      exact sum_congr rfl fun j _ => by ring
    rw [e1, sum_comm]
    refine sum_congr rfl fun j hj => ?_
    rw [mem_range] at hj
    rw [sum_widen n p hn, sum_widen j p (by omega)]
    · intro m hm; rw [tauB_low _ _ _ _ _ _ hm]; simp
    · intro m hm; rw [tauB_low' _ _ _ _ _ _ hm]; simp
  rw [e]
  have key : ∀ j ∈ range (p + 1), ‖∑ m ∈ Icc (-(j : ℤ)) j, Harm.ext T j m * (tauB b w m n j s * y m)‖ ≤
      μ * R ^ j * (β * Real.exp (‖w‖ * s ^ 2 / 3) * cf w s n j * Y) := by
    intro j hj
    rw [mem_range] at hj
    have hc := cf_nonneg w s n j
    refine ((hT j (by omega)).2 _).trans (mul_le_mul_of_nonneg_left ?_ (by positivity))
    refine Real.sqrt_le_iff.2 ⟨by positivity, ?_⟩
    set c := β * Real.exp (‖w‖ * s ^ 2 / 3) * cf w s n j with hcdef
    have hc0 : 0 ≤ c := by positivity
    have hle : ∀ m : ℤ, ‖tauB b w m n j s * y m‖ ^ 2 ≤ if |m| ≤ n then c ^ 2 * ‖y m‖ ^ 2 else 0 := by
      intro m
      split
      · rw [norm_mul, mul_pow]
        gcongr
        exact tauB_cf b β hβ w m n j s (fun i hi => hb i (by omega))
      · next h => rw [tauB_low' _ _ _ _ _ _ (by omega)]; simp
    calc ∑ m ∈ Icc (-(j : ℤ)) j, ‖tauB b w m n j s * y m‖ ^ 2
        ≤ ∑ m ∈ Icc (-(j : ℤ)) j, (if |m| ≤ n then c ^ 2 * ‖y m‖ ^ 2 else 0) := sum_le_sum fun m _ => hle m
      _ ≤ ∑ m ∈ Icc (-(p : ℤ)) p, (if |m| ≤ n then c ^ 2 * ‖y m‖ ^ 2 else 0) :=
          sum_le_sum_of_subset_of_nonneg (Icc_subset_Icc (by omega) (by omega)) fun m _ _ => by split <;> positivity
      _ = ∑ m ∈ Icc (-(n : ℤ)) n, c ^ 2 * ‖y m‖ ^ 2 := by
          rw [← sum_filter]
          refine sum_congr ?_ fun _ _ => rfl
          ext m
          rw [mem_filter, mem_Icc, mem_Icc, abs_le]; omega
      _ = (c * Y) ^ 2 := by
          rw [← mul_sum, mul_pow c Y, hY, Real.sq_sqrt (sum_nonneg fun _ _ => by positivity)]
  refine (norm_sum_le_of_le _ key).trans ?_
  have h1 := sum_cf w s R hR n p hn
  calc _ = μ * (β * Real.exp (‖w‖ * s ^ 2 / 3)) * (∑ j ∈ range (p + 1), R ^ j * cf w s n j) * Y := by
        rw [mul_sum, sum_mul]; exact sum_congr rfl fun j _ => by ring
    _ ≤ μ * (β * Real.exp (‖w‖ * s ^ 2 / 3)) * (Real.exp (‖w‖ * |s| * R / 3) * (R + |s|) ^ n) * Y := by gcongr
    _ = _ := by ring

theorem geom_le (x : ℝ) (h0 : 0 ≤ x) (h1 : x < 1) (N : ℕ) : ∑ n ∈ range N, x ^ n ≤ 1 / (1 - x) := by
  rw [geom_sum_eq h1.ne, ← neg_div_neg_eq, neg_sub, neg_sub]
  exact div_le_div_of_nonneg_right (by linarith [pow_nonneg h0 N]) (by linarith)

/-- The field of a multipole expansion of bounded size. -/
theorem fieldM_le (κ : ℂ) (p : ℕ) (C : Coef) (μ A : ℝ) (hA : 0 ≤ A) (hC : ∀ n ≤ p, Bd C n (μ * A ^ n)) (v : Point ℝ) (hv : A < v.norm)
    (G : ℝ) (hG : Real.exp ((‖κ‖ - κ.re) * v.norm) ≤ G) : ‖fieldM κ p C v‖ ≤ μ * G / (v.norm - A) := by
  have hμ : 0 ≤ μ := by have := (hC 0 (Nat.zero_le _)).1; simpa using this
  have hv0 : 0 < v.norm := lt_of_le_of_lt hA hv
  have hG0 : 0 ≤ G := (Real.exp_pos _).le.trans hG
  have key : ∀ n ∈ range (p + 1), ‖ffun κ n v.norm * form C v n‖ ≤ μ * G / v.norm * (A / v.norm) ^ n := by
    intro n hn
    rw [mem_range] at hn
    rw [norm_mul]
    calc ‖ffun κ n v.norm‖ * ‖form C v n‖ ≤ ‖ffun κ n v.norm‖ * (μ * A ^ n * v.norm ^ n) := by
          gcongr; exact Bd.form (hC n (by omega)) v
      _ = μ * A ^ n * (‖ffun κ n v.norm‖ * v.norm ^ n) := by ring
      _ ≤ μ * A ^ n * (G / v.norm ^ (n + 1)) := by gcongr; exact ffun_le κ n v G hv0 hG
      _ = _ := by rw [div_pow, pow_succ]; field_simp
  refine (norm_sum_le_of_le _ key).trans ?_
  rw [← mul_sum]
  have := geom_le (A / v.norm) (by positivity) (by rwa [div_lt_one hv0]) (p + 1)
  calc μ * G / v.norm * ∑ n ∈ range (p + 1), (A / v.norm) ^ n ≤ μ * G / v.norm * (1 / (1 - A / v.norm)) := by gcongr
    _ = _ := by
      have : v.norm - A ≠ 0 := by linarith
      field_simp

/-- The sum over the degrees with any radial factors. -/
def fieldA (a : ℕ → ℂ) (p : ℕ) (C : Coef) (v : Point ℝ) : ℂ := ∑ n ∈ range (p + 1), a n * form C v n

theorem fieldA_le (a : ℕ → ℂ) (p : ℕ) (C : Coef) (μ d : ℝ) (hd : 0 < d) (hC : ∀ n ≤ p, Bd C n (μ / d ^ n)) (v : Point ℝ) (α A : ℝ) (hA : 0 ≤ A)
    (hAd : A < d) (hα : 0 ≤ α) (ha : ∀ j ≤ p, ‖a j‖ * v.norm ^ j ≤ α * A ^ j) : ‖fieldA a p C v‖ ≤ μ * α * d / (d - A) := by
  have hμ : 0 ≤ μ := by have := (hC 0 (Nat.zero_le _)).1; simpa using this
  have key : ∀ n ∈ range (p + 1), ‖a n * form C v n‖ ≤ μ * α * (A / d) ^ n := by
    intro n hn
    rw [mem_range] at hn
    rw [norm_mul]
    calc ‖a n‖ * ‖form C v n‖ ≤ ‖a n‖ * (μ / d ^ n * v.norm ^ n) :=
          mul_le_mul_of_nonneg_left (Bd.form (hC n (by omega)) v) (norm_nonneg _)
      _ = μ / d ^ n * (‖a n‖ * v.norm ^ n) := by ring
      _ ≤ μ / d ^ n * (α * A ^ n) := mul_le_mul_of_nonneg_left (ha n (by omega)) (by positivity)
      _ = _ := by rw [div_pow]; ring
  refine (norm_sum_le_of_le _ key).trans ?_
  rw [← mul_sum]
  have := geom_le (A / d) (by positivity) (by rwa [div_lt_one hd]) (p + 1)
  calc μ * α * ∑ n ∈ range (p + 1), (A / d) ^ n ≤ μ * α * (1 / (1 - A / d)) := by gcongr
    _ = _ := by
      have : d - A ≠ 0 := by linarith
      field_simp

theorem fieldA_shL (w : ℂ) (hw : starRingEnd ℂ w = w) (p : ℕ) (L : Coef) (s : ℝ) (b : ℕ → ℂ)
    (hb : ∀ i, starRingEnd ℂ (b i) = b i) (a : ℕ → ℂ) (v : Point ℝ) :
    fieldA a p (shL b w p s L) v = ∑ n ∈ range (p + 1), ∑ j ∈ range (p + 1), ∑ m ∈ Icc (-(n : ℤ)) n, Harm.ext L n m *
      (tauB b w m n j s * (a j * starRingEnd ℂ (nrm v j m))) := by
  rw [fieldA, sum_comm]
  refine sum_congr rfl fun j hj => ?_
  rw [mem_range] at hj
  rw [form, mul_sum, sum_widen j p (by omega)]
  swap
  · intro m hm
    rw [nrm_out _ _ _ hm]; simp
  have e : ∀ n ∈ range (p + 1), ∑ m ∈ Icc (-(n : ℤ)) n, Harm.ext L n m * (tauB b w m n j s * (a j * starRingEnd ℂ (nrm v j m))) =
      ∑ m ∈ Icc (-(p : ℤ)) p, Harm.ext L n m * (tauB b w m n j s * (a j * starRingEnd ℂ (nrm v j m))) := by
    intro n hn
    rw [mem_range] at hn
    refine sum_widen n p (by omega) _ fun m hm => ?_
    rw [tauB_low' _ _ _ _ _ _ hm]; simp
  rw [sum_congr rfl e, sum_comm]
  refine sum_congr rfl fun m _ => ?_
  rw [ext_shL _ hb _ hw, sum_mul, mul_sum]
  exact sum_congr rfl fun n _ => by ring

/-- The field of a shifted local expansion. -/
theorem fieldA_shL_le (w : ℂ) (hw : starRingEnd ℂ w = w) (b : ℕ → ℂ) (hbc : ∀ i, starRingEnd ℂ (b i) = b i) (β : ℝ) (hβ : 0 ≤ β) (p : ℕ)
    (hb : ∀ i ≤ 2 * p, ‖b i‖ ≤ β / ((2 * i + 1)‼ : ℕ)) (s : ℝ) (L : Coef) (μ d : ℝ) (hd : 0 < d) (hL : ∀ n ≤ p, Bd L n (μ / d ^ n))
    (a : ℕ → ℂ) (v : Point ℝ) (α A : ℝ) (hA : 0 ≤ A) (hAd : A + |s| < d) (hα : 0 ≤ α) (ha : ∀ j ≤ p, ‖a j‖ * v.norm ^ j ≤ α * A ^ j) :
    ‖fieldA a p (shL b w p s L) v‖ ≤ μ * β * α * Real.exp (‖w‖ * (s ^ 2 / 3 + |s| * A / 3)) * d / (d - (A + |s|)) := by
  have hμ : 0 ≤ μ := by have := (hL 0 (Nat.zero_le _)).1; simpa using this
  have hv0 : 0 ≤ v.norm := norm_nonneg' v
  have hs0 := abs_nonneg s
  rw [fieldA_shL w hw p L s b hbc]
  have key : ∀ n ∈ range (p + 1), ‖∑ j ∈ range (p + 1), ∑ m ∈ Icc (-(n : ℤ)) n, Harm.ext L n m *
      (tauB b w m n j s * (a j * starRingEnd ℂ (nrm v j m)))‖ ≤
      μ / d ^ n * (β * α * Real.exp (‖w‖ * s ^ 2 / 3) * (Real.exp (‖w‖ * |s| * A / 3) * (A + |s|) ^ n)) := by
    intro n hn
    rw [mem_range] at hn
    have k2 : ∀ j ∈ range (p + 1), ‖∑ m ∈ Icc (-(n : ℤ)) n, Harm.ext L n m * (tauB b w m n j s * (a j * starRingEnd ℂ (nrm v j m)))‖ ≤
        μ / d ^ n * (β * Real.exp (‖w‖ * s ^ 2 / 3) * cf w s n j * (α * A ^ j)) := by
      intro j hj
      rw [mem_range] at hj
      have hc := cf_nonneg w s n j
      refine (Bd.le (hL n (by omega)) j v _ (β * Real.exp (‖w‖ * s ^ 2 / 3) * cf w s n j * ‖a j‖) (by positivity) fun m hm => ?_).trans ?_
      · rw [norm_mul, norm_mul, RCLike.norm_conj, ← mul_assoc]
        have h1 := tauB_cf b β hβ w m n j s (fun i hi => hb i (by omega))
        gcongr
      · rw [mul_assoc _ ‖a j‖]
        have h1 := ha j (by omega)
        have : 0 ≤ μ / d ^ n := by positivity
        gcongr
    refine (norm_sum_le_of_le _ k2).trans ?_
    have h1 := sum_cf w s A hA n p (by omega)
    calc _ = μ / d ^ n * (β * α * Real.exp (‖w‖ * s ^ 2 / 3) * ∑ j ∈ range (p + 1), A ^ j * cf w s n j) := by
          rw [mul_sum, mul_sum]; exact sum_congr rfl fun j _ => by ring
      _ ≤ _ := by gcongr
  refine (norm_sum_le_of_le _ key).trans ?_
  have hg := geom_le ((A + |s|) / d) (by positivity) (by rwa [div_lt_one hd]) (p + 1)
  have hE : Real.exp (‖w‖ * (s ^ 2 / 3 + |s| * A / 3)) = Real.exp (‖w‖ * s ^ 2 / 3) * Real.exp (‖w‖ * |s| * A / 3) := by
    rw [← Real.exp_add]; congr 1; ring
  rw [hE]
  calc _ = μ * β * α * (Real.exp (‖w‖ * s ^ 2 / 3) * Real.exp (‖w‖ * |s| * A / 3)) * ∑ n ∈ range (p + 1), ((A + |s|) / d) ^ n := by
        rw [mul_sum]
        refine sum_congr rfl fun n _ => ?_
        rw [div_pow]; ring
    _ ≤ μ * β * α * (Real.exp (‖w‖ * s ^ 2 / 3) * Real.exp (‖w‖ * |s| * A / 3)) * (1 / (1 - (A + |s|) / d)) := by gcongr
    _ = _ := by
      have : d - (A + |s|) ≠ 0 := by linarith
      field_simp

end
end Dashmm.Wave
