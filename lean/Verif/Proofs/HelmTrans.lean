import Verif.Proofs.HelmShift
import Verif.Spec.HelmShift

/-!
# The translations of the Helmholtz kernel, in terms of normalized waves
-/

namespace Dashmm.Helm

open Finset Harm Lap Bessel Wave Yuk
open scoped Nat

noncomputable section

theorem half_pow (i : ℕ) : (-0.5 : ℝ) ^ i = (-1) ^ i * (0.5 : ℝ) ^ i := by rw [← mul_pow]; norm_num

theorem sign_m (om ρ : ℝ) (n np k : ℕ) (h2 : k ≤ n) (h3 : k ≤ np) :
    (-om ^ 2) ^ (np - k) * (-ρ) ^ (n + np - 2 * k) = (-1) ^ (n + k) * ((om ^ 2) ^ (np - k) * ρ ^ (np + n - 2 * k)) := by
  rw [neg_pow, neg_pow ρ, add_comm n np]
  have : (-1 : ℝ) ^ (n + k) = (-1) ^ (np - k) * (-1) ^ (np + n - 2 * k) := by
    rw [← pow_add]
    have e : np - k + (np + n - 2 * k) + 2 * k + 2 * k = n + k + 2 * np := by omega
    have h : ∀ a : ℕ, (-1 : ℝ) ^ (2 * a) = 1 := fun a => by rw [pow_mul]; simp
    calc (-1 : ℝ) ^ (n + k) = (-1) ^ (n + k + 2 * np) := by rw [pow_add _ (n + k), h, mul_one]
      _ = (-1) ^ (np - k + (np + n - 2 * k)) := by rw [← e, pow_add _ _ (2 * k), pow_add _ _ (2 * k), h, mul_one, mul_one]
  rw [this]; ring

theorem sign_l (om ρ : ℝ) (n np k : ℕ) (h2 : k ≤ n) :
    (-om ^ 2) ^ (n - k) * ρ ^ (np + n - 2 * k) = (-1) ^ (n + k) * ((om ^ 2) ^ (n - k) * ρ ^ (np + n - 2 * k)) := by
  rw [neg_pow]
  have : (-1 : ℝ) ^ (n + k) = (-1) ^ (n - k) := by
    have e : n + k = n - k + 2 * k := by omega
    rw [e, pow_add, pow_mul]; simp
  rw [this]; ring

theorem m2m_tau (J : Table) (size om : ℝ) (hl : 0 < om) (hs : 0 < scale0 size om) (p lev n m np : ℕ) (hm : m ≤ n) (hmp : m ≤ np) :
    am om (2 * (scale0 size om / 2 ^ lev)) n * (Lap.sqf (n + m) / Lap.sqf (n - m)) * m2m J size om p lev n m np =
      tauR (jnScaled J (2 * p) (om * (√3 / 2 * size / 2 ^ lev)) (om * (√3 / 2 * size / 2 ^ lev))) (-om ^ 2) m n np (-(√3 / 2 * size / 2 ^ lev)) *
        (am om (scale0 size om / 2 ^ lev) np * (Lap.sqf (np + m) / Lap.sqf (np - m))) := by
  set ρ := √3 / 2 * size / 2 ^ lev with hρ
  set σ := scale0 size om / 2 ^ lev with hσ
  have hσ0 : 0 < σ := by positivity
  have h1 := (lsqf_pos (n - m)).ne'
  have h2 := (lsqf_pos (n + m)).ne'
  have h3 := (lsqf_pos (np - m)).ne'
  have h4 := (lsqf_pos (np + m)).ne'
  have h5 := (dfact_pos (2 * np - 1)).ne'
  rw [tauR, m2m]
  simp only [← hρ, ← hσ, fact_real]
  clear_value σ ρ
  rw [rt_sqf m n hm, rt_sqf m np hmp, am, am, dfact_odd n, mul_sum, mul_sum, sum_mul]
  refine sum_congr rfl fun k hk => ?_
  have hk' : m ≤ k ∧ k ≤ n ∧ k ≤ np := by
    rw [mem_Icc] at hk; split at hk <;> omega
  have ht := term_eq n np m k hk'.1 hk'.2.1 hk'.2.2
  have es : σ ^ ((np : ℤ) - n) = σ ^ np / σ ^ n := by
    rw [zpow_sub₀ hσ0.ne', zpow_natCast, zpow_natCast]
  have el : om ^ (np + n - 2 * k) * om ^ np = (om ^ 2) ^ (np - k) * om ^ n := by
    rw [← pow_mul, ← pow_add, ← pow_add]; congr 1; omega
  rw [sign_m om ρ n np k hk'.2.1 hk'.2.2, es, add_comm n np, half_pow]
  generalize jnScaled J (2 * p) (om * ρ) (om * ρ) (np + n - k) = B
  rw [← lsqf_sq (n - m), ← lsqf_sq (np + m)] at ht ⊢
  have e5 : (0.5 : ℝ) ^ n * 2 ^ n = 1 := by rw [← mul_pow]; norm_num
  have hln : om ^ n ≠ 0 := by positivity
  have hlp : om ^ np ≠ 0 := by positivity
  have hsn : σ ^ n ≠ 0 := by positivity
  calc _ = ((2 * n - 1)‼ : ℕ) * (2 ^ n * σ ^ n / om ^ n) * (Lap.sqf (n + m) / Lap.sqf (n - m)) *
        (((0.5 : ℝ) ^ (n + k) * (2 * n + 1) * (Lap.sqf (n - m) ^ 2) * (Lap.sqf (np + m) ^ 2) * ((2 * k)! : ℝ) / ((k + m)! : ℝ) / ((k - m)! : ℝ) /
          (k ! : ℝ) / ((n - k)! : ℝ) / ((np - k)! : ℝ)) * (σ ^ np / σ ^ n) * (-1) ^ (n + k) * B * (om ^ (np + n - 2 * k) * ρ ^ (np + n - 2 * k))) := by
        rw [div_pow, mul_pow, mul_pow om ρ]; ring
    _ = ((2 * n - 1)‼ : ℕ) * (((0.5 : ℝ) ^ n * 2 ^ n) * σ ^ n / om ^ n) * (Lap.sqf (n + m) / Lap.sqf (n - m)) *
        (((2 * n + 1) * (Lap.sqf (n - m) ^ 2) * (Lap.sqf (np + m) ^ 2) * qc m n np k) * (σ ^ np / σ ^ n) * (-1) ^ (n + k) * B *
          (((om ^ 2) ^ (np - k) * om ^ n) / om ^ np * ρ ^ (np + n - 2 * k))) := by
        rw [ht, ← el]; field_simp
    _ = _ := by
        rw [e5, div_pow σ om np]
        field_simp

theorem l2l_tau (J : Table) (size om : ℝ) (hl : 0 < om) (hs : 0 < scale0 size om) (p lev n m np : ℕ) (hm : m ≤ n) (hmp : m ≤ np) :
    al om (scale0 size om / 2 ^ lev / 2) n * (Lap.sqf (n + m) / Lap.sqf (n - m)) * l2l J size om p lev n m np =
      tauR (jnScaled J (2 * p) (om * (√3 / 4 * size / 2 ^ lev)) (om * (√3 / 4 * size / 2 ^ lev))) (-om ^ 2) m np n (√3 / 4 * size / 2 ^ lev) *
        (al om (scale0 size om / 2 ^ lev) np * (Lap.sqf (np + m) / Lap.sqf (np - m))) := by
  set ρ := √3 / 4 * size / 2 ^ lev with hρ
  set σ := scale0 size om / 2 ^ lev with hσ
  have hσ0 : 0 < σ := by positivity
  have h1 := (lsqf_pos (n - m)).ne'
  have h2 := (lsqf_pos (n + m)).ne'
  have h3 := (lsqf_pos (np - m)).ne'
  have h4 := (lsqf_pos (np + m)).ne'
  have h5 := (dfact_pos (2 * n - 1)).ne'
  have h6 := (dfact_pos (2 * np + 1)).ne'
  have h7 : (2 * (n : ℝ) + 1) ≠ 0 := by positivity
  rw [tauR, l2l]
  simp only [← hρ, ← hσ, fact_real]
  clear_value σ ρ
  have ei : (if np ≤ n then np else n) = if n ≤ np then n else np := by split <;> split <;> omega
  rw [rt_sqf m n hm, rt_sqf m np hmp, al, al, dfact_odd n, mul_sum, mul_sum, sum_mul, ei]
  refine sum_congr rfl fun k hk => ?_
  have hk' : m ≤ k ∧ k ≤ n ∧ k ≤ np := by
    rw [mem_Icc] at hk; split at hk <;> omega
  have ht := term_eq n np m k hk'.1 hk'.2.1 hk'.2.2
  have es : σ ^ ((n : ℤ) - np) = σ ^ n / σ ^ np := by
    rw [zpow_sub₀ hσ0.ne', zpow_natCast, zpow_natCast]
  have el : om ^ (np + n - 2 * k) * om ^ n = (om ^ 2) ^ (n - k) * om ^ np := by
    rw [← pow_mul, ← pow_add, ← pow_add]; congr 1; omega
  rw [sign_l om ρ n np k hk'.2.1, es, add_comm n np, qc_symm m np n k, half_pow]
  generalize jnScaled J (2 * p) (om * ρ) (om * ρ) (np + n - k) = B
  rw [← lsqf_sq (n - m), ← lsqf_sq (np + m)] at ht ⊢
  have e5 : (0.5 : ℝ) ^ n * 2 ^ n = 1 := by rw [← mul_pow]; norm_num
  have hln : om ^ n ≠ 0 := by positivity
  have hlp : om ^ np ≠ 0 := by positivity
  have hsn : σ ^ n ≠ 0 := by positivity
  have hsp : σ ^ np ≠ 0 := by positivity
  calc _ = 2 ^ n * om ^ n / σ ^ n / ((2 * n + 1) * ((2 * n - 1)‼ : ℕ)) * (Lap.sqf (n + m) / Lap.sqf (n - m)) *
        (((0.5 : ℝ) ^ (n + k) * (2 * n + 1) * (Lap.sqf (n - m) ^ 2) * (Lap.sqf (np + m) ^ 2) * ((2 * k)! : ℝ) / ((k + m)! : ℝ) / ((k - m)! : ℝ) /
          (k ! : ℝ) / ((n - k)! : ℝ) / ((np - k)! : ℝ)) * (σ ^ n / σ ^ np) * (-1) ^ (n + k) * B * (om ^ (np + n - 2 * k) * ρ ^ (np + n - 2 * k))) := by
        rw [div_div_eq_mul_div, div_pow, mul_pow, mul_pow om ρ]; ring
    _ = ((0.5 : ℝ) ^ n * 2 ^ n) * om ^ n / σ ^ n / ((2 * n + 1) * ((2 * n - 1)‼ : ℕ)) * (Lap.sqf (n + m) / Lap.sqf (n - m)) *
        (((2 * n + 1) * (Lap.sqf (n - m) ^ 2) * (Lap.sqf (np + m) ^ 2) * qc m n np k) * (σ ^ n / σ ^ np) * (-1) ^ (n + k) * B *
          (((om ^ 2) ^ (n - k) * om ^ np) / om ^ n * ρ ^ (np + n - 2 * k))) := by
        rw [ht, ← el]; field_simp
    _ = _ := by
        rw [e5, div_pow om σ np]
        field_simp

/-! ### The frequency -/

/-- The wave number: `exp (- κ r)` is the outgoing wave. -/
def kap (om : ℝ) : ℂ := -(Complex.I * om)

theorem kap_sq (om : ℝ) : kap om ^ 2 = ((-om ^ 2 : ℝ) : ℂ) := by
  rw [kap, neg_sq, mul_pow, Complex.I_sq]; push_cast; ring

theorem kap_norm (om : ℝ) (h : 0 < om) : ‖kap om‖ = om := by
  rw [kap, norm_neg, norm_mul, Complex.norm_I, one_mul, Complex.norm_real, Real.norm_of_nonneg h.le]

theorem kap_re (om : ℝ) : (kap om).re = 0 := by simp [kap]

theorem kap_ne (om : ℝ) (h : 0 < om) : kap om ≠ 0 := by
  intro e
  have := kap_norm om h
  rw [e, norm_zero] at this
  linarith

theorem w_conj (om : ℝ) : starRingEnd ℂ (((-om ^ 2 : ℝ) : ℂ)) = ((-om ^ 2 : ℝ) : ℂ) := Complex.conj_ofReal _

theorem w_norm (om : ℝ) : ‖((-om ^ 2 : ℝ) : ℂ)‖ = om ^ 2 := by
  rw [Complex.norm_real, Real.norm_eq_abs, abs_neg, abs_of_nonneg (sq_nonneg om)]

theorem fnw_real (om : ℝ) (i : ℕ) (s : ℝ) : fn ((-om ^ 2 : ℝ) : ℂ) i s = ((erl i (-(om * s) ^ 2) / ((2 * i + 1)‼ : ℕ) : ℝ) : ℂ) := by
  have e : (((-om ^ 2 : ℝ) : ℂ) * (s : ℂ) ^ 2) = ((-(om * s) ^ 2 : ℝ) : ℂ) := by push_cast; ring
  rw [fn, e, efun_ofReal]; push_cast; rfl

theorem fnw_conj (om : ℝ) (i : ℕ) (s : ℝ) : starRingEnd ℂ (fn ((-om ^ 2 : ℝ) : ℂ) i s) = fn ((-om ^ 2 : ℝ) : ℂ) i s := by
  rw [fnw_real, Complex.conj_ofReal]

/-- The table of `j_n(x) / x^n`. -/
def jtab (J : Table) (p : ℕ) (x : ℝ) (i : ℕ) : ℂ := ((jnScaled J (2 * p) x x i : ℝ) : ℂ)

theorem jtab_conj (J : Table) (p : ℕ) (x : ℝ) (i : ℕ) : starRingEnd ℂ (jtab J p x i) = jtab J p x i := by rw [jtab, Complex.conj_ofReal]

theorem GoodTab.nonneg {J : Table} {p : ℕ} {ε x : ℝ} (h : GoodTab J p ε x) : 0 ≤ ε := by
  have := (abs_nonneg _).trans (h 0 (Nat.zero_le _))
  simpa using this

theorem jtab_error (J : Table) (p : ℕ) (ε om ρ : ℝ) (ho : 0 < om) (hρ : 0 < ρ) (h : GoodTab J p ε (om * ρ)) (s : ℝ) (hs : s ^ 2 = ρ ^ 2)
    (i : ℕ) (hi : i ≤ 2 * p) : ‖jtab J p (om * ρ) i - fn ((-om ^ 2 : ℝ) : ℂ) i s‖ ≤ ε / ((2 * i + 1)‼ : ℕ) := by
  have hx : 0 < om * ρ := by positivity
  have hd := dfact_pos (2 * i + 1)
  have e1 : sphJ i (om * ρ) / (om * ρ) ^ i = erl i (-(om * s) ^ 2) / ((2 * i + 1)‼ : ℕ) := by
    rw [sphJ_eq, mul_pow om s, hs, ← mul_pow]; field_simp
  rw [jtab, fnw_real, ← Complex.ofReal_sub, Complex.norm_real, Real.norm_eq_abs, ← e1]
  exact h i hi

theorem jtab_le (J : Table) (p : ℕ) (ε om ρ : ℝ) (ho : 0 < om) (hρ : 0 < ρ) (h : GoodTab J p ε (om * ρ)) (i : ℕ) (hi : i ≤ 2 * p) :
    ‖jtab J p (om * ρ) i‖ ≤ (Real.exp (om ^ 2 * ρ ^ 2 / 6) + ε) / ((2 * i + 1)‼ : ℕ) := by
  have h1 := jtab_error J p ε om ρ ho hρ h ρ rfl i hi
  have h2 := fn_le ((-om ^ 2 : ℝ) : ℂ) i ρ
  rw [w_norm] at h2
  calc ‖jtab J p (om * ρ) i‖ = ‖fn ((-om ^ 2 : ℝ) : ℂ) i ρ + (jtab J p (om * ρ) i - fn ((-om ^ 2 : ℝ) : ℂ) i ρ)‖ := by rw [add_sub_cancel]
    _ ≤ _ := norm_add_le _ _
    _ ≤ _ := add_le_add h2 h1
    _ = _ := by rw [add_div]

theorem tauB_jtab (J : Table) (p : ℕ) (x om : ℝ) (m n j : ℕ) (s : ℝ) (hm : m ≤ n) :
    tauB (jtab J p x) ((-om ^ 2 : ℝ) : ℂ) m n j s = ((tauR (jnScaled J (2 * p) x x) (-om ^ 2) m n j s : ℝ) : ℂ) := by
  rw [← tauB_real _ _ _ _ _ _ hm]; rfl

/-! ### The arrays -/

theorem shiftZ_eq (p : ℕ) (coeff : ℕ → ℕ → ℕ → ℝ) (T : Coef) : shiftZ p coeff T = Yukawa.shiftZ p coeff T := rfl

theorem plus_eq (c : ℝ) : (fun (n mp : ℕ) (m : ℤ) => hdmatPlus c n mp m) = Yukawa.ydmatPlus c := by
  funext n mp m; exact hmat_nat _ _ _ _

theorem minus_eq (c : ℝ) : (fun (n mp : ℕ) (m : ℤ) => hdmatMinus c n mp m) = Yukawa.ydmatMinus c := by
  funext n mp m; exact hmat_nat _ _ _ _

/-- The array of `M_to_M`. -/
theorem hat_mToM (J : Table) (size om : ℝ) (hl : 0 < om) (hs : 0 < scale0 size om) (p lev : ℕ) (α x : ℝ) (M : Coef) (n m : ℕ) :
    hat (am om (2 * scaleOf size om lev)) (tr p (m2m J size om p lev) α x M) n m =
      rotateZ (rotateY (shM (jtab J p (om * (√3 / 2 * size / 2 ^ lev))) ((-om ^ 2 : ℝ) : ℂ) p (-(√3 / 2 * size / 2 ^ lev))
        (pre α x (hat (am om (scaleOf size om lev)) M))) (dmatMinus x)) (-α) n m := by
  rw [hat_tr (am om (scaleOf size om lev)) _ p _
    (fun m n j => tauB (jtab J p (om * (√3 / 2 * size / 2 ^ lev))) ((-om ^ 2 : ℝ) : ℂ) m n j (-(√3 / 2 * size / 2 ^ lev)))]
  · rfl
  · intro n m np hm hmp
    rw [tauB_jtab _ _ _ _ _ _ _ _ hm, ← Complex.ofReal_mul, Complex.ofReal_inj]
    exact m2m_tau J size om hl hs p lev n m np hm hmp
  · intro n m np h
    exact tauB_low _ _ _ _ _ _ (by rw [Nat.abs_cast]; omega)

/-- The array of `L_to_L`. -/
theorem hat_lToL (J : Table) (size om : ℝ) (hl : 0 < om) (hs : 0 < scale0 size om) (p lev : ℕ) (α x : ℝ) (M : Coef) (n m : ℕ) :
    hat (al om (scaleOf size om lev / 2)) (tr p (l2l J size om p lev) α x M) n m =
      rotateZ (rotateY (shL (jtab J p (om * (√3 / 4 * size / 2 ^ lev))) ((-om ^ 2 : ℝ) : ℂ) p (√3 / 4 * size / 2 ^ lev)
        (pre α x (hat (al om (scaleOf size om lev)) M))) (dmatMinus x)) (-α) n m := by
  rw [hat_tr (al om (scaleOf size om lev)) _ p _
    (fun m n j => tauB (jtab J p (om * (√3 / 4 * size / 2 ^ lev))) ((-om ^ 2 : ℝ) : ℂ) m j n (√3 / 4 * size / 2 ^ lev))]
  · rfl
  · intro n m np hm hmp
    rw [tauB_jtab _ _ _ _ _ _ _ _ hmp, ← Complex.ofReal_mul, Complex.ofReal_inj]
    exact l2l_tau J size om hl hs p lev n m np hm hmp
  · intro n m np h
    exact tauB_low' _ _ _ _ _ _ (by rw [Nat.abs_cast]; omega)

end
end Dashmm.Helm
