import Verif.Model.YukShift
import Verif.Proofs.WaveLoc
import Verif.Proofs.YukVal

/-!
# The translations of the code, in terms of normalized waves
-/

namespace Dashmm.Yuk

open Finset Harm Lap Bessel Wave
open scoped Nat

noncomputable section

theorem fact_eq (n : ℕ) : Yukawa.fact n = (n ! : ℝ) := by
  induction n with
  | zero => simp [Yukawa.fact]
  | succ n ih => rw [Yukawa.fact, ih, Nat.factorial_succ]; push_cast; ring

theorem lsqf_sq (n : ℕ) : Lap.sqf n ^ 2 = (n ! : ℝ) := by rw [← fact_sq, fact_eq]

/-- An array with a factor for each degree, in the normalization of the Laplace kernel. -/
def hat (a : ℕ → ℝ) (M : Coef) : Coef := fun n m => (a n : ℂ) * conv M n m

theorem hat_proper (a : ℕ → ℝ) (M : Coef) (h : Proper M) : Proper (hat a M) := by
  intro n
  rw [hat, conv, ← mul_assoc, mul_comm (a n : ℂ), mul_assoc, ← Complex.ofReal_mul, Complex.im_mul_ofReal, h n, zero_mul]

theorem hat_rotateZ (a : ℕ → ℝ) (M : Coef) (α : ℝ) : hat a (rotateZ M α) = rotateZ (hat a M) α := by
  funext n m
  rw [hat, conv, rotateZ, rotateZ, hat, conv]; ring

theorem dscale_eq (n mp : ℕ) (m : ℤ) : Yukawa.dscale n mp m = Lap.sqf (n - mp) / Lap.sqf (n + mp) * (Lap.sqf (n + m.natAbs) / Lap.sqf (n - m.natAbs)) := by
  have h1 := lsqf_pos (n - mp)
  have h2 := lsqf_pos (n + mp)
  have h3 := lsqf_pos (n - m.natAbs)
  have h4 := lsqf_pos (n + m.natAbs)
  rw [Yukawa.dscale, fact_sq, fact_sq, fact_sq, fact_sq, ← Real.sqrt_sq (by positivity : (0:ℝ) ≤ Lap.sqf (n - mp) / Lap.sqf (n + mp) * (Lap.sqf (n + m.natAbs) / Lap.sqf (n - m.natAbs)))]
  congr 1
  field_simp

theorem hat_rotateY (a : ℕ → ℝ) (M : Coef) (d : DMat) (n mp : ℕ) :
    hat a (rotateY M (fun n mp m => d n mp m * Yukawa.dscale n mp m)) n mp = rotateY (hat a M) d n mp := by
  have h1 : (Lap.sqf (n - mp) : ℂ) ≠ 0 := by exact_mod_cast (lsqf_pos (n - mp)).ne'
  have h2 : (Lap.sqf (n + mp) : ℂ) ≠ 0 := by exact_mod_cast (lsqf_pos (n + mp)).ne'
  have h3 : (Lap.sqf n : ℂ) ≠ 0 := by exact_mod_cast (lsqf_pos n).ne'
  rw [hat, conv, rotateY, rotateY]
  simp only [dscale_eq, hat, conv]
  have key : ∀ X Y : ℂ, (a n : ℂ) * (X * ((Lap.sqf (n + mp) / Lap.sqf (n - mp) : ℝ) : ℂ)) = Y → (a n : ℂ) * (X * (-1) ^ mp * ((Lap.sqf (n + mp) / Lap.sqf (n - mp) : ℝ) : ℂ)) = Y * (-1) ^ mp := by
    intro X Y h; rw [← h]; ring
  refine key _ _ ?_
  rw [add_mul, mul_add, sum_mul, mul_sum]
  congr 1
  · push_cast; simp; field_simp
  · refine sum_congr rfl fun m _ => ?_
    simp only [Int.natAbs_neg, Int.natAbs_natCast, map_mul, Complex.conj_ofReal]
    push_cast
    field_simp

theorem dfact_two (k : ℕ) : ((2 * k)! : ℝ) = (2 : ℝ) ^ k * k ! * ((2 * k - 1)‼ : ℕ) := by
  cases k with
  | zero => simp
  | succ k =>
    have h := Nat.factorial_eq_mul_doubleFactorial (2 * k + 1)
    have h2 := Nat.doubleFactorial_two_mul (k + 1)
    rw [show 2 * (k + 1) - 1 = 2 * k + 1 by omega]
    have h3 : 2 * (k + 1) = 2 * k + 1 + 1 := by ring
    rw [h3, h, ← h3, h2]
    push_cast; ring

/-- One term of the coefficients. -/
theorem term_eq (n np m k : ℕ) (h1 : m ≤ k) (h2 : k ≤ n) (h3 : k ≤ np) :
    (0.5 : ℝ) ^ (n + k) * (2 * n + 1) * ((n - m)! : ℝ) * ((np + m)! : ℝ) * ((2 * k)! : ℝ) / ((k + m)! : ℝ) / ((k - m)! : ℝ) / (k ! : ℝ) /
      ((n - k)! : ℝ) / ((np - k)! : ℝ) = (0.5 : ℝ) ^ n * (2 * n + 1) * ((n - m)! : ℝ) * ((np + m)! : ℝ) * qc m n np k := by
  have e1 : ((k : ℤ) - (m : ℤ)) = ((k - m : ℕ) : ℤ) := by omega
  have e2 : ((k : ℤ) + (m : ℤ)) = ((k + m : ℕ) : ℤ) := by omega
  have e3 : ((n : ℤ) - (k : ℤ)) = ((n - k : ℕ) : ℤ) := by omega
  have e4 : ((np : ℤ) - (k : ℤ)) = ((np - k : ℕ) : ℤ) := by omega
  rw [qc, e1, e2, e3, e4, rf_nat, rf_nat, rf_nat, rf_nat, dfact_two, pow_add]
  have : (0.5 : ℝ) ^ k * 2 ^ k = 1 := by rw [← mul_pow]; norm_num
  have hk : (k ! : ℝ) ≠ 0 := by positivity
  calc _ = (0.5 : ℝ) ^ n * ((0.5 : ℝ) ^ k * 2 ^ k) * (k ! / k !) * (2 * n + 1) * ((n - m)! : ℝ) * ((np + m)! : ℝ) * ((2 * k - 1)‼ : ℕ) *
        (1 / ((k + m)! : ℝ)) * (1 / ((k - m)! : ℝ)) * (1 / ((n - k)! : ℝ)) * (1 / ((np - k)! : ℝ)) := by ring
    _ = _ := by rw [this, div_self hk]; ring

theorem rt_sqf (m n : ℕ) (h : m ≤ n) : rt m n = Lap.sqf (n - m) * Lap.sqf (n + m) := by
  have e : ∀ i : ℕ, sf (i : ℤ) = Lap.sqf i := by
    intro i
    rw [sf, Int.toNat_natCast, ← lsqf_sq, Real.sqrt_sq (lsqf_pos i).le]
  rw [rt, ← e, ← e]
  congr 2
  omega

theorem sum_code (n np m : ℕ) (hm : m ≤ n) (f : ℕ → ℂ) (hf : ∀ k, ¬ (m ≤ k ∧ k ≤ n) → f k = 0) :
    ∑ k ∈ Icc m (if n ≤ np then n else np), f k = ∑ k ∈ range (np + 1), f k := by
  have e : Icc m (if n ≤ np then n else np) = (range (np + 1)).filter fun k => m ≤ k ∧ k ≤ n := by
    ext k
    rw [mem_Icc, mem_filter, mem_range]
    split <;> omega
  rw [e, sum_filter]
  refine sum_congr rfl fun k _ => ?_
  split
  · rfl
  · next h => exact (hf k h).symm

theorem qc_zero (m n np k : ℕ) (h : ¬ (m ≤ k ∧ k ≤ n)) : qc m n np k = 0 := by
  by_cases h1 : m ≤ k
  · exact qc_left m n np k (by omega)
  · exact qc_low m n np k (by rw [Nat.abs_cast]; omega)

/-- The factors of a multipole expansion. -/
def am (lam scale : ℝ) (n : ℕ) : ℝ := ((2 * n - 1)‼ : ℕ) * (scale / lam) ^ n

/-- The factors of a local expansion. -/
def al (lam scale : ℝ) (n : ℕ) : ℝ := (lam / scale) ^ n / ((2 * n + 1)‼ : ℕ)

/-- The table of `i_n(x) / x^n`. -/
def btab (F : Table) (p : ℕ) (x : ℝ) (i : ℕ) : ℂ := ((inScaled F (2 * p) x x i : ℝ) : ℂ)

/-- `tauB` for real tables. -/
def tauR (b : ℕ → ℝ) (w : ℝ) (m n j : ℕ) (s : ℝ) : ℝ :=
  ((2 * n + 1)‼ : ℕ) * rt m n * (rt m j / ((2 * j - 1)‼ : ℕ)) *
    ∑ k ∈ Icc m (if n ≤ j then n else j), qc m n j k * (w ^ (j - k) * s ^ (n + j - 2 * k) * b (n + j - k))

theorem tauB_real (b : ℕ → ℝ) (w : ℝ) (m n j : ℕ) (s : ℝ) (hm : m ≤ n) :
    tauB (fun i => (b i : ℂ)) (w : ℂ) m n j s = ((tauR b w m n j s : ℝ) : ℂ) := by
  rw [tauB, Qb, ← sum_code n j m hm _ (fun k hk => by rw [qc_zero m n j k hk]; simp), tauR]
  push_cast
  rfl

theorem neg_pow_sum (ρ : ℝ) (n np k : ℕ) (h2 : k ≤ n) (h3 : k ≤ np) : (-ρ) ^ (n + np - 2 * k) = (-1) ^ (np + n) * ρ ^ (np + n - 2 * k) := by
  rw [neg_pow, add_comm n np]
  congr 1
  have : (-1 : ℝ) ^ (np + n) = (-1) ^ (np + n - 2 * k) * (-1) ^ (2 * k) := by rw [← pow_add]; congr 1; omega
  rw [this, pow_mul]; simp

theorem m2m_tau (F : Table) (size lam : ℝ) (hl : 0 < lam) (hs : 0 < Yukawa.scale0 size lam) (p lev n m np : ℕ) (hm : m ≤ n) (hmp : m ≤ np) :
    am lam (2 * (Yukawa.scale0 size lam / 2 ^ lev)) n * (Lap.sqf (n + m) / Lap.sqf (n - m)) * Yukawa.m2m F size lam p lev n m np =
      tauR (inScaled F (2 * p) (lam * (√3 / 2 * size / 2 ^ lev)) (lam * (√3 / 2 * size / 2 ^ lev))) (lam ^ 2) m n np (-(√3 / 2 * size / 2 ^ lev)) *
        (am lam (Yukawa.scale0 size lam / 2 ^ lev) np * (Lap.sqf (np + m) / Lap.sqf (np - m))) := by
  set ρ := √3 / 2 * size / 2 ^ lev with hρ
  set σ := Yukawa.scale0 size lam / 2 ^ lev with hσ
  have hσ0 : 0 < σ := by positivity
  have h1 := (lsqf_pos (n - m)).ne'
  have h2 := (lsqf_pos (n + m)).ne'
  have h3 := (lsqf_pos (np - m)).ne'
  have h4 := (lsqf_pos (np + m)).ne'
  have h5 := (dfact_pos (2 * np - 1)).ne'
  rw [tauR, Yukawa.m2m]
  simp only [← hρ, ← hσ, fact_eq]
  clear_value σ ρ
  rw [rt_sqf m n hm, rt_sqf m np hmp, am, am, dfact_odd n, mul_sum, mul_sum, sum_mul]
  refine sum_congr rfl fun k hk => ?_
  have hk' : m ≤ k ∧ k ≤ n ∧ k ≤ np := by
    rw [mem_Icc] at hk; split at hk <;> omega
  have ht := term_eq n np m k hk'.1 hk'.2.1 hk'.2.2
  have es : σ ^ ((np : ℤ) - n) = σ ^ np / σ ^ n := by
    rw [zpow_sub₀ hσ0.ne', zpow_natCast, zpow_natCast]
  have el : lam ^ (np + n - 2 * k) * lam ^ np = (lam ^ 2) ^ (np - k) * lam ^ n := by
    rw [← pow_mul, ← pow_add, ← pow_add]; congr 1; omega
  rw [neg_pow_sum ρ n np k hk'.2.1 hk'.2.2, es, add_comm n np]
  generalize inScaled F (2 * p) (lam * ρ) (lam * ρ) (np + n - k) = B
  rw [← lsqf_sq (n - m), ← lsqf_sq (np + m)] at ht ⊢
  have e5 : (0.5 : ℝ) ^ n * 2 ^ n = 1 := by rw [← mul_pow]; norm_num
  have hln : lam ^ n ≠ 0 := by positivity
  have hlp : lam ^ np ≠ 0 := by positivity
  have hsn : σ ^ n ≠ 0 := by positivity
  calc _ = ((2 * n - 1)‼ : ℕ) * (2 ^ n * σ ^ n / lam ^ n) * (Lap.sqf (n + m) / Lap.sqf (n - m)) *
        (((0.5 : ℝ) ^ (n + k) * (2 * n + 1) * (Lap.sqf (n - m) ^ 2) * (Lap.sqf (np + m) ^ 2) * ((2 * k)! : ℝ) / ((k + m)! : ℝ) / ((k - m)! : ℝ) /
          (k ! : ℝ) / ((n - k)! : ℝ) / ((np - k)! : ℝ)) * (σ ^ np / σ ^ n) * (-1) ^ (np + n) * B * (lam ^ (np + n - 2 * k) * ρ ^ (np + n - 2 * k))) := by
        rw [div_pow, mul_pow, mul_pow lam ρ]; ring
    _ = ((2 * n - 1)‼ : ℕ) * (((0.5 : ℝ) ^ n * 2 ^ n) * σ ^ n / lam ^ n) * (Lap.sqf (n + m) / Lap.sqf (n - m)) *
        (((2 * n + 1) * (Lap.sqf (n - m) ^ 2) * (Lap.sqf (np + m) ^ 2) * qc m n np k) * (σ ^ np / σ ^ n) * (-1) ^ (np + n) * B *
          (((lam ^ 2) ^ (np - k) * lam ^ n) / lam ^ np * ρ ^ (np + n - 2 * k))) := by
        rw [ht, ← el]; field_simp
    _ = _ := by
        rw [e5, div_pow σ lam np]
        field_simp

theorem l2l_tau (F : Table) (size lam : ℝ) (hl : 0 < lam) (hs : 0 < Yukawa.scale0 size lam) (p lev n m np : ℕ) (hm : m ≤ n) (hmp : m ≤ np) :
    al lam (Yukawa.scale0 size lam / 2 ^ lev / 2) n * (Lap.sqf (n + m) / Lap.sqf (n - m)) * Yukawa.l2l F size lam p lev n m np =
      tauR (inScaled F (2 * p) (lam * (√3 / 4 * size / 2 ^ lev)) (lam * (√3 / 4 * size / 2 ^ lev))) (lam ^ 2) m np n (-(√3 / 4 * size / 2 ^ lev)) *
        (al lam (Yukawa.scale0 size lam / 2 ^ lev) np * (Lap.sqf (np + m) / Lap.sqf (np - m))) := by
  set ρ := √3 / 4 * size / 2 ^ lev with hρ
  set σ := Yukawa.scale0 size lam / 2 ^ lev with hσ
  have hσ0 : 0 < σ := by positivity
  have h1 := (lsqf_pos (n - m)).ne'
  have h2 := (lsqf_pos (n + m)).ne'
  have h3 := (lsqf_pos (np - m)).ne'
  have h4 := (lsqf_pos (np + m)).ne'
  have h5 := (dfact_pos (2 * n - 1)).ne'
  have h6 := (dfact_pos (2 * np + 1)).ne'
  have h7 : (2 * (n : ℝ) + 1) ≠ 0 := by positivity
  rw [tauR, Yukawa.l2l]
  simp only [← hρ, ← hσ, fact_eq]
  clear_value σ ρ
  have ei : (if np ≤ n then np else n) = if n ≤ np then n else np := by split <;> split <;> omega
  rw [rt_sqf m n hm, rt_sqf m np hmp, al, al, dfact_odd n, mul_sum, mul_sum, sum_mul, ei]
  refine sum_congr rfl fun k hk => ?_
  have hk' : m ≤ k ∧ k ≤ n ∧ k ≤ np := by
    rw [mem_Icc] at hk; split at hk <;> omega
  have ht := term_eq n np m k hk'.1 hk'.2.1 hk'.2.2
  have es : σ ^ ((n : ℤ) - np) = σ ^ n / σ ^ np := by
    rw [zpow_sub₀ hσ0.ne', zpow_natCast, zpow_natCast]
  have el : lam ^ (np + n - 2 * k) * lam ^ n = (lam ^ 2) ^ (n - k) * lam ^ np := by
    rw [← pow_mul, ← pow_add, ← pow_add]; congr 1; omega
  rw [neg_pow_sum ρ np n k hk'.2.2 hk'.2.1, es, add_comm n np, qc_symm m np n k]
  generalize inScaled F (2 * p) (lam * ρ) (lam * ρ) (np + n - k) = B
  rw [← lsqf_sq (n - m), ← lsqf_sq (np + m)] at ht ⊢
  have e5 : (0.5 : ℝ) ^ n * 2 ^ n = 1 := by rw [← mul_pow]; norm_num
  have hln : lam ^ n ≠ 0 := by positivity
  have hlp : lam ^ np ≠ 0 := by positivity
  have hsn : σ ^ n ≠ 0 := by positivity
  have hsp : σ ^ np ≠ 0 := by positivity
  calc _ = 2 ^ n * lam ^ n / σ ^ n / ((2 * n + 1) * ((2 * n - 1)‼ : ℕ)) * (Lap.sqf (n + m) / Lap.sqf (n - m)) *
        (((0.5 : ℝ) ^ (n + k) * (2 * n + 1) * (Lap.sqf (n - m) ^ 2) * (Lap.sqf (np + m) ^ 2) * ((2 * k)! : ℝ) / ((k + m)! : ℝ) / ((k - m)! : ℝ) /
          (k ! : ℝ) / ((n - k)! : ℝ) / ((np - k)! : ℝ)) * (σ ^ n / σ ^ np) * (-1) ^ (np + n) * B * (lam ^ (np + n - 2 * k) * ρ ^ (np + n - 2 * k))) := by
        rw [div_div_eq_mul_div, div_pow, mul_pow, mul_pow lam ρ]; ring
    _ = ((0.5 : ℝ) ^ n * 2 ^ n) * lam ^ n / σ ^ n / ((2 * n + 1) * ((2 * n - 1)‼ : ℕ)) * (Lap.sqf (n + m) / Lap.sqf (n - m)) *
        (((2 * n + 1) * (Lap.sqf (n - m) ^ 2) * (Lap.sqf (np + m) ^ 2) * qc m n np k) * (σ ^ n / σ ^ np) * (-1) ^ (np + n) * B *
          (((lam ^ 2) ^ (n - k) * lam ^ np) / lam ^ n * ρ ^ (np + n - 2 * k))) := by
        rw [ht, ← el]; field_simp
    _ = _ := by
        rw [e5, div_pow lam σ np]
        field_simp

end
end Dashmm.Yuk
