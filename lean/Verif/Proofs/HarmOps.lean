import Verif.Proofs.HarmAxis

/-!
Tables, spherical coordinates, and the shifts of the code.
-/

namespace Dashmm.Harm

open Lap
open Complex (I)

noncomputable section

/-! ### Tables -/

theorem sqf_eq : ∀ n : ℕ, sqf n = sf n
  | 0 => by simp [sqf, sf]
  | n + 1 => by
    rw [sqf, sqf_eq n, ← sf_step ((n + 1 : ℕ) : ℤ) (by push_cast; omega), show ((n + 1 : ℕ) : ℤ) - 1 = n by push_cast; ring]
    push_cast; ring

theorem binom_eq : ∀ n m : ℕ, m ≤ n → binom n m = (n.choose m : ℝ)
  | 0, m, h => by
    obtain rfl : m = 0 := by omega
    simp [binom]
  | 1, m, h => by
    have : m = 0 ∨ m = 1 := by omega
    rcases this with rfl | rfl <;> simp [binom]
  | n + 2, m, h => by
    rw [binom]
    split_ifs with h0 h1
    · simp [h0]
    · simp [h1]
    · obtain ⟨k, rfl⟩ : ∃ k, m = k + 1 := ⟨m - 1, by omega⟩
      rw [binom_eq (n + 1) (k + 1) (by omega), Nat.add_sub_cancel, binom_eq (n + 1) k (by omega),
        Nat.choose_succ_succ (n + 1) k]
      push_cast; ring

theorem sqbinom_eq (n m : ℕ) (h : m ≤ n) : sqbinom n m = sf n / (sf m * sf (n - m : ℕ)) := by
  have h1 : (n.choose m : ℝ) * (sf m ^ 2) * (sf (n - m : ℕ) ^ 2) = sf n ^ 2 := by
    rw [sf_sq, sf_sq, sf_sq]
    simp only [Int.toNat_natCast]
    exact_mod_cast Nat.choose_mul_factorial_mul_factorial h
  have a := sf_pos m
  have b := sf_pos ((n - m : ℕ) : ℤ)
  have c := sf_pos n
  rw [sqbinom, binom_eq n m h, Real.sqrt_eq_iff_eq_sq (by positivity) (by positivity), div_pow, mul_pow, ← h1]
  field_simp

/-! ### Homogeneity -/

/-- A scaled point. -/
def psmul (t : ℝ) (v : Point ℝ) : Point ℝ := ⟨t * v.x, t * v.y, t * v.z⟩

/-- The sum of two points. -/
def padd (u v : Point ℝ) : Point ℝ := ⟨u.x + v.x, u.y + v.y, u.z + v.z⟩

theorem psmul_norm (t : ℝ) (ht : 0 ≤ t) (v : Point ℝ) : (psmul t v).norm = t * v.norm := by
  apply norm_eq_of_sq _ _ (mul_nonneg ht (norm_nonneg' v))
  rw [mul_pow, norm_sq_eq]; simp only [psmul]; ring

theorem har_homog (w w' z t : ℂ) : ∀ (n : ℕ) (m : ℤ), har (t * w) (t * w') (t * z) n m = t ^ n * har w w' z n m
  | 0, m => by simp [har]
  | n + 1, m => by
    rw [har, har, har_homog w w' z t n m, har_homog w w' z t n (m - 1), har_homog w w' z t n (m + 1)]; ring

theorem nrm_psmul (t : ℝ) (v : Point ℝ) (n : ℕ) (m : ℤ) : nrm (psmul t v) n m = (t : ℂ) ^ n * nrm v n m := by
  rw [nrm, nrm, harP, harP, show (((psmul t v).x : ℝ) : ℂ) - (psmul t v).y * I = t * (v.x - v.y * I) by simp [psmul]; ring,
    show (((psmul t v).x : ℝ) : ℂ) + (psmul t v).y * I = t * (v.x + v.y * I) by simp [psmul]; ring,
    show (((psmul t v).z : ℝ) : ℂ) = t * v.z by simp [psmul], har_homog]
  ring

theorem reg_psmul (t : ℝ) (v : Point ℝ) (n m : ℕ) : reg (psmul t v) n m = (t : ℂ) ^ n * reg v n m := by
  rw [reg, reg, nrm_psmul]; ring

theorem form_psmul (L : Coef) (t : ℝ) (v : Point ℝ) (n : ℕ) : form L (psmul t v) n = (t : ℂ) ^ n * form L v n := by
  rw [form, form, Finset.mul_sum]
  refine Finset.sum_congr rfl fun m _ => ?_
  rw [nrm_psmul, map_mul, map_pow, Complex.conj_ofReal]; ring

/-! ### Spherical coordinates -/

/-- The direction with `cos θ = ct` and `exp(i φ) = e`. -/
def dirOf (ct : ℝ) (e : ℂ) : Point ℝ := ⟨√(1 - ct * ct) * e.re, √(1 - ct * ct) * e.im, ct⟩

theorem dirOf_sq (ct : ℝ) (e : ℂ) (hct : ct * ct ≤ 1) (he : e.re ^ 2 + e.im ^ 2 = 1) :
    (dirOf ct e).x ^ 2 + (dirOf ct e).y ^ 2 = 1 - ct * ct := by
  have h := Real.sq_sqrt (by linarith : 0 ≤ 1 - ct * ct)
  simp only [dirOf]
  linear_combination √(1 - ct * ct) ^ 2 * he + h

theorem dirOf_norm (ct : ℝ) (e : ℂ) (hct : ct * ct ≤ 1) (he : e.re ^ 2 + e.im ^ 2 = 1) : (dirOf ct e).norm = 1 := by
  apply norm_eq_of_sq _ _ zero_le_one
  rw [dirOf_sq ct e hct he]; simp only [dirOf]; ring

theorem legDiag_har (ct : ℝ) (e : ℂ) (m : ℕ) :
    ((-1) ^ m * legDiag (-√(1 - ct * ct)) m : ℂ) * (starRingEnd ℂ e) ^ m = ((2 * m).factorial : ℂ) * harP (dirOf ct e) m m := by
  have hw : ((dirOf ct e).x : ℂ) - (dirOf ct e).y * I = (√(1 - ct * ct) : ℝ) * starRingEnd ℂ e := by
    conv_rhs => rw [← Complex.re_add_im (starRingEnd ℂ e)]
    simp [dirOf]; ring
  rw [harP, har_diag, hw]
  generalize √(1 - ct * ct) = u
  induction m with
  | zero => simp [legDiag]
  | succ m ih =>
    have hf : (m.factorial : ℂ) ≠ 0 := by exact_mod_cast m.factorial_ne_zero
    have hm : ((m : ℂ) + 1) ≠ 0 := by exact_mod_cast Nat.succ_ne_zero m
    rw [legDiag, show 2 * (m + 1) = 2 * m + 1 + 1 by ring, Nat.factorial_succ (2 * m + 1), Nat.factorial_succ (2 * m),
      Nat.factorial_succ m]
    push_cast
    rw [pow_succ, pow_succ, pow_succ]
    field_simp at ih ⊢
    linear_combination (u : ℂ) * (2 * (m : ℂ) + 1) * ((m : ℂ) + 1) * (starRingEnd ℂ e) * 2 * ih

theorem legCol_har (ct : ℝ) (e : ℂ) (hct : ct * ct ≤ 1) (he : e.re ^ 2 + e.im ^ 2 = 1) (m k : ℕ) :
    ((-1) ^ m * legCol ct (-√(1 - ct * ct)) m k : ℂ) * (starRingEnd ℂ e) ^ m =
      ((2 * m + k).factorial : ℂ) * harP (dirOf ct e) (m + k) m := by
  have hd := legDiag_har ct e m
  induction k using Nat.twoStepInduction with
  | zero => simpa [legCol] using hd
  | one =>
    rw [legCol, harP, har_offdiag, Nat.factorial_succ]
    rw [harP] at hd
    push_cast
    have hz : (((dirOf ct e).z : ℝ) : ℂ) = ct := rfl
    rw [hz] at hd ⊢
    linear_combination (ct : ℂ) * (2 * m + 1) * hd
  | more k h0 h1 =>
    have h3 := har_three ((dirOf ct e).x - (dirOf ct e).y * I) ((dirOf ct e).x + (dirOf ct e).y * I) (dirOf ct e).z (m + k) m
    have hq : ((dirOf ct e).z : ℂ) ^ 2 + (((dirOf ct e).x : ℂ) - (dirOf ct e).y * I) * ((dirOf ct e).x + (dirOf ct e).y * I) = 1 := by
      have := dirOf_sq ct e hct he
      have h' : ((dirOf ct e).x : ℂ) ^ 2 + ((dirOf ct e).y : ℂ) ^ 2 = 1 - ct * ct := by exact_mod_cast this
      have hz : (((dirOf ct e).z : ℝ) : ℂ) = ct := rfl
      rw [hz]
      linear_combination h' - ((dirOf ct e).y : ℂ) ^ 2 * Complex.I_sq
    rw [hq] at h3
    change _ * harP (dirOf ct e) (m + k + 2) m = _ * harP (dirOf ct e) (m + k + 1) m - _ * harP (dirOf ct e) (m + k) m at h3
    rw [legCol]
    rw [show 2 * m + (k + 2) = 2 * m + k + 1 + 1 by ring, Nat.factorial_succ (2 * m + k + 1), Nat.factorial_succ (2 * m + k)]
    rw [show 2 * m + (k + 1) = 2 * m + k + 1 by ring, Nat.factorial_succ (2 * m + k)] at h1
    rw [show m + (k + 2) = m + k + 2 by ring]
    rw [show m + (k + 1) = m + k + 1 by ring] at h1
    have hz : (((dirOf ct e).z : ℝ) : ℂ) = ct := rfl
    rw [hz] at h3
    have hk : ((m : ℂ) + k + 2 - m) ≠ 0 := by
      rw [show (m : ℂ) + k + 2 - m = ((k + 2 : ℕ) : ℂ) by push_cast; ring]
      exact_mod_cast Nat.succ_ne_zero (k + 1)
    have hk2 : ((k : ℂ) + 2) ≠ 0 := by exact_mod_cast Nat.succ_ne_zero (k + 1)
    push_cast at *
    rw [show (m : ℂ) + k + 2 - m = k + 2 by ring]
    generalize legCol ct (-√(1 - ct * ct)) m k = A at h0 ⊢
    generalize legCol ct (-√(1 - ct * ct)) m (k + 1) = B at h1 ⊢
    field_simp
    linear_combination (2 * ((m : ℂ) + k + 2) - 1) * ct * h1 - ((m : ℂ) + k + 2 + m - 1) * h0 - ((2 * m + k).factorial : ℂ) * (2 * m + k + 1) * h3

/-- The code's product of a Legendre function, a phase and square roots of factorials is a solid harmonic. -/
theorem legendre_reg (ct : ℝ) (e : ℂ) (hct : ct * ct ≤ 1) (he : e.re ^ 2 + e.im ^ 2 = 1) (n m : ℕ) (h : m ≤ n) :
    (starRingEnd ℂ e) ^ m * ((legendre ct n m * sqf (n - m) / sqf (n + m) : ℝ) : ℂ) = reg (dirOf ct e) n m := by
  obtain ⟨k, rfl⟩ : ∃ k, n = m + k := ⟨n - m, by omega⟩
  have hc := legCol_har ct e hct he m k
  have hs := sf_sq ((m + k : ℕ) + m : ℤ)
  rw [reg, nrm, legendre, sqf_eq, sqf_eq, Nat.add_sub_cancel_left]
  rw [show ((m + k : ℕ) : ℤ) - m = k by push_cast; ring]
  rw [show ((m + k + m : ℕ) : ℤ) = (m + k : ℕ) + m by push_cast; ring]
  rw [show (((m + k : ℕ) : ℤ) + m).toNat = 2 * m + k by omega] at hs
  have h0 := sf_ne ((m + k : ℕ) + m : ℤ)
  have h0' : (sf ((m + k : ℕ) + m : ℤ) : ℂ) ≠ 0 := by exact_mod_cast h0
  have hs' : (sf ((m + k : ℕ) + m : ℤ) : ℂ) ^ 2 = ((2 * m + k).factorial : ℂ) := by exact_mod_cast hs
  have hp := neg_one_pow_mul_self m
  rw [Complex.ofReal_div, Complex.ofReal_mul, Complex.ofReal_mul, ← mul_div_assoc, div_eq_iff h0']
  rw [← hs'] at hc
  linear_combination (-1) ^ m * (sf k : ℂ) * hc - (sf k : ℂ) * (starRingEnd ℂ e) ^ m * legCol ct (-√(1 - ct * ct)) m k * hp

/-! ### Evaluation -/

theorem evalAt_form (p : ℕ) (L : Coef) (e : ℂ) (ct : ℝ) (hct : ct * ct ≤ 1) (he : e.re ^ 2 + e.im ^ 2 = 1)
    (rad : ℕ → ℝ) : evalAt p L e ct rad = ∑ n ∈ Finset.range (p + 1), rad n * (form L (dirOf ct e) n).re := by
  have hterm : ∀ n : ℕ, (form L (dirOf ct e) n).re = (L n 0 * (legendre ct n 0 : ℝ)).re +
      ∑ m ∈ Finset.Icc 1 n, 2 * (L n m * e ^ m).re * legendre ct n m * sqf (n - m) / sqf (n + m) := by
    intro n
    rw [form, sum_split, Complex.add_re, Complex.re_sum]
    congr 1
    · have h0 := legendre_reg ct e hct he n 0 (Nat.zero_le _)
      have h00 : sqf n ≠ 0 := by rw [sqf_eq]; exact sf_ne _
      rw [pow_zero, one_mul, Nat.sub_zero, mul_div_assoc, Nat.add_zero, div_self h00, mul_one] at h0
      have h1 : nrm (dirOf ct e) n 0 = (legendre ct n 0 : ℝ) := by rw [h0, reg]; simp
      rw [h1, Complex.conj_ofReal]; simp [ext]
    · refine Finset.sum_congr rfl fun m hm => ?_
      simp only [Finset.mem_Icc] at hm
      have h0 := legendre_reg ct e hct he n m hm.2
      rw [← ext_reg, ← ext_reg, ext_nat, ext_nat, ext_neg _ _ _ (by omega), ext_neg _ _ _ (by omega), map_mul, map_pow, map_neg,
        map_one, Complex.conj_conj, ← h0]
      set A := legendre ct n m * sqf (n - m) / sqf (n + m) with hA
      have e1 : (-1) ^ m * L n m * ((-1) ^ m * starRingEnd ℂ (starRingEnd ℂ e ^ m * (A : ℂ))) +
          starRingEnd ℂ (L n m) * (starRingEnd ℂ e ^ m * (A : ℂ)) =
          (A : ℂ) * (L n m * e ^ m + starRingEnd ℂ (L n m * e ^ m)) := by
        simp only [map_mul, map_pow, Complex.conj_conj, Complex.conj_ofReal]
        linear_combination L n m * e ^ m * (A : ℂ) * neg_one_pow_mul_self m
      rw [e1, Complex.add_conj, Complex.re_ofReal_mul, Complex.ofReal_re, hA]; ring
  rw [evalAt]
  rw [Complex.add_re, Complex.re_sum, Complex.re_sum]
  have e2 : ∑ n ∈ Finset.Icc 1 p, (∑ m ∈ Finset.Icc 1 n,
      ((2 * (L n m * e ^ m).re * rad n * legendre ct n m * sqf (n - m) / sqf (n + m) : ℝ) : ℂ)).re =
      ∑ n ∈ Finset.range (p + 1), rad n * ∑ m ∈ Finset.Icc 1 n, 2 * (L n m * e ^ m).re * legendre ct n m * sqf (n - m) / sqf (n + m) := by
    rw [Finset.sum_range_succ']
    simp only [Finset.Icc_eq_empty (by norm_num : ¬ (1 : ℕ) ≤ 0), Finset.sum_empty, mul_zero, add_zero]
    rw [Finset.range_eq_Ico, Finset.sum_Ico_add' (fun n => rad n * ∑ m ∈ Finset.Icc 1 n, 2 * (L n m * e ^ m).re * legendre ct n m * sqf (n - m) / sqf (n + m)) 0 p 1]
    rw [show Finset.Ico (0 + 1) (p + 1) = Finset.Icc 1 p by ext; simp]
    refine Finset.sum_congr rfl fun n _ => ?_
    rw [Complex.re_sum, Finset.mul_sum]
    refine Finset.sum_congr rfl fun m _ => ?_
    rw [Complex.ofReal_re]; ring
  rw [e2, ← Finset.sum_add_distrib]
  refine Finset.sum_congr rfl fun n _ => ?_
  rw [hterm, mul_add]
  congr 1
  push_cast
  rw [Complex.mul_re, Complex.mul_re]; simp; ring

end
end Dashmm.Harm
