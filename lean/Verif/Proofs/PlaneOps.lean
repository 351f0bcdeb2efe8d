import Verif.Proofs.PlaneWave
import Verif.Proofs.LapOps

/-!
The plane-wave operators of the code in terms of cut waves.
-/

namespace Dashmm.Harm

open Lap
open Complex (I)

noncomputable section

/-- The term of degree `n` and frequency `m` of a wave. -/
def wt (v : Point ℝ) (α : ℝ) (n : ℕ) (m : ℤ) : ℂ := harP v n m * (-I) ^ m * Complex.exp (m * α * I)

theorem wt_out (v : Point ℝ) (α : ℝ) (n : ℕ) (m : ℤ) (h : (n : ℤ) < |m|) : wt v α n m = 0 := by
  rw [wt, harP, har_out _ _ _ n m h]; ring

theorem wt_neg (v : Point ℝ) (α : ℝ) (n : ℕ) (m : ℤ) : wt v α n (-m) = (powM1 m : ℂ) * starRingEnd ℂ (wt v α n m) := by
  have h : starRingEnd ℂ (wt v α n m) = (powM1 m : ℂ) * wt v α n (-m) := wave_pair v n m α
  rw [h, ← mul_assoc]
  have : (powM1 m : ℂ) * powM1 m = 1 := by
    unfold powM1; split_ifs <;> norm_num
  rw [this, one_mul]

theorem wt_pi (v : Point ℝ) (α : ℝ) (n : ℕ) (m : ℤ) : wt v (α + Real.pi) n m = (powM1 m : ℂ) * wt v α n m := by
  have : Complex.exp ((m : ℂ) * ((α + Real.pi : ℝ) : ℂ) * I) = (powM1 m : ℂ) * Complex.exp ((m : ℂ) * α * I) := by
    rw [show (m : ℂ) * ((α + Real.pi : ℝ) : ℂ) * I = (m : ℂ) * (Real.pi * I) + (m : ℂ) * α * I by
      push_cast; ring, Complex.exp_add, Complex.exp_int_mul, Complex.exp_pi_mul_I]
    congr 1
    rcases Int.emod_two_eq_zero_or_one m with h | h
    · rw [powM1, if_neg (by omega), (Int.even_iff.2 (by omega) : Even m).neg_one_zpow]; simp
    · rw [powM1, if_pos (by omega), (Int.odd_iff.2 (by omega) : Odd m).neg_one_zpow]; simp
  rw [wt, wt, this]; ring

theorem cutWave_wt (p f : ℕ) (lam : ℝ) (v : Point ℝ) (α : ℝ) : cutWave p f lam v α =
    ∑ n ∈ Finset.range (p + 1), (lam : ℂ) ^ n * ∑ m ∈ Finset.Icc (-(f : ℤ)) f, wt v α n m := by
  rw [cutWave_eq]
  refine Finset.sum_congr rfl fun n _ => ?_
  congr 1
  have hs : Finset.Icc (-(min n f : ℕ) : ℤ) (min n f : ℕ) ⊆ Finset.Icc (-(f : ℤ)) f := by
    intro m; simp only [Finset.mem_Icc]; omega
  rw [← Finset.sum_subset hs]
  · rfl
  · intro m hm' hm
    refine wt_out _ _ _ _ ?_
    rw [Finset.mem_Icc] at hm hm'; rw [lt_abs]; omega

theorem sum_sym (f : ℕ) (g : ℤ → ℂ) : ∑ m ∈ Finset.Icc (-(f : ℤ)) f, g m = g 0 + ∑ m ∈ Finset.Icc 1 f, (g m + g (-(m : ℤ))) := by
  induction f with
  | zero => simp
  | succ f ih =>
    have e : Finset.Icc (-((f + 1 : ℕ) : ℤ)) ((f + 1 : ℕ) : ℤ) =
        insert (((f + 1 : ℕ)) : ℤ) (insert (-((f + 1 : ℕ) : ℤ)) (Finset.Icc (-(f : ℤ)) f)) := by
      ext m; simp only [Finset.mem_Icc, Finset.mem_insert]; omega
    rw [e, Finset.sum_insert, Finset.sum_insert, ih, Finset.sum_Icc_succ_top (by omega)]
    · ring
    · simp
    · simp only [Finset.mem_insert, Finset.mem_Icc]; omega

theorem cutWave_half (p f : ℕ) (lam : ℝ) (v : Point ℝ) (α : ℝ) : cutWave p f lam v α =
    (∑ n ∈ Finset.range (p + 1), (lam : ℂ) ^ n * wt v α n 0) +
      ∑ m ∈ Finset.Icc 1 f, ∑ n ∈ Finset.range (p + 1), (lam : ℂ) ^ n * (wt v α n m + wt v α n (-(m : ℤ))) := by
  rw [cutWave_wt, Finset.sum_comm, ← Finset.sum_add_distrib]
  refine Finset.sum_congr rfl fun n _ => ?_
  rw [sum_sym, mul_add, Finset.mul_sum]

/-! ### M to I -/

theorem stepSum_split (a p : ℕ) (g : ℕ → ℂ) : stepSum a p g + stepSum (a + 1) p g = ∑ n ∈ Finset.Icc a p, g n := by
  unfold stepSum
  rw [← Finset.sum_filter_add_sum_filter_not (Finset.Icc a p) fun n => n % 2 = a % 2]
  congr 1
  refine Finset.sum_congr ?_ fun _ _ => rfl
  ext n; simp only [Finset.mem_filter, Finset.mem_Icc]; omega

theorem stepSum_sign (a p : ℕ) (g : ℕ → ℂ) : stepSum a p g - stepSum (a + 1) p g =
    (-1) ^ a * ∑ n ∈ Finset.Icc a p, (-1) ^ n * g n := by
  have e : ∀ b, stepSum b p (fun n => (-1) ^ n * g n) = (-1) ^ b * stepSum b p g := by
    intro b
    unfold stepSum
    rw [Finset.mul_sum]
    refine Finset.sum_congr rfl fun n hn => ?_
    obtain ⟨-, hn⟩ := Finset.mem_filter.1 hn
    show (-1 : ℂ) ^ n * g n = _
    rw [neg_one_pow_eq_pow_mod_two (n := n), hn, ← neg_one_pow_eq_pow_mod_two]
  rw [← stepSum_split, e, e, pow_succ, mul_add, ← mul_assoc, ← mul_assoc]
  have : ((-1 : ℂ)) ^ a * (-1) ^ a = 1 := neg_one_pow_mul_self a
  rw [show ((-1 : ℂ)) ^ a * ((-1) ^ a * -1) = -((-1) ^ a * (-1) ^ a) by ring, this]; ring

theorem z1_add_z2 (R : Rule) (p : ℕ) (SH : Coef) (k m : ℕ) :
    z1 R p SH k m + z2 R p SH k m = ∑ n ∈ Finset.Icc m p, zTerm R SH k m n := by
  unfold z1 z2
  split_ifs with h h1
  · subst h; exact stepSum_split 0 p _
  · rw [add_comm]; exact stepSum_split m p _
  · exact stepSum_split m p _

theorem z1_sub_z2 (R : Rule) (p : ℕ) (SH : Coef) (k m : ℕ) :
    z1 R p SH k m - z2 R p SH k m = ∑ n ∈ Finset.Icc m p, (-1) ^ n * zTerm R SH k m n := by
  unfold z1 z2
  split_ifs with h h1
  · subst h
    have := stepSum_sign 0 p (zTerm R SH k 0)
    simpa using this
  · have := stepSum_sign m p (zTerm R SH k m)
    rw [(Nat.odd_iff.2 h1).neg_one_pow] at this
    linear_combination -this
  · have := stepSum_sign m p (zTerm R SH k m)
    rw [(Nat.even_iff.2 (by omega)).neg_one_pow, one_mul] at this
    exact this

theorem sqf_cast (n m : ℕ) (h : m ≤ n) : sqf (n - m) = sf ((n : ℤ) - m) ∧ sqf (n + m) = sf ((n : ℤ) + m) := by
  rw [sqf_eq, sqf_eq]; constructor <;> congr 1; omega

theorem zTerm_reg (R : Rule) (SH : Coef) (v : Point ℝ) (hSH : ∀ n m, m ≤ n → SH n m = reg v n m) (k m n : ℕ) (h : m ≤ n) :
    zTerm R SH k m n = (-1) ^ m * (R.lam k : ℂ) ^ n * harP v n m := by
  obtain ⟨e1, e2⟩ := sqf_cast n m h
  have h1 : (sf ((n : ℤ) - m) : ℂ) ≠ 0 := by exact_mod_cast sf_ne _
  have h2 : (sf ((n : ℤ) + m) : ℂ) ≠ 0 := by exact_mod_cast sf_ne _
  rw [zTerm, hSH n m h, reg, nrm, Rule.lamknm, e1, e2]
  push_cast
  field_simp

theorem ealpha_eq (R : Rule) (k j m : ℕ) : R.ealpha k j m = Complex.exp ((m : ℂ) * R.alpha k j * I) := by
  have := cis_eq ((m : ℝ) * R.alpha k j)
  rw [cis] at this
  unfold Rule.ealpha
  refine this.trans ?_
  push_cast; rfl

/-- The two terms of frequencies `m` and `-m`. -/
theorem pair_term (v : Point ℝ) (α : ℝ) (n m : ℕ) (lam : ℝ) :
    ((2 * (Complex.exp ((m : ℂ) * α * I) * ((-1) ^ m * (lam : ℂ) ^ n * harP v n m)).re : ℝ) : ℂ) * I ^ m =
      (lam : ℂ) ^ n * (wt v α n m + wt v α n (-(m : ℤ))) := by
  have hA : wt v α n m = I ^ m * (Complex.exp ((m : ℂ) * α * I) * ((-1) ^ m * harP v n m)) := by
    rw [wt, zpow_natCast, neg_pow]; push_cast; ring
  have hB : wt v α n (-(m : ℤ)) = I ^ m * starRingEnd ℂ (Complex.exp ((m : ℂ) * α * I) * ((-1) ^ m * harP v n m)) := by
    rw [wt_neg, cpowM1_nat, hA, map_mul, map_pow, Complex.conj_I, neg_pow I, ← mul_assoc, ← mul_assoc, neg_one_pow_mul_self,
      one_mul]
  have hC : (Complex.exp ((m : ℂ) * α * I) * ((-1) ^ m * (lam : ℂ) ^ n * harP v n m)) =
      ((lam ^ n : ℝ) : ℂ) * (Complex.exp ((m : ℂ) * α * I) * ((-1) ^ m * harP v n m)) := by push_cast; ring
  rw [hA, hB, ← mul_add, Complex.add_conj, hC, Complex.re_ofReal_mul]
  push_cast; ring

theorem sum_Icc_zero (p m : ℕ) (g : ℕ → ℂ) (h : ∀ n < m, g n = 0) :
    ∑ n ∈ Finset.Icc m p, g n = ∑ n ∈ Finset.range (p + 1), g n := by
  refine Finset.sum_subset (fun n hn => ?_) fun n hn hn' => ?_
  · rw [Finset.mem_Icc] at hn; rw [Finset.mem_range]; omega
  · rw [Finset.mem_range] at hn; rw [Finset.mem_Icc] at hn'; exact h n (by omega)

theorem freq_sum (v : Point ℝ) (α : ℝ) (p m : ℕ) (lam : ℝ) :
    ((2 * (Complex.exp ((m : ℂ) * α * I) * ∑ n ∈ Finset.Icc m p, (-1) ^ m * (lam : ℂ) ^ n * harP v n m).re : ℝ) : ℂ) * I ^ m =
      ∑ n ∈ Finset.range (p + 1), (lam : ℂ) ^ n * (wt v α n m + wt v α n (-(m : ℤ))) := by
  rw [Finset.mul_sum, Complex.re_sum, Finset.mul_sum, Complex.ofReal_sum, Finset.sum_mul]
  rw [← sum_Icc_zero p m]
  · exact Finset.sum_congr rfl fun n _ => pair_term v α n m lam
  · intro n hn
    rw [wt_out, wt_out] <;> simp <;> omega

theorem waveUp_reg (R : Rule) (p : ℕ) (SH : Coef) (v : Point ℝ) (hSH : ∀ n m, m ≤ n → SH n m = reg v n m) (k j : ℕ) :
    waveUp R p SH k j = ((R.wt k / R.m k : ℝ) : ℂ) * cutWave p (R.f k) (R.lam k) v (R.alpha k j) := by
  rw [waveUp, cutWave_half]
  congr 2
  · rw [z1_add_z2, sum_Icc_zero p 0 _ (by simp)]
    refine Finset.sum_congr rfl fun n _ => ?_
    rw [zTerm_reg R SH v hSH k 0 n (Nat.zero_le _), wt]; simp
  · refine Finset.sum_congr rfl fun m _ => ?_
    rw [z1_add_z2, ealpha_eq, ← freq_sum]
    rw [Finset.sum_congr rfl fun n hn => zTerm_reg R SH v hSH k m n (Finset.mem_Icc.1 hn).1]

theorem waveDn_reg (R : Rule) (p : ℕ) (SH : Coef) (v : Point ℝ) (hSH : ∀ n m, m ≤ n → SH n m = reg v n m) (k j : ℕ) :
    waveDn R p SH k j = ((R.wt k / R.m k : ℝ) : ℂ) * cutWave p (R.f k) (-R.lam k) v (R.alpha k j) := by
  rw [waveDn, cutWave_half]
  have e : ∀ m n, m ≤ n → (-1) ^ n * zTerm R SH k m n = (-1) ^ m * ((-R.lam k : ℝ) : ℂ) ^ n * harP v n m := by
    intro m n h
    rw [zTerm_reg R SH v hSH k m n h]; push_cast; rw [neg_pow (R.lam k : ℂ)]; ring
  congr 2
  · rw [z1_sub_z2, sum_Icc_zero p 0 _ (by simp)]
    refine Finset.sum_congr rfl fun n _ => ?_
    rw [e 0 n (Nat.zero_le _), wt]; simp
  · refine Finset.sum_congr rfl fun m _ => ?_
    rw [z1_sub_z2, ealpha_eq, ← freq_sum]
    rw [Finset.sum_congr rfl fun n hn => e m n (Finset.mem_Icc.1 hn).1]

end
end Dashmm.Harm
