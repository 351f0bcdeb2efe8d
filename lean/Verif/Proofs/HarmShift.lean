import Verif.Proofs.HarmOps
import Mathlib.Algebra.Order.BigOperators.Ring.Finset

/-!
The shifts along the axis.
-/

namespace Dashmm.Harm

open Lap
open Complex (I)

noncomputable section

theorem nrm_out (v : Point ℝ) (n : ℕ) (m : ℤ) (h : (n : ℤ) < |m|) : nrm v n m = 0 := by
  rw [nrm, harP, har_out _ _ _ _ _ h, mul_zero]

/-- A point shifted along the axis. -/
def addz (ρ : ℝ) (v : Point ℝ) : Point ℝ := ⟨v.x, v.y, v.z + ρ⟩

/-- The factor of the code's shifts. -/
def cb (N : ℕ) (m : ℤ) (k : ℕ) : ℝ := sqbinom (N - m.natAbs) k * sqbinom (N + m.natAbs) k

theorem cb_eq (N k : ℕ) (m : ℤ) (h : m.natAbs + k ≤ N) :
    cb N m k * (sf ((N - k : ℕ) - m) * sf ((N - k : ℕ) + m)) = sf (N - m) * sf (N + m) / k.factorial := by
  rw [cb, sqbinom_eq _ _ (by omega), sqbinom_eq _ _ (by omega)]
  have hk : (k.factorial : ℝ) = sf k * sf k := by rw [sf_mul_self, Int.toNat_natCast]
  rw [hk]
  have a := sf_ne k
  rcases le_total 0 m with h0 | h0
  · obtain ⟨m, rfl⟩ := Int.eq_ofNat_of_zero_le h0
    simp only [Int.natAbs_natCast] at *
    rw [show ((N - m : ℕ) : ℤ) = N - m by omega, show ((N + m : ℕ) : ℤ) = N + m by omega,
      show ((N - m - k : ℕ) : ℤ) = (N - k : ℕ) - m by omega, show ((N + m - k : ℕ) : ℤ) = (N - k : ℕ) + m by omega]
    have b := sf_ne ((N - k : ℕ) - m)
    have c := sf_ne ((N - k : ℕ) + m)
    field_simp
  · rw [show ((N - m.natAbs : ℕ) : ℤ) = N + m by omega, show ((N + m.natAbs : ℕ) : ℤ) = N - m by omega,
      show ((N - m.natAbs - k : ℕ) : ℤ) = (N - k : ℕ) + m by omega,
      show ((N + m.natAbs - k : ℕ) : ℤ) = (N - k : ℕ) - m by omega]
    have b := sf_ne ((N - k : ℕ) - m)
    have c := sf_ne ((N - k : ℕ) + m)
    field_simp

theorem nrm_addz (ρ : ℝ) (v : Point ℝ) (N : ℕ) (m : ℤ) (hm : |m| ≤ N) :
    nrm (addz ρ v) N m = ∑ k ∈ Finset.range (N + 1), ((ρ ^ k * cb N m k : ℝ) : ℂ) * nrm v (N - k) m := by
  have h := har_shift (v.x - v.y * I) (v.x + v.y * I) v.z ρ N m
  have hz : (((addz ρ v).z : ℝ) : ℂ) = v.z + ρ := by simp [addz]
  rw [nrm, harP, hz]
  change _ * har (v.x - v.y * I) (v.x + v.y * I) (v.z + ρ) N m = _
  rw [h, Finset.mul_sum]
  refine Finset.sum_congr rfl fun k hk => ?_
  have hk' : k ≤ N := by simpa [Nat.lt_succ_iff] using hk
  by_cases hmk : m.natAbs + k ≤ N
  · have e := cb_eq N k m hmk
    have e' : (cb N m k : ℂ) * (sf ((N - k : ℕ) - m) * sf ((N - k : ℕ) + m)) = sf (N - m) * sf (N + m) / k.factorial := by
      exact_mod_cast e
    rw [nrm, harP]
    push_cast
    linear_combination -(ρ : ℂ) ^ k * har (v.x - v.y * I) (v.x + v.y * I) v.z (N - k) m * e'
  · have : ((N - k : ℕ) : ℤ) < |m| := by rw [lt_abs]; omega
    rw [nrm_out _ _ _ this, har_out _ _ _ _ _ this]; simp

theorem sqbinom_zero (n : ℕ) : sqbinom n 0 = 1 := by
  rw [sqbinom, binom_eq n 0 (Nat.zero_le _)]; simp

theorem cb_zero (N : ℕ) (m : ℤ) : cb N m 0 = 1 := by rw [cb, sqbinom_zero, sqbinom_zero, one_mul]

theorem sum_Icc_one (f : ℕ → ℂ) (n : ℕ) : f 0 + ∑ k ∈ Finset.Icc 1 n, f k = ∑ k ∈ Finset.range (n + 1), f k := by
  rw [Finset.sum_range_succ', add_comm]
  congr 1
  rw [Finset.range_eq_Ico, Finset.sum_Ico_add' f 0 n 1]
  congr 1

/-- The shift of `lap_m_to_m` is exact. -/
theorem shiftM_reg (ρ : ℝ) (v : Point ℝ) (n m : ℕ) (h : m ≤ n) : shiftM ρ (reg v) n m = reg (addz ρ v) n m := by
  have e0 := sum_Icc_one (fun k => reg v (n - k) m * ((ρ ^ k * sqbinom (n - m) k * sqbinom (n + m) k : ℝ) : ℂ)) (n - m)
  simp only [Nat.sub_zero, pow_zero, sqbinom_zero, mul_one, Complex.ofReal_one] at e0
  rw [shiftM, e0, reg, nrm_addz ρ v n m (by rw [abs_le]; omega), Finset.mul_sum]
  have e1 : ∑ k ∈ Finset.range (n + 1), (-1 : ℂ) ^ m * (((ρ ^ k * cb n m k : ℝ) : ℂ) * nrm v (n - k) m) =
      ∑ k ∈ Finset.range (n - m + 1), (-1 : ℂ) ^ m * (((ρ ^ k * cb n m k : ℝ) : ℂ) * nrm v (n - k) m) := by
    symm
    apply Finset.sum_subset
    · intro k; simp only [Finset.mem_range]; omega
    · intro k hk hk'
      simp only [Finset.mem_range] at hk hk'
      rw [nrm_out v (n - k) m (by rw [lt_abs]; omega)]; simp
  rw [e1]
  refine Finset.sum_congr rfl fun k hk => ?_
  rw [reg, cb, Int.natAbs_natCast]
  push_cast; ring

theorem ext_shiftL (p : ℕ) (ρ : ℝ) (L : Coef) (n : ℕ) (m : ℤ) (hm : |m| ≤ n) : ext (shiftL p ρ L) n m =
    ∑ k ∈ Finset.range (p - n + 1), ext L (n + k) m * ((ρ ^ k * cb (n + k) m k : ℝ) : ℂ) := by
  have hs : ∀ m' : ℕ, m' ≤ n → shiftL p ρ L n m' =
      ∑ k ∈ Finset.range (p - n + 1), L (n + k) m' * ((ρ ^ k * cb (n + k) m' k : ℝ) : ℂ) := by
    intro m' _
    have e0 := sum_Icc_one (fun k => L (n + k) m' * ((ρ ^ k * sqbinom (n + k - m') k * sqbinom (n + k + m') k : ℝ) : ℂ)) (p - n)
    simp only [Nat.add_zero, pow_zero, sqbinom_zero, mul_one, Complex.ofReal_one] at e0
    rw [shiftL, e0]
    refine Finset.sum_congr rfl fun k _ => ?_
    rw [cb, Int.natAbs_natCast]; push_cast; ring
  rcases lt_or_ge m 0 with h0 | h0
  · obtain ⟨k, hk⟩ := Int.eq_ofNat_of_zero_le (by omega : 0 ≤ -m)
    obtain rfl : m = -(k : ℤ) := by omega
    rw [abs_le] at hm
    rw [ext_neg _ _ _ (by omega), hs k (by omega), map_sum]
    refine Finset.sum_congr rfl fun i _ => ?_
    rw [ext_neg _ _ _ (by omega), map_mul, Complex.conj_ofReal, cb, cb, Int.natAbs_neg]
  · obtain ⟨k, rfl⟩ := Int.eq_ofNat_of_zero_le h0
    rw [abs_le] at hm
    rw [ext_nat, hs k (by omega), Finset.mul_sum]
    refine Finset.sum_congr rfl fun i _ => ?_
    rw [ext_nat]; ring

/-- The shift of `lap_l_to_l` is exact. -/
theorem form_shiftL (p : ℕ) (ρ : ℝ) (L : Coef) (v : Point ℝ) :
    ∑ n ∈ Finset.range (p + 1), form (shiftL p ρ L) v n = ∑ n ∈ Finset.range (p + 1), form L (addz ρ v) n := by
  have e1 : ∀ n ∈ Finset.range (p + 1), form (shiftL p ρ L) v n =
      ∑ m ∈ Finset.Icc (-(p : ℤ)) p, ∑ k ∈ Finset.range (p + 1 - n),
        ext L (n + k) m * ((ρ ^ k * cb (n + k) m k : ℝ) : ℂ) * starRingEnd ℂ (nrm v n m) := by
    intro n hn
    have hn' : n ≤ p := by simpa [Nat.lt_succ_iff] using hn
    rw [sum_window _ n p hn']
    · refine Finset.sum_congr rfl fun m hm => ?_
      rw [ext_shiftL p ρ L n m (by rw [abs_le]; simpa using hm), Finset.sum_mul, show p - n + 1 = p + 1 - n by omega]
    · intro m hm
      refine Finset.sum_eq_zero fun k _ => ?_
      rw [nrm_out v n m hm]; simp
  have e2 : ∀ n ∈ Finset.range (p + 1), form L (addz ρ v) n =
      ∑ m ∈ Finset.Icc (-(p : ℤ)) p, ∑ k ∈ Finset.range (n + 1),
        ext L n m * ((ρ ^ k * cb n m k : ℝ) : ℂ) * starRingEnd ℂ (nrm v (n - k) m) := by
    intro n hn
    have hn' : n ≤ p := by simpa [Nat.lt_succ_iff] using hn
    rw [sum_window _ n p hn']
    · refine Finset.sum_congr rfl fun m hm => ?_
      rw [nrm_addz ρ v n m (by rw [abs_le]; simpa using hm), map_sum, Finset.mul_sum]
      refine Finset.sum_congr rfl fun k _ => ?_
      rw [map_mul, Complex.conj_ofReal]; ring
    · intro m hm
      refine Finset.sum_eq_zero fun k _ => ?_
      rw [nrm_out v (n - k) m (by rw [lt_abs] at *; omega)]; simp
  rw [Finset.sum_congr rfl e1, Finset.sum_congr rfl e2, Finset.sum_comm, Finset.sum_comm (s := Finset.range (p + 1))]
  refine Finset.sum_congr rfl fun m _ => ?_
  rw [← Finset.sum_range_diag_flip (p + 1) (fun n k => ext L (n + k) m * ((ρ ^ k * cb (n + k) m k : ℝ) : ℂ) * starRingEnd ℂ (nrm v n m))]
  refine Finset.sum_congr rfl fun N _ => ?_
  rw [← Finset.sum_range_reflect]
  refine Finset.sum_congr rfl fun k hk => ?_
  simp only [Finset.mem_range] at hk
  rw [show N + 1 - 1 - k = N - k by omega, show N - k + (N - (N - k)) = N by omega, show N - (N - k) = k by omega]

/-! ### M to L -/

/-- The interaction of degree `n` in `u` and `j` in `v`. -/
def bi (u v : Point ℝ) (n j : ℕ) : ℂ :=
  ((n + j).factorial : ℂ) * ∑ m ∈ Finset.Icc (-(n : ℤ)) n, harP u n m * harP v j (-m)

theorem sqb_prod (n j : ℕ) (k : ℤ) (h1 : |k| ≤ n) (h2 : |k| ≤ j) :
    sqbinom (n + j) (n - k.natAbs) * sqbinom (n + j) (n + k.natAbs) * (sf (n - k) * sf (n + k)) * (sf (j - k) * sf (j + k)) =
      ((n + j).factorial : ℝ) := by
  rw [abs_le] at h1 h2
  rw [sqbinom_eq _ _ (by omega), sqbinom_eq _ _ (by omega)]
  have hf : ((n + j).factorial : ℝ) = sf (n + j : ℕ) * sf (n + j : ℕ) := by rw [sf_mul_self, Int.toNat_natCast]
  rw [hf]
  rcases le_total 0 k with h0 | h0
  · rw [show ((n - k.natAbs : ℕ) : ℤ) = n - k by omega, show ((n + k.natAbs : ℕ) : ℤ) = n + k by omega,
      show ((n + j - (n - k.natAbs) : ℕ) : ℤ) = j + k by omega, show ((n + j - (n + k.natAbs) : ℕ) : ℤ) = j - k by omega]
    have := sf_ne (n - k); have := sf_ne (n + k); have := sf_ne (j - k); have := sf_ne (j + k)
    field_simp
  · rw [show ((n - k.natAbs : ℕ) : ℤ) = n + k by omega, show ((n + k.natAbs : ℕ) : ℤ) = n - k by omega,
      show ((n + j - (n - k.natAbs) : ℕ) : ℤ) = j - k by omega, show ((n + j - (n + k.natAbs) : ℕ) : ℤ) = j + k by omega]
    have := sf_ne (n - k); have := sf_ne (n + k); have := sf_ne (j - k); have := sf_ne (j + k)
    field_simp

/-- Both z-translations, with the sign as a parameter. -/
def mToLg (p : ℕ) (scale : ℝ) (M : Coef) (sg : ℕ → ℕ → ℕ → ℝ) (rho : ℕ → ℝ) : Coef := fun j k =>
  (∑ n ∈ Finset.Icc k p,
    M n k * ((sg n j k * rho (j + n) * sqbinom (n + j) (n - k) * sqbinom (n + j) (n + k) : ℝ) : ℂ)) * (scale : ℂ)

theorem ext_mToLg (p : ℕ) (scale : ℝ) (M : Coef) (sg : ℕ → ℕ → ℕ → ℝ) (rho : ℕ → ℝ) (j : ℕ) (k : ℤ) :
    ext (mToLg p scale M sg rho) j k = (∑ n ∈ Finset.Icc k.natAbs p, ext M n k *
      ((sg n j k.natAbs * rho (j + n) * sqbinom (n + j) (n - k.natAbs) * sqbinom (n + j) (n + k.natAbs) : ℝ) : ℂ)) * (scale : ℂ) := by
  rcases lt_or_ge k 0 with h0 | h0
  · obtain ⟨i, hi⟩ := Int.eq_ofNat_of_zero_le (by omega : 0 ≤ -k)
    obtain rfl : k = -(i : ℤ) := by omega
    rw [ext_neg _ _ _ (by omega), mToLg, map_mul, map_sum, Complex.conj_ofReal, Int.natAbs_neg, Int.natAbs_natCast]
    congr 1
    refine Finset.sum_congr rfl fun n _ => ?_
    rw [ext_neg _ _ _ (by omega), map_mul, Complex.conj_ofReal]
  · obtain ⟨i, rfl⟩ := Int.eq_ofNat_of_zero_le h0
    rw [ext_nat, mToLg, Int.natAbs_natCast, ← mul_assoc, Finset.mul_sum]
    congr 1
    refine Finset.sum_congr rfl fun n _ => ?_
    rw [ext_nat]; ring

theorem mToLg_proper (p : ℕ) (scale : ℝ) (M : Coef) (hM : Proper M) (sg : ℕ → ℕ → ℕ → ℝ) (rho : ℕ → ℝ) :
    Proper (mToLg p scale M sg rho) := by
  intro j
  rw [mToLg, ← Complex.conj_eq_iff_im, map_mul, map_sum, Complex.conj_ofReal]
  congr 1
  refine Finset.sum_congr rfl fun n _ => ?_
  rw [map_mul, Complex.conj_ofReal, Complex.conj_eq_iff_im.2 (hM n)]

theorem form_mToLg (p : ℕ) (scale : ℝ) (u v : Point ℝ) (sg : ℕ → ℕ → ℕ → ℝ) (tau : ℕ → ℕ → ℝ)
    (hsg : ∀ n j k, sg n j k = tau n j * powM1 k) (rho : ℕ → ℝ) (j : ℕ) :
    form (mToLg p scale (reg u) sg rho) v j =
      (scale : ℂ) * ∑ n ∈ Finset.range (p + 1), ((tau n j * rho (j + n) : ℝ) : ℂ) * bi u v n j := by
  have e1 : ∀ k ∈ Finset.Icc (-(j : ℤ)) j, ext (mToLg p scale (reg u) sg rho) j k * starRingEnd ℂ (nrm v j k) =
      ∑ n ∈ Finset.range (p + 1), (scale : ℂ) * (((tau n j * rho (j + n) : ℝ) : ℂ) * (((n + j).factorial : ℂ) *
        (harP u n k * harP v j (-k)))) := by
    intro k hk
    simp only [Finset.mem_Icc] at hk
    have e2 : (∑ n ∈ Finset.Icc k.natAbs p, ext (reg u) n k *
        ((sg n j k.natAbs * rho (j + n) * sqbinom (n + j) (n - k.natAbs) * sqbinom (n + j) (n + k.natAbs) : ℝ) : ℂ)) =
        ∑ n ∈ Finset.range (p + 1), ext (reg u) n k *
        ((sg n j k.natAbs * rho (j + n) * sqbinom (n + j) (n - k.natAbs) * sqbinom (n + j) (n + k.natAbs) : ℝ) : ℂ) := by
      apply Finset.sum_subset
      · intro n; simp only [Finset.mem_Icc, Finset.mem_range]; omega
      · intro n hn hn'
        simp only [Finset.mem_Icc, Finset.mem_range] at hn hn'
        rw [ext_reg, nrm_out u n k (by rw [lt_abs]; omega), zero_mul]
    rw [ext_mToLg, e2, mul_comm _ (scale : ℂ), mul_assoc, Finset.sum_mul, Finset.mul_sum]
    refine Finset.sum_congr rfl fun n _ => ?_
    congr 1
    rw [ext_reg]
    by_cases hkn : |k| ≤ n
    · have hq := sqb_prod n j k hkn (by rw [abs_le]; omega)
      have hq' : (sqbinom (n + j) (n - k.natAbs) : ℂ) * sqbinom (n + j) (n + k.natAbs) * (sf (n - k) * sf (n + k)) * (sf (j - k) * sf (j + k)) =
        ((n + j).factorial : ℂ) := by exact_mod_cast hq
      have hk1 : (powM1 (k.natAbs : ℤ) : ℂ) * (powM1 k : ℂ) = 1 := by
        rw [powM1_eq (k.natAbs : ℤ) k (by omega)]; exact_mod_cast powM1_sq k
      rw [nrm_conj, hsg, nrm, nrm, show (j : ℤ) - -k = j + k by ring, show (j : ℤ) + -k = j - k by ring, ← hq']
      simp only [Complex.ofReal_mul]
      linear_combination (sf (n - k) * sf (n + k) * harP u n k * tau n j * rho (j + n) * sqbinom (n + j) (n - k.natAbs) *
        sqbinom (n + j) (n + k.natAbs) * sf (j + k) * sf (j - k) * harP v j (-k) : ℂ) * hk1
    · rw [not_le] at hkn
      rw [nrm_out u n k hkn, harP, har_out _ _ _ _ _ hkn]; simp
  rw [form, Finset.sum_congr rfl e1, Finset.sum_comm, Finset.mul_sum]
  refine Finset.sum_congr rfl fun n _ => ?_
  rw [← Finset.mul_sum, ← Finset.mul_sum, ← Finset.mul_sum, bi]
  congr 3
  rcases le_total j n with h | h
  · symm
    apply sum_window _ j n h
    intro m hm
    have : harP v j (-m) = 0 := by rw [harP, har_out]; rw [abs_neg]; exact hm
    rw [this, mul_zero]
  · apply sum_window _ n j h
    intro m hm
    have : harP u n m = 0 := by rw [harP, har_out]; exact hm
    rw [this, zero_mul]

theorem bi_sum (u v : Point ℝ) (l : ℕ) :
    ∑ q ∈ Finset.antidiagonal l, (-1 : ℂ) ^ q.1 * bi u v q.1 q.2 = nrm (v.sub u) l 0 := by
  have h := har_add (-1 * (u.x - u.y * I)) (-1 * (u.x + u.y * I)) (-1 * u.z) (v.x - v.y * I) (v.x + v.y * I) v.z l
  rw [nrm_mid, harP]
  have e : har (-1 * (u.x - u.y * I) + (v.x - v.y * I)) (-1 * (u.x + u.y * I) + (v.x + v.y * I)) (-1 * u.z + v.z) l 0 =
      har ((v.sub u).x - (v.sub u).y * I) ((v.sub u).x + (v.sub u).y * I) (v.sub u).z l 0 := by
    congr 1 <;> simp only [Point.sub] <;> push_cast <;> ring
  rw [← e, h, Finset.mul_sum]
  refine Finset.sum_congr rfl fun q hq => ?_
  rw [Finset.mem_antidiagonal] at hq
  rw [bi, hq, ← mul_assoc, mul_comm ((-1 : ℂ) ^ q.1), mul_assoc, Finset.mul_sum]
  congr 1
  refine Finset.sum_congr rfl fun m _ => ?_
  rw [har_homog, harP, harP]; ring

theorem fact_mul_le (n : ℕ) (m : ℤ) (h : |m| ≤ n) : (n.factorial : ℝ) ^ 2 ≤ (sf (n - m) * sf (n + m)) ^ 2 := by
  rw [mul_pow, sf_sq, sf_sq]
  have key : ∀ k : ℕ, k ≤ n → n.factorial ^ 2 ≤ (n - k).factorial * (n + k).factorial := by
    intro k hk
    have h1 := Nat.choose_le_centralBinom (n + k) n
    rw [Nat.centralBinom_eq_two_mul_choose] at h1
    have h2 : (2 * n).choose n * n.factorial * n.factorial = (2 * n).factorial := by
      have := Nat.choose_mul_factorial_mul_factorial (show n ≤ 2 * n by omega)
      rwa [show 2 * n - n = n by omega] at this
    have h3 : (2 * n).choose (n + k) * (n + k).factorial * (n - k).factorial = (2 * n).factorial := by
      have := Nat.choose_mul_factorial_mul_factorial (show n + k ≤ 2 * n by omega)
      rwa [show 2 * n - (n + k) = n - k by omega] at this
    have hpos : 0 < (2 * n).choose (n + k) := Nat.choose_pos (by omega)
    by_contra hlt
    push Not at hlt
    have : (2 * n).factorial < (2 * n).factorial := by
      calc (2 * n).factorial = (2 * n).choose (n + k) * ((n - k).factorial * (n + k).factorial) := by rw [← h3]; ring
        _ < (2 * n).choose (n + k) * n.factorial ^ 2 := by exact Nat.mul_lt_mul_of_pos_left hlt hpos
        _ ≤ (2 * n).choose n * n.factorial ^ 2 := Nat.mul_le_mul_right _ h1
        _ = (2 * n).factorial := by rw [← h2]; ring
    omega
  rw [abs_le] at h
  rcases le_total 0 m with h0 | h0
  · have := key m.natAbs (by omega)
    rw [show ((n : ℤ) - m).toNat = n - m.natAbs by omega, show ((n : ℤ) + m).toNat = n + m.natAbs by omega]
    exact_mod_cast this
  · have := key m.natAbs (by omega)
    rw [show ((n : ℤ) - m).toNat = n + m.natAbs by omega, show ((n : ℤ) + m).toNat = n - m.natAbs by omega, mul_comm ((n + m.natAbs).factorial : ℝ)]
    exact_mod_cast this

theorem harP_sq_sum (u : Point ℝ) (n : ℕ) :
    ∑ m ∈ Finset.Icc (-(n : ℤ)) n, ‖harP u n m‖ ^ 2 ≤ (u.norm ^ n / n.factorial) ^ 2 := by
  have hf : (0 : ℝ) < (n.factorial : ℝ) ^ 2 := by positivity
  rw [div_pow, le_div_iff₀ hf, Finset.sum_mul]
  refine le_trans (Finset.sum_le_sum fun m hm => ?_) (nrm_sq_sum u n)
  rw [nrm, norm_mul, mul_pow, Complex.norm_real, Real.norm_eq_abs, sq_abs, mul_comm]
  exact mul_le_mul_of_nonneg_right (fact_mul_le n m (by rw [abs_le]; simpa using hm)) (sq_nonneg _)

theorem bi_norm_le (u v : Point ℝ) (n j : ℕ) :
    ‖bi u v n j‖ ≤ ((n + j).choose n : ℝ) * (u.norm ^ n * v.norm ^ j) := by
  have hu := norm_nonneg' u
  have hv := norm_nonneg' v
  have h1 : (∑ m ∈ Finset.Icc (-(n : ℤ)) n, ‖harP u n m‖ * ‖harP v j (-m)‖) ^ 2 ≤
      (u.norm ^ n / n.factorial) ^ 2 * (v.norm ^ j / j.factorial) ^ 2 := by
    refine (Finset.sum_mul_sq_le_sq_mul_sq _ _ _).trans ?_
    refine mul_le_mul (harP_sq_sum u n) ?_ (Finset.sum_nonneg fun _ _ => sq_nonneg _) (sq_nonneg _)
    refine le_trans ?_ (harP_sq_sum v j)
    have e : ∑ m ∈ Finset.Icc (-(j : ℤ)) j, ‖harP v j m‖ ^ 2 = ∑ m ∈ Finset.Icc (-(j : ℤ)) j, ‖harP v j (-m)‖ ^ 2 := by
      refine Finset.sum_nbij' (fun m => -m) (fun m => -m) ?_ ?_ ?_ ?_ ?_
      · intro m hm; simp only [Finset.mem_Icc] at *; omega
      · intro m hm; simp only [Finset.mem_Icc] at *; omega
      · intro m _; simp
      · intro m _; simp
      · intro m _; simp
    rw [e]
    calc ∑ m ∈ Finset.Icc (-(n : ℤ)) n, ‖harP v j (-m)‖ ^ 2
        = ∑ m ∈ Finset.Icc (-(n : ℤ)) n ∩ Finset.Icc (-(j : ℤ)) j, ‖harP v j (-m)‖ ^ 2 := by
          symm
          apply Finset.sum_subset Finset.inter_subset_left
          intro m hm hm'
          simp only [Finset.mem_inter, Finset.mem_Icc] at hm hm'
          rw [harP, har_out _ _ _ _ _ (by rw [abs_neg, lt_abs]; omega)]; simp
      _ ≤ _ := Finset.sum_le_sum_of_subset_of_nonneg Finset.inter_subset_right fun _ _ _ => sq_nonneg _
  rw [← mul_pow] at h1
  have h2 := abs_le_of_sq_le_sq h1 (by positivity)
  have h3 : ‖∑ m ∈ Finset.Icc (-(n : ℤ)) n, harP u n m * harP v j (-m)‖ ≤ u.norm ^ n / n.factorial * (v.norm ^ j / j.factorial) := by
    refine (norm_sum_le _ _).trans ?_
    simp only [norm_mul]
    exact (le_abs_self _).trans h2
  rw [bi, norm_mul, Complex.norm_natCast]
  have hc : ((n + j).choose n : ℝ) * n.factorial * j.factorial = (n + j).factorial := by
    rw [Nat.choose_symm_add]; exact_mod_cast Nat.add_choose_mul_factorial_mul_factorial n j
  calc ((n + j).factorial : ℝ) * _ ≤ ((n + j).factorial : ℝ) * (u.norm ^ n / n.factorial * (v.norm ^ j / j.factorial)) :=
        mul_le_mul_of_nonneg_left h3 (by positivity)
    _ = _ := by rw [← hc]; field_simp

end
end Dashmm.Harm
