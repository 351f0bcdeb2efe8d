import Verif.Model.HelmShift
import Verif.Proofs.YukSize
import Verif.Proofs.HelmVal

/-!
# The tables and rotations of the translations of the Helmholtz kernel
-/

namespace Dashmm.Helm

open Finset Harm Lap Bessel Wave Yuk
open scoped Nat

noncomputable section

theorem zpow_powM1 (m : ℤ) : (-1 : ℝ) ^ m = powM1 m := by
  rcases Int.even_or_odd m with h | h
  · rw [h.neg_one_zpow, powM1, if_neg (by rw [Int.even_iff] at h; omega)]
  · rw [h.neg_one_zpow, powM1, if_pos (by rw [Int.odd_iff] at h; omega)]

theorem fact_real (n : ℕ) : fact n = (n ! : ℝ) := by rw [Helm.fact_eq, Yuk.fact_eq]

/-- The factor of the matrices. -/
def hscale (n : ℕ) (mp m : ℤ) : ℝ := √(fact (n - mp.natAbs) * fact (n + m.natAbs) / fact (n + mp.natAbs) / fact (n - m.natAbs))

theorem hscale_nat (n mp : ℕ) (m : ℤ) : hscale n mp m = Yukawa.dscale n mp m := by
  rw [hscale, Yukawa.dscale]; simp only [Helm.fact_eq, Int.natAbs_natCast]

theorem hscale_abs (n : ℕ) (mp m : ℤ) : hscale n mp m = Yukawa.dscale n mp.natAbs m := by
  rw [hscale, Yukawa.dscale]; simp only [Helm.fact_eq]

theorem hmat_nat (d : DMat) (n mp : ℕ) (m : ℤ) : hmat d n mp m = d n mp m * Yukawa.dscale n mp m := by
  rw [← hscale_nat, hmat, if_pos (by omega)]; rfl

/-- All the entries of the matrix are those of the rotation. -/
theorem hmat_wig (d : DMat) (c s : ℝ) (hd : IsWig d c s) (n : ℕ) (mp m : ℤ) (hp : |mp| ≤ n) (hm : |m| ≤ n) :
    hmat d n mp m = wig c s n mp m * hscale n mp m := by
  rw [hmat]
  congr 1
  have tr : ∀ a b : ℤ, |a| ≤ n → |b| ≤ n → wig c s n a b = powM1 (a + b) * wig c s n b a := by
    intro a b ha hb
    rw [wig_transpose c s n a b ha hb, wig_parity _ _ _ _ _ (by rw [abs_le] at hb; omega), add_comm]
  have hp' := abs_le.1 hp
  have hm' := abs_le.1 hm
  split_ifs with h1 h2
  · rw [hd n mp.toNat m (by omega) hm, Int.toNat_of_nonneg h1]
  · rw [hd n (-m).toNat (-mp) (by omega) (by rwa [abs_neg]), Int.toNat_of_nonneg (by omega), tr _ _ (by rwa [abs_neg]) (by rwa [abs_neg]),
      wig_neg c s n mp m hp, ← mul_assoc, ← neg_add, powM1_neg, add_comm m mp, powM1_sq, one_mul]
  · rw [hd n m.toNat mp (by omega) hp, Int.toNat_of_nonneg (by omega), tr mp m hp hm, zpow_powM1]
    congr 1
    exact powM1_eq _ _ (by omega)

/-! ### Arrays for both signs of the order -/

/-- The real part of an array: that of the real part of its field. -/
def prt (L : LCoef) : Coef := fun n m => (L n m + starRingEnd ℂ (L n (-(m : ℤ)))) / 2

theorem prt_proper (L : LCoef) : Proper (prt L) := by
  intro n
  rw [prt, Nat.cast_zero, neg_zero, Complex.add_conj]
  simp

theorem cis_pow (a : ℝ) (m : ℕ) : powE (Real.cos a + Real.sin a * Complex.I) (m : ℤ) = ((Real.cos a : ℂ) + (Real.sin a : ℂ) * Complex.I) ^ m := by
  rw [powE, if_pos (by omega), Int.natAbs_natCast]

theorem powE_neg (e : ℂ) (m : ℕ) : starRingEnd ℂ (powE e (-(m : ℤ))) = powE e (m : ℤ) := by
  rcases Nat.eq_zero_or_pos m with rfl | h
  · simp [powE]
  · rw [powE, powE, if_neg (by omega), if_pos (by omega), Int.natAbs_neg, Complex.conj_conj]

theorem prt_rotateZ (L : LCoef) (a : ℝ) (n m : ℕ) : prt (rotateZL L a) n m = rotateZ (prt L) a n m := by
  rw [prt, rotateZL, rotateZL, map_mul, powE_neg, cis_pow, rotateZ, prt]; ring

/-- The sum in the rotation about the y-axis, over all the orders. -/
theorem rotateYL_sum (L : LCoef) (d : HMat) (n : ℕ) (mp : ℤ) :
    (L n 0 * (d n mp 0 : ℂ) +
    ∑ m ∈ Finset.Icc 1 n, (L n (m : ℤ) * (-1) ^ m * (d n mp (m : ℤ) : ℂ) + L n (-(m : ℤ)) * (d n mp (-(m : ℤ)) : ℂ))) =
      ∑ m ∈ Icc (-(n : ℤ)) n, (if 0 ≤ m then (-1) ^ m.toNat else 1) * L n m * (d n mp m : ℂ) := by
  rw [Harm.sum_split]
  congr 1
  · simp
  · refine sum_congr rfl fun m hm => ?_
    rw [mem_Icc] at hm
    rw [if_pos (by omega), if_neg (by omega), Int.toNat_natCast]; ring

theorem prt_rotateY (L : LCoef) (d : DMat) (c s : ℝ) (hd : IsWig d c s) (n mp : ℕ) (hp : mp ≤ n) :
    prt (rotateYL L (hmat d)) n mp = rotateY (prt L) (fun n mp m => hmat d n mp m) n mp := by
  have hp1 : |(mp : ℤ)| ≤ n := by rw [Nat.abs_cast]; omega
  have hp2 : |-(mp : ℤ)| ≤ n := by rwa [abs_neg]
  have key : starRingEnd ℂ (rotateYL L (hmat d) n (-(mp : ℤ))) =
      (starRingEnd ℂ (L n 0) * (hmat d n mp 0 : ℂ) +
        ∑ m ∈ Icc 1 n, (starRingEnd ℂ (L n (-(m : ℤ))) * (-1) ^ m * (hmat d n mp (m : ℤ) : ℂ) + starRingEnd ℂ (L n (m : ℤ)) * (hmat d n mp (-(m : ℤ)) : ℂ))) *
        (-1) ^ mp := by
    have hsym : ∀ m : ℤ, |m| ≤ n → hmat d n (-(mp : ℤ)) m = powM1 (mp + m) * hmat d n mp (-m) := by
      intro m hm
      rw [hmat_wig d c s hd n _ m hp2 hm, hmat_wig d c s hd n mp (-m) hp1 (by rwa [abs_neg]), hscale_abs, hscale_abs, Int.natAbs_neg]
      have := wig_neg c s n mp (-m) hp1
      rw [neg_neg] at this
      rw [this, powM1_eq ((mp : ℤ) + -m) (mp + m) (by omega), Yukawa.dscale, Yukawa.dscale, Int.natAbs_neg]; ring
    have e0 := hsym 0 (by simp)
    rw [neg_zero, add_zero, powM1_nat] at e0
    rw [rotateYL]
    have body : starRingEnd ℂ (L n 0 * (hmat d n (-(mp : ℤ)) 0 : ℂ) +
        ∑ m ∈ Icc 1 n, (L n (m : ℤ) * (-1) ^ m * (hmat d n (-(mp : ℤ)) (m : ℤ) : ℂ) + L n (-(m : ℤ)) * (hmat d n (-(mp : ℤ)) (-(m : ℤ)) : ℂ))) =
        (starRingEnd ℂ (L n 0) * (hmat d n mp 0 : ℂ) +
        ∑ m ∈ Icc 1 n, (starRingEnd ℂ (L n (-(m : ℤ))) * (-1) ^ m * (hmat d n mp (m : ℤ) : ℂ) + starRingEnd ℂ (L n (m : ℤ)) * (hmat d n mp (-(m : ℤ)) : ℂ))) *
        (-1) ^ mp := by
      rw [map_add, map_sum, add_mul, sum_mul, map_mul, Complex.conj_ofReal, e0]
      congr 1
      · push_cast; ring
      · refine sum_congr rfl fun m hm => ?_
        rw [mem_Icc] at hm
        have e1 := hsym m (by rw [Nat.abs_cast]; omega)
        have e2 := hsym (-(m : ℤ)) (by rw [abs_neg, Nat.abs_cast]; omega)
        rw [powM1_add, powM1_nat, powM1_nat] at e1
        rw [powM1_add, powM1_neg, powM1_nat, powM1_nat, neg_neg] at e2
        rw [map_add, map_mul, map_mul, map_mul, Complex.conj_ofReal, Complex.conj_ofReal, e1, e2, map_pow, map_neg, map_one]
        have hm2 : ((-1 : ℂ) ^ m) * (-1) ^ m = 1 := by rw [← mul_pow]; norm_num
        push_cast
        linear_combination (starRingEnd ℂ (L n (m : ℤ)) * (-1) ^ mp * (hmat d n mp (-(m : ℤ)) : ℂ)) * hm2
    rcases Nat.eq_zero_or_pos mp with rfl | h
    · rw [if_neg (by simp), map_mul, body]
      simp
    · rw [if_pos (by omega), body]
  rw [prt, key, rotateYL]
  rw [if_neg (by omega), Int.toNat_natCast, rotateY, ← add_mul, mul_div_right_comm]
  congr 1
  rw [add_add_add_comm, ← sum_add_distrib, add_div, sum_div]
  congr 1
  · rw [prt, Nat.cast_zero, neg_zero]; ring
  · refine sum_congr rfl fun m _ => ?_
    rw [prt]
    simp only [map_div₀, map_add, Complex.conj_conj]
    have h2 : starRingEnd ℂ (2 : ℂ) = 2 := Complex.conj_ofNat 2
    rw [h2]; ring

theorem prt_shiftZ (p : ℕ) (coeff : ℕ → ℕ → ℕ → ℝ) (T : LCoef) (n m : ℕ) :
    prt (shiftZL p coeff T) n m = shiftZ p coeff (prt T) n m := by
  rw [prt, shiftZL, shiftZL, shiftZ, map_sum, Int.natAbs_neg, Int.natAbs_natCast, ← sum_add_distrib, sum_div]
  refine sum_congr rfl fun j _ => ?_
  rw [prt, map_mul, Complex.conj_ofReal]; ring

/-! ### Linearity -/

theorem rotateZL_smul (u : ℂ) (L : LCoef) (a : ℝ) : rotateZL (fun n m => u * L n m) a = fun n m => u * rotateZL L a n m := by
  funext n m; rw [rotateZL, rotateZL]; ring

theorem rotateYL_smul (u : ℂ) (L : LCoef) (d : HMat) : rotateYL (fun n m => u * L n m) d = fun n m => u * rotateYL L d n m := by
  funext n mp
  rw [rotateYL, rotateYL]
  split_ifs
  · rw [mul_add, mul_sum]
    congr 1
    · ring
    · exact sum_congr rfl fun m _ => by ring
  · rw [← mul_assoc, mul_add, mul_sum]
    congr 2
    · ring
    · exact sum_congr rfl fun m _ => by ring

theorem shiftZL_smul (u : ℂ) (p : ℕ) (coeff : ℕ → ℕ → ℕ → ℝ) (T : LCoef) :
    shiftZL p coeff (fun n m => u * T n m) = fun n m => u * shiftZL p coeff T n m := by
  funext n m
  rw [shiftZL, shiftZL, mul_sum]
  exact sum_congr rfl fun j _ => by ring

theorem evalL_smul (u : ℂ) (p : ℕ) (L : LCoef) (e : ℂ) (ct : ℝ) (B : ℕ → ℝ) :
    evalL p (fun n m => u * L n m) e ct B = u * evalL p L e ct B := by
  rw [evalL, evalL, mul_sum]
  refine sum_congr rfl fun n _ => ?_
  rw [mul_sum]
  exact sum_congr rfl fun m _ => by ring

theorem sum_pos (p : ℕ) (f : ℕ → ℕ → ℂ) : ∑ n ∈ Icc 1 p, ∑ m ∈ Icc 1 n, f n m = ∑ n ∈ range (p + 1), ∑ m ∈ Icc 1 n, f n m := by
  refine sum_subset (fun n hn => mem_range.2 (by have := (mem_Icc.1 hn).2; omega)) fun n hn h => ?_
  have : n = 0 := by
    have := mem_range.1 hn
    by_contra h0
    exact h (mem_Icc.2 ⟨by omega, by omega⟩)
  subst this; simp

theorem evalL_re (p : ℕ) (L : LCoef) (e : ℂ) (ct : ℝ) (B : ℕ → ℝ) : (evalL p L e ct B).re = Yukawa.evalAt p (prt L) e ct B := by
  rw [evalL, Yukawa.evalAt, sum_pos, ← sum_add_distrib, Complex.re_sum, Complex.re_sum]
  refine sum_congr rfl fun n _ => ?_
  rw [Harm.sum_split, Complex.add_re, Complex.add_re, Complex.re_sum, Complex.re_sum]
  congr 1
  · rw [prt, Nat.cast_zero, neg_zero, Complex.add_conj]
    have : powE e 0 = 1 := by simp [powE]
    rw [this, Int.natAbs_zero, mul_one, mul_assoc, ← Complex.ofReal_mul, Complex.re_mul_ofReal, Complex.re_mul_ofReal]
    simp
  · refine sum_congr rfl fun m _ => ?_
    rw [Complex.ofReal_re, Int.natAbs_neg, Int.natAbs_natCast, Complex.add_re]
    have h1 : (L n (-(m : ℤ)) * powE e (-(m : ℤ)) * (B n : ℂ) * (legendre ct n m : ℂ)).re =
        (starRingEnd ℂ (L n (-(m : ℤ))) * powE e (m : ℤ) * (B n : ℂ) * (legendre ct n m : ℂ)).re := by
      rw [← Complex.conj_re]
      simp only [map_mul, Complex.conj_ofReal, powE_neg]
    have h2 : powE e (m : ℤ) = e ^ m := by rw [powE, if_pos (by omega), Int.natAbs_natCast]
    rw [h1, h2, ← Complex.add_re, ← Complex.re_ofReal_mul, prt]
    congr 1
    push_cast; ring

end
end Dashmm.Helm
