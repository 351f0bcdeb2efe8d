import Verif.Proofs.YukDir
import Verif.Proofs.PlaneLoc
import Verif.Proofs.YukShift

/-!
# The expansions in plane waves of the Yukawa kernel, for one direction
-/

namespace Dashmm.Yuk

open Harm Lap
open Complex (I)

noncomputable section

/-! ### Terms of a wave -/

/-- The term of degree `n` and frequency `m` of the wave of an expansion. -/
def ct (C : Coef) (α : ℝ) (n : ℕ) (m : ℤ) : ℂ :=
  Harm.ext C n m / ((sf (n - m) * sf (n + m) : ℝ) : ℂ) * (-I) ^ m * Complex.exp (m * α * I)

theorem ct_reg (v : Point ℝ) (α : ℝ) (n : ℕ) (m : ℤ) : ct (reg v) α n m = Harm.wt v α n m := by
  have h : ((sf (n - m) * sf (n + m) : ℝ) : ℂ) ≠ 0 := by
    rw [Complex.ofReal_ne_zero]; exact mul_ne_zero (sf_ne _) (sf_ne _)
  rw [ct, Harm.wt, ext_reg, nrm, mul_div_assoc, mul_div_cancel₀ _ h]

theorem ct_neg (C : Coef) (hC : Proper C) (α : ℝ) (n : ℕ) (m : ℤ) : ct C α n (-m) = (powM1 m : ℂ) * starRingEnd ℂ (ct C α n m) := by
  have e := ext_conj C hC n m
  have e1 : starRingEnd ℂ (-I) = (-I)⁻¹ := by
    rw [map_neg, Complex.conj_I, inv_neg, Complex.inv_I]
  have e2 : starRingEnd ℂ ((m : ℂ) * α * I) = ((-m : ℤ) : ℂ) * α * I := by simp
  rw [ct, ct, map_mul, map_mul, map_div₀, Complex.conj_ofReal, map_zpow₀, ← Complex.exp_conj, e1, e2, e, inv_zpow, ← zpow_neg,
    show (n : ℤ) - -m = n + m by ring, show (n : ℤ) + -m = n - m by ring, mul_comm (sf (n + m))]
  rw [show ∀ a b c d f : ℂ, a * (a * b / c * d * f) = (a * a) * (b / c * d * f) by intros; ring, cpowM1_sq, one_mul]

/-- The wave of an expansion: degrees up to `p`, frequencies up to `f`, weights `g`. -/
def sig (g : ℕ → ℕ → ℝ) (p f : ℕ) (C : Coef) (α : ℝ) : ℂ :=
  ∑ n ∈ Finset.range (p + 1), ∑ m ∈ Finset.Icc (-(min n f : ℕ) : ℤ) (min n f : ℕ), ct C α n m * (g n m.natAbs : ℂ)

theorem sig_congr (g : ℕ → ℕ → ℝ) (p f : ℕ) (C D : Coef) (h : ∀ n m, m ≤ n → C n m = D n m) (α : ℝ) : sig g p f C α = sig g p f D α := by
  refine Finset.sum_congr rfl fun n _ => Finset.sum_congr rfl fun m hm => ?_
  have : Harm.ext C n m = Harm.ext D n m := by
    rw [Finset.mem_Icc] at hm
    unfold Harm.ext
    split_ifs
    · rw [h _ _ (by omega)]
    · rw [h _ _ (by omega)]
  rw [ct, ct, this]

theorem sig_half (g : ℕ → ℕ → ℝ) (p f : ℕ) (C : Coef) (α : ℝ) : sig g p f C α =
    (∑ n ∈ Finset.range (p + 1), ct C α n 0 * (g n 0 : ℂ)) +
      ∑ m ∈ Finset.Icc 1 f, ∑ n ∈ Finset.Icc m p, (ct C α n m + ct C α n (-(m : ℤ))) * (g n m : ℂ) := by
  rw [Finset.sum_comm' (t' := Finset.range (p + 1)) (s' := fun n => Finset.Icc 1 (min n f))
    (by intro m n; simp only [Finset.mem_Icc, Finset.mem_range]; omega), ← Finset.sum_add_distrib]
  refine Finset.sum_congr rfl fun n _ => ?_
  rw [sum_sym]
  congr 1
  refine Finset.sum_congr rfl fun m _ => ?_
  rw [Int.natAbs_natCast, Int.natAbs_neg, Int.natAbs_natCast]; ring

/-! ### M to I -/

theorem pz_add (p : ℕ) (SH : Coef) (leg : ℕ → ℕ → ℝ) (m : ℕ) :
    Yukawa.pz1 p SH leg m + Yukawa.pz2 p SH leg m = ∑ n ∈ Finset.Icc m p, SH n m * (leg n m : ℂ) := by
  unfold Yukawa.pz1 Yukawa.pz2
  split_ifs with h h1
  · subst h; exact stepSum_split 0 p _
  · rw [add_comm]; exact stepSum_split m p _
  · exact stepSum_split m p _

theorem pz_sub (p : ℕ) (SH : Coef) (leg : ℕ → ℕ → ℝ) (m : ℕ) :
    Yukawa.pz1 p SH leg m - Yukawa.pz2 p SH leg m = ∑ n ∈ Finset.Icc m p, (-1) ^ n * (SH n m * (leg n m : ℂ)) := by
  unfold Yukawa.pz1 Yukawa.pz2
  split_ifs with h h1
  · subst h
    have := stepSum_sign 0 p (fun n => SH n 0 * (leg n 0 : ℂ))
    simpa using this
  · have := stepSum_sign m p (fun n => SH n m * (leg n m : ℂ))
    rw [(Nat.odd_iff.2 h1).neg_one_pow] at this
    linear_combination -this
  · have := stepSum_sign m p (fun n => SH n m * (leg n m : ℂ))
    rw [(Nat.even_iff.2 (by omega)).neg_one_pow, one_mul] at this
    exact this

/-- The weights of the code. -/
def gw (leg : ℕ → ℕ → ℝ) (n m : ℕ) : ℝ := (n - m).factorial * leg n m

theorem term_ct (SH : Coef) (leg : ℕ → ℕ → ℝ) (α : ℝ) (n m : ℕ) (h : m ≤ n) (hp : Proper (conv SH)) (c : ℝ) :
    ((2 * (Complex.exp ((m : ℂ) * α * I) * ((c : ℂ) * (SH n m * (leg n m : ℂ)))).re : ℝ) : ℂ) * I ^ m =
      (ct (conv SH) α n m + ct (conv SH) α n (-(m : ℤ))) * ((c * gw leg n m : ℝ) : ℂ) := by
  obtain ⟨e1, e2⟩ := sqf_cast n m h
  have h1 : (sf ((n : ℤ) - m) : ℂ) ≠ 0 := by exact_mod_cast sf_ne _
  have h2 : (sf ((n : ℤ) + m) : ℂ) ≠ 0 := by exact_mod_cast sf_ne _
  have hf : ((n - m).factorial : ℂ) = (sf ((n : ℤ) - m) : ℂ) * (sf ((n : ℤ) - m) : ℂ) := by
    rw [← Complex.ofReal_mul, sf_mul_self, show ((n : ℤ) - m).toNat = n - m by omega]; simp
  have hA : ct (conv SH) α n m * ((c * gw leg n m : ℝ) : ℂ) = I ^ m * (Complex.exp ((m : ℂ) * α * I) * ((c : ℂ) * (SH n m * (leg n m : ℂ)))) := by
    rw [ct, gw, ext_nat, conv, e1, e2, zpow_natCast, neg_pow I]
    push_cast
    rw [hf]
    field_simp
    linear_combination (SH n m * c * leg n m) * neg_one_pow_mul_self m
  have hB : ct (conv SH) α n (-(m : ℤ)) * ((c * gw leg n m : ℝ) : ℂ) =
      I ^ m * starRingEnd ℂ (Complex.exp ((m : ℂ) * α * I) * ((c : ℂ) * (SH n m * (leg n m : ℂ)))) := by
    have := congrArg (starRingEnd ℂ) hA
    rw [map_mul, Complex.conj_ofReal, map_mul, map_pow, Complex.conj_I, neg_pow I] at this
    rw [ct_neg _ hp, cpowM1_nat, mul_assoc, this, ← mul_assoc, ← mul_assoc, neg_one_pow_mul_self, one_mul]
  rw [add_mul, hA, hB, ← mul_add, Complex.add_conj]
  push_cast; ring

theorem waveAt_sig (L : Waves.Level) (p : ℕ) (leg : ℕ → ℕ → ℕ → ℝ) (SH : Coef) (hp : Proper (conv SH)) (k j : ℕ) (α : ℝ)
    (he : ∀ m, 1 ≤ m → m ≤ L.f k → Yukawa.ealpha L k j m = Complex.exp ((m : ℂ) * α * I)) :
    Yukawa.waveAt L p leg SH 1 k j = sig (gw (leg k)) p (L.f k) (conv SH) α ∧
    Yukawa.waveAt L p leg SH (-1) k j = sig (fun n m => (-1) ^ n * gw (leg k) n m) p (L.f k) (conv SH) α := by
  have key : ∀ (s : ℂ) (c : ℕ → ℝ), (∀ m, Yukawa.pz1 p SH (leg k) m + s * Yukawa.pz2 p SH (leg k) m =
      ∑ n ∈ Finset.Icc m p, (c n : ℂ) * (SH n m * (leg k n m : ℂ))) →
      Yukawa.waveAt L p leg SH s k j = sig (fun n m => c n * gw (leg k) n m) p (L.f k) (conv SH) α := by
    intro s c hs
    rw [Yukawa.waveAt, sig_half]
    congr 1
    · rw [hs, sum_Icc_zero p 0 _ (by simp)]
      refine Finset.sum_congr rfl fun n _ => ?_
      have h1 : (Lap.sqf n : ℂ) ≠ 0 := by exact_mod_cast (lsqf_pos n).ne'
      have h2 : (sf (n : ℤ) : ℂ) ≠ 0 := by exact_mod_cast sf_ne _
      have hf : (n.factorial : ℂ) = (sf (n : ℤ) : ℂ) * (sf (n : ℤ) : ℂ) := by
        rw [← Complex.ofReal_mul, sf_mul_self]; simp
      rw [ct, show ((0 : ℤ)) = ((0 : ℕ) : ℤ) from rfl, ext_nat, conv, gw]
      simp only [Nat.sub_zero, div_self (lsqf_pos n).ne', Nat.cast_zero, sub_zero, add_zero]
      push_cast
      rw [hf]
      simp
      field_simp
    · refine Finset.sum_congr rfl fun m hm => ?_
      rw [Finset.mem_Icc] at hm
      rw [he m hm.1 hm.2, hs, Finset.mul_sum, Complex.re_sum, Finset.mul_sum, Complex.ofReal_sum, Finset.sum_mul]
      exact Finset.sum_congr rfl fun n hn => term_ct SH (leg k) α n m (Finset.mem_Icc.1 hn).1 hp (c n)
  constructor
  · rw [key 1 (fun _ => 1)]
    · simp only [one_mul]
    · intro m; rw [one_mul, pz_add]; simp
  · rw [key (-1) (fun n => (-1) ^ n)]
    intro m
    have := pz_sub p SH (leg k) m
    push_cast
    rw [← this]; ring

/-! ### E to L -/

/-- The local expansion, by degree and frequency. -/
theorem form_backG (R : Rule) (W : Wave) (G : ℕ → ℕ → ℕ → ℝ) (D : Coef)
    (hD : ∀ n m, m ≤ n → D n m = (∑ k ∈ Finset.range R.s, if m ≤ R.f k then (G k n m : ℂ) * Lap.zBack R W k m else 0) *
      (I ^ m / (Lap.sqf (n - m) : ℂ) / (Lap.sqf (n + m) : ℂ))) (b : Point ℝ) (n : ℕ) :
    Proper D ∧ form D b n = ∑ k ∈ Finset.range R.s, ∑ j ∈ Finset.Icc 1 (R.m k / 2),
      ∑ m ∈ Finset.Icc (-(min n (R.f k) : ℕ) : ℤ) (min n (R.f k) : ℕ), (G k n m.natAbs : ℂ) * bt R W b k j n m := by
  have hP : Proper D := by
    intro n
    rw [← Complex.conj_eq_iff_im, hD n 0 (Nat.zero_le _)]
    simp only [Nat.zero_le, if_true, pow_zero, map_mul, map_sum, map_div₀, Complex.conj_ofReal, map_one]
    congr 1
    refine Finset.sum_congr rfl fun k _ => ?_
    congr 1
    rw [Lap.zBack, if_pos rfl, map_sum]
    refine Finset.sum_congr rfl fun j _ => ?_
    rw [map_add, Complex.conj_conj, add_comm]
  have hnat : ∀ m : ℕ, m ≤ n → Harm.ext D n m * starRingEnd ℂ (nrm b n m) =
      ∑ k ∈ Finset.range R.s, if m ≤ R.f k then (G k n m : ℂ) * ∑ j ∈ Finset.Icc 1 (R.m k / 2), bt R W b k j n (-(m : ℤ)) else 0 := by
    intro m hm
    obtain ⟨e1, e2⟩ := sqf_cast n m hm
    have h1 : (sf ((n : ℤ) - m) : ℂ) ≠ 0 := by exact_mod_cast sf_ne _
    have h2 : (sf ((n : ℤ) + m) : ℂ) ≠ 0 := by exact_mod_cast sf_ne _
    have hI : ∀ j k, (-1) ^ m * I ^ m * Complex.exp (-((m : ℂ) * R.alpha k j * I)) * starRingEnd ℂ (harP b n m) =
        Harm.wt b (R.alpha k j) n (-(m : ℤ)) := by
      intro j k
      rw [harP_conj, cpowM1_nat, Harm.wt, zpow_neg, zpow_natCast, ← inv_pow, inv_neg, Complex.inv_I, neg_neg]
      have e : -((m : ℂ) * R.alpha k j * I) = ((-(m : ℤ) : ℤ) : ℂ) * R.alpha k j * I := by push_cast; ring
      rw [e]
      linear_combination (I ^ m * Complex.exp (((-(m : ℤ) : ℤ) : ℂ) * R.alpha k j * I) * harP b n (-(m : ℤ))) *
        neg_one_pow_mul_self m
    have hpi : ∀ j k, Harm.wt b (R.alpha k j + Real.pi) n (-(m : ℤ)) = (-1) ^ m * Harm.wt b (R.alpha k j) n (-(m : ℤ)) := by
      intro j k
      rw [wt_pi, powM1_neg, cpowM1_nat]
    rw [ext_nat, hD n m hm, nrm, e1, e2, map_mul, Complex.conj_ofReal]
    push_cast
    rw [show ∀ S A B C D F : ℂ, F * (S * (A / B / C)) * (B * C * D) = S * (F * A * D * (B / B) * (C / C)) by intros; ring,
      div_self h1, div_self h2, Finset.sum_mul]
    refine Finset.sum_congr rfl fun k _ => ?_
    by_cases h : m ≤ R.f k
    · rw [if_pos h, if_pos h, zBack_eq, Finset.mul_sum, Finset.sum_mul, Finset.mul_sum]
      refine Finset.sum_congr rfl fun j _ => ?_
      rw [bt, hpi, ← hI]
      push_cast; ring
    · rw [if_neg h, if_neg h, zero_mul]
  have hint : ∀ m : ℤ, |m| ≤ n → Harm.ext D n m * starRingEnd ℂ (nrm b n m) =
      ∑ k ∈ Finset.range R.s, if |m| ≤ R.f k then (G k n m.natAbs : ℂ) * ∑ j ∈ Finset.Icc 1 (R.m k / 2), bt R W b k j n (-m) else 0 := by
    intro m hm
    rcases le_or_gt 0 m with h | h
    · obtain ⟨i, rfl⟩ := Int.eq_ofNat_of_zero_le h
      have hi : i ≤ n := by rw [abs_le] at hm; omega
      refine (hnat i hi).trans (Finset.sum_congr rfl fun k _ => ?_)
      have : (i ≤ R.f k) ↔ |(i : ℤ)| ≤ R.f k := by rw [abs_le]; omega
      simp only [this, Int.natAbs_natCast]
    · obtain ⟨i, hi⟩ := Int.eq_ofNat_of_zero_le (by omega : 0 ≤ -m)
      obtain rfl : m = -(i : ℤ) := by omega
      have hi' : i ≤ n := by rw [abs_le] at hm; omega
      rw [ext_nrm_conj _ hP, hnat i hi', map_sum]
      refine Finset.sum_congr rfl fun k _ => ?_
      have : (i ≤ R.f k) ↔ |-(i : ℤ)| ≤ R.f k := by rw [abs_le]; omega
      simp only [this, Int.natAbs_neg, Int.natAbs_natCast]
      split_ifs
      · rw [map_mul, Complex.conj_ofReal, map_sum]
        congr 1
        exact Finset.sum_congr rfl fun j _ => bt_conj R W b k j n _
      · exact map_zero _
  refine ⟨hP, ?_⟩
  unfold form
  rw [Finset.sum_congr rfl fun m hm => hint m (by rw [abs_le]; exact Finset.mem_Icc.1 hm), Finset.sum_comm]
  refine Finset.sum_congr rfl fun k _ => ?_
  rw [← Finset.sum_filter]
  have e : (Finset.Icc (-(n : ℤ)) n).filter (fun m : ℤ => |m| ≤ (R.f k : ℤ)) =
      Finset.Icc (-(min n (R.f k) : ℕ) : ℤ) (min n (R.f k) : ℕ) := by
    ext m; simp only [Finset.mem_filter, Finset.mem_Icc, abs_le]; omega
  rw [e]
  have := sum_reflect (min n (R.f k)) fun m => (G k n m.natAbs : ℂ) * ∑ j ∈ Finset.Icc 1 (R.m k / 2), bt R W b k j n m
  simp only [Int.natAbs_neg] at this
  rw [this]
  simp only [Finset.mul_sum]
  rw [Finset.sum_comm]

/-- The value at `b` of what the waves hold. -/
def pairG (R : Rule) (p : ℕ) (g : ℕ → ℕ → ℕ → ℝ) (W : Wave) (b : Point ℝ) : ℝ :=
  ∑ k ∈ Finset.range R.s, ∑ j ∈ Finset.Icc 1 (R.m k / 2), 2 * (W k j * sig (g k) p (R.f k) (reg b) (R.alpha k j)).re

theorem sig_pi (g : ℕ → ℕ → ℝ) (p f : ℕ) (b : Point ℝ) (α : ℝ) :
    sig g p f (reg b) (α + Real.pi) = starRingEnd ℂ (sig g p f (reg b) α) := by
  unfold sig
  rw [map_sum]
  refine Finset.sum_congr rfl fun n _ => ?_
  rw [map_sum, ← sum_reflect (min n f)]
  refine Finset.sum_congr rfl fun m _ => ?_
  rw [map_mul, Complex.conj_ofReal, ct_reg, ct_reg, Int.natAbs_neg, wt_pi, wt_neg, powM1_neg, ← mul_assoc, cpowM1_sq, one_mul]

theorem back_valG (R : Rule) (W : Wave) (G : ℕ → ℕ → ℕ → ℝ) (D : Coef)
    (hD : ∀ n m, m ≤ n → D n m = (∑ k ∈ Finset.range R.s, if m ≤ R.f k then (G k n m : ℂ) * Lap.zBack R W k m else 0) *
      (I ^ m / (Lap.sqf (n - m) : ℂ) / (Lap.sqf (n + m) : ℂ))) (b : Point ℝ) (p : ℕ) (B : ℕ → ℝ) :
    ∑ n ∈ Finset.range (p + 1), B n * (form D b n).re = pairG R p (fun k n m => B n * G k n m) W b := by
  have h : ∑ n ∈ Finset.range (p + 1), (B n : ℂ) * form D b n = ((pairG R p (fun k n m => B n * G k n m) W b : ℝ) : ℂ) := by
    rw [Finset.sum_congr rfl fun n _ => by rw [(form_backG R W G D hD b n).2]]
    simp only [Finset.mul_sum]
    rw [Finset.sum_comm]
    unfold pairG
    simp only [Complex.ofReal_sum, Complex.ofReal_mul, Complex.ofReal_ofNat]
    refine Finset.sum_congr rfl fun k _ => ?_
    rw [Finset.sum_comm]
    refine Finset.sum_congr rfl fun j _ => ?_
    have e := Complex.add_conj (W k j * sig (fun n m => B n * G k n m) p (R.f k) (reg b) (R.alpha k j))
    rw [Complex.ofReal_mul, Complex.ofReal_ofNat] at e
    rw [← e, map_mul, ← sig_pi, sig, sig, Finset.mul_sum, Finset.mul_sum, ← Finset.sum_add_distrib]
    refine Finset.sum_congr rfl fun n _ => ?_
    rw [Finset.mul_sum, Finset.mul_sum, ← Finset.sum_add_distrib]
    refine Finset.sum_congr rfl fun m _ => ?_
    rw [ct_reg, ct_reg, bt]
    push_cast; ring
  have := congrArg Complex.re h
  rw [Complex.re_sum, Complex.ofReal_re] at this
  rw [← this]
  exact Finset.sum_congr rfl fun n _ => (Complex.re_ofReal_mul _ _).symm

end
end Dashmm.Yuk
