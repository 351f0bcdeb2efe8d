import Verif.Proofs.HelmDir
import Verif.Proofs.HelmLocal
import Verif.Proofs.YukGather

/-!
# The plane waves of the Helmholtz kernel: local expansions
-/

namespace Dashmm.Helm

open Harm Lap Waves
open Complex (I)

noncomputable section

/-! ### The values of a local expansion -/

/-- A coefficient with the factors of the harmonics. -/
def xt (L : LCoef) (n : ℕ) (m : ℤ) : ℂ :=
  (if 0 ≤ m then (-1) ^ m.natAbs else 1) * ((Lap.sqf (n + m.natAbs) / Lap.sqf (n - m.natAbs) : ℝ) : ℂ) * L n m

/-- The part of degree `n` at `b`. -/
def val (L : LCoef) (b : Point ℝ) (n : ℕ) : ℂ := ∑ m ∈ Finset.Icc (-(n : ℤ)) n, xt L n m * starRingEnd ℂ (nrm b n m)

theorem ext_prt (L : LCoef) (n : ℕ) (m : ℤ) :
    Harm.ext (Yuk.conv (prt L)) n m = (xt L n m + (powM1 m : ℂ) * starRingEnd ℂ (xt L n (-m))) / 2 := by
  rcases le_or_gt 0 m with h | h
  · obtain ⟨i, rfl⟩ := Int.eq_ofNat_of_zero_le h
    rw [ext_nat, Yuk.conv, prt, xt, xt, if_pos h, Int.natAbs_natCast, Int.natAbs_neg, Int.natAbs_natCast, cpowM1_nat, map_mul, map_mul, Complex.conj_ofReal]
    rcases Nat.eq_zero_or_pos i with rfl | hi
    · simp; ring
    · rw [if_neg (by omega), map_one]; ring
  · obtain ⟨i, hi⟩ := Int.eq_ofNat_of_zero_le (by omega : 0 ≤ -m)
    obtain rfl : m = -(i : ℤ) := by omega
    have hi0 : 0 < i := by omega
    rw [ext_neg _ _ _ hi0, Yuk.conv, prt, xt, xt, if_neg (by omega), neg_neg, if_pos (by omega), Int.natAbs_natCast, Int.natAbs_neg, Int.natAbs_natCast,
      powM1_neg, cpowM1_nat]
    simp only [map_mul, map_div₀, map_add, Complex.conj_ofReal, Complex.conj_conj, map_pow, map_neg, map_one, map_ofNat]
    linear_combination (-((Lap.sqf (n + i) / Lap.sqf (n - i) : ℝ) : ℂ) * starRingEnd ℂ (L n i) / 2) * neg_one_pow_mul_self i

theorem form_prt (L : LCoef) (b : Point ℝ) (n : ℕ) : form (Yuk.conv (prt L)) b n = (val L b n + starRingEnd ℂ (val L b n)) / 2 := by
  have h2 : ∑ m ∈ Finset.Icc (-(n : ℤ)) n, (powM1 m : ℂ) * starRingEnd ℂ (xt L n (-m)) * starRingEnd ℂ (nrm b n m) = starRingEnd ℂ (val L b n) := by
    rw [val, map_sum, ← sum_reflect n]
    refine Finset.sum_congr rfl fun m _ => ?_
    rw [map_mul, neg_neg, powM1_neg, nrm_conj, Complex.conj_conj, neg_neg, powM1_neg]
    linear_combination (starRingEnd ℂ (xt L n m) * nrm b n m) * cpowM1_sq m
  rw [← h2, val, ← Finset.sum_add_distrib, Finset.sum_div]
  refine Finset.sum_congr rfl fun m _ => ?_
  rw [ext_prt]; ring

theorem val_re (L : LCoef) (b : Point ℝ) (n : ℕ) : (form (Yuk.conv (prt L)) b n).re = (val L b n).re := by
  rw [form_prt, Complex.add_conj]
  simp

theorem val_ph (u : ℂ) (L : LCoef) (b : Point ℝ) (n : ℕ) : val (ph u L) b n = u * val L b n := by
  rw [val, val, Finset.mul_sum]
  refine Finset.sum_congr rfl fun m _ => ?_
  rw [xt, xt, ph]; ring

theorem val_add (L L' : LCoef) (b : Point ℝ) (n : ℕ) : val (L + L') b n = val L b n + val L' b n := by
  rw [val, val, val, ← Finset.sum_add_distrib]
  refine Finset.sum_congr rfl fun m _ => ?_
  rw [xt, xt, xt, Pi.add_apply, Pi.add_apply]; ring

/-- Numbers are equal if the real parts of their products with all numbers are. -/
theorem eq_of_phase (z w : ℂ) (h : ∀ u : ℂ, (u * z).re = (u * w).re) : z = w := by
  apply Complex.ext
  · simpa using h 1
  · have := h I
    simpa using this

theorem evalL_val (p : ℕ) (L : LCoef) (u : Point ℝ) (hu : u.norm ≠ 0) (B : ℕ → ℝ) (e : ℂ) (he : Lap.ephi u = some e) :
    evalL p L e (Lap.ctheta u) B = ∑ n ∈ Finset.range (p + 1), (B n : ℂ) * val L (Yuk.dir u) n := by
  rw [ephi_eq _ hu] at he
  obtain rfl := Option.some.inj he
  apply eq_of_phase
  intro z
  rw [← evalL_smul, evalL_re, Yuk.evalAt_conv, Harm.evalAt_form _ _ _ _ (Harm.ctheta_sq u) (Harm.azi_unit u), Finset.mul_sum, Complex.re_sum]
  refine Finset.sum_congr rfl fun n _ => ?_
  have h := val_re (ph z L) (Yuk.dir u) n
  rw [val_ph] at h
  rw [mul_left_comm, Complex.re_ofReal_mul, ← h]
  rfl

/-! ### Rotations -/

theorem val_rotZ (L : LCoef) (a : ℝ) (b : Point ℝ) (n : ℕ) : val (rotateZL L a) b n = val L (rotZ (-a) b) n := by
  apply eq_of_phase
  intro z
  rw [← val_ph, ← val_ph, ← val_re, ← val_re]
  have e : ph z (rotateZL L a) = rotateZL (ph z L) a := (rotateZL_smul z L a).symm
  rw [e, show prt (rotateZL (ph z L) a) = rotateZ (prt (ph z L)) a from funext fun n => funext fun m => prt_rotateZ _ _ _ _, Yuk.conv_rotateZ, form_rotateZ]

theorem conv_congr (C D : Coef) (n : ℕ) (h : ∀ m ≤ n, C n m = D n m) : ∀ m ≤ n, Yuk.conv C n m = Yuk.conv D n m := by
  intro m hm
  rw [Yuk.conv, Yuk.conv, h m hm]

theorem conv_hmat (C : Coef) (d : DMat) (n m : ℕ) :
    Yuk.conv (rotateY C fun n mp m => hmat d n mp m) n m = rotateY (Yuk.conv C) d n m := by
  rw [show (fun (n mp : ℕ) (m : ℤ) => hmat d n mp m) = fun n mp m => d n mp m * Yukawa.dscale n mp m from
    funext fun n => funext fun mp => funext fun m => hmat_nat _ _ _ _, Yuk.conv_hat, Yuk.conv_hat]
  exact Yuk.hat_rotateY _ C d n m

theorem val_rotY (L : LCoef) (d : DMat) (c s : ℝ) (hd : IsWig d c s) (h1 : c ^ 2 + s ^ 2 = 1) (b : Point ℝ) (n : ℕ) :
    val (rotateYL L (hmat d)) b n = val L (rotY c (-s) b) n := by
  apply eq_of_phase
  intro z
  rw [← val_ph, ← val_ph, ← val_re, ← val_re]
  have e : ph z (rotateYL L (hmat d)) = rotateYL (ph z L) (hmat d) := (rotateYL_smul z L _).symm
  rw [e, ← form_rotateY _ (Yuk.conv_proper _ (prt_proper _)) d c s hd h1]
  congr 1
  refine form_congr _ _ _ _ fun m hm => ?_
  rw [← conv_hmat]
  refine conv_congr _ _ n (fun m hm => ?_) m hm
  exact prt_rotateY _ _ _ _ hd _ _ hm

/-! ### From waves to local expansions -/

theorem back_term {σ ζ s : ℂ} {Q : ℕ → ℕ → ℂ} (h : IsDir σ ζ s Q) (b : Point ℝ) (n : ℕ) (m : ℤ) (hm : |m| ≤ n) :
    (if 0 ≤ m then (-1) ^ m.natAbs else 1) * ((Lap.sqf (n + m.natAbs) / Lap.sqf (n - m.natAbs) : ℝ) : ℂ) *
      (Q n m.natAbs * ((sqf n m.natAbs : ℝ) : ℂ)) * starRingEnd ℂ (nrm b n m) =
      (2 * n + 1) * s ^ n * (hw σ ζ n (-m) * harP b n (-m)) := by
  have key : ∀ i : ℕ, i ≤ n → ((Lap.sqf (n + i) / Lap.sqf (n - i) : ℝ) : ℂ) * (Q n i * ((sqf n i : ℝ) : ℂ)) * ((sf (n - i) * sf (n + i) : ℝ) : ℂ) =
      (2 * n + 1) * s ^ n * ((-1) ^ i * hw σ ζ n i) := by
    intro i hi
    obtain ⟨e1, e2⟩ := sqf_cast n i hi
    have h1 : (sf ((n : ℤ) - i) : ℂ) ≠ 0 := by exact_mod_cast sf_ne _
    have h2 : (sf ((n : ℤ) + i) : ℂ) ≠ 0 := by exact_mod_cast sf_ne _
    have hf : ((n + i).factorial : ℂ) = (sf ((n : ℤ) + i) : ℂ) * (sf ((n : ℤ) + i) : ℂ) := by
      rw [← Complex.ofReal_mul, sf_mul_self, show ((n : ℤ) + i).toNat = n + i by omega]; simp
    have hq := h.hw n i hi
    rw [sqf, fact_eq, fact_eq, Yuk.fact_eq, Yuk.fact_eq, e1, e2]
    push_cast
    rw [hf]
    field_simp
    linear_combination (2 * (n : ℂ) + 1) * hq
  rcases le_or_gt 0 m with h0 | h0
  · obtain ⟨i, rfl⟩ := Int.eq_ofNat_of_zero_le h0
    have hi : i ≤ n := by rw [abs_le] at hm; omega
    rw [if_pos h0, Int.natAbs_natCast, nrm, map_mul, Complex.conj_ofReal, harP_conj, cpowM1_nat, hw_neg, cpowM1_nat]
    linear_combination ((-1) ^ i * (-1) ^ i * harP b n (-(i : ℤ))) * key i hi + ((2 * n + 1) * s ^ n * (-1) ^ i * hw σ ζ n i * harP b n (-(i : ℤ))) * neg_one_pow_mul_self i
  · obtain ⟨i, hi⟩ := Int.eq_ofNat_of_zero_le (by omega : 0 ≤ -m)
    obtain rfl : m = -(i : ℤ) := by omega
    have hi' : i ≤ n := by rw [abs_le] at hm; omega
    rw [if_neg (by omega), Int.natAbs_neg, Int.natAbs_natCast, nrm, map_mul, Complex.conj_ofReal, harP_conj, powM1_neg, cpowM1_nat, neg_neg,
      show (n : ℤ) - -i = n + i by ring, show (n : ℤ) + -i = n - i by ring, mul_comm (sf (n + i))]
    linear_combination ((-1) ^ i * harP b n i) * key i hi' + ((2 * n + 1) * s ^ n * hw σ ζ n i * harP b n i) * neg_one_pow_mul_self i

/-- The coefficients that the waves `W` yield. -/
def backSum (L : Level) (W : Wave) (wt : ℕ → ℂ) (Q : ℕ → ℕ → ℕ → ℂ) : LCoef := fun n m =>
  (∑ k ∈ Finset.range L.s, if m.natAbs ≤ L.f k then
    (∑ j ∈ Finset.Icc 1 (L.m k), W k j * Complex.exp (-(m * L.angle k j * I))) * (wt k * Q k n m.natAbs) else 0) * ((sqf n m.natAbs * (-1) ^ n : ℝ) : ℂ)

theorem val_back (L : Level) (W : Wave) (wt : ℕ → ℂ) (Q : ℕ → ℕ → ℕ → ℂ) (σ ζ : ℕ → ℂ) (s : ℂ) (h : ∀ k < L.s, IsDir (σ k) (ζ k) s (Q k)) (b : Point ℝ) (n : ℕ) :
    val (backSum L W wt Q) b n = ∑ k ∈ Finset.range L.s, wt k * ∑ j ∈ Finset.Icc 1 (L.m k), W k j *
      ((2 * n + 1) * (-s) ^ n * ∑ m ∈ Finset.Icc (-(min n (L.f k) : ℕ) : ℤ) (min n (L.f k) : ℕ), cwv (reg b) (L.angle k j) n m * hw (σ k) (ζ k) n m) := by
  have hterm : ∀ m : ℤ, |m| ≤ n → xt (backSum L W wt Q) n m * starRingEnd ℂ (nrm b n m) =
      ∑ k ∈ Finset.range L.s, if |m| ≤ L.f k then wt k * ∑ j ∈ Finset.Icc 1 (L.m k), W k j *
        ((2 * n + 1) * (-s) ^ n * (cwv (reg b) (L.angle k j) n (-m) * hw (σ k) (ζ k) n (-m))) else 0 := by
    intro m hm
    rw [xt, backSum, Finset.sum_mul, Finset.mul_sum, Finset.sum_mul]
    refine Finset.sum_congr rfl fun k hk => ?_
    have hb := back_term (h k (Finset.mem_range.1 hk)) b n m hm
    have hc : (m.natAbs ≤ L.f k) ↔ |m| ≤ L.f k := by rw [Int.abs_eq_natAbs]; omega
    simp only [hc]
    generalize (if 0 ≤ m then (-1 : ℂ) ^ m.natAbs else 1) = sg at hb ⊢
    split_ifs with h1
    · rw [Finset.sum_mul, Finset.sum_mul, Finset.mul_sum, Finset.sum_mul, Finset.mul_sum]
      refine Finset.sum_congr rfl fun j _ => ?_
      rw [cwv_reg, show ((-m : ℤ) : ℂ) * L.angle k j * I = -((m : ℂ) * L.angle k j * I) by push_cast; ring, neg_pow s]
      push_cast at hb ⊢
      linear_combination (W k j * Complex.exp (-((m : ℂ) * L.angle k j * I)) * wt k * (-1) ^ n) * hb
    · ring
  rw [val, Finset.sum_congr rfl fun m hm => hterm m (by rw [abs_le]; exact Finset.mem_Icc.1 hm), Finset.sum_comm]
  refine Finset.sum_congr rfl fun k _ => ?_
  rw [← Finset.sum_filter]
  have e : (Finset.Icc (-(n : ℤ)) n).filter (fun m : ℤ => |m| ≤ (L.f k : ℤ)) =
      Finset.Icc (-(min n (L.f k) : ℕ) : ℤ) (min n (L.f k) : ℕ) := by
    ext m; simp only [Finset.mem_filter, Finset.mem_Icc, abs_le]; omega
  rw [e, sum_reflect (min n (L.f k)) fun m => wt k * ∑ j ∈ Finset.Icc 1 (L.m k), W k j *
        ((2 * n + 1) * (-s) ^ n * (cwv (reg b) (L.angle k j) n m * hw (σ k) (ζ k) n m)), ← Finset.mul_sum, Finset.sum_comm]
  refine congrArg (wt k * ·) (Finset.sum_congr rfl fun j _ => ?_)
  rw [Finset.mul_sum, Finset.mul_sum]

theorem point_neg_norm (b : Point ℝ) : (⟨-b.x, -b.y, -b.z⟩ : Point ℝ).norm = b.norm := by
  unfold Point.norm; simp only; congr 1; ring

/-- The value at `b` of what the waves hold. -/
def pairW (L : Level) (wt : ℕ → ℂ) (c : ℕ → Point ℝ → ℝ → ℂ) (p : ℕ) (B : ℕ → ℝ) (W : Wave) (b : Point ℝ) : ℂ :=
  ∑ k ∈ Finset.range L.s, wt k * ∑ j ∈ Finset.Icc 1 (L.m k), W k j * cutSeries p (L.f k) B (c k ⟨-b.x, -b.y, -b.z⟩) (L.angle k j)

theorem back_pair (L : Level) (W : Wave) (wt : ℕ → ℂ) (Q : ℕ → ℕ → ℕ → ℂ) (σ ζ : ℕ → ℂ) (s : ℝ) (h : ∀ k < L.s, IsDir (σ k) (ζ k) s (Q k))
    (c : ℕ → Point ℝ → ℝ → ℂ) (hc : ∀ k < L.s, ∀ u : Point ℝ, u.norm = 1 → WaveDir (σ k) (ζ k) u (c k u)) (b : Point ℝ) (hb : b.norm = 1) (p : ℕ) (B : ℕ → ℝ) :
    ∑ n ∈ Finset.range (p + 1), (B n : ℂ) * val (backSum L W wt Q) b n = pairW L wt c p (fun n => B n * s ^ n) W b := by
  rw [pairW, Finset.sum_congr rfl fun n _ => by rw [val_back L W wt Q σ ζ s h b n, Finset.mul_sum], Finset.sum_comm]
  refine Finset.sum_congr rfl fun k hk => ?_
  rw [Finset.sum_congr rfl fun n _ => by rw [Finset.mul_sum, Finset.mul_sum], Finset.sum_comm, Finset.mul_sum]
  refine Finset.sum_congr rfl fun j _ => ?_
  rw [cutSeries_wav p _ _ (hc k (Finset.mem_range.1 hk) _ ((point_neg_norm b).trans hb)), wav_congr _ _ _ p _ _ _ (fun n m _ => Yuk.reg_neg b n m), wav_cmul]
  unfold wav
  rw [Finset.mul_sum, Finset.mul_sum]
  refine Finset.sum_congr rfl fun n _ => ?_
  rw [neg_pow (s : ℂ)]
  push_cast; ring

end
end Dashmm.Helm
