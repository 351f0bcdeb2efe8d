import Verif.Proofs.PlaneOps

/-!
The local expansion made of an exponential expansion: its values.
-/

namespace Dashmm.Harm

open Lap
open Complex (I)

noncomputable section

theorem zBack_eq (R : Rule) (E : Wave) (k m : ℕ) : zBack R E k m = ∑ j ∈ Finset.Icc 1 (R.m k / 2),
    (E k j + (-1) ^ m * starRingEnd ℂ (E k j)) * Complex.exp (-((m : ℂ) * R.alpha k j * I)) := by
  have hc : ∀ j, starRingEnd ℂ (R.ealpha k j m) = Complex.exp (-((m : ℂ) * R.alpha k j * I)) := by
    intro j
    rw [ealpha_eq, ← Complex.exp_conj]; congr 1; simp
  unfold zBack
  split_ifs with h h1
  · subst h; simp
  · refine Finset.sum_congr rfl fun j _ => ?_
    rw [hc, (Nat.odd_iff.2 h1).neg_one_pow]; ring
  · refine Finset.sum_congr rfl fun j _ => ?_
    rw [hc, (Nat.even_iff.2 (by omega)).neg_one_pow]; ring

/-- What the numbers for `λ_k`, `α_j` and for the opposite angle yield at `b`, by degree and frequency. -/
def bt (R : Rule) (E : Wave) (b : Point ℝ) (k j n : ℕ) (m : ℤ) : ℂ :=
  E k j * wt b (R.alpha k j) n m + starRingEnd ℂ (E k j) * wt b (R.alpha k j + Real.pi) n m

theorem cpowM1_sq (m : ℤ) : (powM1 m : ℂ) * powM1 m = 1 := by
  unfold powM1; split_ifs <;> norm_num

theorem bt_conj (R : Rule) (E : Wave) (b : Point ℝ) (k j n : ℕ) (m : ℤ) :
    starRingEnd ℂ (bt R E b k j n m) = bt R E b k j n (-m) := by
  unfold bt
  rw [wt_pi, wt_pi, wt_neg, map_add, map_mul, map_mul, map_mul, Complex.conj_conj, Complex.conj_ofReal, powM1_neg]
  linear_combination (-(starRingEnd ℂ (E k j)) * starRingEnd ℂ (wt b (R.alpha k j) n m)) * cpowM1_sq m

theorem bt_out (R : Rule) (E : Wave) (b : Point ℝ) (k j n : ℕ) (m : ℤ) (h : (n : ℤ) < |m|) : bt R E b k j n m = 0 := by
  rw [bt, wt_out _ _ _ _ h, wt_out _ _ _ _ h]; ring

theorem backCoef_true (R : Rule) (E : Wave) (n m : ℕ) : backCoef R E true n m =
    (∑ k ∈ Finset.range R.s, if m ≤ min n (R.f k) then ((-R.lam k) ^ n : ℝ) * zBack R E k m else 0) *
      (I ^ m / (sqf (n - m) : ℂ) / (sqf (n + m) : ℂ)) := by
  simp [backCoef]

theorem backCoef_false (R : Rule) (E : Wave) (n m : ℕ) : backCoef R E false n m = (-1) ^ n * backCoef R E true n m := by
  rw [backCoef_true]
  unfold backCoef
  rcases Nat.mod_two_eq_zero_or_one n with h | h
  · simp [h, (Nat.even_iff.2 h).neg_one_pow]
  · simp [h, (Nat.odd_iff.2 h).neg_one_pow]

theorem backCoef_proper (R : Rule) (E : Wave) (sgn : Bool) : Proper (backCoef R E sgn) := by
  have h : Proper (backCoef R E true) := by
    intro n
    rw [← Complex.conj_eq_iff_im, backCoef_true]
    simp only [Nat.zero_le, if_true, pow_zero, map_mul, map_sum, map_div₀, Complex.conj_ofReal, map_one]
    congr 1
    refine Finset.sum_congr rfl fun k _ => ?_
    congr 1
    rw [zBack, if_pos rfl, map_sum]
    refine Finset.sum_congr rfl fun j _ => ?_
    rw [map_add, Complex.conj_conj, add_comm]
  cases sgn
  · intro n
    rw [backCoef_false, ← Complex.conj_eq_iff_im, map_mul, map_pow, map_neg, map_one, Complex.conj_eq_iff_im.2 (h n)]
  · exact h

theorem ext_nrm_nat (R : Rule) (E : Wave) (b : Point ℝ) (n m : ℕ) (hm : m ≤ n) :
    ext (backCoef R E true) n m * starRingEnd ℂ (nrm b n m) =
      ∑ k ∈ Finset.range R.s, if m ≤ R.f k then ((-R.lam k) ^ n : ℝ) * ∑ j ∈ Finset.Icc 1 (R.m k / 2), bt R E b k j n (-(m : ℤ))
        else 0 := by
  obtain ⟨e1, e2⟩ := sqf_cast n m hm
  have h1 : (sf ((n : ℤ) - m) : ℂ) ≠ 0 := by exact_mod_cast sf_ne _
  have h2 : (sf ((n : ℤ) + m) : ℂ) ≠ 0 := by exact_mod_cast sf_ne _
  have hI : ∀ j k, (-1) ^ m * I ^ m * Complex.exp (-((m : ℂ) * R.alpha k j * I)) * starRingEnd ℂ (harP b n m) =
      wt b (R.alpha k j) n (-(m : ℤ)) := by
    intro j k
    rw [harP_conj, cpowM1_nat, wt, zpow_neg, zpow_natCast, ← inv_pow, inv_neg, Complex.inv_I, neg_neg]
    have e : -((m : ℂ) * R.alpha k j * I) = ((-(m : ℤ) : ℤ) : ℂ) * R.alpha k j * I := by push_cast; ring
    rw [e]
    linear_combination (I ^ m * Complex.exp (((-(m : ℤ) : ℤ) : ℂ) * R.alpha k j * I) * harP b n (-(m : ℤ))) *
      neg_one_pow_mul_self m
  have hpi : ∀ j k, wt b (R.alpha k j + Real.pi) n (-(m : ℤ)) = (-1) ^ m * wt b (R.alpha k j) n (-(m : ℤ)) := by
    intro j k
    rw [wt_pi, powM1_neg, cpowM1_nat]
  rw [ext_nat, backCoef_true, nrm, e1, e2, map_mul, Complex.conj_ofReal]
  push_cast
  rw [show ∀ S A B C D F : ℂ, F * (S * (A / B / C)) * (B * C * D) = S * (F * A * D * (B / B) * (C / C)) by intros; ring,
    div_self h1, div_self h2, Finset.sum_mul]
  refine Finset.sum_congr rfl fun k _ => ?_
  by_cases h : m ≤ R.f k
  · rw [if_pos (le_min hm h), if_pos h, zBack_eq, Finset.mul_sum, Finset.sum_mul, Finset.mul_sum]
    refine Finset.sum_congr rfl fun j _ => ?_
    rw [bt, hpi, ← hI]
    push_cast; ring
  · rw [if_neg (by omega), if_neg h, zero_mul]

theorem ext_nrm_conj (C : Coef) (hC : Proper C) (b : Point ℝ) (n : ℕ) (m : ℤ) :
    ext C n (-m) * starRingEnd ℂ (nrm b n (-m)) = starRingEnd ℂ (ext C n m * starRingEnd ℂ (nrm b n m)) := by
  rw [map_mul, ext_conj C hC, Complex.conj_conj, nrm_conj, neg_neg, powM1_neg]; ring

theorem ext_nrm (R : Rule) (E : Wave) (b : Point ℝ) (n : ℕ) (m : ℤ) (hm : |m| ≤ n) :
    ext (backCoef R E true) n m * starRingEnd ℂ (nrm b n m) =
      ∑ k ∈ Finset.range R.s, if |m| ≤ R.f k then ((-R.lam k) ^ n : ℝ) * ∑ j ∈ Finset.Icc 1 (R.m k / 2), bt R E b k j n (-m)
        else 0 := by
  rcases le_or_gt 0 m with h | h
  · obtain ⟨i, rfl⟩ := Int.eq_ofNat_of_zero_le h
    have hi : i ≤ n := by rw [abs_le] at hm; omega
    refine (ext_nrm_nat R E b n i hi).trans (Finset.sum_congr rfl fun k _ => ?_)
    have : (i ≤ R.f k) ↔ |(i : ℤ)| ≤ R.f k := by rw [abs_le]; omega
    simp only [this]
  · obtain ⟨i, hi⟩ := Int.eq_ofNat_of_zero_le (by omega : 0 ≤ -m)
    obtain rfl : m = -(i : ℤ) := by omega
    have hi' : i ≤ n := by rw [abs_le] at hm; omega
    rw [ext_nrm_conj _ (backCoef_proper R E true), ext_nrm_nat R E b n i hi', map_sum]
    refine Finset.sum_congr rfl fun k _ => ?_
    have : (i ≤ R.f k) ↔ |-(i : ℤ)| ≤ R.f k := by rw [abs_le]; omega
    simp only [this]
    split_ifs
    · rw [map_mul, Complex.conj_ofReal, map_sum]
      congr 1
      exact Finset.sum_congr rfl fun j _ => bt_conj R E b k j n _
    · exact map_zero _

theorem sum_reflect (f : ℕ) (g : ℤ → ℂ) : ∑ m ∈ Finset.Icc (-(f : ℤ)) f, g (-m) = ∑ m ∈ Finset.Icc (-(f : ℤ)) f, g m := by
  refine Finset.sum_bij' (fun m _ => -m) (fun m _ => -m) ?_ ?_ ?_ ?_ ?_
  · intro m hm; rw [Finset.mem_Icc] at hm ⊢; omega
  · intro m hm; rw [Finset.mem_Icc] at hm ⊢; omega
  · intro m _; simp
  · intro m _; simp
  · intro m _; rfl

theorem form_back (R : Rule) (E : Wave) (b : Point ℝ) (n : ℕ) : form (backCoef R E true) b n =
    ∑ k ∈ Finset.range R.s, ((-R.lam k : ℝ) : ℂ) ^ n * ∑ j ∈ Finset.Icc 1 (R.m k / 2),
      ∑ m ∈ Finset.Icc (-(R.f k : ℤ)) (R.f k), bt R E b k j n m := by
  unfold form
  rw [Finset.sum_congr rfl fun m hm => ext_nrm R E b n m (by rw [abs_le]; exact Finset.mem_Icc.1 hm), Finset.sum_comm]
  refine Finset.sum_congr rfl fun k _ => ?_
  rw [Finset.mul_sum, ← Finset.sum_filter]
  have e : (Finset.Icc (-(n : ℤ)) n).filter (fun m : ℤ => |m| ≤ (R.f k : ℤ)) =
      Finset.Icc (-(min n (R.f k) : ℕ) : ℤ) (min n (R.f k) : ℕ) := by
    ext m; simp only [Finset.mem_filter, Finset.mem_Icc, abs_le]; omega
  rw [e, sum_reflect _ fun m => (((-R.lam k) ^ n : ℝ) : ℂ) * ∑ j ∈ Finset.Icc 1 (R.m k / 2), bt R E b k j n m]
  simp only [Finset.mul_sum]
  rw [Finset.sum_comm]
  refine Finset.sum_congr rfl fun j _ => ?_
  have hs : Finset.Icc (-(min n (R.f k) : ℕ) : ℤ) (min n (R.f k) : ℕ) ⊆ Finset.Icc (-(R.f k : ℤ)) (R.f k) := by
    intro m; simp only [Finset.mem_Icc]; omega
  rw [← Finset.sum_subset hs]
  · refine Finset.sum_congr rfl fun m _ => ?_
    push_cast; ring
  · intro m hm' hm
    rw [bt_out, mul_zero]
    rw [Finset.mem_Icc] at hm hm'; rw [lt_abs]; omega

/-- The value at `b` of what an exponential expansion holds. -/
def pairW (R : Rule) (p : ℕ) (W : Wave) (b : Point ℝ) : ℝ :=
  ∑ k ∈ Finset.range R.s, ∑ j ∈ Finset.Icc 1 (R.m k / 2),
    2 * (W k j * cutWave p (R.f k) (-R.lam k) b (R.alpha k j)).re

theorem back_val (R : Rule) (p : ℕ) (E : Wave) (b : Point ℝ) :
    ∑ n ∈ Finset.range (p + 1), (form (backCoef R E true) b n).re = pairW R p E b := by
  have h : ∑ n ∈ Finset.range (p + 1), form (backCoef R E true) b n = ((pairW R p E b : ℝ) : ℂ) := by
    simp only [form_back]
    rw [Finset.sum_comm]
    unfold pairW
    push_cast
    refine Finset.sum_congr rfl fun k _ => ?_
    simp only [Finset.mul_sum]
    rw [Finset.sum_comm]
    refine Finset.sum_congr rfl fun j _ => ?_
    have e := Complex.add_conj (E k j * cutWave p (R.f k) (-R.lam k) b (R.alpha k j))
    push_cast at e
    rw [← e, map_mul, cutWave_conj, cutWave_wt, cutWave_wt, Finset.mul_sum, Finset.mul_sum, ← Finset.sum_add_distrib]
    refine Finset.sum_congr rfl fun n _ => ?_
    rw [← Finset.mul_sum]
    simp only [bt, Finset.sum_add_distrib, ← Finset.mul_sum]
    push_cast; ring
  rw [← Complex.re_sum, h, Complex.ofReal_re]

theorem form_neg (L : Coef) (v : Point ℝ) (n : ℕ) : form L ⟨-v.x, -v.y, -v.z⟩ n = (-1) ^ n * form L v n := by
  have := form_psmul L (-1) v n
  rw [show psmul (-1) v = ⟨-v.x, -v.y, -v.z⟩ by simp [psmul]] at this
  rw [this]; push_cast; rfl

theorem form_back_false (R : Rule) (E : Wave) (b : Point ℝ) (n : ℕ) :
    form (backCoef R E false) b n = form (backCoef R E true) ⟨-b.x, -b.y, -b.z⟩ n := by
  rw [form_neg]
  unfold form
  rw [Finset.mul_sum]
  refine Finset.sum_congr rfl fun m _ => ?_
  have : ext (backCoef R E false) n m = (-1) ^ n * ext (backCoef R E true) n m := by
    unfold ext
    split_ifs
    · rw [backCoef_false]; ring
    · rw [backCoef_false, map_mul, map_pow, map_neg, map_one]
  rw [this]; ring

/-! ### The frames -/

theorem quarter : Real.cos (Real.arccos 0 / 2) ^ 2 - Real.sin (Real.arccos 0 / 2) ^ 2 = 0 ∧
    2 * Real.sin (Real.arccos 0 / 2) * Real.cos (Real.arccos 0 / 2) = 1 := by
  rw [Real.arccos_zero]
  constructor
  · rw [← Real.cos_two_mul']; rw [show 2 * (Real.pi / 2 / 2) = Real.pi / 2 by ring, Real.cos_pi_div_two]
  · rw [← Real.sin_two_mul]; rw [show 2 * (Real.pi / 2 / 2) = Real.pi / 2 by ring, Real.sin_pi_div_two]

theorem rotY_plus (v : Point ℝ) : rotY (Real.cos (Real.arccos 0 / 2)) (Real.sin (Real.arccos 0 / 2)) v = ⟨-v.z, v.y, v.x⟩ := by
  obtain ⟨h1, h2⟩ := quarter
  unfold rotY; rw [h1, h2]; simp

theorem rotY_minus (v : Point ℝ) : rotY (Real.cos (Real.arccos 0 / 2)) (-Real.sin (Real.arccos 0 / 2)) v = ⟨v.z, v.y, -v.x⟩ := by
  obtain ⟨h1, h2⟩ := quarter
  unfold rotY
  rw [neg_sq, h1, show 2 * -Real.sin (Real.arccos 0 / 2) * Real.cos (Real.arccos 0 / 2) =
    -(2 * Real.sin (Real.arccos 0 / 2) * Real.cos (Real.arccos 0 / 2)) by ring, h2]; simp

theorem rotZ_minus (v : Point ℝ) : rotZ (-(Real.pi / 2)) v = ⟨-v.y, v.x, v.z⟩ := by
  unfold rotZ; simp [Real.cos_pi_div_two, Real.sin_pi_div_two]

theorem eToL_val (R : Rule) (p : ℕ) (E : Wave) (b : Point ℝ) :
    (∑ n ∈ Finset.range (p + 1), (form (eToL R E 'z' true) b n).re = pairW R p E (turn 4 b)) ∧
    (∑ n ∈ Finset.range (p + 1), (form (eToL R E 'z' false) b n).re = pairW R p E (turn 5 b)) ∧
    (∑ n ∈ Finset.range (p + 1), (form (eToL R E 'y' true) b n).re = pairW R p E (turn 2 b)) ∧
    (∑ n ∈ Finset.range (p + 1), (form (eToL R E 'y' false) b n).re = pairW R p E (turn 3 b)) ∧
    (∑ n ∈ Finset.range (p + 1), (form (eToL R E 'x' true) b n).re = pairW R p E (turn 0 b)) ∧
    (∑ n ∈ Finset.range (p + 1), (form (eToL R E 'x' false) b n).re = pairW R p E (turn 1 b)) := by
  have hx : ∀ sgn n, form (eToL R E 'x' sgn) b n = form (backCoef R E sgn) ⟨-b.z, b.y, b.x⟩ n := by
    intro sgn n
    show form (rotateY (backCoef R E sgn) (dmatMinus 0)) b n = _
    rw [form_rotateY _ (backCoef_proper R E sgn) _ _ _ (dmatMinus_is 0) (by rw [neg_sq]; exact cs_one _), neg_neg, rotY_plus]
  have hy : ∀ sgn n, form (eToL R E 'y' sgn) b n = form (backCoef R E sgn) ⟨b.z, b.x, b.y⟩ n := by
    intro sgn n
    show form (rotateZ (rotateY (backCoef R E sgn) (dmatPlus 0)) (Real.pi / 2)) b n = _
    rw [form_rotateZ, form_rotateY _ (backCoef_proper R E sgn) _ _ _ (dmatPlus_is 0) (cs_one _), rotZ_minus, rotY_minus, neg_neg]
  have hz : ∀ sgn n, form (eToL R E 'z' sgn) b n = form (backCoef R E sgn) b n := fun _ _ => rfl
  refine ⟨?_, ?_, ?_, ?_, ?_, ?_⟩
  · simp only [hz]; exact back_val R p E b
  · simp only [hz, form_back_false]; exact back_val R p E _
  · simp only [hy]; exact back_val R p E _
  · simp only [hy, form_back_false]; exact back_val R p E _
  · simp only [hx]; exact back_val R p E _
  · simp only [hx, form_back_false, neg_neg]; exact back_val R p E _

theorem eToL_proper (R : Rule) (E : Wave) (dir : Char) (sgn : Bool) : Proper (eToL R E dir sgn) := by
  have h := backCoef_proper R E sgn
  unfold eToL
  simp only
  split_ifs
  · exact h
  · exact rotateZ_proper _ _ (rotateY_proper _ h _ _ _ (dmatPlus_is 0))
  · exact rotateY_proper _ h _ _ _ (dmatMinus_is 0)

/-- `M_to_I` of a unit charge. -/
theorem mToI_reg (R : Rule) (p : ℕ) (M : Coef) (u : Point ℝ) (hM : ∀ n m, m ≤ n → M n m = reg u n m) (v : ℕ) (hv : v < 6) (k j : ℕ) :
    mToI R p M v k j = ((R.wt k / R.m k : ℝ) : ℂ) * cutWave p (R.f k) (R.lam k) (turn v u) (R.alpha k j) := by
  have hx : ∀ n m, m ≤ n → rotateY M (dmatPlus 0) n m = reg ⟨-u.z, u.y, u.x⟩ n m := by
    intro n m hm
    rw [rotateY_congr M (reg u) _ n (fun i hi => hM n i hi), rotateY_reg u _ _ _ (dmatPlus_is 0) (cs_one _) n m hm, rotY_plus]
  have hy : ∀ n m, m ≤ n → rotateY (rotateZ M (-Real.pi / 2)) (dmatMinus 0) n m = reg ⟨u.z, u.x, u.y⟩ n m := by
    intro n m hm
    rw [rotateY_congr _ (rotateZ (reg u) (-Real.pi / 2)) _ n (fun i hi => rotateZ_congr _ _ _ _ _ (hM n i hi)), rotateZ_reg,
      rotateY_reg _ _ _ _ (dmatMinus_is 0) (by rw [neg_sq]; exact cs_one _) n m hm, show -Real.pi / 2 = -(Real.pi / 2) by ring,
      rotZ_minus, rotY_minus, neg_neg]
  interval_cases v
  · exact waveUp_reg R p _ _ hx k j
  · refine (waveDn_reg R p _ _ hx k j).trans ?_
    rw [cutWave_neg]; simp [turn]
  · exact waveUp_reg R p _ _ hy k j
  · refine (waveDn_reg R p _ _ hy k j).trans ?_
    rw [cutWave_neg]; simp [turn]
  · exact waveUp_reg R p _ _ hM k j
  · refine (waveDn_reg R p _ _ hM k j).trans ?_
    rw [cutWave_neg]; simp [turn]

end
end Dashmm.Harm
