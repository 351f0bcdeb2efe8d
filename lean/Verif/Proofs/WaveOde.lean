import Verif.Proofs.WaveShift
import Verif.Proofs.YukAdd

/-!
# Spherical waves along the axis

The derivatives of the regular and the decaying waves along the axis, and of the sums that translate them.
-/

namespace Dashmm.Wave

open Finset Yuk Bessel Harm
open scoped Nat

noncomputable section

/-! ### The other equation of the coefficients -/

theorem Qf_symm (w : ℂ) (m : ℤ) (n j : ℕ) (s : ℝ) : w ^ n * Qf w m n j s = w ^ j * Qf w m j n s := by
  have key : ∀ n j : ℕ, j ≤ n → w ^ n * Qf w m n j s = w ^ j * Qf w m j n s := by
    intro n j h
    rw [Qf, Qf]
    have : ∑ k ∈ range (n + 1), (qc m j n k : ℂ) * (w ^ (n - k) * (s : ℂ) ^ (j + n - 2 * k) * fn w (j + n - k) s) =
        ∑ k ∈ range (j + 1), (qc m j n k : ℂ) * (w ^ (n - k) * (s : ℂ) ^ (j + n - 2 * k) * fn w (j + n - k) s) := by
      symm
      refine sum_subset (range_subset_range.2 (by omega)) fun k _ hk => ?_
      rw [mem_range] at hk
      rw [qc_left m j n k (by omega)]; simp
    rw [this, mul_sum, mul_sum]
    refine sum_congr rfl fun k hk => ?_
    rw [mem_range] at hk
    rw [qc_symm m n j k, Nat.add_comm j n]
    have e : w ^ n * w ^ (j - k) = w ^ j * w ^ (n - k) := by rw [← pow_add, ← pow_add]; congr 1; omega
    linear_combination (qc m j n k : ℂ) * (s : ℂ) ^ (n + j - 2 * k) * fn w (n + j - k) s * e
  rcases le_total j n with h | h
  · exact key n j h
  · exact (key j n h).symm

theorem Qf_row (w : ℂ) (hw : w ≠ 0) (m : ℤ) (n j : ℕ) (s : ℝ) : ∃ d, HasDerivAt (Qf w m n j) d s ∧
    (2 * n + 1) * d = w * ((n + 1) ^ 2 - m ^ 2) * Qf w m (n + 1) j s + if n = 0 then 0 else Qf w m (n - 1) j s := by
  obtain ⟨d, h1, h2⟩ := Qf_col w m j n s
  have hn : w ^ n ≠ 0 := pow_ne_zero _ hw
  refine ⟨w ^ j / w ^ n * d, ?_, ?_⟩
  · have := h1.const_mul (w ^ j / w ^ n)
    refine this.congr_of_eventuallyEq (Filter.Eventually.of_forall fun x => ?_)
    have := Qf_symm w m n j x
    simp only
    field_simp
    linear_combination this
  · have e1 : w ^ j * Qf w m j (n + 1) s = w ^ (n + 1) * Qf w m (n + 1) j s := (Qf_symm w m (n + 1) j s).symm
    have e2 : w ^ j * (if n = 0 then 0 else w * Qf w m j (n - 1) s) = w ^ n * (if n = 0 then 0 else Qf w m (n - 1) j s) := by
      split_ifs with h
      · simp
      · obtain ⟨i, rfl⟩ := Nat.exists_eq_succ_of_ne_zero h
        have := Qf_symm w m i j s
        simp only [Nat.succ_eq_add_one, Nat.add_sub_cancel]
        rw [pow_succ]; linear_combination -w * this
    rw [← mul_right_inj' hn]
    have : w ^ n * ((2 * (n : ℂ) + 1) * (w ^ j / w ^ n * d)) = w ^ j * ((2 * n + 1) * d) := by field_simp
    rw [this, h2, mul_add, e2, mul_add]
    rw [pow_succ] at e1
    linear_combination (((n : ℂ) + 1) ^ 2 - m ^ 2) * e1

theorem Qf_low (w : ℂ) (m : ℤ) (n j : ℕ) (s : ℝ) (h : (j : ℤ) < |m|) : Qf w m n j s = 0 := by
  rw [Qf]
  refine sum_eq_zero fun k hk => ?_
  rw [mem_range] at hk
  rw [qc_low m n j k (by omega)]; simp

theorem Qf_low' (w : ℂ) (m : ℤ) (n j : ℕ) (s : ℝ) (h : (n : ℤ) < |m|) : Qf w m n j s = 0 := by
  rw [Qf]
  refine sum_eq_zero fun k hk => ?_
  by_cases hk : n < k
  · rw [qc_left m n j k (by omega)]; simp
  · rw [qc_low m n j k (by omega)]; simp

theorem Qf_zero (w : ℂ) (m : ℤ) (n j : ℕ) : Qf w m n j 0 =
    if n = j then ((((2 * n - 1)‼ : ℕ) * rf (n - m) * rf (n + m) / ((2 * n + 1)‼ : ℕ) : ℝ) : ℂ) else 0 := by
  rw [Qf]
  have hz : ∀ k ∈ range (j + 1), ¬ (k = n ∧ k = j) → (qc m n j k : ℂ) * (w ^ (j - k) * ((0 : ℝ) : ℂ) ^ (n + j - 2 * k) * fn w (n + j - k) 0) = 0 := by
    intro k hk hne
    rw [mem_range] at hk
    by_cases hn : n < k
    · rw [qc_left m n j k (by omega)]; simp
    · rw [Complex.ofReal_zero, zero_pow (by omega)]; simp
  split_ifs with h
  · subst h
    rw [sum_eq_single n (fun k hk hne => hz k hk (by omega)) (fun h => absurd (mem_range.2 (Nat.lt_succ_self n)) h)]
    rw [qc, sub_self, show (0 : ℤ) = ((0 : ℕ) : ℤ) from rfl, rf_nat, Nat.sub_self, show n + n - 2 * n = 0 by omega,
      show n + n - n = n by omega, fn]
    simp [efun_zero_arg, div_eq_mul_inv]
  · exact sum_eq_zero fun k hk => hz k hk (by omega)

/-! ### Waves -/

/-- `(n - m)! (n + m)!`. -/
def wt (m : ℤ) (n : ℕ) : ℝ := ((n - m).toNat ! : ℝ) * ((n + m).toNat ! : ℝ)

theorem wt_pos (m : ℤ) (n : ℕ) : 0 < wt m n := by rw [wt]; positivity

theorem wt_succ (m : ℤ) (n : ℕ) (h : |m| ≤ n) : wt m (n + 1) = ((n + 1) ^ 2 - m ^ 2) * wt m n := by
  rw [abs_le] at h
  obtain ⟨a, ha⟩ := Int.eq_ofNat_of_zero_le (by omega : 0 ≤ n - m)
  obtain ⟨b, hb⟩ := Int.eq_ofNat_of_zero_le (by omega : 0 ≤ n + m)
  rw [wt, wt, show ((n + 1 : ℕ) : ℤ) - m = (a + 1 : ℕ) by push_cast; omega, show ((n + 1 : ℕ) : ℤ) + m = (b + 1 : ℕ) by push_cast; omega,
    ha, hb]
  simp only [Int.toNat_natCast, Int.ofNat_eq_natCast, Nat.factorial_succ]
  have e1 : (a : ℝ) = n - m := by exact_mod_cast ha.symm
  have e2 : (b : ℝ) = n + m := by exact_mod_cast hb.symm
  push_cast
  rw [e1, e2]; ring

theorem har_hasDeriv (x y : ℂ) : ∀ (n : ℕ) (m : ℤ) (z : ℂ), HasDerivAt (fun z => har x y z n m) (if n = 0 then 0 else har x y z (n - 1) m) z
  | 0, m, z => by simpa [har] using hasDerivAt_const z _
  | n + 1, m, z => by
    have h0 := har_hasDeriv x y n m z
    have h1 := har_hasDeriv x y n (m - 1) z
    have h2 := har_hasDeriv x y n (m + 1) z
    have h := ((((hasDerivAt_id z).mul h0).add (h1.const_mul (x / 2))).sub (h2.const_mul (y / 2))).div_const ((n : ℂ) + 1)
    refine (h.congr_of_eventuallyEq (Filter.Eventually.of_forall fun z => ?_)).congr_deriv ?_
    · simp only [Pi.sub_apply, Pi.add_apply, Pi.mul_apply, id]; rw [har]
    · have hn : ((n : ℂ) + 1) ≠ 0 := by exact_mod_cast Nat.succ_ne_zero n
      rw [if_neg (Nat.succ_ne_zero n), Nat.add_sub_cancel, div_eq_iff hn]
      split_ifs with h
      · subst h; simp
      · obtain ⟨i, rfl⟩ := Nat.exists_eq_succ_of_ne_zero h
        have := har_succ x y z i m
        simp only [Nat.succ_eq_add_one, Nat.add_sub_cancel, id]
        push_cast
        linear_combination -this

theorem harP_hasDeriv (v : Point ℝ) (n : ℕ) (m : ℤ) (x : ℝ) :
    HasDerivAt (fun x : ℝ => harP (addz x v) n m) (if n = 0 then 0 else harP (addz x v) (n - 1) m) x := by
  have h := har_hasDeriv (v.x - v.y * Complex.I) (v.x + v.y * Complex.I) n m (v.z + x)
  have h1 : HasDerivAt (fun z : ℂ => (v.z : ℂ) + z) 1 (x : ℂ) := by simpa using (hasDerivAt_id (x : ℂ)).const_add (v.z : ℂ)
  have h2 := (HasDerivAt.comp (x : ℂ) (h₂ := fun z => har (v.x - v.y * Complex.I) (v.x + v.y * Complex.I) z n m) h h1).comp_ofReal
  refine (h2.congr_of_eventuallyEq (Filter.Eventually.of_forall fun y => ?_)).congr_deriv ?_
  · simp [harP, addz]
  · simp [harP, addz]

theorem normsq_hasDeriv (v : Point ℝ) (x : ℝ) : HasDerivAt (fun x : ℝ => (addz x v).norm ^ 2) (2 * (addz x v).z) x := by
  have : (fun x : ℝ => (addz x v).norm ^ 2) = fun x => v.x ^ 2 + v.y ^ 2 + (v.z + x) ^ 2 := by
    funext x; rw [norm_sq_eq]; rfl
  rw [this]
  have h := ((((hasDerivAt_id x).const_add v.z).pow 2)).const_add (v.x ^ 2 + v.y ^ 2)
  refine (h.congr_of_eventuallyEq (Filter.Eventually.of_forall fun y => ?_)).congr_deriv ?_
  · simp
  · simp [addz]

theorem harP_three (v : Point ℝ) (n : ℕ) (m : ℤ) : (2 * (n : ℂ) + 1) * v.z * harP v n m =
    ((n + 1) ^ 2 - m ^ 2) * harP v (n + 1) m + if n = 0 then 0 else (v.norm ^ 2 : ℝ) * harP v (n - 1) m := by
  cases n with
  | zero =>
    have h1 := har_d1 (v.x - v.y * Complex.I) (v.x + v.y * Complex.I) v.z 0 m
    have h2 := har_d2 (v.x - v.y * Complex.I) (v.x + v.y * Complex.I) v.z 0 m
    simp only [harP, if_true]
    rw [har_zero] at *
    rw [har_zero] at h1 h2
    push_cast at *
    by_cases hm : m = 0
    · subst hm; simp at *; exact h1.symm
    · rw [if_neg hm] at *
      by_cases hm1 : m = 1
      · subst hm1; simp
      · by_cases hm2 : m = -1
        · subst hm2; simp
        · rw [har_out _ _ _ 1 m (by rw [lt_abs]; omega)]; simp
  | succ n =>
    have h := har_three (v.x - v.y * Complex.I) (v.x + v.y * Complex.I) v.z n m
    have hz : ((v.norm ^ 2 : ℝ) : ℂ) = (v.z : ℂ) ^ 2 + (v.x - v.y * Complex.I) * (v.x + v.y * Complex.I) := by
      rw [norm_sq_eq]; push_cast
      linear_combination (v.y : ℂ) ^ 2 * Complex.I_sq
    rw [if_neg (Nat.succ_ne_zero n), Nat.add_sub_cancel, hz]
    simp only [harP]
    push_cast
    linear_combination -h

theorem harP_out (v : Point ℝ) (n : ℕ) (m : ℤ) (h : (n : ℤ) < |m|) : harP v n m = 0 := har_out _ _ _ _ _ h

/-- The regular wave. -/
def ureg (w : ℂ) (m : ℤ) (n : ℕ) (v : Point ℝ) : ℂ := efun n (w * (v.norm ^ 2 : ℝ)) * harP v n m

theorem ureg_hasDeriv (w : ℂ) (m : ℤ) (n : ℕ) (v : Point ℝ) (x : ℝ) : HasDerivAt (fun x : ℝ => ureg w m n (addz x v))
    ((if n = 0 then 0 else ureg w m (n - 1) (addz x v)) +
      w * ((n + 1) ^ 2 - m ^ 2) / ((2 * n + 1) * (2 * n + 3)) * ureg w m (n + 1) (addz x v)) x := by
  have h1 : HasDerivAt (fun x : ℝ => w * (((addz x v).norm ^ 2 : ℝ) : ℂ)) (w * ((2 * (addz x v).z : ℝ) : ℂ)) x :=
    (normsq_hasDeriv v x).ofReal_comp.const_mul w
  have h2 := HasDerivAt.comp x (h₂ := efun n) (efun_hasDeriv n _) h1
  have h3 := h2.mul (harP_hasDeriv v n m x)
  refine (h3.congr_of_eventuallyEq (Filter.Eventually.of_forall fun y => rfl)).congr_deriv ?_
  have h4 := harP_three (addz x v) n m
  have e1 := odd_ne (K := ℂ) n
  have e2 := odd3_ne (K := ℂ) n
  simp only [ureg, Function.comp]
  push_cast
  push_cast at h4
  cases n with
  | zero =>
    simp only [if_true] at *
    push_cast at *
    field_simp
    linear_combination w * efun (0 + 1) (w * ((addz x v).norm : ℂ) ^ 2) * h4
  | succ n =>
    rw [if_neg (Nat.succ_ne_zero n)] at *
    rw [if_neg (Nat.succ_ne_zero n)]
    simp only [Nat.add_sub_cancel] at *
    have h5 := efun_diff n (w * ((addz x v).norm : ℂ) ^ 2)
    have e3 := odd5_ne (K := ℂ) n
    push_cast at *
    rw [show 2 * ((n : ℂ) + 1) + 1 = 2 * n + 3 by ring, show 2 * ((n : ℂ) + 1) + 3 = 2 * n + 5 by ring] at *
    have h6 : efun n (w * ((addz x v).norm : ℂ) ^ 2) = efun (n + 1) (w * ((addz x v).norm : ℂ) ^ 2) +
      w * ((addz x v).norm : ℂ) ^ 2 / ((2 * n + 3) * (2 * n + 5)) * efun (n + 2) (w * ((addz x v).norm : ℂ) ^ 2) := by
      linear_combination h5
    rw [h6]
    field_simp
    linear_combination w * efun (n + 1 + 1) (w * ((addz x v).norm : ℂ) ^ 2) * h4

/-- The decaying wave. -/
def uirr (κ : ℂ) (m : ℤ) (n : ℕ) (v : Point ℝ) : ℂ := ffun κ n v.norm * harP v n m

theorem norm_hasDeriv (v : Point ℝ) (x : ℝ) (h : (addz x v).norm ≠ 0) :
    HasDerivAt (fun x : ℝ => (addz x v).norm) ((addz x v).z / (addz x v).norm) x := by
  have h1 := (normsq_hasDeriv v x).sqrt (pow_ne_zero 2 h)
  refine (h1.congr_of_eventuallyEq (Filter.Eventually.of_forall fun y => ?_)).congr_deriv ?_
  · simp only; rw [Real.sqrt_sq (norm_nonneg' _)]
  · rw [Real.sqrt_sq (norm_nonneg' _)]; field_simp

theorem uirr_hasDeriv (κ : ℂ) (m : ℤ) (n : ℕ) (v : Point ℝ) (x : ℝ) (h : (addz x v).norm ≠ 0) :
    HasDerivAt (fun x : ℝ => uirr κ m n (addz x v))
      (-(((n + 1) ^ 2 - m ^ 2) * uirr κ m (n + 1) (addz x v)) -
        if n = 0 then 0 else κ ^ 2 / ((2 * n - 1) * (2 * n + 1)) * uirr κ m (n - 1) (addz x v)) x := by
  have h1 := HasDerivAt.scomp x (g₁ := fun r => ffun κ n r) (ffun_hasDeriv κ n _ h) (norm_hasDeriv v x h)
  have h3 := h1.mul (harP_hasDeriv v n m x)
  refine (h3.congr_of_eventuallyEq (Filter.Eventually.of_forall fun y => rfl)).congr_deriv ?_
  have h4 := harP_three (addz x v) n m
  have hc : ((addz x v).norm : ℂ) ≠ 0 := by exact_mod_cast h
  simp only [uirr, Function.comp, Complex.real_smul]
  push_cast
  push_cast at h4
  cases n with
  | zero =>
    simp only [if_true] at *
    push_cast at *
    field_simp
    linear_combination -ffun κ (0 + 1) (addz x v).norm * h4
  | succ n =>
    rw [if_neg (Nat.succ_ne_zero n)] at *
    rw [if_neg (Nat.succ_ne_zero n)]
    simp only [Nat.add_sub_cancel] at *
    have h5 := ffun_three κ n (addz x v).norm h
    have e1 := odd_ne (K := ℂ) n
    have e3 := odd3_ne (K := ℂ) n
    push_cast at *
    rw [show 2 * ((n : ℂ) + 1) + 1 = 2 * n + 3 by ring] at *
    rw [show 2 * ((n : ℂ) + 1) - 1 = 2 * n + 1 by ring]
    have h6 : κ ^ 2 / ((2 * n + 1) * (2 * n + 3)) * ffun κ n (addz x v).norm =
      ((addz x v).norm : ℂ) ^ 2 * ffun κ (n + 2) (addz x v).norm - ffun κ (n + 1) (addz x v).norm := by linear_combination -h5
    rw [← mul_assoc (κ ^ 2 / _), h6]
    field_simp
    linear_combination -ffun κ (n + 1 + 1) (addz x v).norm * h4

end
end Dashmm.Wave
