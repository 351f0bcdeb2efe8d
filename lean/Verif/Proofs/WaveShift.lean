import Verif.Proofs.BesselErr
import Verif.Proofs.HarmAxis

/-!
# The coefficients of the translation of spherical waves along the axis

`Qf w m n j s`, with `w = κ²`, is the sum that the code forms, without the factors that depend on one of the degrees only.
It satisfies a differential equation in each of the two degrees.
-/

namespace Dashmm.Wave

open Finset Yuk Bessel
open scoped Nat

noncomputable section

/-! ### Reciprocals of factorials -/

/-- `1 / k!`, and zero for `k < 0`. -/
def rf (k : ℤ) : ℝ := if k < 0 then 0 else 1 / (k.toNat ! : ℝ)

theorem rf_pred (k : ℤ) : rf (k - 1) = k * rf k := by
  rcases lt_trichotomy k 0 with h | rfl | h
  · rw [rf, rf, if_pos (by omega), if_pos h, mul_zero]
  · simp [rf]
  · rw [rf, rf, if_neg (by omega), if_neg (by omega)]
    obtain ⟨a, ha⟩ : ∃ a : ℕ, k = a + 1 := ⟨(k - 1).toNat, by omega⟩
    subst ha
    rw [show ((a : ℤ) + 1 - 1).toNat = a by omega, show ((a : ℤ) + 1).toNat = a + 1 by omega, Nat.factorial_succ]
    have : (a ! : ℝ) ≠ 0 := by exact_mod_cast a.factorial_ne_zero
    push_cast
    field_simp

theorem rf_neg (k : ℤ) (h : k < 0) : rf k = 0 := if_pos h

theorem rf_nat (k : ℕ) : rf k = 1 / (k ! : ℝ) := by rw [rf, if_neg (by omega)]; simp

theorem rf_nonneg (k : ℤ) : 0 ≤ rf k := by rw [rf]; split <;> positivity

/-! ### The coefficients -/

/-- The part of a term that has no power of the length. -/
def qc (m n j : ℤ) (k : ℕ) : ℝ := ((2 * k - 1)‼ : ℕ) * rf (k - m) * rf (k + m) * rf (n - k) * rf (j - k)

theorem qc_symm (m n j : ℤ) (k : ℕ) : qc m n j k = qc m j n k := by rw [qc, qc]; ring

theorem qc_left (m n j : ℤ) (k : ℕ) (h : n < k) : qc m n j k = 0 := by
  rw [qc, rf_neg (n - k) (by omega)]; ring

theorem qc_right (m n j : ℤ) (k : ℕ) (h : j < k) : qc m n j k = 0 := by rw [qc_symm, qc_left _ _ _ _ h]

theorem qc_low (m n j : ℤ) (k : ℕ) (h : (k : ℤ) < |m|) : qc m n j k = 0 := by
  rw [lt_abs] at h
  rcases h with h | h
  · rw [qc, rf_neg (k - m) (by omega)]; ring
  · rw [qc, rf_neg (k + m) (by omega)]; ring

theorem qc_first (m n j : ℤ) : (2 * j + 1) * qc m n j 0 = ((j + 1) ^ 2 - m ^ 2) * qc m n (j + 1) 0 + qc m n (j - 1) 0 := by
  simp only [qc, Nat.cast_zero, sub_zero, zero_sub, zero_add]
  have h1 := rf_pred (j + 1)
  have h2 := rf_pred j
  rw [show j + 1 - 1 = j by ring] at h1
  rw [h2, h1]
  by_cases hm : m = 0
  · subst hm; push_cast; ring
  · have : rf (-m) * rf m = 0 := by
      rcases lt_or_gt_of_ne hm with h | h
      · rw [rf_neg m h, mul_zero]
      · rw [rf_neg (-m) (by omega), zero_mul]
    push_cast
    linear_combination (((2 * j + 1) * ((j + 1) * rf (j + 1)) - ((j + 1) ^ 2 - m ^ 2) * rf (j + 1) - j * ((j + 1) * rf (j + 1))) * rf n *
      ((2 * 0 - 1)‼ : ℕ)) * this

theorem qc_next (m n j : ℤ) (k : ℕ) : (2 * j + 1) * (qc m n j (k + 1) + (n + j - 2 * k) * qc m n j k) =
    ((j + 1) ^ 2 - m ^ 2) * qc m n (j + 1) (k + 1) + qc m n (j - 1) (k + 1) + (2 * (n + j - k) + 1) * qc m n (j - 1) k := by
  simp only [qc]
  have hd : (((2 * (k + 1) - 1)‼ : ℕ) : ℝ) = (2 * k + 1) * ((2 * k - 1)‼ : ℕ) := dfact_pred k
  rw [hd]
  have a1 := rf_pred ((k + 1 : ℕ) - m)
  have a2 := rf_pred ((k + 1 : ℕ) + m)
  have a3 := rf_pred (n - k)
  have a4 := rf_pred (j - k)
  have a5 := rf_pred (j - k - 1)
  rw [show ((k + 1 : ℕ) : ℤ) - m - 1 = k - m by push_cast; ring] at a1
  rw [show ((k + 1 : ℕ) : ℤ) + m - 1 = k + m by push_cast; ring] at a2
  rw [show n - (k : ℤ) - 1 = n - (k + 1 : ℕ) by push_cast; ring] at a3
  rw [show j - (k : ℤ) - 1 - 1 = j - 1 - (k + 1 : ℕ) by push_cast; ring, show j - (k : ℤ) - 1 = j - (k + 1 : ℕ) by push_cast; ring] at a5
  rw [show j - (k : ℤ) - 1 = j - (k + 1 : ℕ) by push_cast; ring] at a4
  rw [show j + 1 - ((k + 1 : ℕ) : ℤ) = j - k by push_cast; ring, show j - 1 - (k : ℤ) = j - (k + 1 : ℕ) by push_cast; ring, a1, a2, a3, a5, a4]
  push_cast
  ring

/-! ### The functions -/

/-- `i_j(κ s) / (κ s)^j`, as a function of `w = κ²` and `s`. -/
def fn (w : ℂ) (j : ℕ) (s : ℝ) : ℂ := efun j (w * (s : ℂ) ^ 2) / ((2 * j + 1)‼ : ℕ)

theorem dfc (n : ℕ) : (((2 * n + 1)‼ : ℕ) : ℂ) ≠ 0 := by exact_mod_cast (dfact_pos (2 * n + 1)).ne'

theorem dfc_succ (n : ℕ) : (((2 * (n + 1) + 1)‼ : ℕ) : ℂ) = (2 * n + 3) * ((2 * n + 1)‼ : ℕ) := by
  exact_mod_cast dfact_succ n

theorem fn_hasDeriv (w : ℂ) (j : ℕ) (s : ℝ) : HasDerivAt (fn w j) (w * s * fn w (j + 1) s) s := by
  have h1 : HasDerivAt (fun z : ℂ => w * z ^ 2) (w * (2 * (s : ℂ))) (s : ℂ) := by
    simpa using (hasDerivAt_pow 2 (s : ℂ)).const_mul w
  have h2 := (HasDerivAt.comp (s : ℂ) (h₂ := efun j) (efun_hasDeriv j (w * (s : ℂ) ^ 2)) h1).comp_ofReal
  have h3 := h2.div_const (((2 * j + 1)‼ : ℕ) : ℂ)
  refine h3.congr_deriv ?_
  have e1 := odd3_ne (K := ℂ) j
  have e2 := dfc j
  rw [fn, dfc_succ]
  field_simp

theorem fn_three (w : ℂ) (j : ℕ) (s : ℝ) : fn w j s = (2 * j + 3) * fn w (j + 1) s + w * (s : ℂ) ^ 2 * fn w (j + 2) s := by
  have h := efun_diff j (w * (s : ℂ) ^ 2)
  have e1 := odd3_ne (K := ℂ) j
  have e3 := odd5_ne (K := ℂ) j
  have e2 := dfc j
  simp only [fn]
  rw [show j + 2 = j + 1 + 1 from rfl, dfc_succ (j + 1), dfc_succ j]
  push_cast
  rw [show (2 * ((j : ℂ) + 1) + 3) = 2 * j + 5 by ring]
  field_simp
  field_simp at h
  linear_combination h

/-- The sum in the coefficient of the translation. -/
def Qf (w : ℂ) (m : ℤ) (n j : ℕ) (s : ℝ) : ℂ :=
  ∑ k ∈ range (j + 1), (qc m n j k : ℂ) * (w ^ (j - k) * (s : ℂ) ^ (n + j - 2 * k) * fn w (n + j - k) s)

theorem Qf_hasDeriv (w : ℂ) (m : ℤ) (n j : ℕ) (s : ℝ) :
    HasDerivAt (Qf w m n j) (∑ k ∈ range (j + 1), (qc m n j k : ℂ) *
      (((n + j : ℂ) - 2 * k) * (w ^ (j - k) * (s : ℂ) ^ (n + j + 1 - 2 * (k + 1)) * fn w (n + j - k) s) +
        w ^ (j + 1 - k) * (s : ℂ) ^ (n + j + 1 - 2 * k) * fn w (n + j + 1 - k) s)) s := by
  have : Qf w m n j = fun s : ℝ => ∑ k ∈ range (j + 1), (qc m n j k : ℂ) *
      (w ^ (j - k) * (s : ℂ) ^ (n + j - 2 * k) * fn w (n + j - k) s) := rfl
  rw [this]
  refine HasDerivAt.fun_sum fun k hk => ?_
  rw [mem_range] at hk
  by_cases hn : n < k
  · rw [qc_left m n j k (by exact_mod_cast hn)]; simpa using hasDerivAt_const s (0 : ℂ)
  · have h1 : HasDerivAt (fun s : ℝ => (s : ℂ) ^ (n + j - 2 * k)) (((n + j - 2 * k : ℕ) : ℂ) * (s : ℂ) ^ (n + j - 2 * k - 1)) s :=
      (hasDerivAt_pow (n + j - 2 * k) (s : ℂ)).comp_ofReal
    have h2 := ((h1.const_mul (w ^ (j - k))).mul (fn_hasDeriv w (n + j - k) s)).const_mul (qc m n j k : ℂ)
    refine (h2.congr_of_eventuallyEq (Filter.Eventually.of_forall fun x => rfl)).congr_deriv ?_
    have e1 : ((n + j - 2 * k : ℕ) : ℂ) = (n + j : ℂ) - 2 * k := by
      rw [Nat.cast_sub (by omega)]; push_cast; ring
    rw [e1, show n + j + 1 - 2 * (k + 1) = n + j - 2 * k - 1 by omega, show j + 1 - k = j - k + 1 by omega,
      show n + j + 1 - 2 * k = n + j - 2 * k + 1 by omega, show n + j + 1 - k = n + j - k + 1 by omega, pow_succ, pow_succ]
    ring

/-- The equation in the second degree. -/
theorem Qf_col (w : ℂ) (m : ℤ) (n j : ℕ) (s : ℝ) : ∃ d, HasDerivAt (Qf w m n j) d s ∧
    (2 * j + 1) * d = ((j + 1) ^ 2 - m ^ 2) * Qf w m n (j + 1) s + if j = 0 then 0 else w * Qf w m n (j - 1) s := by
  refine ⟨_, Qf_hasDeriv w m n j s, ?_⟩
  set b : ℕ → ℂ := fun k => w ^ (j + 1 - k) * (s : ℂ) ^ (n + j + 1 - 2 * k) * fn w (n + j + 1 - k) s with hb
  have e0 : ∀ k ∈ range (j + 1), (qc m n j k : ℂ) *
      (((n + j : ℂ) - 2 * k) * (w ^ (j - k) * (s : ℂ) ^ (n + j + 1 - 2 * (k + 1)) * fn w (n + j - k) s) +
        w ^ (j + 1 - k) * (s : ℂ) ^ (n + j + 1 - 2 * k) * fn w (n + j + 1 - k) s) =
      (qc m n j k : ℂ) * ((n + j : ℂ) - 2 * k) * b (k + 1) + (qc m n j k : ℂ) * b k := by
    intro k hk
    simp only [hb]
    rw [show j + 1 - (k + 1) = j - k by omega, show n + j + 1 - (k + 1) = n + j - k by omega]
    ring
  have e1 : Qf w m n (j + 1) s = ∑ k ∈ range (j + 2), (qc m n (j + 1) k : ℂ) * b k := by
    rw [Qf]
    refine sum_congr rfl fun k hk => ?_
    simp only [hb]
    push_cast
    rw [show n + (j + 1) = n + j + 1 by ring]
  have e2 : (if j = 0 then 0 else w * Qf w m n (j - 1) s) =
      ∑ k ∈ range (j + 1), (qc m n (j - 1 : ℤ) k : ℂ) * ((2 * (n + j - k) + 1) * b (k + 1) + b k) := by
    rw [sum_range_succ, qc_right m n (j - 1 : ℤ) j (by omega)]
    split_ifs with hj
    · subst hj; simp
    · obtain ⟨i, rfl⟩ := Nat.exists_eq_succ_of_ne_zero hj
      simp only [Nat.succ_eq_add_one, Nat.add_sub_cancel]
      rw [Qf, mul_sum, Complex.ofReal_zero, zero_mul, add_zero]
      refine sum_congr rfl fun k hk => ?_
      rw [mem_range] at hk
      have ei : (((i + 1 : ℕ) : ℤ) - 1) = i := by push_cast; ring
      rw [ei]
      by_cases hn : n < k
      · rw [qc_left m n i k (by exact_mod_cast hn)]; simp
      · simp only [hb]
        have h3 := fn_three w (n + i - k) s
        have e3 : ((n + i - k : ℕ) : ℂ) = n + i - k := by rw [Nat.cast_sub (by omega)]; push_cast; ring
        rw [e3] at h3
        rw [show n + (i + 1) + 1 - (k + 1) = n + i - k + 1 by omega, show n + (i + 1) + 1 - k = n + i - k + 2 by omega,
          show i + 1 + 1 - (k + 1) = i - k + 1 by omega, show i + 1 + 1 - k = i - k + 1 + 1 by omega,
          show n + (i + 1) + 1 - 2 * (k + 1) = n + i - 2 * k by omega, show n + (i + 1) + 1 - 2 * k = n + i - 2 * k + 2 by omega,
          h3]
        push_cast
        rw [pow_succ w (i - k + 1), pow_succ w, pow_add (s : ℂ) _ 2]
        ring
  rw [sum_congr rfl e0, e1, e2, sum_add_distrib, sum_range_succ' (fun k => (qc m n j k : ℂ) * b k) j]
  have z1 : (qc m n j (j + 1) : ℂ) = 0 := by rw [qc_right m n j (j + 1) (by push_cast; omega)]; simp
  have z2 : ∑ k ∈ range j, (qc m n j (k + 1) : ℂ) * b (k + 1) = ∑ k ∈ range (j + 1), (qc m n j (k + 1) : ℂ) * b (k + 1) := by
    rw [sum_range_succ, z1]; simp
  have z3 : ∑ k ∈ range (j + 1), (qc m n (j - 1 : ℤ) k : ℂ) * ((2 * (n + j - k) + 1) * b (k + 1) + b k) =
      ∑ k ∈ range (j + 1), ((2 * (n + j - k) + 1) * (qc m n (j - 1 : ℤ) k : ℂ) + (qc m n (j - 1 : ℤ) (k + 1) : ℂ)) * b (k + 1) +
        (qc m n (j - 1 : ℤ) 0 : ℂ) * b 0 := by
    have : ∀ k, (qc m n (j - 1 : ℤ) k : ℂ) * ((2 * (n + j - k) + 1) * b (k + 1) + b k) =
      (2 * (n + j - k) + 1) * (qc m n (j - 1 : ℤ) k : ℂ) * b (k + 1) + (qc m n (j - 1 : ℤ) k : ℂ) * b k := fun k => by ring
    rw [sum_congr rfl fun k _ => this k, sum_add_distrib, sum_range_succ' (fun k => (qc m n (j - 1 : ℤ) k : ℂ) * b k) j]
    have z4 : ∑ k ∈ range j, (qc m n (j - 1 : ℤ) (k + 1) : ℂ) * b (k + 1) =
        ∑ k ∈ range (j + 1), (qc m n (j - 1 : ℤ) (k + 1) : ℂ) * b (k + 1) := by
      rw [sum_range_succ, qc_right m n (j - 1 : ℤ) (j + 1) (by push_cast; omega)]; simp
    rw [z4, ← add_assoc, ← sum_add_distrib]
    congr 1
    exact sum_congr rfl fun k _ => by ring
  rw [z2, z3, sum_range_succ' (fun k => (qc m n (j + 1) k : ℂ) * b k) (j + 1), ← add_assoc, ← sum_add_distrib]
  have f0 : (2 * (j : ℂ) + 1) * (qc m n j 0 : ℂ) = ((j + 1) ^ 2 - m ^ 2) * (qc m n (j + 1) 0 : ℂ) + (qc m n (j - 1 : ℤ) 0 : ℂ) := by
    have := qc_first m n j
    exact_mod_cast congrArg (fun x : ℝ => (x : ℂ)) this
  have f1 : ∀ k : ℕ, (2 * (j : ℂ) + 1) * ((qc m n j (k + 1) : ℂ) + (n + j - 2 * k) * (qc m n j k : ℂ)) =
      ((j + 1) ^ 2 - m ^ 2) * (qc m n (j + 1) (k + 1) : ℂ) + (qc m n (j - 1 : ℤ) (k + 1) : ℂ) +
        (2 * (n + j - k) + 1) * (qc m n (j - 1 : ℤ) k : ℂ) := by
    intro k
    have := congrArg (fun x : ℝ => (x : ℂ)) (qc_next m n j k)
    push_cast at this
    linear_combination this
  rw [mul_add, mul_add, mul_sum, mul_sum]
  have f2 : ∑ k ∈ range (j + 1), (2 * (j : ℂ) + 1) * ((qc m n j k : ℂ) * (n + j - 2 * k) * b (k + 1) + (qc m n j (k + 1) : ℂ) * b (k + 1)) =
      ∑ k ∈ range (j + 1), ((j + 1) ^ 2 - m ^ 2) * ((qc m n (j + 1) (k + 1) : ℂ) * b (k + 1)) +
      ∑ k ∈ range (j + 1), ((2 * (n + j - k) + 1) * (qc m n (j - 1 : ℤ) k : ℂ) + (qc m n (j - 1 : ℤ) (k + 1) : ℂ)) * b (k + 1) := by
    rw [← sum_add_distrib]
    exact sum_congr rfl fun k _ => by linear_combination b (k + 1) * f1 k
  rw [f2]
  linear_combination b 0 * f0

end
end Dashmm.Wave
