import Verif.Proofs.Gamma

/-!
# C107: the Gamma function

The specification is Mathlib's `Real.Gamma`.
-/

namespace Dashmm

open Gam
open Real (Gamma pi)

/-- The recurrence of the Gamma function holds exactly up to the argument 12. -/
theorem C107_recurrence (x : ℝ) (h0 : 2.22e-16 ≤ x) (h1 : x < 11) : gamma (x + 1) = x * gamma x := by
  have h0' : eps ≤ x := h0
  have hx : 0 < x := eps_pos.trans_le h0'
  rw [gamma_small h0' (by linarith), gamma_small (by linarith) (by linarith), small_succ hx]

/-- The factorials are exact. -/
theorem C107_factorials (n : ℕ) (h : n < 11) : gamma (n + 1) = (n.factorial : ℝ) := by
  have he : eps ≤ 1 := by unfold eps; norm_num
  have hn : (0 : ℝ) ≤ n := Nat.cast_nonneg n
  have hn' : (n : ℝ) + 1 < 12 := by
    have : ((n : ℕ) : ℝ) < (11 : ℕ) := by exact_mod_cast h
    push_cast at this; linarith
  rw [gamma_small (by linarith) hn', add_comm, small_at le_rfl (by norm_num), sub_self, near_zero, one_mul]
  clear h hn hn'
  induction n with
  | zero => simp
  | succ n ih => rw [Finset.prod_range_succ, ih, Nat.factorial_succ]; push_cast; ring

/-- The value is positive for positive arguments. -/
theorem C107_positive (x : ℝ) (h : 0 < x) : 0 < gamma x := by
  unfold gamma
  rw [if_neg (not_le.2 h)]
  unfold positive
  have hi : 0 < xinf := by unfold xinf; positivity
  split_ifs with h1 h2 h3 h4
  · exact one_div_pos.2 h
  · exact hi
  · exact small_pos h
  · exact Real.exp_pos _
  · exact hi

/-- Beyond the largest argument and at the poles the outcome is the largest number. -/
theorem C107_overflow : (∀ x : ℝ, 171.624 < x → gamma x = 1.79e308) ∧ ∀ n : ℕ, gamma (-(n : ℝ)) = 1.79e308 := by
  constructor
  · intro x hx
    have h12 : (12 : ℝ) < x := by linarith
    have he : eps < 12 := by unfold eps; norm_num
    unfold gamma
    rw [if_neg (by linarith)]
    unfold positive
    rw [if_neg (by linarith), if_neg (by linarith), if_neg (not_le.2 (show xbig < x from hx))]; rfl
  · intro n
    unfold gamma
    rw [if_pos (neg_nonpos.2 (Nat.cast_nonneg n))]
    dsimp only
    rw [neg_neg, if_neg]; · rfl
    rw [Int.floor_natCast]; simp

private theorem parity_iff (k : ℤ) : (k : ℝ) ≠ (⌊(k : ℝ) * 0.5⌋ : ℝ) * 2 ↔ Odd k := by
  have hfl : ⌊(k : ℝ) * 0.5⌋ = k / 2 := by
    rw [show (k : ℝ) * 0.5 = (k : ℝ) / ((2 : ℕ) : ℝ) by push_cast; ring]
    exact (Int.floor_div_natCast _ _).trans (by rw [Int.floor_intCast]; rfl)
  rw [hfl, ← Int.not_even_iff_odd]
  refine not_congr ⟨fun h => ?_, fun h => ?_⟩
  · have h2 : k = k / 2 * 2 := by exact_mod_cast h
    exact ⟨k / 2, by omega⟩
  · obtain ⟨j, rfl⟩ := h
    have : (j + j) / 2 = j := by omega
    rw [this]; push_cast; ring

private theorem sin_floor (y : ℝ) (k : ℤ) : Real.sin (pi * y) = (if Odd k then -1 else 1) * Real.sin (pi * (y - k)) := by
  have h : pi * y = pi * (y - k) + k * pi := by ring
  rw [h, Real.sin_add_int_mul_pi]
  split_ifs with ho
  · rw [ho.neg_one_zpow]
  · rw [(Int.not_odd_iff_even.1 ho).neg_one_zpow]

/-- The reflection formula holds exactly for negative arguments that are not poles and whose mirror image is in the range. -/
theorem C107_reflection (x : ℝ) (h0 : x < 0) (hx : ∀ k : ℤ, x ≠ k) (h1 : 1 - x ≤ 171.624) :
    gamma x * gamma (1 - x) = pi / Real.sin (pi * x) := by
  have hpos := C107_positive (1 - x) (by linarith)
  have hr : -x - ⌊-x⌋ ≠ 0 := fun h => hx (-⌊-x⌋) (by push_cast; linarith)
  obtain ⟨res, hres⟩ : ∃ res, positive (-x + 1) = some res := by
    have h1' : -x + 1 ≤ xbig := by unfold xbig; linarith
    have he : eps ≤ 1 := by unfold eps; norm_num
    unfold positive
    rw [if_neg (by linarith)]
    split_ifs
    · exact ⟨_, rfl⟩
    · exact ⟨_, rfl⟩
  have hg : gamma (1 - x) = res := by
    unfold gamma
    rw [if_neg (by linarith), show 1 - x = -x + 1 by ring, hres]
  rw [hg] at hpos ⊢
  have hs : Real.sin (pi * (-x - ⌊-x⌋)) > 0 := by
    have hf := Int.fract_nonneg (-x)
    have hf1 := Int.fract_lt_one (-x)
    have hf0 : Int.fract (-x) ≠ 0 := hr
    have hfp : 0 < Int.fract (-x) := lt_of_le_of_ne hf hf0.symm
    refine Real.sin_pos_of_pos_of_lt_pi (mul_pos Real.pi_pos hfp) ?_
    have := mul_lt_mul_of_pos_left hf1 Real.pi_pos
    rw [mul_one] at this; exact this
  have hsx : Real.sin (pi * x) = -((if Odd ⌊-x⌋ then -1 else 1) * Real.sin (pi * (-x - ⌊-x⌋))) := by
    rw [← sin_floor, mul_neg, Real.sin_neg, neg_neg]
  unfold gamma
  rw [if_pos h0.le]
  dsimp only
  rw [if_pos hr, hres]
  dsimp only
  have hfact : -pi / Real.sin (pi * (-x - ⌊-x⌋)) ≠ 1 := by
    have : -pi / Real.sin (pi * (-x - ⌊-x⌋)) < 0 := div_neg_of_neg_of_pos (neg_lt_zero.2 Real.pi_pos) hs
    linarith
  rw [if_pos hfact, hsx]
  by_cases ho : Odd ⌊-x⌋
  · rw [if_pos ((parity_iff _).2 ho), if_pos ho]
    field_simp
  · rw [if_neg (fun h => ho ((parity_iff _).1 h)), if_neg ho]
    field_simp

/-- The relative error is the same at arguments that differ by a whole number. -/
theorem C107_same_error (x : ℝ) (n : ℕ) (h0 : 2.22e-16 ≤ x) (h1 : x + n < 12) : gamma (x + n) * Gamma x = gamma x * Gamma (x + n) := by
  have hx : 0 < x := eps_pos.trans_le h0
  induction n with
  | zero => simp
  | succ n ih =>
    push_cast at h1 ⊢
    have hn : (0 : ℝ) ≤ n := Nat.cast_nonneg n
    rw [← add_assoc, C107_recurrence (x + n) (by linarith) (by linarith), Real.Gamma_add_one (by linarith), mul_assoc, ih (by linarith)]
    ring

private theorem spread {g G g' G' d : ℝ} (h : g' * G = g * G') (hG : 0 < G) (hG' : 0 ≤ G') (hd : |g - G| ≤ d * G) :
    |g' - G'| ≤ d * G' := by
  have e : g' - G' = (g - G) * (G' / G) := by
    field_simp; rw [sub_mul, h]; ring
  rw [e, abs_mul, abs_of_nonneg (div_nonneg hG' hG.le)]
  calc |g - G| * (G' / G) ≤ d * G * (G' / G) := mul_le_mul_of_nonneg_right hd (div_nonneg hG' hG.le)
    _ = d * G' := by field_simp

/-- The accuracy between 1 and 2 is the accuracy for all arguments up to 12. -/
theorem C107_accuracy (d : ℝ) (h : ∀ t : ℝ, 1 ≤ t → t < 2 → |gamma t - Gamma t| ≤ d * Gamma t) (x : ℝ) (h0 : 2.22e-16 ≤ x)
    (h1 : x < 12) : |gamma x - Gamma x| ≤ d * Gamma x := by
  have hx : 0 < x := eps_pos.trans_le h0
  have hG := Real.Gamma_pos_of_pos hx
  rcases lt_or_ge x 1 with h2 | h2
  · have e := C107_same_error x 1 h0 (by push_cast; linarith)
    push_cast at e
    exact spread (g := gamma (x + 1)) (G := Gamma (x + 1)) e.symm (Real.Gamma_pos_of_pos (by linarith)) hG.le
      (h _ (by linarith) (by linarith))
  · obtain ⟨t, n, ht1, ht2, rfl⟩ := exists_at h2
    have e := C107_same_error t n (by linarith) h1
    exact spread e (Real.Gamma_pos_of_pos (by linarith)) hG.le (h t ht1 ht2)

private theorem mirror {g G a A s d : ℝ} (h : g * a = s) (h' : G * A = s) (hA : 0 < A) (hd1 : d < 1) (hd : |a - A| ≤ d * A) :
    |g - G| ≤ d / (1 - d) * |G| := by
  have ha : (1 - d) * A ≤ a := by have := (abs_le.1 hd).1; linarith
  have ha0 : 0 < a := lt_of_lt_of_le (mul_pos (by linarith) hA) ha
  have hd0 : 0 ≤ d := by
    have := (abs_nonneg _).trans hd
    exact nonneg_of_mul_nonneg_left this hA
  have e : g - G = G * ((A - a) / a) := by
    have : g = G * A / a := by rw [h', ← h]; field_simp
    rw [this]; field_simp
  rw [e, abs_mul, mul_comm]
  refine mul_le_mul_of_nonneg_right ?_ (abs_nonneg _)
  rw [abs_div, abs_of_pos ha0, abs_sub_comm, div_le_div_iff₀ ha0 (by linarith)]
  calc |a - A| * (1 - d) ≤ d * A * (1 - d) := mul_le_mul_of_nonneg_right hd (by linarith)
    _ = d * ((1 - d) * A) := by ring
    _ ≤ d * a := mul_le_mul_of_nonneg_left ha hd0

/-- The accuracy for negative arguments follows from that of the mirror image. -/
theorem C107_accuracy_left (d : ℝ) (hd : d < 1) (x : ℝ) (h0 : x < 0) (hx : ∀ k : ℤ, x ≠ k) (h1 : 1 - x ≤ 171.624)
    (h : |gamma (1 - x) - Gamma (1 - x)| ≤ d * Gamma (1 - x)) : |gamma x - Gamma x| ≤ d / (1 - d) * |Gamma x| :=
  mirror (C107_reflection x h0 hx h1) (Real.Gamma_mul_Gamma_one_sub x) (Real.Gamma_pos_of_pos (by linarith)) hd h

private theorem half_right (n : ℕ) (h : n < 12) : |gamma (n + 1 / 2) - Gamma (n + 1 / 2)| ≤ 1e-20 * Gamma (n + 1 / 2) := by
  have hn : (n : ℝ) + 1 / 2 < 12 := by
    have : (n : ℝ) ≤ (11 : ℕ) := by exact_mod_cast Nat.lt_succ_iff.1 h
    push_cast at this; linarith
  have base : |gamma (1 / 2) - Gamma (1 / 2)| ≤ 1e-20 * Gamma (1 / 2) := by
    have he : eps ≤ 1 / 2 := by unfold eps; norm_num
    rw [gamma_small he (by norm_num), small_lt (by norm_num), Real.Gamma_one_half_eq]
    have := near_half
    rw [abs_le] at this ⊢
    constructor <;> linarith [this.1, this.2]
  have e := C107_same_error (1 / 2) n (by norm_num) (by linarith)
  rw [add_comm (1 / 2 : ℝ)] at e
  exact spread e (Real.Gamma_pos_of_pos (by norm_num)) (Real.Gamma_pos_of_pos (by positivity)).le base

/-- At the half integers, where the Bessel functions of the kernels use it, the error is below 2 · 10⁻²⁰ of the value. -/
theorem C107_half_integers (k : ℤ) (h0 : -11 ≤ k) (h1 : k < 12) :
    |gamma (k + 1 / 2) - Gamma (k + 1 / 2)| ≤ 2e-20 * |Gamma (k + 1 / 2)| := by
  rcases lt_or_ge k 0 with h | h
  · obtain ⟨n, rfl⟩ : ∃ n : ℕ, k = -(n : ℤ) - 1 := ⟨(-k - 1).toNat, by omega⟩
    have hn : (0 : ℝ) ≤ n := Nat.cast_nonneg n
    have hn' : (n : ℝ) ≤ (10 : ℕ) := by exact_mod_cast (by omega : n ≤ 10)
    push_cast at hn' ⊢
    have hm := half_right (n + 1) (by omega)
    push_cast at hm
    have e : (n : ℝ) + 1 + 1 / 2 = 1 - (-(n : ℝ) - 1 + 1 / 2) - 0 := by ring
    have e' : (1 : ℝ) - (-(n : ℝ) - 1 + 1 / 2) = n + 1 + 1 / 2 := by ring
    have := C107_accuracy_left 1e-20 (by norm_num) (-(n : ℝ) - 1 + 1 / 2) (by linarith)
      (fun k hk => by
        have h2 : (2 * k : ℝ) = ((2 * (-(n : ℤ)) - 1 : ℤ) : ℝ) := by push_cast; linarith
        have h3 : 2 * k = 2 * (-(n : ℤ)) - 1 := by exact_mod_cast h2
        omega) (by linarith) (by rw [e']; exact hm)
    refine this.trans (mul_le_mul_of_nonneg_right ?_ (abs_nonneg _))
    norm_num
  · obtain ⟨n, rfl⟩ := Int.eq_ofNat_of_zero_le h
    have hm := half_right n (by omega)
    have hG : 0 < Gamma (n + 1 / 2) := Real.Gamma_pos_of_pos (by positivity)
    rw [Int.cast_natCast, abs_of_pos hG]
    exact hm.trans (mul_le_mul_of_nonneg_right (by norm_num) hG.le)

/-- Left of the mirror image of the largest argument the outcome is the largest number, although the Gamma function nearly vanishes there. -/
theorem C107_far_left (x : ℝ) (h : x < 1 - 171.624) : gamma x = 1.79e308 := by
  have he : eps < 12 := by unfold eps; norm_num
  unfold gamma
  rw [if_pos (by linarith)]
  dsimp only
  have hp : positive (-x + 1) = none := by
    unfold positive
    rw [if_neg (by linarith), if_neg (by linarith), if_neg (by unfold xbig; linarith)]
  rw [hp]
  split_ifs <;> rfl

/-- The Gamma function to the left of zero, half way between the poles. -/
theorem C107_far_left_value (n : ℕ) : |Gamma (1 / 2 - n)| ≤ 2 * √pi := by
  have key : ∀ n : ℕ, |Gamma (1 / 2 - ((n + 1 : ℕ) : ℝ))| ≤ 2 * √pi := by
    intro n
    induction n with
    | zero =>
      have e := Real.Gamma_add_one (s := 1 / 2 - ((0 + 1 : ℕ) : ℝ)) (by norm_num)
      rw [show (1 / 2 - ((0 + 1 : ℕ) : ℝ)) + 1 = 1 / 2 by norm_num, Real.Gamma_one_half_eq] at e
      rw [abs_le]
      push_cast at e ⊢
      constructor <;> linarith [Real.sqrt_nonneg pi]
    | succ n ih =>
      have hn : (0 : ℝ) ≤ n := Nat.cast_nonneg n
      have e := Real.Gamma_add_one (s := 1 / 2 - ((n + 1 + 1 : ℕ) : ℝ)) (by push_cast; linarith)
      rw [show (1 / 2 - ((n + 1 + 1 : ℕ) : ℝ)) + 1 = 1 / 2 - ((n + 1 : ℕ) : ℝ) by push_cast; ring] at e
      rw [e, abs_mul] at ih
      refine le_trans (le_mul_of_one_le_left (abs_nonneg _) ?_) ih
      rw [abs_of_neg (by push_cast; linarith)]
      push_cast; linarith
  cases n with
  | zero =>
    rw [Nat.cast_zero, sub_zero, Real.Gamma_one_half_eq, abs_of_nonneg (Real.sqrt_nonneg _)]
    linarith [Real.sqrt_nonneg pi]
  | succ n => exact key n

/-- Seven factorial; the recurrence, the reflection and the accuracy at values that meet the hypotheses. -/
example : gamma 8 = 5040 := by
  have := C107_factorials 7 (by norm_num)
  norm_num [Nat.factorial] at this ⊢; exact this

example : gamma 3.7 = 2.7 * gamma 2.7 := by
  have := C107_recurrence 2.7 (by norm_num) (by norm_num)
  norm_num at this ⊢; exact this

example : gamma (-3 / 2) * gamma (5 / 2) = pi / Real.sin (pi * (-3 / 2)) := by
  have := C107_reflection (-3 / 2) (by norm_num) (fun k hk => by
    have h2 : (2 * k : ℝ) = ((-3 : ℤ) : ℝ) := by push_cast; linarith
    have h3 : 2 * k = -3 := by exact_mod_cast h2
    omega) (by norm_num)
  norm_num at this ⊢; exact this

example : gamma (1 / 2 - (172 : ℕ)) = 1.79e308 ∧ |Gamma (1 / 2 - (172 : ℕ))| ≤ 2 * √pi :=
  ⟨C107_far_left _ (by norm_num), C107_far_left_value 172⟩

end Dashmm
