import Verif.Proofs.HarmRot

/-!
The Wigner matrices of the code in closed form.
-/

namespace Dashmm.Harm

open Lap (powM1 dplus dminus dRow dRow0)

noncomputable section

/-- Square root of a factorial. -/
def sf (k : ℤ) : ℝ := √(k.toNat.factorial : ℝ)

theorem sf_pos (k : ℤ) : 0 < sf k := by
  unfold sf; exact Real.sqrt_pos.2 (by exact_mod_cast Nat.factorial_pos _)

theorem sf_ne (k : ℤ) : sf k ≠ 0 := (sf_pos k).ne'

theorem sf_mul_self (k : ℤ) : sf k * sf k = (k.toNat.factorial : ℝ) :=
  Real.mul_self_sqrt (by positivity)

theorem sf_sq (k : ℤ) : sf k ^ 2 = (k.toNat.factorial : ℝ) := by rw [sq, sf_mul_self]

theorem sf_zero : sf 0 = 1 := by simp [sf]
theorem sf_one : sf 1 = 1 := by simp [sf]
theorem sf_two : sf 2 = √2 := by simp [sf, Nat.factorial]

theorem sf_step (k : ℤ) (h : 1 ≤ k) : √(k : ℝ) * sf (k - 1) = sf k := by
  obtain ⟨k, rfl⟩ := Int.eq_ofNat_of_zero_le (by omega : 0 ≤ k)
  obtain ⟨k, rfl⟩ : ∃ j, k = j + 1 := ⟨k - 1, by omega⟩
  unfold sf
  rw [show (((k + 1 : ℕ) : ℤ) - 1).toNat = k by omega, Int.toNat_natCast, Nat.factorial_succ, Nat.cast_mul,
    Real.sqrt_mul (by positivity)]
  simp

theorem sf_step2 (k : ℤ) (q : ℝ) (h : 0 ≤ k) (hq : k < 2 → q = 0) :
    √((k * (k - 1) : ℤ) : ℝ) * (sf (k - 2) * q) = sf k * q := by
  rcases lt_or_ge k 2 with h2 | h2
  · rw [hq h2]; simp
  · rw [Int.cast_mul, Real.sqrt_mul (by exact_mod_cast h), ← sf_step k (by omega), ← sf_step (k - 1) (by omega)]
    rw [show k - 1 - 1 = k - 2 by ring]
    push_cast; ring

theorem sf_step11 (j k : ℤ) (q : ℝ) (hj : 0 ≤ j) (hk : 0 ≤ k) (hq : j < 1 ∨ k < 1 → q = 0) :
    √((j * k : ℤ) : ℝ) * (sf (j - 1) * sf (k - 1) * q) = sf j * sf k * q := by
  by_cases h2 : j < 1 ∨ k < 1
  · rw [hq h2]; simp
  · push Not at h2
    rw [Int.cast_mul, Real.sqrt_mul (by exact_mod_cast hj), ← sf_step j h2.1, ← sf_step k h2.2]
    ring

/-- The closed form. -/
def wig (c s : ℝ) (n : ℕ) (mp m : ℤ) : ℝ :=
  sf (n + m) * sf (n - m) / (sf (n + mp) * sf (n - mp)) * bin c (-s) s c (n + mp).toNat (n - mp).toNat (n + m)

theorem wig_parity (c s : ℝ) (n : ℕ) (mp m : ℤ) (h : -(n : ℤ) ≤ mp) :
    wig c (-s) n mp m = powM1 (mp + m) * wig c s n mp m := by
  unfold wig
  rw [bin_parity c (-s) s c]
  rw [powM1_eq (((n + mp).toNat : ℤ) + (n + m)) (mp + m) (by omega)]
  ring

theorem wig_neg (c s : ℝ) (n : ℕ) (mp m : ℤ) (h : |mp| ≤ n) :
    wig c s n (-mp) (-m) = powM1 (mp + m) * wig c s n mp m := by
  rw [abs_le] at h
  unfold wig
  have e := bin_parity c (-s) s c
  rw [neg_neg] at e
  rw [bin_reverse, bin_swap, e]
  rw [powM1_eq _ (mp + m) (by omega)]
  rw [show (n : ℤ) + -mp = n - mp by ring, show (n : ℤ) - -mp = n + mp by ring, show (n : ℤ) + -m = n - m by ring,
    show (n : ℤ) - -m = n + m by ring,
    show ((((n : ℤ) - mp).toNat : ℕ) : ℤ) + (((n : ℤ) + mp).toNat : ℕ) - (n - m) = n + m by omega]
  ring

theorem wig_transpose (c s : ℝ) (n : ℕ) (mp m : ℤ) (hp : |mp| ≤ n) (hm : |m| ≤ n) :
    wig c s n mp m = wig c (-s) n m mp := by
  rw [abs_le] at hp hm
  obtain ⟨a, ha⟩ := Int.eq_ofNat_of_zero_le (by omega : 0 ≤ (n : ℤ) + mp)
  obtain ⟨b, hb⟩ := Int.eq_ofNat_of_zero_le (by omega : 0 ≤ (n : ℤ) - mp)
  obtain ⟨i, hi⟩ := Int.eq_ofNat_of_zero_le (by omega : 0 ≤ (n : ℤ) + m)
  obtain ⟨j, hj⟩ := Int.eq_ofNat_of_zero_le (by omega : 0 ≤ (n : ℤ) - m)
  have hab : a + b = 2 * n := by omega
  have hij : i + j = 2 * n := by omega
  have t := binW_transpose c (-s) s c (2 * n) a i
  have t1 := binW_in c (-s) s c a b i
  have t2 := binW_in c s (-s) c i j a
  rw [hab] at t1
  rw [hij] at t2
  rw [t1, t2] at t
  unfold wig
  rw [ha, hb, hi, hj, neg_neg]
  simp only [Int.toNat_natCast, Int.ofNat_eq_natCast]
  have c1 : ((2 * n).choose a : ℝ) * (sf a * sf a) * (sf b * sf b) = (2 * n).factorial := by
    rw [sf_mul_self, sf_mul_self, Int.toNat_natCast, Int.toNat_natCast, ← hab, Nat.choose_symm_add]
    exact_mod_cast Nat.add_choose_mul_factorial_mul_factorial a b
  have c2 : ((2 * n).choose i : ℝ) * (sf i * sf i) * (sf j * sf j) = (2 * n).factorial := by
    rw [sf_mul_self, sf_mul_self, Int.toNat_natCast, Int.toNat_natCast, ← hij, Nat.choose_symm_add]
    exact_mod_cast Nat.add_choose_mul_factorial_mul_factorial i j
  have ha0 := sf_ne a
  have hb0 := sf_ne b
  have hi0 := sf_ne i
  have hj0 := sf_ne j
  have hF : ((2 * n).factorial : ℝ) ≠ 0 := by exact_mod_cast Nat.factorial_ne_zero _
  have hca : ((2 * n).choose a : ℝ) ≠ 0 := by intro h; rw [h] at c1; simp at c1; exact hF c1.symm
  have hci : ((2 * n).choose i : ℝ) ≠ 0 := by intro h; rw [h] at c2; simp at c2; exact hF c2.symm
  have d1 : ((2 * n).choose a : ℝ) = (2 * n).factorial / (sf a ^ 2 * sf b ^ 2) := by
    rw [← c1]; field_simp
  have d2 : ((2 * n).choose i : ℝ) = (2 * n).factorial / (sf i ^ 2 * sf j ^ 2) := by
    rw [← c2]; field_simp
  rw [d1, d2] at t
  field_simp at t ⊢
  linear_combination t

/-! ### The recurrences of the code -/

theorem dRow_eq (sb s2 c2 : ℝ) (n mp : ℕ) (dpp : ℤ → ℝ) (m : ℤ) :
    dRow sb s2 c2 n mp dpp m =
    (s2 * (√((((n : ℤ) - m) * ((n : ℤ) - m - 1) : ℤ) : ℝ) * dpp (m + 1))
      + c2 * (√((((n : ℤ) + m) * ((n : ℤ) + m - 1) : ℤ) : ℝ) * dpp (m - 1))
      - sb * (√((((n : ℤ) + m) * ((n : ℤ) - m) : ℤ) : ℝ) * dpp m))
      * (1 / √(((((n : ℤ) + mp) * ((n : ℤ) + mp - 1) : ℤ) : ℝ))) := by
  unfold dRow
  simp only
  split_ifs with h1 h2 h3 h4
  · rw [show ((n : ℤ) + m) * ((n : ℤ) + m - 1) = 0 by rw [h1]; ring, show ((n : ℤ) + m) * ((n : ℤ) - m) = 0 by rw [h1]; ring]
    rw [Int.cast_zero, Real.sqrt_zero]; ring
  · rw [show ((n : ℤ) + m) * ((n : ℤ) + m - 1) = 0 by rw [h2]; ring]
    rw [Int.cast_zero, Real.sqrt_zero]; ring
  · rw [show ((n : ℤ) - m) * ((n : ℤ) - m - 1) = 0 by rw [h3]; ring]
    rw [Int.cast_zero, Real.sqrt_zero]; ring
  · rw [show ((n : ℤ) - m) * ((n : ℤ) - m - 1) = 0 by rw [h4]; ring, show ((n : ℤ) + m) * ((n : ℤ) - m) = 0 by rw [h4]; ring]
    rw [Int.cast_zero, Real.sqrt_zero]; ring
  · ring

theorem dRow0_eq (cb sb : ℝ) (n : ℕ) (dpp : ℤ → ℝ) (m : ℤ) :
    dRow0 cb sb n dpp m =
    (-(sb / 2) * (√((((n : ℤ) - m) * ((n : ℤ) - m - 1) : ℤ) : ℝ) * dpp (m + 1))
      + sb / 2 * (√((((n : ℤ) + m) * ((n : ℤ) + m - 1) : ℤ) : ℝ) * dpp (m - 1))
      + cb * (√((((n : ℤ) - m) * ((n : ℤ) + m) : ℤ) : ℝ) * dpp m)) / n := by
  unfold dRow0
  simp only
  split_ifs with h1 h2 h3 h4
  · rw [show ((n : ℤ) + m) * ((n : ℤ) + m - 1) = 0 by rw [h1]; ring, show ((n : ℤ) - m) * ((n : ℤ) + m) = 0 by rw [h1]; ring]
    rw [Int.cast_zero, Real.sqrt_zero]; ring
  · rw [show ((n : ℤ) + m) * ((n : ℤ) + m - 1) = 0 by rw [h2]; ring]
    rw [Int.cast_zero, Real.sqrt_zero]; ring
  · rw [show ((n : ℤ) - m) * ((n : ℤ) - m - 1) = 0 by rw [h3]; ring]
    rw [Int.cast_zero, Real.sqrt_zero]; ring
  · rw [show ((n : ℤ) - m) * ((n : ℤ) - m - 1) = 0 by rw [h4]; ring, show ((n : ℤ) - m) * ((n : ℤ) + m) = 0 by rw [h4]; ring]
    rw [Int.cast_zero, Real.sqrt_zero]; ring
  · ring

theorem dplus_eq (θ : ℝ) : ∀ (n mp : ℕ) (m : ℤ), mp ≤ n → |m| ≤ n →
    dplus θ n mp m = wig (Real.cos (θ / 2)) (Real.sin (θ / 2)) n mp m := by
  have hc : Real.cos θ = Real.cos (θ / 2) ^ 2 - Real.sin (θ / 2) ^ 2 := by
    rw [← Real.cos_two_mul']; congr 1; ring
  have hs : Real.sin θ = 2 * Real.sin (θ / 2) * Real.cos (θ / 2) := by
    rw [← Real.sin_two_mul]; congr 1; ring
  have h1 := Real.sin_sq_add_cos_sq (θ / 2)
  set c := Real.cos (θ / 2)
  set s := Real.sin (θ / 2)
  intro n
  induction n with
  | zero =>
    intro mp m hp hm
    obtain rfl : mp = 0 := by omega
    obtain rfl : m = 0 := by simpa using hm
    simp [dplus, wig, bin_zero, sf_zero]
  | succ n ih =>
    cases n with
    | zero =>
      intro mp m hp hm
      have r2 : √(2 : ℝ) * √2 = 2 := Real.mul_self_sqrt (by norm_num)
      have r20 : √(2 : ℝ) ≠ 0 := by positivity
      rw [abs_le] at hm
      push_cast at hm
      have hm' : m = -1 ∨ m = 0 ∨ m = 1 := by omega
      have hp' : mp = 0 ∨ mp = 1 := by omega
      rcases hp' with rfl | rfl <;> rcases hm' with rfl | rfl | rfl <;>
        simp [dplus, wig, hc, hs, bin_left, bin_right, bin_zero, sf_zero, sf_one,
          show ((1 : ℤ) + 1) = 2 from rfl, sf_two] <;>
        field_simp <;> (try rw [Real.sq_sqrt (by norm_num)]) <;> nlinarith [h1, r2]
    | succ n =>
      intro mp m hp hm
      rw [abs_le] at hm
      push_cast at hm
      have hν : ((n + 1 + 1 : ℕ) : ℤ) = n + 2 := by push_cast; ring
      have hrow : ∀ (q : ℕ), q ≤ n + 1 →
          √((((n : ℤ) + 2 - m) * ((n : ℤ) + 2 - m - 1) : ℤ) : ℝ) * dplus θ (n + 1) q (m + 1) =
            sf (n + 2 - m) * sf (n + 2 + m) / (sf (n + 1 + q) * sf (n + 1 - q)) *
              bin c (-s) s c (n + 1 + q) (n + 1 - q) (n + 2 + m) ∧
          √((((n : ℤ) + 2 + m) * ((n : ℤ) + 2 + m - 1) : ℤ) : ℝ) * dplus θ (n + 1) q (m - 1) =
            sf (n + 2 - m) * sf (n + 2 + m) / (sf (n + 1 + q) * sf (n + 1 - q)) *
              bin c (-s) s c (n + 1 + q) (n + 1 - q) (n + m) ∧
          √((((n : ℤ) + 2 + m) * ((n : ℤ) + 2 - m) : ℤ) : ℝ) * dplus θ (n + 1) q m =
            sf (n + 2 - m) * sf (n + 2 + m) / (sf (n + 1 + q) * sf (n + 1 - q)) *
              bin c (-s) s c (n + 1 + q) (n + 1 - q) (n + 1 + m) := by
        intro q hq
        have hw : ∀ m' : ℤ, |m'| ≤ n + 1 → dplus θ (n + 1) q m' =
            sf (n + 1 + m') * sf (n + 1 - m') / (sf (n + 1 + q) * sf (n + 1 - q)) *
              bin c (-s) s c (n + 1 + q) (n + 1 - q) (n + 1 + m') := by
          intro m' hm'
          rw [ih q m' hq (by exact_mod_cast hm'), wig]
          rw [show (((n + 1 : ℕ) : ℤ) + (q : ℤ)).toNat = n + 1 + q by omega,
            show (((n + 1 : ℕ) : ℤ) - (q : ℤ)).toNat = n + 1 - q by omega]
          push_cast; rfl
        refine ⟨?_, ?_, ?_⟩
        · rcases lt_or_ge ((n : ℤ) + 2 - m) 2 with h | h
          · rw [bin_out _ _ _ _ _ _ _ (by omega), show ((n : ℤ) + 2 - m) * ((n : ℤ) + 2 - m - 1) = 0 by
              rcases (by omega : (n : ℤ) + 2 - m = 0 ∨ (n : ℤ) + 2 - m = 1) with h | h <;> rw [h] <;> rfl]
            simp
          · rw [hw (m + 1) (by rw [abs_le]; omega)]
            have := sf_step2 (n + 2 - m) (sf (n + 2 + m) / (sf (n + 1 + q) * sf (n + 1 - q)) *
              bin c (-s) s c (n + 1 + q) (n + 1 - q) (n + 2 + m)) (by omega) (by omega)
            rw [show (n : ℤ) + 1 + (m + 1) = n + 2 + m by ring, show (n : ℤ) + 1 - (m + 1) = n + 2 - m - 2 by ring]
            linear_combination this
        · rcases lt_or_ge ((n : ℤ) + 2 + m) 2 with h | h
          · rw [bin_out _ _ _ _ _ _ _ (by omega), show ((n : ℤ) + 2 + m) * ((n : ℤ) + 2 + m - 1) = 0 by
              rcases (by omega : (n : ℤ) + 2 + m = 0 ∨ (n : ℤ) + 2 + m = 1) with h | h <;> rw [h] <;> rfl]
            simp
          · rw [hw (m - 1) (by rw [abs_le]; omega)]
            have := sf_step2 (n + 2 + m) (sf (n + 2 - m) / (sf (n + 1 + q) * sf (n + 1 - q)) *
              bin c (-s) s c (n + 1 + q) (n + 1 - q) (n + m)) (by omega) (by omega)
            rw [show (n : ℤ) + 1 - (m - 1) = n + 2 - m by ring, show (n : ℤ) + 1 + (m - 1) = n + m by ring]
            rw [show (n : ℤ) + 2 + m - 2 = n + m by ring] at this
            linear_combination this
        · by_cases h : (n : ℤ) + 2 + m < 1 ∨ (n : ℤ) + 2 - m < 1
          · rw [bin_out _ _ _ _ _ _ _ (by omega), show ((n : ℤ) + 2 + m) * ((n : ℤ) + 2 - m) = 0 by
              rcases (by omega : (n : ℤ) + 2 + m = 0 ∨ (n : ℤ) + 2 - m = 0) with h | h <;> rw [h] <;> simp]
            simp
          · rw [hw m (by rw [abs_le]; omega)]
            have := sf_step11 (n + 2 + m) (n + 2 - m) (1 / (sf (n + 1 + q) * sf (n + 1 - q)) *
              bin c (-s) s c (n + 1 + q) (n + 1 - q) (n + 1 + m)) (by omega) (by omega) (by omega)
            rw [show (n : ℤ) + 1 - m = n + 2 - m - 1 by ring]
            rw [show (n : ℤ) + 2 + m - 1 = n + 1 + m by ring] at this
            linear_combination this
      rw [dplus]
      rw [wig, hν]
      rcases Nat.eq_zero_or_pos mp with rfl | hp0
      · obtain ⟨t1, t2, t3⟩ := hrow 0 (by omega)
        simp only [if_true]
        rw [dRow0_eq, show ((n + 2 : ℕ) : ℤ) = n + 2 by push_cast; ring,
          mul_comm ((n : ℤ) + 2 - m) ((n : ℤ) + 2 + m), t1, t2, t3]
        rw [show ((n : ℤ) + 2 + ((0 : ℕ) : ℤ)).toNat = n + 1 + 1 by omega,
          show ((n : ℤ) + 2 - ((0 : ℕ) : ℤ)).toNat = n + 1 + 1 by omega]
        simp only [bin_left c (-s) s c (n + 1) (n + 1 + 1), bin_right c (-s) s c (n + 1) (n + 1), Nat.cast_zero, add_zero, sub_zero, Nat.sub_zero]
        rw [show (n : ℤ) + 2 + m - 1 = n + 1 + m by ring, show (n : ℤ) + 1 + m - 1 = n + m by ring]
        have hsf := sf_step (n + 2) (by omega)
        rw [show (n : ℤ) + 2 - 1 = n + 1 by ring] at hsf
        have hsq : √(((n + 2 : ℤ)) : ℝ) * √(((n + 2 : ℤ)) : ℝ) = n + 2 := by
          rw [Real.mul_self_sqrt]
          · push_cast; ring
          · exact_mod_cast (by omega : (0 : ℤ) ≤ n + 2)
        have hne : √(((n + 2 : ℤ)) : ℝ) ≠ 0 := by
          intro h; rw [h] at hsq; nlinarith [(Nat.cast_nonneg n : (0 : ℝ) ≤ n)]
        have hn2 : ((n : ℝ) + 2) ≠ 0 := by positivity
        rw [← hsf, hc, hs]
        have := sf_ne (n + 1)
        have e : (√(((n + 2 : ℤ)) : ℝ) * sf (n + 1)) * (√(((n + 2 : ℤ)) : ℝ) * sf (n + 1)) = (n + 2) * (sf (n + 1) * sf (n + 1)) := by
          rw [← hsq]; ring
        rw [e]
        push_cast
        field_simp
        ring
      · obtain ⟨q, rfl⟩ : ∃ q, mp = q + 1 := ⟨mp - 1, by omega⟩
        obtain ⟨t1, t2, t3⟩ := hrow q (by omega)
        rw [if_neg (by omega), dRow_eq, show ((n + 2 : ℕ) : ℤ) = n + 2 by push_cast; ring, Nat.add_sub_cancel, t1, t2, t3]
        rw [show ((n : ℤ) + 2 + ((q + 1 : ℕ) : ℤ)).toNat = n + 1 + q + 1 + 1 by omega,
          show ((n : ℤ) + 2 - ((q + 1 : ℕ) : ℤ)).toNat = n + 1 - q by omega]
        simp only [bin_left c (-s) s c (n + 1 + q + 1) (n + 1 - q), bin_left c (-s) s c (n + 1 + q) (n + 1 - q)]
        rw [show (n : ℤ) + 2 + m - 1 = n + 1 + m by ring, show (n : ℤ) + 1 + m - 1 = n + m by ring]
        have hsf := sf_step2 (n + 2 + ((q + 1 : ℕ) : ℤ)) 1 (by omega) (by omega)
        rw [show (n : ℤ) + 2 + ((q + 1 : ℕ) : ℤ) - 2 = n + 1 + q by push_cast; ring, mul_one, mul_one] at hsf
        rw [← hsf, show (n : ℤ) + 2 - ((q + 1 : ℕ) : ℤ) = n + 1 - q by push_cast; ring]
        have hne : √((((n : ℤ) + 2 + ((q + 1 : ℕ) : ℤ)) * ((n : ℤ) + 2 + ((q + 1 : ℕ) : ℤ) - 1) : ℤ) : ℝ) ≠ 0 := by
          intro h; rw [h] at hsf; simp at hsf; exact sf_ne _ hsf.symm
        have e1 : (1 - Real.cos θ) / 2 = s ^ 2 := by rw [hc]; linarith
        have e2 : (1 + Real.cos θ) / 2 = c ^ 2 := by rw [hc]; linarith
        rw [e1, e2, hs]
        have := sf_ne (n + 1 + q)
        have := sf_ne (n + 1 - q)
        field_simp
        ring

theorem dminus_eq (θ : ℝ) (n mp : ℕ) (m : ℤ) (hp : mp ≤ n) (hm : |m| ≤ n) :
    dminus θ n mp m = wig (Real.cos (θ / 2)) (-Real.sin (θ / 2)) n mp m := by
  have h := dplus_eq θ n mp m hp hm
  rw [wig_parity _ _ _ _ _ (by omega), ← h, show (mp : ℤ) + m = mp - m + 2 * m by ring,
    powM1_eq (mp - m + 2 * m) (mp - m) (by omega)]
  match n, mp with
  | 0, mp =>
    obtain rfl : mp = 0 := by omega
    obtain rfl : m = 0 := by simpa using hm
    simp [dminus, dplus, powM1]
  | 1, mp =>
    rw [abs_le] at hm
    push_cast at hm
    have hm' : m = -1 ∨ m = 0 ∨ m = 1 := by omega
    have hp' : mp = 0 ∨ mp = 1 := by omega
    rcases hp' with rfl | rfl <;> rcases hm' with rfl | rfl | rfl <;> simp [dminus, powM1]
  | n + 2, mp =>
    rw [dminus]
    split_ifs with h0
    · subst h0
      rw [Nat.cast_zero, zero_sub, powM1_neg]; ring
    · ring

end
end Dashmm.Harm
