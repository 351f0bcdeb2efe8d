import Verif.Proofs.Harm
import Verif.Model.Laplace
import Mathlib.Algebra.BigOperators.Group.Finset.Basic

/-!
Coefficients of `(α ξ + β η)^a (γ ξ + δ η)^b`: symmetries, transposition, action on `har`.
-/

namespace Dashmm.Harm

open Lap (powM1)

noncomputable section

theorem powM1_succ (m : ℤ) : powM1 (m + 1) = -powM1 m := by
  simp only [powM1]
  rcases Int.emod_two_eq_zero_or_one m with h | h
  · have : (m + 1) % 2 = 1 := by omega
    simp [h, this]
  · have : (m + 1) % 2 = 0 := by omega
    simp [h, this]

theorem powM1_pred (m : ℤ) : powM1 (m - 1) = -powM1 m := by
  have := powM1_succ (m - 1)
  rw [sub_add_cancel] at this
  rw [this, neg_neg]

theorem powM1_nat (m : ℕ) : powM1 (m : ℤ) = (-1) ^ m := by
  induction m with
  | zero => simp [powM1]
  | succ m ih => rw [Nat.cast_succ, powM1_succ, ih, pow_succ]; ring

theorem powM1_sq (m : ℤ) : powM1 m * powM1 m = 1 := by
  simp only [powM1]; split_ifs <;> ring

theorem powM1_neg (m : ℤ) : powM1 (-m) = powM1 m := by
  simp only [powM1]
  rcases Int.emod_two_eq_zero_or_one m with h | h
  · have : (-m) % 2 = 0 := by omega
    simp [h]
  · have : (-m) % 2 = 1 := by omega
    simp [h]

theorem powM1_eq (m k : ℤ) (h : (m - k) % 2 = 0) : powM1 m = powM1 k := by
  simp only [powM1]
  rcases Int.emod_two_eq_zero_or_one m with h1 | h1
  · have : k % 2 = 0 := by omega
    simp [h1, this]
  · have : k % 2 = 1 := by omega
    simp [h1, this]

theorem powM1_add (m k : ℤ) : powM1 (m + k) = powM1 m * powM1 k := by
  simp only [powM1]
  rcases Int.emod_two_eq_zero_or_one m with h1 | h1 <;> rcases Int.emod_two_eq_zero_or_one k with h2 | h2
  · have : (m + k) % 2 = 0 := by omega
    simp [h1, h2, this]
  · have : (m + k) % 2 = 1 := by omega
    simp [h1, h2, this]
  · have : (m + k) % 2 = 1 := by omega
    simp [h1, h2, this]
  · have : (m + k) % 2 = 0 := by omega
    simp [h1, h2, this]

/-- The coefficient of `ξ^i η^(a+b-i)`. -/
def bin (α β γ δ : ℝ) : ℕ → ℕ → ℤ → ℝ
  | 0, 0, i => if i = 0 then 1 else 0
  | 0, b + 1, i => γ * bin α β γ δ 0 b (i - 1) + δ * bin α β γ δ 0 b i
  | a + 1, b, i => α * bin α β γ δ a b (i - 1) + β * bin α β γ δ a b i

variable (α β γ δ : ℝ)

theorem bin_zero (i : ℤ) : bin α β γ δ 0 0 i = if i = 0 then 1 else 0 := by rw [bin]

theorem bin_left (a b : ℕ) (i : ℤ) :
    bin α β γ δ (a + 1) b i = α * bin α β γ δ a b (i - 1) + β * bin α β γ δ a b i := by rw [bin]

theorem bin_right : ∀ (a b : ℕ) (i : ℤ),
    bin α β γ δ a (b + 1) i = γ * bin α β γ δ a b (i - 1) + δ * bin α β γ δ a b i
  | 0, b, i => by rw [bin]
  | a + 1, b, i => by
    rw [bin_left, bin_left, bin_left, bin_right a b (i - 1), bin_right a b i]; ring

theorem bin_out : ∀ (a b : ℕ) (i : ℤ), i < 0 ∨ (a + b : ℤ) < i → bin α β γ δ a b i = 0
  | 0, 0, i, h => by rw [bin_zero, if_neg]; omega
  | 0, b + 1, i, h => by
    rw [bin_right, bin_out 0 b, bin_out 0 b]
    · simp
    · push_cast at *; omega
    · push_cast at *; omega
  | a + 1, b, i, h => by
    rw [bin_left, bin_out a b, bin_out a b]
    · simp
    · push_cast at *; omega
    · push_cast at *; omega

theorem bin_swap : ∀ (a b : ℕ) (i : ℤ), bin α β γ δ a b i = bin γ δ α β b a i
  | 0, 0, i => by rw [bin_zero, bin_zero]
  | 0, b + 1, i => by rw [bin_right, bin_left, bin_swap 0 b, bin_swap 0 b]
  | a + 1, b, i => by rw [bin_right, bin_left, bin_swap a b, bin_swap a b]

theorem bin_reverse : ∀ (a b : ℕ) (i : ℤ), bin α β γ δ a b i = bin β α δ γ a b (a + b - i)
  | 0, 0, i => by
    rw [bin_zero, bin_zero]; push_cast
    rcases eq_or_ne i 0 with rfl | h
    · simp
    · have : ¬ (0 : ℤ) - i = 0 := by omega
      simp [h]
  | 0, b + 1, i => by
    rw [bin_right, bin_right, bin_reverse 0 b (i - 1), bin_reverse 0 b i]; push_cast
    rw [show (0 : ℤ) + (b + 1) - i - 1 = 0 + b - i by ring, show (0 : ℤ) + b - (i - 1) = 0 + (b + 1) - i by ring]
    ring
  | a + 1, b, i => by
    rw [bin_left, bin_left, bin_reverse a b (i - 1), bin_reverse a b i]; push_cast
    rw [show (a : ℤ) + 1 + b - i - 1 = a + b - i by ring, show (a : ℤ) + b - (i - 1) = a + 1 + b - i by ring]
    ring

theorem bin_parity : ∀ (a b : ℕ) (i : ℤ), bin α (-β) (-γ) δ a b i = powM1 (a + i) * bin α β γ δ a b i
  | 0, 0, i => by
    rw [bin_zero, bin_zero]
    rcases eq_or_ne i 0 with rfl | h
    · simp [powM1]
    · simp [h]
  | 0, b + 1, i => by
    rw [bin_right, bin_right, bin_parity 0 b (i - 1), bin_parity 0 b i,
      show ((0 : ℕ) : ℤ) + (i - 1) = (0 : ℕ) + i - 1 by ring, powM1_pred]
    ring
  | a + 1, b, i => by
    rw [bin_left, bin_left, bin_parity a b (i - 1), bin_parity a b i,
      show (a : ℤ) + (i - 1) = a + i - 1 by ring, powM1_pred,
      show (((a + 1 : ℕ) : ℤ)) + i = a + i + 1 by push_cast; ring, powM1_succ]
    ring

/-- Weighted by a binomial coefficient. -/
def binW (N : ℕ) (k i : ℤ) : ℝ :=
  if 0 ≤ k ∧ k ≤ N then (N.choose k.toNat : ℝ) * bin α β γ δ k.toNat (N - k).toNat i else 0

theorem binW_out (N : ℕ) (k i : ℤ) (h : k < 0 ∨ (N : ℤ) < k) : binW α β γ δ N k i = 0 := by
  rw [binW, if_neg (by omega)]

theorem binW_in (a b : ℕ) (i : ℤ) : binW α β γ δ (a + b) a i = ((a + b).choose a : ℝ) * bin α β γ δ a b i := by
  rw [binW, if_pos (by push_cast; omega), Int.toNat_natCast, show (((a + b : ℕ) : ℤ) - a).toNat = b by omega]

theorem binW_succ (N : ℕ) (k i : ℤ) : binW α β γ δ (N + 1) k i =
    α * binW α β γ δ N (k - 1) (i - 1) + β * binW α β γ δ N (k - 1) i + γ * binW α β γ δ N k (i - 1)
      + δ * binW α β γ δ N k i := by
  by_cases h0 : k < 0
  · rw [binW_out, binW_out, binW_out, binW_out, binW_out] <;> first | omega | ring
  by_cases h1 : k > N + 1
  · rw [binW_out, binW_out, binW_out, binW_out, binW_out] <;> first | (push_cast; omega) | ring
  obtain ⟨k, rfl⟩ := Int.eq_ofNat_of_zero_le (by omega : 0 ≤ k)
  rcases Nat.eq_zero_or_pos k with rfl | hk
  · have e1 := binW_in α β γ δ 0 (N + 1) i
    have e2 := binW_in α β γ δ 0 N i
    have e3 := binW_in α β γ δ 0 N (i - 1)
    rw [zero_add] at e1 e2 e3
    rw [e1, e2, e3, binW_out _ _ _ _ _ _ _ (by omega), binW_out _ _ _ _ _ _ _ (by omega), bin_right]
    simp
  obtain ⟨k, rfl⟩ : ∃ j, k = j + 1 := ⟨k - 1, by omega⟩
  rw [show ((k + 1 : ℕ) : ℤ) - 1 = (k : ℕ) by push_cast; ring]
  rcases Nat.lt_or_ge N (k + 1) with hN | hN
  · have : N = k := by push_cast at h1; omega
    subst this
    have e1 := binW_in α β γ δ (N + 1) 0 i
    have e2 := binW_in α β γ δ N 0 i
    have e3 := binW_in α β γ δ N 0 (i - 1)
    rw [add_zero] at e1 e2 e3
    rw [e1, e2, e3, binW_out _ _ _ _ _ _ _ (by push_cast; omega), binW_out _ _ _ _ _ _ _ (by push_cast; omega), bin_left]
    simp
  · obtain ⟨j, rfl⟩ : ∃ j, N = k + 1 + j := ⟨N - (k + 1), by omega⟩
    have e1 := binW_in α β γ δ (k + 1) (j + 1) i
    have e2 := binW_in α β γ δ k (j + 1) i
    have e3 := binW_in α β γ δ k (j + 1) (i - 1)
    have e4 := binW_in α β γ δ (k + 1) j i
    have e5 := binW_in α β γ δ (k + 1) j (i - 1)
    rw [show k + 1 + (j + 1) = k + 1 + j + 1 by ring] at e1
    rw [show k + (j + 1) = k + 1 + j by ring] at e2 e3
    rw [e1, e2, e3, e4, e5, Nat.choose_succ_succ]
    have f1 := bin_left α β γ δ k (j + 1) i
    have f2 := bin_right α β γ δ (k + 1) j i
    push_cast
    rw [add_mul]
    nth_rw 1 [f1]
    rw [f2]; ring

theorem binW_transpose : ∀ (N : ℕ) (k i : ℤ), binW α β γ δ N k i = binW α γ β δ N i k
  | 0, k, i => by
    simp only [binW]
    by_cases hk : k = 0
    · subst hk
      by_cases hi : i = 0
      · subst hi; simp [bin_zero]
      · rw [if_neg (by push_cast; omega : ¬ (0 ≤ i ∧ i ≤ ((0 : ℕ) : ℤ)))]
        simp [bin_zero, hi]
    · rw [if_neg (by push_cast; omega : ¬ (0 ≤ k ∧ k ≤ ((0 : ℕ) : ℤ)))]
      by_cases hi : i = 0
      · subst hi; simp [bin_zero, hk]
      · rw [if_neg (by push_cast; omega)]
  | N + 1, k, i => by
    rw [binW_succ, binW_succ, binW_transpose N, binW_transpose N, binW_transpose N, binW_transpose N]; ring

/-! ### Sums over a window -/

theorem sum_window (f : ℤ → ℂ) (n N : ℕ) (h : n ≤ N) (hf : ∀ m : ℤ, (n : ℤ) < |m| → f m = 0) :
    ∑ m ∈ Finset.Icc (-(N : ℤ)) N, f m = ∑ m ∈ Finset.Icc (-(n : ℤ)) n, f m := by
  symm
  apply Finset.sum_subset
  · apply Finset.Icc_subset_Icc <;> omega
  · intro m _ hm
    simp only [Finset.mem_Icc] at hm
    exact hf m (by rw [lt_abs]; omega)

theorem sum_shift (f : ℤ → ℂ) (n N : ℕ) (s : ℤ) (h : n + s.natAbs ≤ N) (hf : ∀ m : ℤ, (n : ℤ) < |m| → f m = 0) :
    ∑ m ∈ Finset.Icc (-(N : ℤ)) N, f (m + s) = ∑ m ∈ Finset.Icc (-(n : ℤ)) n, f m := by
  have e : ∑ m ∈ Finset.Icc (-(N : ℤ)) N, f (m + s) = ∑ m ∈ Finset.Icc (-(N : ℤ) + s) (N + s), f m := by
    refine Finset.sum_nbij' (fun m => m + s) (fun m => m - s) ?_ ?_ ?_ ?_ ?_
    · intro m hm; simp only [Finset.mem_Icc] at *; omega
    · intro m hm; simp only [Finset.mem_Icc] at *; omega
    · intro m _; simp
    · intro m _; simp
    · intro m _; rfl
  rw [e]
  symm
  apply Finset.sum_subset
  · apply Finset.Icc_subset_Icc <;> omega
  · intro m _ hm
    simp only [Finset.mem_Icc] at hm
    exact hf m (by rw [lt_abs]; omega)

theorem sum_neg_window (f : ℤ → ℂ) (n : ℕ) :
    ∑ m ∈ Finset.Icc (-(n : ℤ)) n, f (-m) = ∑ m ∈ Finset.Icc (-(n : ℤ)) n, f m := by
  refine Finset.sum_nbij' (fun m => -m) (fun m => -m) ?_ ?_ ?_ ?_ ?_
  · intro m hm; simp only [Finset.mem_Icc] at *; omega
  · intro m hm; simp only [Finset.mem_Icc] at *; omega
  · intro m _; simp
  · intro m _; simp
  · intro m _; rfl

theorem sum_split (f : ℤ → ℂ) (n : ℕ) : ∑ m ∈ Finset.Icc (-(n : ℤ)) n, f m =
    f 0 + ∑ m ∈ Finset.Icc 1 n, (f m + f (-(m : ℤ))) := by
  induction n with
  | zero => simp
  | succ n ih =>
    have e : Finset.Icc (-((n + 1 : ℕ) : ℤ)) ((n + 1 : ℕ) : ℤ) =
        insert ((n + 1 : ℕ) : ℤ) (insert (-((n + 1 : ℕ) : ℤ)) (Finset.Icc (-(n : ℤ)) n)) := by
      ext m; simp only [Finset.mem_Icc, Finset.mem_insert]; push_cast; omega
    rw [e, Finset.sum_insert, Finset.sum_insert, ih, Finset.sum_Icc_succ_top (by omega)]
    · ring
    · simp only [Finset.mem_Icc]; push_cast; omega
    · simp only [Finset.mem_Icc, Finset.mem_insert]; push_cast; omega

/-- Substitution in the quadratic form. -/
theorem har_subst (w w' z : ℂ) : ∀ (n : ℕ) (i : ℤ),
    ∑ m ∈ Finset.Icc (-(n : ℤ)) n, har w w' z n m * (bin α β γ δ (n + m).toNat (n - m).toNat i : ℂ) =
    har (2 * z * α * γ + w * α ^ 2 - w' * γ ^ 2) (-2 * z * β * δ - w * β ^ 2 + w' * δ ^ 2)
      (z * (α * δ + β * γ) + w * α * β - w' * γ * δ) n (i - n)
  | 0, i => by simp [har, bin_zero]; split_ifs <;> simp
  | n + 1, i => by
    have hn : ((n : ℂ) + 1) ≠ 0 := by exact_mod_cast Nat.succ_ne_zero n
    apply mul_left_cancel₀ hn
    set W := 2 * z * α * γ + w * α ^ 2 - w' * γ ^ 2
    set W' := -2 * z * β * δ - w * β ^ 2 + w' * δ ^ 2
    set Z := z * (α * δ + β * γ) + w * α * β - w' * γ * δ
    have h := har_succ W W' Z n (i - (n + 1 : ℕ))
    rw [show i - ((n + 1 : ℕ) : ℤ) - 1 = (i - 2) - n by push_cast; ring,
      show i - ((n + 1 : ℕ) : ℤ) + 1 = i - n by push_cast; ring] at h
    rw [h, show i - ((n + 1 : ℕ) : ℤ) = (i - 1) - n by push_cast; ring,
      ← har_subst w w' z n (i - 2), ← har_subst w w' z n (i - 1), ← har_subst w w' z n i]
    rw [Finset.mul_sum, Finset.mul_sum, Finset.mul_sum, Finset.mul_sum, ← Finset.sum_add_distrib, ← Finset.sum_sub_distrib]
    have e0 : ∀ m : ℤ, ((n : ℂ) + 1) * (har w w' z (n + 1) m *
        (bin α β γ δ (((n + 1 : ℕ) : ℤ) + m).toNat (((n + 1 : ℕ) : ℤ) - m).toNat i : ℂ)) =
        (fun k : ℤ => z * har w w' z n k * (bin α β γ δ (((n + 1 : ℕ) : ℤ) + k).toNat (((n + 1 : ℕ) : ℤ) - k).toNat i : ℂ)) (m + 0)
        + (fun k : ℤ => w / 2 * har w w' z n k * (bin α β γ δ (((n + 2 : ℕ) : ℤ) + k).toNat ((n : ℤ) - k).toNat i : ℂ)) (m + -1)
        - (fun k : ℤ => w' / 2 * har w w' z n k * (bin α β γ δ ((n : ℤ) + k).toNat (((n + 2 : ℕ) : ℤ) - k).toNat i : ℂ)) (m + 1) := by
      intro m
      simp only
      rw [show ((n + 2 : ℕ) : ℤ) + (m + -1) = ((n + 1 : ℕ) : ℤ) + m by push_cast; ring,
        show (n : ℤ) - (m + -1) = ((n + 1 : ℕ) : ℤ) - m by push_cast; ring,
        show (n : ℤ) + (m + 1) = ((n + 1 : ℕ) : ℤ) + m by push_cast; ring,
        show ((n + 2 : ℕ) : ℤ) - (m + 1) = ((n + 1 : ℕ) : ℤ) - m by push_cast; ring, add_zero,
        show m + -1 = m - 1 by ring]
      have := har_succ w w' z n m
      linear_combination (bin α β γ δ (((n + 1 : ℕ) : ℤ) + m).toNat (((n + 1 : ℕ) : ℤ) - m).toNat i : ℂ) * this
    rw [Finset.sum_congr rfl fun m _ => e0 m, Finset.sum_sub_distrib, Finset.sum_add_distrib]
    rw [sum_shift (fun k : ℤ => z * har w w' z n k * (bin α β γ δ (((n + 1 : ℕ) : ℤ) + k).toNat (((n + 1 : ℕ) : ℤ) - k).toNat i : ℂ)) n (n + 1) 0 (by simp),
      sum_shift (fun k : ℤ => w / 2 * har w w' z n k * (bin α β γ δ (((n + 2 : ℕ) : ℤ) + k).toNat ((n : ℤ) - k).toNat i : ℂ)) n (n + 1) (-1) (by simp),
      sum_shift (fun k : ℤ => w' / 2 * har w w' z n k * (bin α β γ δ ((n : ℤ) + k).toNat (((n + 2 : ℕ) : ℤ) - k).toNat i : ℂ)) n (n + 1) 1 (by simp),
      ← Finset.sum_add_distrib, ← Finset.sum_sub_distrib]
    · refine Finset.sum_congr rfl fun m hm => ?_
      simp only [Finset.mem_Icc] at hm
      obtain ⟨a, ha⟩ := Int.eq_ofNat_of_zero_le (by omega : 0 ≤ (n : ℤ) + m)
      obtain ⟨b, hb⟩ := Int.eq_ofNat_of_zero_le (by omega : 0 ≤ (n : ℤ) - m)
      rw [show (((n + 1 : ℕ) : ℤ) + m).toNat = a + 1 by omega, show (((n + 1 : ℕ) : ℤ) - m).toNat = b + 1 by omega,
        show (((n + 2 : ℕ) : ℤ) + m).toNat = a + 2 by omega, show (((n + 2 : ℕ) : ℤ) - m).toNat = b + 2 by omega,
        show ((n : ℤ) + m).toNat = a by omega, show ((n : ℤ) - m).toNat = b by omega]
      simp only [bin_left, bin_right]
      rw [show i - 1 - 1 = i - 2 by ring]
      simp only [W, W', Z]
      push_cast; ring
    all_goals
      intro m hm
      simp [har_out _ _ _ _ _ hm]

end
end Dashmm.Harm
