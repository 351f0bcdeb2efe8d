import Verif.Model.Gamma
import Mathlib.Analysis.SpecialFunctions.Gamma.Beta
import Mathlib.Analysis.SpecialFunctions.Gaussian.GaussianIntegral
import Mathlib.Analysis.Real.Pi.Bounds
import Mathlib.Algebra.BigOperators.Intervals
import Mathlib.Tactic.Linarith
import Mathlib.Tactic.Positivity

namespace Dashmm.Gam

/-- The loop multiplies by `n` consecutive numbers. -/
theorem climb_eq (n : ℕ) (res y : ℝ) : climb n res y = res * ∏ i ∈ Finset.range n, (y + i) := by
  induction n generalizing res y with
  | zero => simp [climb]
  | succ n ih =>
    rw [climb, ih, Finset.prod_range_succ', Nat.cast_zero, add_zero, mul_assoc, mul_comm y]
    refine congrArg (fun t => res * (t * y)) (Finset.prod_congr rfl fun i _ => ?_)
    push_cast; ring

/-- The rational function, written out. -/
theorem near_pos {z : ℝ} (h0 : 0 ≤ z) (h1 : z ≤ 1) : 0 < near z := by
  unfold near p q
  simp only [List.foldl_cons, List.foldl_nil]
  have hz : ∀ n : ℕ, 0 ≤ z ^ n := fun n => pow_nonneg h0 n
  have hle : ∀ n : ℕ, z ^ (n + 1) ≤ z := fun n => by
    rw [pow_succ]; exact mul_le_of_le_one_left h0 (pow_le_one₀ h0 h1)
  generalize hQ : (_ : ℝ) / _ = r
  rw [← hQ]
  have a2 := hz 2; have a3 := hz 3; have a4 := hz 4; have a5 := hz 5; have a6 := hz 6; have a7 := hz 7; have a8 := hz 8
  have b2 := hle 1; have b3 := hle 2; have b6 := hle 5; have b8 := hle 7
  norm_num only at b2 b3 b6 b8
  rw [div_add_one]
  · apply div_pos_of_neg_of_neg
    · ring_nf; linarith
    · ring_nf; linarith
  · apply ne_of_lt
    ring_nf; linarith

theorem small_lt {y : ℝ} (h : y < 1) : small y = near y / y := by
  unfold small; rw [if_pos h]

theorem small_ge {y : ℝ} (h : 1 ≤ y) :
    small y = near (y - ((⌊y⌋ - 1).toNat : ℕ) - 1) * ∏ i ∈ Finset.range (⌊y⌋ - 1).toNat, (y - ((⌊y⌋ - 1).toNat : ℕ) + i) := by
  unfold small
  rw [if_neg (not_lt.2 h)]
  dsimp only
  split_ifs with hc
  · exact climb_eq _ _ _
  · have : (⌊y⌋ - 1).toNat = 0 := by
      by_contra h0
      apply hc
      have : (0 : ℝ) < ((⌊y⌋ - 1).toNat : ℕ) := by exact_mod_cast Nat.pos_of_ne_zero h0
      linarith
    rw [this]; simp

/-- `small` in terms of the part of the number that is left when it is brought between 1 and 2. -/
theorem small_at {t : ℝ} (h0 : 1 ≤ t) (h1 : t < 2) (n : ℕ) :
    small (t + n) = near (t - 1) * ∏ i ∈ Finset.range n, (t + i) := by
  have hf : ⌊t⌋ = 1 := Int.floor_eq_iff.2 ⟨by exact_mod_cast h0, by push_cast; linarith⟩
  have hn : (⌊t + n⌋ - 1).toNat = n := by
    rw [Int.floor_add_natCast, hf]; omega
  rw [small_ge (by have : (0 : ℝ) ≤ n := Nat.cast_nonneg n
                   linarith), hn, add_sub_cancel_right]

/-- Every number from 1 on is a number between 1 and 2 and a natural number. -/
theorem exists_at {y : ℝ} (h : 1 ≤ y) : ∃ (t : ℝ) (n : ℕ), 1 ≤ t ∧ t < 2 ∧ y = t + n := by
  have hf : 1 ≤ ⌊y⌋ := Int.le_floor.2 (by exact_mod_cast h)
  refine ⟨y - ((⌊y⌋ - 1).toNat : ℕ), (⌊y⌋ - 1).toNat, ?_, ?_, by ring⟩
  all_goals
    have hc : (((⌊y⌋ - 1).toNat : ℕ) : ℝ) = (⌊y⌋ : ℝ) - 1 := by
      have : (((⌊y⌋ - 1).toNat : ℕ) : ℤ) = ⌊y⌋ - 1 := Int.toNat_of_nonneg (by omega)
      have h' := congrArg (Int.cast : ℤ → ℝ) this
      push_cast at h'; exact h'
    rw [hc]
  · linarith [Int.floor_le y]
  · linarith [Int.lt_floor_add_one y]

theorem small_succ {x : ℝ} (h0 : 0 < x) : small (x + 1) = x * small x := by
  rcases lt_or_ge x 1 with h | h
  · rw [small_lt h, show x + 1 = (x + 1) + ((0 : ℕ) : ℝ) by simp, small_at (by linarith) (by linarith)]
    rw [mul_div_cancel₀ _ h0.ne', Finset.range_zero, Finset.prod_empty, mul_one, add_sub_cancel_right]
  · obtain ⟨t, n, h1, h2, rfl⟩ := exists_at h
    rw [small_at h1 h2, add_assoc, show (n : ℝ) + 1 = ((n + 1 : ℕ) : ℝ) by push_cast; rfl, small_at h1 h2, Finset.prod_range_succ]
    ring

theorem small_pos {x : ℝ} (h0 : 0 < x) : 0 < small x := by
  rcases lt_or_ge x 1 with h | h
  · rw [small_lt h]; exact div_pos (near_pos h0.le h.le) h0
  · obtain ⟨t, n, h1, h2, rfl⟩ := exists_at h
    rw [small_at h1 h2]
    refine mul_pos (near_pos (by linarith) (by linarith)) (Finset.prod_pos fun i _ => ?_)
    have : (0 : ℝ) ≤ i := Nat.cast_nonneg i
    linarith

theorem near_zero : near 0 = 1 := by
  unfold near p q; simp

theorem eps_pos : 0 < eps := by unfold eps; norm_num

theorem gamma_small {x : ℝ} (h0 : eps ≤ x) (h1 : x < 12) : gamma x = small x := by
  unfold gamma positive
  rw [if_neg (not_le.2 (eps_pos.trans_le h0)), if_neg (not_lt.2 h0), if_pos h1]

/-- At one half the rational function is off by less than 10⁻²⁰ of the value. -/
theorem near_half : |near (1 / 2) - √Real.pi / 2| ≤ 1e-20 * (√Real.pi / 2) := by
  have e : near (1 / 2) * 2 = (p.foldl (fun xnum pi => (xnum + pi) * (1 / 2)) 0 / q.foldl (fun xden qi => xden * (1 / 2) + qi) 1 + 1) * 2 := rfl
  unfold p q at e
  simp only [List.foldl_cons, List.foldl_nil] at e
  norm_num only at e
  have h1 := Real.pi_gt_d20
  have h2 := Real.pi_lt_d20
  have hlo : near (1 / 2) * 2 * (1 - 9e-21) ≤ √Real.pi := by
    apply Real.le_sqrt_of_sq_le
    rw [e]
    refine le_trans ?_ h1.le
    norm_num
  have hhi : √Real.pi ≤ near (1 / 2) * 2 * (1 + 9e-21) := by
    apply Real.sqrt_le_iff.2
    refine ⟨by rw [e]; norm_num, ?_⟩
    rw [e]
    refine le_trans h2.le ?_
    norm_num
  have hn : 0 < near (1 / 2) := near_pos (by norm_num) (by norm_num)
  generalize near (1 / 2) = v at *
  generalize √Real.pi = s at *
  norm_num at hlo hhi ⊢
  rw [abs_le]
  constructor <;> nlinarith

end Dashmm.Gam
