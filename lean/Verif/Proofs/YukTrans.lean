import Verif.Proofs.YukShift

/-!
# The fields of translated expansions of the Yukawa kernel
-/

namespace Dashmm.Yuk

open Finset Harm Lap Bessel Wave
open scoped Nat

noncomputable section

theorem level_eq (size lam : ℝ) (hs : 0 < Yukawa.scale0 size lam) (lev : ℕ) :
    Yukawa.level size lam (Yukawa.scaleOf size lam lev) = lev := by
  have e : Yukawa.scale0 size lam / Yukawa.scaleOf size lam lev = 2 ^ lev := by
    rw [Yukawa.scaleOf]; field_simp
  rw [Yukawa.level, e, Real.logb_pow, Real.logb_self_eq_one (by norm_num), mul_one, Nat.floor_natCast]

theorem hat_shiftZ (a a' : ℕ → ℝ) (coeff : ℕ → ℕ → ℕ → ℝ) (q : ℕ → ℂ) (p n m : ℕ) (T : Coef)
    (h : ∀ np, m ≤ np → ((a n * (Lap.sqf (n + m) / Lap.sqf (n - m)) * coeff n m np : ℝ) : ℂ) = q np * ((a' np * (Lap.sqf (np + m) / Lap.sqf (np - m)) : ℝ) : ℂ))
    (h0 : ∀ np, np < m → q np = 0) :
    hat a (Yukawa.shiftZ p coeff T) n m = ∑ j ∈ range (p + 1), q j * hat a' T j m := by
  have e : ∑ j ∈ range (p + 1), q j * hat a' T j m = ∑ j ∈ Icc m p, q j * hat a' T j m := by
    symm
    refine sum_subset (fun j hj => by rw [mem_Icc] at hj; rw [mem_range]; omega) fun j hj hj' => ?_
    rw [mem_range] at hj; rw [mem_Icc] at hj'
    rw [h0 j (by omega), zero_mul]
  rw [e, hat, conv, Yukawa.shiftZ, sum_mul, mul_sum]
  refine sum_congr rfl fun j hj => ?_
  rw [mem_Icc] at hj
  have hj' := h j hj.1
  rw [hat, conv]
  push_cast at hj' ⊢
  linear_combination (T j m) * hj'

/-- The rotations before and after a shift. -/
theorem rotated_form (X : Coef) (hX : Proper X) (α x : ℝ) (t : Point ℝ) (n : ℕ) :
    form (rotateZ (rotateY X (dmatMinus x)) (-α)) t n =
      form X (rot α (Real.cos (Real.arccos x / 2)) (Real.sin (Real.arccos x / 2)) t) n := by
  rw [form_rotateZ, form_rotateY X hX _ _ _ (dmatMinus_is x) (by rw [neg_sq]; exact cs_one _), neg_neg, neg_neg, rot]

theorem rotated_form' (C : Coef) (hC : Proper C) (α x : ℝ) (u : Point ℝ) (n : ℕ) :
    form (rotateY (rotateZ C α) (dmatPlus x)) u n =
      form C (rotZ (-α) (rotY (Real.cos (Real.arccos x / 2)) (-Real.sin (Real.arccos x / 2)) u)) n := by
  rw [form_rotateY _ (rotateZ_proper _ _ hC) _ _ _ (dmatPlus_is x) (cs_one _), form_rotateZ]

theorem tab_real (F : Table) (p : ℕ) (x : ℝ) (i : ℕ) : starRingEnd ℂ (btab F p x i) = btab F p x i := by rw [btab, Complex.conj_ofReal]

theorem fn_real (lam : ℝ) (i : ℕ) (s : ℝ) : fn ((lam : ℂ) ^ 2) i s = ((erl i ((lam * s) ^ 2) / ((2 * i + 1)‼ : ℕ) : ℝ) : ℂ) := by
  have e : ((lam : ℂ) ^ 2 * (s : ℂ) ^ 2) = (((lam * s) ^ 2 : ℝ) : ℂ) := by push_cast; ring
  rw [fn, e, efun_ofReal]; push_cast; rfl

theorem fn_conj (lam : ℝ) (i : ℕ) (s : ℝ) : starRingEnd ℂ (fn ((lam : ℂ) ^ 2) i s) = fn ((lam : ℂ) ^ 2) i s := by
  rw [fn_real, Complex.conj_ofReal]

theorem sq_conj (lam : ℝ) : starRingEnd ℂ ((lam : ℂ) ^ 2) = (lam : ℂ) ^ 2 := by rw [map_pow, Complex.conj_ofReal]

/-- The error of the table. -/
def tabErr (p : ℕ) (δ x : ℝ) : ℝ := Yukawa.besselError δ x * Real.exp (x ^ 2 / 6) + 2 * 10⁻¹ ^ 300 * ((4 * p + 1)‼ : ℕ)

theorem dfact_mono (a b : ℕ) (h : a ≤ b) : (((2 * a + 1)‼ : ℕ) : ℝ) ≤ ((2 * b + 1)‼ : ℕ) := by
  induction b, h using Nat.le_induction with
  | base => exact le_rfl
  | succ b _ ih =>
    refine ih.trans ?_
    rw [show 2 * (b + 1) + 1 = 2 * b + 1 + 2 by ring, Nat.doubleFactorial_add_two]
    push_cast
    have := dfact_pos (2 * b + 1)
    nlinarith [(Nat.cast_nonneg b : (0 : ℝ) ≤ b)]

theorem btab_error (F : Table) (δ : ℝ) (hδ0 : 10⁻¹ ^ 17 ≤ δ) (hδ : δ ≤ 1 / 2) (hF : AccurateI F δ) (p : ℕ) (lam ρ s : ℝ) (hl : 0 < lam) (hρ : 0 < ρ)
    (hs : s ^ 2 = ρ ^ 2) (i : ℕ) (hi : i ≤ 2 * p) :
    ‖btab F p (lam * ρ) i - fn ((lam : ℂ) ^ 2) i s‖ ≤ tabErr p δ (lam * ρ) / ((2 * i + 1)‼ : ℕ) := by
  have hx : 0 < lam * ρ := by positivity
  have h := in_any F δ hδ0 hδ hF (2 * p) (lam * ρ) (lam * ρ) hx hx.le i hi
  have hd := dfact_pos (2 * i + 1)
  have e1 : sphI i (lam * ρ) / (lam * ρ) ^ i = erl i ((lam * s) ^ 2) / ((2 * i + 1)‼ : ℕ) := by
    rw [sphI_eq, mul_pow lam s, hs, ← mul_pow]; field_simp
  rw [btab, fn_real, ← Complex.ofReal_sub, Complex.norm_real, Real.norm_eq_abs, ← e1]
  refine h.trans ?_
  rw [e1, div_self hx.ne', max_self, one_pow, mul_one, tabErr, add_div, mul_div_assoc]
  have h1 : erl i ((lam * s) ^ 2) ≤ Real.exp ((lam * ρ) ^ 2 / 6) := by
    refine (erl_le i _ (by positivity)).trans (Real.exp_le_exp.2 ?_)
    rw [mul_pow lam s, hs, ← mul_pow]
    have : (0 : ℝ) ≤ i := Nat.cast_nonneg i
    gcongr
    linarith
  have h2 := besselError_nonneg δ (lam * ρ) (le_trans (by positivity) hδ0)
  have h3 := dfact_mono i (2 * p) hi
  rw [show 2 * (2 * p) + 1 = 4 * p + 1 by ring] at h3
  have h4 : (2 * 10⁻¹ ^ 300 : ℝ) ≤ 2 * 10⁻¹ ^ 300 * ((4 * p + 1)‼ : ℕ) / ((2 * i + 1)‼ : ℕ) := by
    rw [le_div_iff₀ hd]
    exact mul_le_mul_of_nonneg_left h3 (by positivity)
  refine add_le_add ?_ h4
  exact mul_le_mul_of_nonneg_left (div_le_div_of_nonneg_right h1 hd.le) h2

theorem addz_ge (x : ℝ) (v : Point ℝ) : v.norm - |x| ≤ (addz x v).norm := by
  by_cases h : v.norm - |x| ≤ 0
  · exact h.trans (norm_nonneg' _)
  · push Not at h
    refine le_of_sq_le_sq ?_ (norm_nonneg' _)
    have h1 : v.z ^ 2 ≤ v.norm ^ 2 := by rw [norm_sq_eq]; nlinarith [sq_nonneg v.x, sq_nonneg v.y]
    have h2 := abs_le_of_sq_le_sq h1 (norm_nonneg' v)
    have e : (addz x v).norm ^ 2 = v.norm ^ 2 + 2 * x * v.z + x ^ 2 := by
      rw [norm_sq_eq, norm_sq_eq]; simp only [addz]; ring
    rw [e, sub_sq, sq_abs]
    have h3 : -(|x| * v.norm) ≤ x * v.z := by
      have := neg_abs_le (x * v.z)
      rw [abs_mul] at this
      have h4 : |x| * |v.z| ≤ |x| * v.norm := mul_le_mul_of_nonneg_left h2 (abs_nonneg x)
      linarith
    nlinarith

theorem addz_le (x : ℝ) (v : Point ℝ) : (addz x v).norm ≤ v.norm + |x| := by
  have := addz_ge (-x) (addz x v)
  have e : addz (-x) (addz x v) = v := by simp [addz]
  rw [e, abs_neg] at this
  linarith

end
end Dashmm.Yuk
