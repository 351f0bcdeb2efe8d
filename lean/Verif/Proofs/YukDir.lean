import Verif.Spec.YukPlane
import Verif.Proofs.YukAdd
import Verif.Proofs.PlaneOps
import Mathlib.Analysis.Complex.CauchyIntegral
import Mathlib.Analysis.Analytic.Uniqueness

/-!
# Harmonics in a complex direction
-/

namespace Dashmm.Yuk

open Harm Lap
open Complex (I)

noncomputable section

/-- Entire functions that agree on the real numbers. -/
theorem eq_of_real {f g : ℂ → ℂ} (hf : Differentiable ℂ f) (hg : Differentiable ℂ g) (h : ∀ x : ℝ, f x = g x) (z : ℂ) : f z = g z := by
  have hf' : AnalyticOnNhd ℂ f Set.univ := fun z _ => hf.analyticAt z
  have hg' : AnalyticOnNhd ℂ g Set.univ := fun z _ => hg.analyticAt z
  have := hf'.eqOn_of_preconnected_of_frequently_eq hg' isPreconnected_univ (Set.mem_univ (0 : ℂ)) (by
    rw [Filter.Frequently, Filter.not_eventually]
    have ht : Filter.Tendsto (fun n : ℕ => ((1 / ((n : ℝ) + 1) : ℝ) : ℂ)) Filter.atTop (nhdsWithin (0 : ℂ) {0}ᶜ) := by
      rw [tendsto_nhdsWithin_iff]
      constructor
      · have := (Complex.continuous_ofReal.tendsto 0).comp (tendsto_one_div_add_atTop_nhds_zero_nat (𝕜 := ℝ))
        refine this.congr fun n => ?_
        simp
      · refine Filter.Eventually.of_forall fun n => ?_
        have : (0 : ℝ) < 1 / ((n : ℝ) + 1) := by positivity
        have h0 : ((1 / ((n : ℝ) + 1) : ℝ) : ℂ) ≠ 0 := Complex.ofReal_ne_zero.2 this.ne'
        exact h0
    refine ht.frequently (Filter.Frequently.of_forall fun n => ?_)
    simp only [not_not]
    exact h _)
  exact this (Set.mem_univ z)

theorem har_swap (w w' z : ℂ) : ∀ (n : ℕ) (m : ℤ), har w' w z n m = (powM1 m : ℂ) * har w w' z n (-m)
  | 0, m => by
    rw [har_zero, har_zero]
    by_cases h : m = 0
    · subst h; simp [powM1]
    · rw [if_neg h, if_neg (by omega), mul_zero]
  | n + 1, m => by
    rw [har, har, har_swap w w' z n m, har_swap w w' z n (m - 1), har_swap w w' z n (m + 1)]
    have e1 : (powM1 (m - 1) : ℂ) = -powM1 m := by
      unfold powM1; split_ifs <;> first | omega | norm_num
    have e2 : (powM1 (m + 1) : ℂ) = -powM1 m := by
      unfold powM1; split_ifs <;> first | omega | norm_num
    rw [e1, e2, show -(m - 1) = -m + 1 by ring, show -(m + 1) = -m - 1 by ring]
    ring

theorem har_differentiable (a b z : ℂ) : ∀ (n : ℕ) (m : ℤ), Differentiable ℂ fun s : ℂ => har (s * a) (s * b) z n m
  | 0, m => by simp only [har_zero]; exact differentiable_const _
  | n + 1, m => by
    have h0 := har_differentiable a b z n m
    have h1 := har_differentiable a b z n (m - 1)
    have h2 := har_differentiable a b z n (m + 1)
    simp only [har]
    fun_prop

/-- The homogeneous Legendre polynomials. -/
def legC (c β : ℂ) : ℕ → ℂ
  | 0 => 1
  | 1 => c
  | n + 2 => ((2 * n + 3) * c * legC c β (n + 1) - (n + 1) * β * legC c β n) / (n + 2)

theorem legC_real (c β : ℝ) (n : ℕ) : legC c β n = (leg c β n : ℂ) := by
  induction n using Nat.twoStepInduction with
  | zero => simp [legC, leg]
  | one => simp [legC, leg]
  | more n h0 h1 => rw [legC, leg, h0, h1]; push_cast; rfl

theorem legC_one (ζ : ℂ) (n : ℕ) : legC ζ 1 n = Yukawa.legendreP ζ n := by
  induction n using Nat.twoStepInduction with
  | zero => simp [legC, Yukawa.legendreP]
  | one => simp [legC, Yukawa.legendreP]
  | more n h0 h1 => rw [legC, Yukawa.legendreP, h0, h1, mul_one]

theorem legC_differentiable {c β : ℂ → ℂ} (hc : Differentiable ℂ c) (hβ : Differentiable ℂ β) (n : ℕ) :
    Differentiable ℂ fun s => legC (c s) (β s) n := by
  induction n using Nat.twoStepInduction with
  | zero => simp only [legC]; exact differentiable_const _
  | one => simpa only [legC] using hc
  | more n h0 h1 => simp only [legC]; fun_prop

/-- The addition theorem for a direction with complex length across the axis. -/
theorem har_addition (u : Point ℝ) (α z : ℝ) (n : ℕ) (s : ℂ) :
    ∑ m ∈ Finset.Icc (-(n : ℤ)) n, (((sf (n - m) * sf (n + m)) ^ 2 : ℝ) : ℂ) * harP u n m * Complex.exp (m * α * I) * har s s z n m =
      legC (s * (u.x * Real.cos α + u.y * Real.sin α) + u.z * z) (u.norm ^ 2 * (s ^ 2 + z ^ 2)) n := by
  refine eq_of_real (f := fun s => ∑ m ∈ Finset.Icc (-(n : ℤ)) n, (((sf (n - m) * sf (n + m)) ^ 2 : ℝ) : ℂ) * harP u n m *
      Complex.exp (m * α * I) * har s s z n m)
    (g := fun s => legC (s * (u.x * Real.cos α + u.y * Real.sin α) + u.z * z) (u.norm ^ 2 * (s ^ 2 + z ^ 2)) n) ?_ ?_ ?_ s
  · have : ∀ m, Differentiable ℂ fun s : ℂ => har s s z n m := fun m => by simpa using har_differentiable 1 1 z n m
    fun_prop
  · apply legC_differentiable <;> fun_prop
  · intro s
    have hf := form_leg u ⟨s * Real.cos α, s * Real.sin α, z⟩ n
    have hn : (⟨s * Real.cos α, s * Real.sin α, z⟩ : Point ℝ).norm ^ 2 = s ^ 2 + z ^ 2 := by
      rw [norm_sq_eq]
      linear_combination s ^ 2 * Real.cos_sq_add_sin_sq α
    rw [hn] at hf
    have e : legC ((s : ℂ) * (u.x * Real.cos α + u.y * Real.sin α) + u.z * z) ((u.norm : ℂ) ^ 2 * ((s : ℂ) ^ 2 + (z : ℂ) ^ 2)) n =
        ((leg (u.x * (s * Real.cos α) + u.y * (s * Real.sin α) + u.z * z) (u.norm ^ 2 * (s ^ 2 + z ^ 2)) n : ℝ) : ℂ) := by
      rw [← legC_real]; push_cast; congr 1; ring
    show _ = legC _ _ n
    rw [e, ← hf]
    unfold form
    refine Finset.sum_congr rfl fun m _ => ?_
    rw [ext_reg, nrm_conj, nrm, nrm, show (n : ℤ) - -m = n + m by ring, show (n : ℤ) + -m = n - m by ring]
    have e2 : (powM1 m : ℂ) * harP ⟨s * Real.cos α, s * Real.sin α, z⟩ n (-m) = Complex.exp (m * α * I) * har s s z n m := by
      rw [harP, ← har_swap, ← cis_zpow, ← har_phase _ _ _ _ (cis_ne α), cis_inv]
      congr 1
      · simp only [cis]; push_cast; ring
      · simp only [cis, Real.cos_neg, Real.sin_neg]; push_cast; ring
    push_cast
    linear_combination (-((sf (n - m) : ℂ) * (sf (n + m) : ℂ)) ^ 2 * harP u n m) * e2

/-! ### The Legendre functions of the code -/

theorem gt1Diag_har (u : ℝ) (scale : ℝ) (m : ℕ) (z : ℂ) :
    (-I) ^ m * (Yukawa.gt1Diag (u * scale) m : ℂ) = (scale : ℂ) ^ m * (((2 * m).factorial : ℂ) * har (-I * u) (-I * u) z m m) := by
  rw [har_diag]
  induction m with
  | zero => simp [Yukawa.gt1Diag]
  | succ m ih =>
    have hf : (m.factorial : ℂ) ≠ 0 := by exact_mod_cast m.factorial_ne_zero
    have hm : ((m : ℂ) + 1) ≠ 0 := by exact_mod_cast Nat.succ_ne_zero m
    rw [Yukawa.gt1Diag, show 2 * (m + 1) = 2 * m + 1 + 1 by ring, Nat.factorial_succ (2 * m + 1), Nat.factorial_succ (2 * m),
      Nat.factorial_succ m]
    push_cast
    rw [pow_succ, pow_succ, pow_succ]
    field_simp at ih ⊢
    linear_combination (2 * (m : ℂ) + 1) * ((m : ℂ) + 1) * 2 * (u : ℂ) * (scale : ℂ) * (-1) * ih

theorem gt1_har (x scale : ℝ) (hx : 1 ≤ x) (m k : ℕ) :
    (-I) ^ m * (Yukawa.gt1 x scale (m + k) m : ℂ) = (scale : ℂ) ^ (m + k) * (((2 * m + k).factorial : ℂ) *
      har (-I * √(x * x - 1)) (-I * √(x * x - 1)) x (m + k) m) := by
  rw [Yukawa.gt1, Nat.add_sub_cancel_left]
  have hq : (x : ℂ) ^ 2 + (-I * (√(x * x - 1) : ℝ)) * (-I * (√(x * x - 1) : ℝ)) = 1 := by
    have h := Real.mul_self_sqrt (by nlinarith : 0 ≤ x * x - 1)
    have h' : ((√(x * x - 1) : ℝ) : ℂ) * (√(x * x - 1) : ℝ) = x * x - 1 := by exact_mod_cast h
    linear_combination (-1 : ℂ) * h' + ((√(x * x - 1) : ℝ) : ℂ) ^ 2 * Complex.I_sq
  have hd := gt1Diag_har (√(x * x - 1)) scale m x
  generalize √(x * x - 1) = u at *
  induction k using Nat.twoStepInduction with
  | zero => simpa [Yukawa.gt1Col] using hd
  | one =>
    rw [Yukawa.gt1Col, har_offdiag, Nat.factorial_succ]
    push_cast
    rw [pow_succ]
    linear_combination (scale : ℂ) * (x : ℂ) * (2 * m + 1) * hd
  | more k h0 h1 =>
    have h3 := har_three (-I * u) (-I * u) x (m + k) m
    rw [hq] at h3
    rw [Yukawa.gt1Col]
    rw [show 2 * m + (k + 2) = 2 * m + k + 1 + 1 by ring, Nat.factorial_succ (2 * m + k + 1), Nat.factorial_succ (2 * m + k)]
    rw [show 2 * m + (k + 1) = 2 * m + k + 1 by ring, Nat.factorial_succ (2 * m + k)] at h1
    rw [show m + (k + 2) = m + k + 2 by ring]
    rw [show m + (k + 1) = m + k + 1 by ring] at h1
    have hk2 : ((k : ℂ) + 2) ≠ 0 := by exact_mod_cast Nat.succ_ne_zero (k + 1)
    push_cast at *
    rw [show (m : ℂ) + k + 2 - m = k + 2 by ring]
    generalize Yukawa.gt1Col (u * scale) (scale * x) (scale * scale) m k = A at h0 ⊢
    generalize Yukawa.gt1Col (u * scale) (scale * x) (scale * scale) m (k + 1) = B at h1 ⊢
    rw [show m + k + 2 = m + k + 1 + 1 by ring, pow_succ (scale : ℂ) (m + k + 1), pow_succ (scale : ℂ) (m + k)] at *
    generalize har (-I * u) (-I * u) x (m + k) m = H0 at *
    generalize har (-I * u) (-I * u) x (m + k + 1) m = H1 at *
    generalize har (-I * u) (-I * u) x (m + k + 1 + 1) m = H2 at *
    generalize (-I) ^ m = i at *
    field_simp
    linear_combination (2 * ((m : ℂ) + k + 2) - 1) * x * scale * h1 - ((m : ℂ) + k + 2 + m - 1) * scale ^ 2 * h0 -
      (scale : ℂ) ^ (m + k) * scale ^ 2 * ((2 * m + k).factorial : ℂ) * (2 * m + k + 1) * h3

end
end Dashmm.Yuk
