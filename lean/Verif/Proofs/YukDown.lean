import Verif.Proofs.YukLocal
import Mathlib.Analysis.SpecificLimits.Normed

/-!
# The size of a shifted local expansion
-/

namespace Dashmm.Wave

open Finset Harm Lap
open scoped Nat

noncomputable section

theorem sum_choose_geom (j N : ℕ) (x : ℝ) (h0 : 0 ≤ x) (h1 : x < 1) : ∑ k ∈ range N, ((k + j).choose j : ℝ) * x ^ k ≤ 1 / (1 - x) ^ (j + 1) := by
  have hx : ‖x‖ < 1 := by rwa [Real.norm_eq_abs, abs_of_nonneg h0]
  rw [← tsum_choose_mul_geometric_of_norm_lt_one j hx]
  exact (summable_choose_mul_geometric_of_norm_lt_one j hx).sum_le_tsum _ fun i _ => by positivity

/-- The sum over the degrees that go to the degree `j`. -/
theorem sum_cf' (w : ℂ) (s d : ℝ) (hd : |s| < d) (j p : ℕ) (h : j ≤ p) :
    ∑ n ∈ range (p + 1), cf w s n j / d ^ n ≤ Real.exp (‖w‖ * |s| * d / 3) * (d / (d - |s|)) / (d - |s|) ^ j := by
  have hs := abs_nonneg s
  have hd0 : 0 < d := lt_of_le_of_lt hs hd
  have hd1 : 0 < d - |s| := by linarith
  rw [← sum_range_add_sum_Ico _ (by omega : j ≤ p + 1), sum_Ico_eq_sum_range]
  have h1 : ∑ n ∈ range j, cf w s n j / d ^ n ≤ (Real.exp (‖w‖ * |s| * d / 3) - 1) / d ^ j := by
    have e : ∀ n ∈ range j, cf w s n j / d ^ n = (‖w‖ * |s| * d / 3) ^ (j - n) / ((j - n)! : ℝ) / d ^ j := by
      intro n hn
      rw [mem_range] at hn
      have : d ^ j = d ^ n * d ^ (j - n) := by rw [← pow_add]; congr 1; omega
      rw [cf, if_neg (by omega), this, show ‖w‖ * |s| * d / 3 = ‖w‖ * |s| / 3 * d by ring, mul_pow _ d]
      field_simp
    rw [sum_congr rfl e, ← sum_div]
    refine div_le_div_of_nonneg_right ?_ (by positivity)
    have h3 := exp_partial (‖w‖ * |s| * d / 3) (by positivity) (j + 1)
    rw [sum_range_succ'] at h3
    have h4 : ∑ n ∈ range j, (‖w‖ * |s| * d / 3) ^ (j - n) / ((j - n)! : ℝ) = ∑ k ∈ range j, (‖w‖ * |s| * d / 3) ^ (k + 1) / ((k + 1)! : ℝ) := by
      rw [← sum_range_reflect]
      refine sum_congr rfl fun k hk => ?_
      rw [mem_range] at hk
      rw [show j - (j - 1 - k) = k + 1 by omega]
    rw [h4]
    simp at h3 ⊢
    linarith
  have h2 : ∑ k ∈ range (p + 1 - j), cf w s (j + k) j / d ^ (j + k) ≤ d / (d - |s|) / (d - |s|) ^ j := by
    have e : ∀ k ∈ range (p + 1 - j), cf w s (j + k) j / d ^ (j + k) = ((k + j).choose j : ℝ) * (|s| / d) ^ k / d ^ j := by
      intro k _
      rw [cf, if_pos (by omega), show j + k - j = k by omega, pow_add, div_pow, add_comm j k]
      field_simp
    rw [sum_congr rfl e, ← sum_div]
    have h3 := sum_choose_geom j (p + 1 - j) (|s| / d) (by positivity) (by rwa [div_lt_one hd0])
    refine (div_le_div_of_nonneg_right h3 (by positivity)).trans (le_of_eq ?_)
    rw [show 1 - |s| / d = (d - |s|) / d by field_simp, div_pow, pow_succ, pow_succ]
    field_simp
  have h3 : 0 ≤ Real.exp (‖w‖ * |s| * d / 3) - 1 := by
    have := Real.add_one_le_exp (‖w‖ * |s| * d / 3)
    have : 0 ≤ ‖w‖ * |s| * d / 3 := by positivity
    linarith
  have h4 : 1 / d ^ j ≤ d / (d - |s|) / (d - |s|) ^ j := by
    have a1 : 1 ≤ d / (d - |s|) := by rw [le_div_iff₀ hd1]; linarith
    have a2 : (d - |s|) ^ j ≤ d ^ j := pow_le_pow_left₀ hd1.le (by linarith) j
    have a3 : 0 < (d - |s|) ^ j := by positivity
    gcongr
  calc _ ≤ (Real.exp (‖w‖ * |s| * d / 3) - 1) * (1 / d ^ j) + d / (d - |s|) / (d - |s|) ^ j := by
        refine add_le_add (h1.trans (le_of_eq ?_)) h2; ring
    _ ≤ (Real.exp (‖w‖ * |s| * d / 3) - 1) * (d / (d - |s|) / (d - |s|) ^ j) + d / (d - |s|) / (d - |s|) ^ j := by gcongr
    _ = _ := by ring

/-- Each degree of a shifted local expansion. -/
theorem Bd_shL (b : ℕ → ℂ) (hbc : ∀ i, starRingEnd ℂ (b i) = b i) (w : ℂ) (hw : starRingEnd ℂ w = w) (β : ℝ) (hβ : 0 ≤ β) (p : ℕ)
    (hb : ∀ i ≤ 2 * p, ‖b i‖ ≤ β / ((2 * i + 1)‼ : ℕ)) (s : ℝ) (T : Coef) (μ d : ℝ) (hd : |s| < d) (hT : ∀ j ≤ p, Bd T j (μ / d ^ j))
    (n : ℕ) (hn : n ≤ p) :
    Bd (shL b w p s T) n (μ * (β * Real.exp (‖w‖ * s ^ 2 / 3) * Real.exp (‖w‖ * |s| * d / 3) * (d / (d - |s|))) / (d - |s|) ^ n) := by
  have hμ : 0 ≤ μ := by have := (hT 0 (Nat.zero_le _)).1; simpa using this
  have hs := abs_nonneg s
  have hd0 : 0 < d := lt_of_le_of_lt hs hd
  have hd1 : 0 < d - |s| := by linarith
  refine ⟨by positivity, fun y => ?_⟩
  set Y := √(∑ m ∈ Icc (-(n : ℤ)) n, ‖y m‖ ^ 2) with hY
  have hY0 : 0 ≤ Y := Real.sqrt_nonneg _
  have e : ∑ m ∈ Icc (-(n : ℤ)) n, Harm.ext (shL b w p s T) n m * y m =
      ∑ j ∈ range (p + 1), ∑ m ∈ Icc (-(j : ℤ)) j, Harm.ext T j m * (tauB b w m j n s * y m) := by
    have e1 : ∑ m ∈ Icc (-(n : ℤ)) n, Harm.ext (shL b w p s T) n m * y m =
        ∑ m ∈ Icc (-(n : ℤ)) n, ∑ j ∈ range (p + 1), Harm.ext T j m * (tauB b w m j n s * y m) := by
      refine sum_congr rfl fun m _ => ?_
      rw [ext_shL b hbc w hw, sum_mul]
      exact sum_congr rfl fun j _ => by ring
    rw [e1, sum_comm]
    refine sum_congr rfl fun j hj => ?_
    rw [mem_range] at hj
    rw [sum_widen n p hn, sum_widen j p (by omega)]
    · intro m hm; rw [tauB_low' _ _ _ _ _ _ hm]; simp
    · intro m hm; rw [tauB_low _ _ _ _ _ _ hm]; simp
  rw [e]
  have key : ∀ j ∈ range (p + 1), ‖∑ m ∈ Icc (-(j : ℤ)) j, Harm.ext T j m * (tauB b w m j n s * y m)‖ ≤
      μ / d ^ j * (β * Real.exp (‖w‖ * s ^ 2 / 3) * cf w s j n * Y) := by
    intro j hj
    rw [mem_range] at hj
    have hc := cf_nonneg w s j n
    refine ((hT j (by omega)).2 _).trans (mul_le_mul_of_nonneg_left ?_ (by positivity))
    refine Real.sqrt_le_iff.2 ⟨by positivity, ?_⟩
    set c := β * Real.exp (‖w‖ * s ^ 2 / 3) * cf w s j n with hcdef
    have hc0 : 0 ≤ c := by positivity
    have hle : ∀ m : ℤ, ‖tauB b w m j n s * y m‖ ^ 2 ≤ if |m| ≤ n then c ^ 2 * ‖y m‖ ^ 2 else 0 := by
      intro m
      split
      · rw [norm_mul, mul_pow]
        gcongr
        exact tauB_cf b β hβ w m j n s (fun i hi => hb i (by omega))
      · next h => rw [tauB_low _ _ _ _ _ _ (by omega)]; simp
    calc ∑ m ∈ Icc (-(j : ℤ)) j, ‖tauB b w m j n s * y m‖ ^ 2
        ≤ ∑ m ∈ Icc (-(j : ℤ)) j, (if |m| ≤ n then c ^ 2 * ‖y m‖ ^ 2 else 0) := sum_le_sum fun m _ => hle m
      _ ≤ ∑ m ∈ Icc (-(p : ℤ)) p, (if |m| ≤ n then c ^ 2 * ‖y m‖ ^ 2 else 0) :=
          sum_le_sum_of_subset_of_nonneg (Icc_subset_Icc (by omega) (by omega)) fun m _ _ => by split <;> positivity
      _ = ∑ m ∈ Icc (-(n : ℤ)) n, c ^ 2 * ‖y m‖ ^ 2 := by
          rw [← sum_filter]
          refine sum_congr ?_ fun _ _ => rfl
          ext m
          rw [mem_filter, mem_Icc, mem_Icc, abs_le]; omega
      _ = (c * Y) ^ 2 := by
          rw [← mul_sum, mul_pow c Y, hY, Real.sq_sqrt (sum_nonneg fun _ _ => by positivity)]
  refine (norm_sum_le_of_le _ key).trans ?_
  have h1 := sum_cf' w s d hd n p hn
  calc _ = μ * (β * Real.exp (‖w‖ * s ^ 2 / 3)) * (∑ j ∈ range (p + 1), cf w s j n / d ^ j) * Y := by
        rw [mul_sum, sum_mul]; exact sum_congr rfl fun j _ => by ring
    _ ≤ μ * (β * Real.exp (‖w‖ * s ^ 2 / 3)) * (Real.exp (‖w‖ * |s| * d / 3) * (d / (d - |s|)) / (d - |s|) ^ n) * Y := by gcongr
    _ = _ := by ring

end
end Dashmm.Wave

namespace Dashmm.Yuk

open Finset Harm Lap Bessel Wave
open scoped Nat

noncomputable section

theorem lToL_bd (F : Table) (δ : ℝ) (hδ0 : 10⁻¹ ^ 17 ≤ δ) (hδ : δ ≤ 1 / 2) (hF : AccurateI F δ) (size lam : ℝ) (hsz : 0 < size)
    (hl : 0 < lam) (hs : 0 < Yukawa.scale0 size lam) (p lev : ℕ) (α x : ℝ) (L : Coef) (hL : Proper L) (μ d : ℝ)
    (hB : ∀ j ≤ p, Bd (hat (al lam (Yukawa.scaleOf size lam lev)) L) j (μ / d ^ j)) (ρ : ℝ) (hρ : ρ = √3 / 4 * (size / 2 ^ lev)) (hd : ρ < d)
    (n : ℕ) (hn : n ≤ p) :
    Bd (hat (al lam (Yukawa.scaleOf size lam lev / 2)) (tr p (Yukawa.l2l F size lam p lev) α x L)) n
      (μ * ((Real.exp (lam ^ 2 * ρ ^ 2 / 6) + tabErr p δ (lam * ρ)) * Real.exp (lam ^ 2 * ρ ^ 2 / 3) * Real.exp (lam ^ 2 * ρ * d / 3) * (d / (d - ρ))) /
        (d - ρ) ^ n) := by
  have hρ0 : 0 < ρ := by rw [hρ]; positivity
  set B := hat (al lam (Yukawa.scaleOf size lam lev)) L with hBdef
  have hBp : Proper B := hat_proper _ _ hL
  set T := pre α x B with hT
  have hTp : Proper T := pre_proper _ _ _ hBp
  have hTb : ∀ j ≤ p, Bd T j (μ / d ^ j) := fun j hj => pre_bd _ _ _ hBp _ _ (hB j hj)
  have eρ : √3 / 4 * size / 2 ^ lev = ρ := by rw [hρ]; ring
  have hW := hat_lToL F size lam hl hs p lev α x L
  rw [eρ, ← hBdef, ← hT] at hW
  have hXp := shL_proper (btab F p (lam * ρ)) (tab_real F p _) _ (sq_conj lam) p (-ρ) T hTp
  have hX := Bd_shL (btab F p (lam * ρ)) (tab_real F p _) ((lam : ℂ) ^ 2) (sq_conj lam) (Real.exp (lam ^ 2 * ρ ^ 2 / 6) + tabErr p δ (lam * ρ))
    (by have := tabErr_nonneg p δ (lam * ρ) (le_trans (by positivity) hδ0); positivity) p
    (fun i hi => btab_le F δ hδ0 hδ hF p lam ρ hl hρ0 i hi)
    (-ρ) T μ d (by rwa [abs_neg, abs_of_pos hρ0]) hTb n hn
  rw [norm_lam2, abs_neg, abs_of_pos hρ0, neg_sq] at hX
  exact (post_bd α x _ hXp n _ hX).congr fun m _ => (hW n m).symm

end
end Dashmm.Yuk
