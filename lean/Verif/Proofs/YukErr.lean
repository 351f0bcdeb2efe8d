import Verif.Proofs.YukAdd

/-!
# The remainder of the addition theorem
-/

namespace Dashmm.Yuk

open Dashmm.Lap Dashmm.Harm

noncomputable section

/-- The constant of the error bound. -/
def cst (κ : ℂ) (p : ℕ) (ρ r : ℝ) : ℝ :=
  Real.exp ((‖κ‖ - κ.re) * (r + ρ)) * Real.exp (‖κ‖ ^ 2 * ρ ^ 2 / (2 * (2 * p + 3))) *
    (1 + ‖κ‖ ^ 2 * (ρ * r) / ((2 * p + 1) * (2 * p + 3)))

theorem addition_error (κ : ℂ) (p : ℕ) (ρ r g : ℝ) (hρ : 0 ≤ ρ) (hr : ρ < r) (hg : |g| ≤ r * ρ) :
    ‖∑ n ∈ Finset.range (p + 1), term κ n (ρ ^ 2) r g -
      Complex.exp (-(κ * (√(r ^ 2 - 2 * g + ρ ^ 2) : ℝ))) / (√(r ^ 2 - 2 * g + ρ ^ 2) : ℝ)‖ ≤
      cst κ p ρ r * ((ρ / r) ^ (p + 1) / (r - ρ)) := by
  have hr0 : 0 < r := lt_of_le_of_lt hρ hr
  have hd : 0 < r - ρ := by linarith
  obtain ⟨hg1, hg2⟩ := abs_le.1 hg
  set a : ℝ → ℝ := fun s => (s * ρ) ^ 2 with ha
  set N : ℝ → ℝ := fun s => r ^ 2 - 2 * (1 - s) * g + (1 - s) ^ 2 * ρ ^ 2 with hN
  set R : ℝ → ℝ := fun s => √(N s) with hR
  set c : ℝ → ℝ := fun s => s * g - s * (1 - s) * ρ ^ 2 with hc
  set w : ℝ → ℝ := fun s => r - (1 - s) * ρ with hw
  have hw0 : ∀ s, 0 ≤ s → 0 < w s := by intro s hs; simp only [hw]; nlinarith
  have hNw : ∀ s, s ≤ 1 → (w s) ^ 2 ≤ N s := by
    intro s hs; simp only [hw, hN]
    nlinarith [mul_nonneg (sub_nonneg.2 hs) (sub_nonneg.2 hg2)]
  have hN0 : ∀ s, 0 ≤ s → s ≤ 1 → 0 < N s := fun s h0 h1 => lt_of_lt_of_le (pow_pos (hw0 s h0) 2) (hNw s h1)
  have hRw : ∀ s, 0 ≤ s → s ≤ 1 → w s ≤ R s := fun s h0 h1 => Real.le_sqrt_of_sq_le (hNw s h1)
  have hR0 : ∀ s, 0 ≤ s → s ≤ 1 → 0 < R s := fun s h0 h1 => lt_of_lt_of_le (hw0 s h0) (hRw s h0 h1)
  have hRsq : ∀ s, 0 ≤ s → s ≤ 1 → R s ^ 2 = N s := fun s h0 h1 => Real.sq_sqrt (hN0 s h0 h1).le
  have hRu : ∀ s, s ≤ 1 → R s ≤ r + (1 - s) * ρ := by
    intro s hs
    have h1s : 0 ≤ 1 - s := by linarith
    refine Real.sqrt_le_iff.2 ⟨by positivity, ?_⟩
    simp only [hN]
    nlinarith [mul_nonneg h1s (by linarith : (0 : ℝ) ≤ r * ρ + g)]
  have hcs : ∀ s, 0 ≤ s → s ≤ 1 → c s ^ 2 ≤ (s * ρ) ^ 2 * R s ^ 2 := by
    intro s h0 h1
    rw [hRsq s h0 h1]
    simp only [hc, hN]
    have hgg : g ^ 2 ≤ (r * ρ) ^ 2 := by rw [← sq_abs g]; exact pow_le_pow_left₀ (abs_nonneg _) hg 2
    nlinarith [mul_nonneg (sq_nonneg s) (sub_nonneg.2 hgg)]
  -- derivatives
  set S : ℝ → ℂ := fun s => ∑ n ∈ Finset.range (p + 1), term κ n (a s) (R s) (c s) with hS
  have hder : ∀ s, 0 ≤ s → s ≤ 1 → ∃ d, HasDerivAt S d s ∧ s * d = flux κ p (a s) (R s) (c s) := by
    intro s h0 h1
    have da : HasDerivAt a (2 * s * ρ ^ 2) s := by
      have := ((hasDerivAt_id s).mul_const ρ).pow 2
      refine this.congr_deriv ?_
      simp; ring
    have dN : HasDerivAt N (2 * g - 2 * (1 - s) * ρ ^ 2) s := by
      have h1s : HasDerivAt (fun s : ℝ => 1 - s) (-1) s := by simpa using (hasDerivAt_id s).const_sub 1
      have := (((h1s.const_mul 2).mul_const g).const_sub (r ^ 2)).add ((h1s.pow 2).mul_const (ρ ^ 2))
      refine this.congr_deriv ?_
      simp; ring
    have dR : HasDerivAt R ((2 * g - 2 * (1 - s) * ρ ^ 2) / (2 * R s)) s := dN.sqrt (hN0 s h0 h1).ne'
    have dc : HasDerivAt c (g - (1 - 2 * s) * ρ ^ 2) s := by
      have h1s : HasDerivAt (fun s : ℝ => 1 - s) (-1) s := by simpa using (hasDerivAt_id s).const_sub 1
      have := ((hasDerivAt_id s).mul_const g).sub (((hasDerivAt_id s).mul h1s).mul_const (ρ ^ 2))
      refine this.congr_deriv ?_
      simp only [id]; ring
    have hRne := (hR0 s h0 h1).ne'
    refine sum_hasDeriv κ a R c _ _ _ s da dR dc hRne ?_ ?_ ?_ p
    · simp only [ha]; ring
    · simp only [hc]; field_simp
    · simp only [hc, ha]; ring
  choose! D hD1 hD2 using hder
  set K := cst κ p ρ r with hK
  have hK0 : 0 < K := by
    simp only [hK, cst]; positivity
  -- the majorant
  set h : ℝ → ℝ := fun s => K / (r - ρ) * (s * ρ / w s) ^ (p + 1) with hh
  have hdh : ∀ s, 0 ≤ s → HasDerivAt h (K * ((p + 1) * (s * ρ / w s) ^ p * (ρ / w s ^ 2))) s := by
    intro s h0
    have hws := (hw0 s h0).ne'
    have dw : HasDerivAt w ρ s := by
      have h1s : HasDerivAt (fun s : ℝ => 1 - s) (-1) s := by simpa using (hasDerivAt_id s).const_sub 1
      have := (h1s.mul_const ρ).const_sub r
      refine this.congr_deriv ?_
      ring
    have dt : HasDerivAt (fun s => s * ρ / w s) (ρ * (r - ρ) / w s ^ 2) s := by
      have := ((hasDerivAt_id s).mul_const ρ).div dw hws
      refine this.congr_deriv ?_
      simp only [id, one_mul, hw]; ring
    have := (dt.pow (p + 1)).const_mul (K / (r - ρ))
    refine this.congr_deriv ?_
    rw [Nat.add_sub_cancel]; push_cast
    field_simp
  have hb : ∀ s, 0 < s → s ≤ 1 → ‖D s‖ ≤ K * ((p + 1) * (s * ρ / w s) ^ p * (ρ / w s ^ 2)) := by
    intro s h0 h1
    have hf := flux_norm_le κ p (s * ρ) (R s) (c s) (by positivity) (hR0 s h0.le h1) (hcs s h0.le h1)
    have he : ‖(s : ℂ) * D s‖ = s * ‖D s‖ := by rw [norm_mul, Complex.norm_real, Real.norm_of_nonneg h0.le]
    rw [hD2 s h0.le h1] at he
    simp only [ha] at he
    rw [he] at hf
    have hws := hw0 s h0.le
    have hle : Real.exp ((‖κ‖ - κ.re) * R s) * Real.exp (‖κ‖ ^ 2 * (s * ρ) ^ 2 / (2 * (2 * p + 3))) *
        (1 + ‖κ‖ ^ 2 * (s * ρ * R s) / ((2 * p + 1) * (2 * p + 3))) ≤ K := by
      have k0 : 0 ≤ ‖κ‖ - κ.re := sub_nonneg.2 (Complex.re_le_norm κ)
      have u1 : R s ≤ r + ρ := (hRu s h1).trans (by nlinarith)
      have u2 : s * ρ ≤ ρ := by nlinarith
      have u3 : s * R s ≤ r := by
        have := mul_le_mul_of_nonneg_left (hRu s h1) h0.le
        refine this.trans ?_
        have h1s : 0 ≤ 1 - s := by linarith
        nlinarith [mul_nonneg (mul_nonneg h0.le h1s) hd.le, mul_nonneg hr0.le (sq_nonneg (1 - s))]
      have u4 : s * ρ * R s ≤ ρ * r := by
        calc s * ρ * R s = ρ * (s * R s) := by ring
          _ ≤ ρ * r := by gcongr
      have := (hR0 s h0.le h1).le
      simp only [hK, cst]
      gcongr
    have h3 : s * ‖D s‖ ≤ (p + 1) * K * ((s * ρ) ^ (p + 1) / w s ^ (p + 2)) := by
      refine hf.trans ?_
      have := (hR0 s h0.le h1)
      have := hRw s h0.le h1
      gcongr
    have h4 : (p + 1) * K * ((s * ρ) ^ (p + 1) / w s ^ (p + 2)) =
        s * (K * ((p + 1) * (s * ρ / w s) ^ p * (ρ / w s ^ 2))) := by
      rw [div_pow, pow_succ (s * ρ), pow_add (w s)]
      field_simp
    rw [h4] at h3
    exact le_of_mul_le_mul_left h3 h0
  have hS1 : S 1 = ∑ n ∈ Finset.range (p + 1), term κ n (ρ ^ 2) r g := by
    have : R 1 = r := by simp only [hR, hN]; norm_num; exact Real.sqrt_sq hr0.le
    have h2 : c 1 = g := by simp only [hc]; ring
    simp only [hS, this, h2, ha, one_mul]
  have hS0 : S 0 = Complex.exp (-(κ * (√(r ^ 2 - 2 * g + ρ ^ 2) : ℝ))) / (√(r ^ 2 - 2 * g + ρ ^ 2) : ℝ) := by
    have h1 : R 0 = √(r ^ 2 - 2 * g + ρ ^ 2) := by simp only [hR, hN]; congr 1; ring
    have h2 : c 0 = 0 := by simp only [hc]; ring
    have h3 : a 0 = 0 := by simp only [ha]; ring
    simp only [hS, h1, h2, h3]
    have hl : ∀ n, leg 0 0 (n + 1) = 0 := by
      intro n
      have := leg_homog 0 0 0 (n + 1)
      simpa using this
    rw [Finset.sum_range_succ']
    rw [Finset.sum_eq_zero]
    · simp [term, leg, efun_zero_arg, ffun, theta]
    · intro n _
      simp [term, hl]
  have key : ∀ ε, 0 < ε → ε ≤ 1 → ‖S 1 - S ε‖ ≤ h 1 := by
    intro ε e0 e1
    have hmem : ∀ x ∈ Set.Icc ε 1, 0 ≤ x ∧ x ≤ 1 := fun x hx => ⟨e0.le.trans hx.1, hx.2⟩
    have := image_norm_le_of_norm_deriv_right_le_deriv_boundary' (a := ε) (b := 1) (f := fun s => S s - S ε) (f' := D)
      (B := fun s => h s - h ε) (B' := fun s => K * ((p + 1) * (s * ρ / w s) ^ p * (ρ / w s ^ 2)))
      (fun x hx => ((hD1 x (hmem x hx).1 (hmem x hx).2).continuousAt.sub continuousAt_const).continuousWithinAt)
      (fun x hx => ((hD1 x (hmem x ⟨hx.1, hx.2.le⟩).1 hx.2.le).sub_const (S ε)).hasDerivWithinAt)
      (by simp)
      (fun x hx => ((hdh x (hmem x hx).1).continuousAt.sub continuousAt_const).continuousWithinAt)
      (fun x hx => ((hdh x (hmem x ⟨hx.1, hx.2.le⟩).1).sub_const (h ε)).hasDerivWithinAt)
      (fun x hx => hb x (lt_of_lt_of_le e0 hx.1) hx.2.le) (Set.right_mem_Icc.2 e1)
    refine this.trans ?_
    have : 0 ≤ h ε := by
      have := hw0 ε e0.le
      simp only [hh]; positivity
    linarith
  have hlim : Filter.Tendsto (fun ε => ‖S 1 - S ε‖) (nhdsWithin 0 (Set.Ioi 0)) (nhds ‖S 1 - S 0‖) := by
    have hc0 : ContinuousAt S 0 := (hD1 0 le_rfl zero_le_one).continuousAt
    exact ((continuousAt_const.sub hc0).norm.tendsto).mono_left nhdsWithin_le_nhds
  have hfin : ‖S 1 - S 0‖ ≤ h 1 := by
    refine le_of_tendsto hlim ?_
    filter_upwards [Ioc_mem_nhdsGT (zero_lt_one' ℝ)] with ε hε
    exact key ε hε.1 hε.2
  rw [hS1, hS0] at hfin
  refine hfin.trans_eq ?_
  simp only [hh, hw]
  rw [sub_self, zero_mul, sub_zero, one_mul]; ring

end
end Dashmm.Yuk
