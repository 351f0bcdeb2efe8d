import Verif.Spec.Plane

/-!
Every rule has some accuracy: the sums it evaluates are bounded for boxes two or three apart.
-/

namespace Dashmm.Lap

open Complex (I)

noncomputable section

/-- A bound of the Taylor polynomial in the unit box. -/
def taylorBound (p : ℕ) (lam : ℝ) : ℝ := ∑ n ∈ Finset.range (p + 1), (|lam| * 2) ^ n / n.factorial

theorem taylorBound_nonneg (p : ℕ) (lam : ℝ) : 0 ≤ taylorBound p lam :=
  Finset.sum_nonneg fun n _ => div_nonneg (pow_nonneg (by positivity) _) (by positivity)

theorem planeTaylor_le (p : ℕ) (lam : ℝ) (v : Point ℝ) (hv : InUnit v) (β : ℝ) : ‖planeTaylor p lam v β‖ ≤ taylorBound p lam := by
  obtain ⟨h1, h2, h3⟩ := hv
  unfold planeTaylor taylorBound
  refine (norm_sum_le _ _).trans (Finset.sum_le_sum fun n _ => ?_)
  rw [norm_div, norm_pow, norm_mul]
  have e : ‖((n.factorial : ℕ) : ℂ)‖ = n.factorial := by simp
  rw [e]
  have hl : ‖(lam : ℂ)‖ = |lam| := by simp
  rw [hl]
  refine div_le_div_of_nonneg_right (pow_le_pow_left₀ (by positivity) (mul_le_mul_of_nonneg_left ?_ (abs_nonneg _)) _) (by positivity)
  have e1 : ‖(v.z : ℂ)‖ ≤ 1 / 2 := by simpa using h3
  have e2 : ‖I * ((v.x : ℂ) * Real.cos β + v.y * Real.sin β)‖ ≤ 1 := by
    rw [norm_mul, Complex.norm_I, one_mul]
    have : ((v.x : ℂ) * Real.cos β + v.y * Real.sin β) = ((v.x * Real.cos β + v.y * Real.sin β : ℝ) : ℂ) := by push_cast; ring
    rw [this, Complex.norm_real, Real.norm_eq_abs]
    calc _ ≤ |v.x * Real.cos β| + |v.y * Real.sin β| := abs_add_le _ _
      _ ≤ 1 / 2 * 1 + 1 / 2 * 1 := by
        rw [abs_mul, abs_mul]
        exact add_le_add (mul_le_mul h1 (Real.abs_cos_le_one _) (abs_nonneg _) (by norm_num))
          (mul_le_mul h2 (Real.abs_sin_le_one _) (abs_nonneg _) (by norm_num))
      _ = 1 := by norm_num
  linarith [norm_sub_le (v.z : ℂ) (I * ((v.x : ℂ) * Real.cos β + v.y * Real.sin β))]

theorem fourierCut_le (f : ℕ) (g : ℝ → ℂ) (A : ℝ) (hg : ∀ β, ‖g β‖ ≤ A) (α : ℝ) :
    ‖fourierCut f g α‖ ≤ (Finset.Icc (-(f : ℤ)) f).card * A := by
  unfold fourierCut
  refine (norm_sum_le _ _).trans ((Finset.sum_le_card_nsmul _ _ A fun m _ => ?_).trans (by rw [nsmul_eq_mul]))
  have e : ∀ x : ℝ, ‖Complex.exp ((m : ℂ) * x * I)‖ = 1 := fun x => by
    have := Complex.norm_exp_ofReal_mul_I ((m : ℝ) * x)
    push_cast at this
    exact this
  have e' : ∀ x : ℝ, ‖Complex.exp (-((m : ℂ) * x * I))‖ = 1 := fun x => by
    rw [Complex.exp_neg, norm_inv, e, inv_one]
  rw [norm_mul, norm_mul, e, mul_one, norm_inv, Complex.norm_real, Real.norm_eq_abs, abs_of_pos Real.two_pi_pos]
  have hI := intervalIntegral.norm_integral_le_of_norm_le_const (a := 0) (b := 2 * Real.pi) (C := A)
    (f := fun β : ℝ => g β * Complex.exp (-((m : ℂ) * β * I))) (fun β _ => by rw [norm_mul, e', mul_one]; exact hg β)
  rw [sub_zero, abs_of_pos Real.two_pi_pos] at hI
  calc _ ≤ (2 * Real.pi)⁻¹ * (A * (2 * Real.pi)) := mul_le_mul_of_nonneg_left hI (by positivity)
    _ = A := by field_simp

theorem cutWave_le (p f : ℕ) (lam : ℝ) (v : Point ℝ) (hv : InUnit v) (α : ℝ) :
    ‖cutWave p f lam v α‖ ≤ (Finset.Icc (-(f : ℤ)) f).card * taylorBound p lam :=
  fourierCut_le f _ _ (planeTaylor_le p lam v hv) α

theorem planeKernel_bounded (R : Rule) (p : ℕ) : ∃ K : ℝ, 0 ≤ K ∧ ∀ (a b : Point ℝ) (x y z : ℤ), InUnit a → InUnit b → |x| ≤ 3 → |y| ≤ 3 →
    2 ≤ z → z ≤ 3 → |planeKernel R p a ⟨x, y, z⟩ b| ≤ K := by
  let C : ℕ → ℝ := fun k => (Finset.Icc (-(R.f k : ℤ)) (R.f k)).card * taylorBound p (R.lam k)
  let C' : ℕ → ℝ := fun k => (Finset.Icc (-(R.f k : ℤ)) (R.f k)).card * taylorBound p (-R.lam k)
  have hC : ∀ k, 0 ≤ C k := fun k => mul_nonneg (Nat.cast_nonneg _) (taylorBound_nonneg _ _)
  have hC' : ∀ k, 0 ≤ C' k := fun k => mul_nonneg (Nat.cast_nonneg _) (taylorBound_nonneg _ _)
  refine ⟨∑ k ∈ Finset.range R.s, |R.wt k / R.m k| * ∑ j ∈ Finset.Icc 1 (R.m k), C k * Real.exp (3 * |R.lam k|) * C' k,
    Finset.sum_nonneg fun k _ => mul_nonneg (abs_nonneg _) (Finset.sum_nonneg fun j _ => mul_nonneg (mul_nonneg (hC k) (Real.exp_pos _).le) (hC' k)), ?_⟩
  intro a b x y z ha hb _ _ hz1 hz2
  unfold planeKernel
  refine (Complex.abs_re_le_norm _).trans ((norm_sum_le _ _).trans (Finset.sum_le_sum fun k _ => ?_))
  rw [norm_mul, Complex.norm_real, Real.norm_eq_abs]
  refine mul_le_mul_of_nonneg_left ((norm_sum_le _ _).trans (Finset.sum_le_sum fun j _ => ?_)) (abs_nonneg _)
  simp only []
  generalize 2 * Real.pi * (j : ℝ) / R.m k = α
  rw [norm_mul, norm_mul]
  have hexp : ‖Complex.exp (R.lam k * (-((z : ℝ) : ℂ) + I * (((x : ℝ) : ℂ) * Real.cos α + ((y : ℝ) : ℂ) * Real.sin α)))‖ ≤ Real.exp (3 * |R.lam k|) := by
    rw [Complex.norm_exp]
    refine Real.exp_le_exp.2 ?_
    have : ((R.lam k : ℂ) * (-((z : ℝ) : ℂ) + I * (((x : ℝ) : ℂ) * Real.cos α + ((y : ℝ) : ℂ) * Real.sin α))).re = -(R.lam k * z) := by
      simp [← Complex.ofReal_cos, ← Complex.ofReal_sin]
    rw [this]
    have h1 : -(R.lam k * z) ≤ |R.lam k * z| := neg_le_abs _
    rw [abs_mul] at h1
    have h2 : |(z : ℝ)| ≤ 3 := by rw [abs_le]; constructor <;> exact_mod_cast (by omega)
    nlinarith [abs_nonneg (R.lam k)]
  exact mul_le_mul (mul_le_mul (cutWave_le p _ _ a ha α) hexp (norm_nonneg _) (hC k)) (cutWave_le p _ _ b hb α) (norm_nonneg _)
    (mul_nonneg (hC k) (Real.exp_pos _).le)

/-- Every rule is accurate to some `ε`. -/
theorem exists_accurate (R : Rule) (p : ℕ) : ∃ ε : ℝ, 0 ≤ ε ∧ R.Accurate p ε := by
  obtain ⟨K, hK, h⟩ := planeKernel_bounded R p
  refine ⟨7 * K + 1, by linarith, fun a b x y z ha hb hx hy hz1 hz2 => ?_⟩
  have hk := h a b x y z ha hb hx hy hz1 hz2
  obtain ⟨a1, a2, a3⟩ := ha
  obtain ⟨b1, b2, b3⟩ := hb
  rw [abs_le] at a1 a2 a3 b1 b2 b3 hx hy
  have hx1 : (-3 : ℝ) ≤ x := by exact_mod_cast hx.1
  have hx2 : (x : ℝ) ≤ 3 := by exact_mod_cast hx.2
  have hy1 : (-3 : ℝ) ≤ y := by exact_mod_cast hy.1
  have hy2 : (y : ℝ) ≤ 3 := by exact_mod_cast hy.2
  have hz1 : (2 : ℝ) ≤ z := by exact_mod_cast hz1
  have hz2 : (z : ℝ) ≤ 3 := by exact_mod_cast hz2
  set r := Point.norm (⟨x + b.x - a.x, y + b.y - a.y, z + b.z - a.z⟩ : Point ℝ) with hr
  have hr1 : 1 ≤ r := by
    rw [hr, Point.norm]
    refine Real.le_sqrt_of_sq_le ?_
    have : (1 : ℝ) ≤ z + b.z - a.z := by linarith [a3.2, b3.1]
    nlinarith [sq_nonneg ((x : ℝ) + b.x - a.x), sq_nonneg ((y : ℝ) + b.y - a.y)]
  have hr7 : r ≤ 7 := by
    rw [hr, Point.norm]
    refine Real.sqrt_le_iff.2 ⟨by norm_num, ?_⟩
    have sq16 : ∀ u : ℝ, -4 ≤ u → u ≤ 4 → u ^ 2 ≤ 16 := fun u h1 h2 => by nlinarith
    have e1 := sq16 ((x : ℝ) + b.x - a.x) (by linarith [a1.2, b1.1]) (by linarith [a1.1, b1.2])
    have e2 := sq16 ((y : ℝ) + b.y - a.y) (by linarith [a2.2, b2.1]) (by linarith [a2.1, b2.2])
    have e3 := sq16 ((z : ℝ) + b.z - a.z) (by linarith [a3.2, b3.1]) (by linarith [a3.1, b3.2])
    nlinarith
  have hinv : 1 / 7 ≤ 1 / r := one_div_le_one_div_of_le (by linarith) hr7
  have hp : 0 < 1 / r := by positivity
  calc _ ≤ |planeKernel R p a ⟨x, y, z⟩ b| + |1 / r| := abs_sub _ _
    _ ≤ K + 1 / r := by rw [abs_of_pos hp]; linarith
    _ ≤ _ := by nlinarith

end

end Dashmm.Lap
