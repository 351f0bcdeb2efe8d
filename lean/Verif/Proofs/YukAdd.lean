import Verif.Proofs.BesselPoly
import Verif.Proofs.HarmExp

/-!
# The addition theorem for `exp (-κ R) / R`, with a bound on the remainder

Move the source along a straight line from the centre to its place and the target with it, so that their distance `R`
does not change. The partial sum of the series starts as `exp (-κ R) / R`; the derivative of the partial sum of
order `p` has only terms of degree `p` and `p + 1`, and integrates to a bound on the error.
-/

namespace Dashmm.Yuk

open Dashmm.Lap Dashmm.Harm

noncomputable section

/-! ### Homogeneous Legendre polynomials -/

/-- `Q_n`: with `c` the inner product of two vectors and `β` the product of the squares of their lengths, the
product of the `n`-th powers of the lengths and the Legendre polynomial of the cosine. -/
def leg (c β : ℝ) : ℕ → ℝ
  | 0 => 1
  | 1 => c
  | n + 2 => ((2 * n + 3) * c * leg c β (n + 1) - (n + 1) * β * leg c β n) / (n + 2)

/-- Its derivative with respect to `c`. -/
def legD (c β : ℝ) : ℕ → ℝ
  | 0 => 0
  | n + 1 => (n + 1) * leg c β n + c * legD c β n

theorem leg_three (c β : ℝ) (n : ℕ) :
    ((n : ℝ) + 2) * leg c β (n + 2) = (2 * n + 3) * c * leg c β (n + 1) - (n + 1) * β * leg c β n := by
  rw [leg]; have : ((n : ℝ) + 2) ≠ 0 := by positivity
  field_simp

theorem legD_rel (c β : ℝ) (n : ℕ) : c * legD c β (n + 1) - β * legD c β n = (n + 1) * leg c β (n + 1) := by
  induction n with
  | zero => simp [legD, leg]
  | succ n ih =>
    have h3 := leg_three c β n
    rw [legD, legD]
    rw [legD] at ih
    push_cast at *
    linear_combination c * ih - h3

theorem leg_hasDeriv (c β c' β' : ℝ → ℝ) (s : ℝ) (hc : HasDerivAt c (c' s) s) (hβ : HasDerivAt β (β' s) s) (n : ℕ) :
    HasDerivAt (fun s => leg (c s) (β s) (n + 1))
      (legD (c s) (β s) (n + 1) * c' s - 1 / 2 * legD (c s) (β s) n * β' s) s := by
  induction n using Nat.twoStepInduction with
  | zero => simpa [leg, legD] using hc
  | one =>
    have h : HasDerivAt (fun s => ((2 * (0 : ℕ) + 3) * c s * c s - ((0 : ℕ) + 1) * β s * 1) / ((0 : ℕ) + 2 : ℝ)) _ s :=
      ((((hc.const_mul _).mul hc).sub ((hβ.const_mul _).mul_const 1)).div_const _)
    have h' := h.congr_of_eventuallyEq (f₁ := fun s => leg (c s) (β s) 2)
      (Filter.Eventually.of_forall fun s => by simp [leg])
    refine h'.congr_deriv ?_
    simp [legD, leg]; ring
  | more n h0 h1 =>
    have h := (((hc.const_mul (2 * (n + 1 : ℕ) + 3 : ℝ)).mul h1).sub ((hβ.const_mul ((n + 1 : ℕ) + 1 : ℝ)).mul h0)).div_const ((n + 1 : ℕ) + 2 : ℝ)
    have h' := h.congr_of_eventuallyEq (f₁ := fun s => leg (c s) (β s) (n + 3))
      (Filter.Eventually.of_forall fun s => by simp only [Pi.sub_apply, Pi.mul_apply]; rw [leg])
    refine h'.congr_deriv ?_
    · have r1 := legD_rel (c s) (β s) n
      have r2 := legD_rel (c s) (β s) (n + 1)
      have t1 := leg_three (c s) (β s) n
      have t2 := leg_three (c s) (β s) (n + 1)
      have hn : (((n + 1 : ℕ) : ℝ) + 2) ≠ 0 := by positivity
      rw [div_eq_iff hn]
      generalize hq0 : leg (c s) (β s) n = q0 at *
      have d1 : legD (c s) (β s) (n + 1) = (n + 1) * q0 + c s * legD (c s) (β s) n := by rw [legD, hq0]
      have d2 : legD (c s) (β s) (n + 2) = (n + 2) * leg (c s) (β s) (n + 1) + c s * legD (c s) (β s) (n + 1) := by
        rw [legD]; push_cast; ring
      have d3 : legD (c s) (β s) (n + 3) = (n + 3) * leg (c s) (β s) (n + 2) + c s * legD (c s) (β s) (n + 2) := by
        rw [legD]; push_cast; ring
      push_cast at *
      rw [show n + 1 + 1 = n + 2 from rfl] at *
      rw [show n + 1 + 2 = n + 3 from rfl] at *
      rw [d3]
      generalize c s = x at *
      generalize β s = b at *
      generalize c' s = x' at *
      generalize β' s = b' at *
      generalize leg x b (n + 1) = q1 at *
      generalize leg x b (n + 2) = q2 at *
      generalize leg x b (n + 3) = q3 at *
      generalize legD x b (n + 2) = e2 at *
      generalize legD x b (n + 1) = e1 at *
      generalize legD x b n = e0 at *
      linear_combination (n + 2) * x' * r2 - 1 / 2 * (n + 2) * b' * r1 + 1 / 2 * (n + 3) * b' * d2

/-! ### The decaying factors -/

/-- `exp(-κ r) θ_n(κ r) / r ^ (2 n + 1)`. -/
def ffun (κ : ℂ) (n : ℕ) (r : ℝ) : ℂ := Complex.exp (-(κ * r)) * theta (κ * r) n / (r : ℂ) ^ (2 * n + 1)

theorem ffun_hasDeriv (κ : ℂ) (n : ℕ) (r : ℝ) (hr : r ≠ 0) :
    HasDerivAt (fun r : ℝ => ffun κ n r) (-(2 * n + 1) * r * ffun κ (n + 1) r) r := by
  have hc : (r : ℂ) ≠ 0 := by exact_mod_cast hr
  have h1 : HasDerivAt (fun z : ℂ => κ * z) κ (r : ℂ) := by simpa using (hasDerivAt_id (r : ℂ)).const_mul κ
  have h2 : HasDerivAt (fun z : ℂ => Complex.exp (-(κ * z))) (Complex.exp (-(κ * r)) * (-κ)) (r : ℂ) := h1.neg.cexp
  have h3 : HasDerivAt (fun z : ℂ => theta (κ * z) n) (thetaD (κ * r) n * κ) (r : ℂ) :=
    HasDerivAt.comp (r : ℂ) (h₂ := fun z => theta z n) (theta_hasDeriv (κ * r) n) h1
  have h4 : HasDerivAt (fun z : ℂ => z ^ (2 * n + 1)) (((2 * n + 1 : ℕ) : ℂ) * (r : ℂ) ^ (2 * n)) (r : ℂ) := by
    simpa using hasDerivAt_pow (2 * n + 1) (r : ℂ)
  have h5 := (((h2.mul h3).div h4 (pow_ne_zero _ hc))).comp_ofReal
  refine h5.congr_deriv ?_
  simp only [Pi.mul_apply]
  have hp : (r : ℂ) ^ (2 * n) ≠ 0 := pow_ne_zero _ hc
  simp only [ffun]
  rw [show 2 * (n + 1) + 1 = 2 * n + 1 + 2 by ring, pow_add _ (2 * n + 1) 2, pow_succ _ (2 * n)]
  cases n with
  | zero =>
    rw [thetaD, theta, theta]; push_cast; simp only [mul_zero, pow_zero, zero_add]
    field_simp
    ring
  | succ n =>
    have e1 := odd_ne (K := ℂ) n
    have e3 := odd3_ne (K := ℂ) n
    rw [thetaD, theta.eq_3]
    push_cast
    rw [show 2 * ((n : ℂ) + 1) + 1 = 2 * n + 3 by ring]
    field_simp
    ring

theorem ffun_three (κ : ℂ) (n : ℕ) (r : ℝ) (hr : r ≠ 0) : (r : ℂ) ^ 2 * ffun κ (n + 2) r =
    ffun κ (n + 1) r + κ ^ 2 / ((2 * n + 1) * (2 * n + 3)) * ffun κ n r := by
  have hc : (r : ℂ) ≠ 0 := by exact_mod_cast hr
  have e1 := odd_ne (K := ℂ) n
  have e3 := odd3_ne (K := ℂ) n
  simp only [ffun]
  rw [theta.eq_3, show 2 * (n + 2) + 1 = 2 * n + 1 + 2 + 2 by ring, show 2 * (n + 1) + 1 = 2 * n + 1 + 2 by ring,
    pow_add _ (2 * n + 1 + 2), pow_add _ (2 * n + 1)]
  field_simp

/-! ### The partial sums along the curve -/

/-- The term of degree `n`: `a` is the square of the distance of the source, `r` the distance of the target, `c`
the inner product. -/
def term (κ : ℂ) (n : ℕ) (a r c : ℝ) : ℂ := efun n (κ ^ 2 * a) * ffun κ n r * (leg c (a * r ^ 2) n : ℂ)

/-- `(p + 1) ((E_{p-1} - E_p) F_p Q_p - E_p F_{p+1} Q_{p+1})`. -/
def flux (κ : ℂ) (n : ℕ) (a r c : ℝ) : ℂ :=
  (n + 1) * (κ ^ 2 * a / ((2 * n + 1) * (2 * n + 3)) * efun (n + 1) (κ ^ 2 * a) * ffun κ n r * (leg c (a * r ^ 2) n : ℂ) -
    efun n (κ ^ 2 * a) * ffun κ (n + 1) r * (leg c (a * r ^ 2) (n + 1) : ℂ))

theorem term_hasDeriv (κ : ℂ) (a r c : ℝ → ℝ) (a' r' c' : ℝ) (s : ℝ) (ha : HasDerivAt a a' s) (hr : HasDerivAt r r' s)
    (hc : HasDerivAt c c' s) (hr0 : r s ≠ 0) (ea : s * a' = 2 * a s) (er : s * r' * r s = c s) (ec : s * c' = c s + a s)
    (n : ℕ) : ∃ d, HasDerivAt (fun s => term κ n (a s) (r s) (c s)) d s ∧
      s * d = flux κ n (a s) (r s) (c s) - if n = 0 then 0 else flux κ (n - 1) (a s) (r s) (c s) := by
  have hrc : (r s : ℂ) ≠ 0 := by exact_mod_cast hr0
  have h1 : HasDerivAt (fun s => efun n (κ ^ 2 * (a s : ℂ)))
      (efun (n + 1) (κ ^ 2 * (a s : ℂ)) / (2 * (2 * n + 3)) * (κ ^ 2 * a')) s := by
    have := (ha.ofReal_comp).const_mul (κ ^ 2)
    exact HasDerivAt.comp s (h₂ := efun n) (efun_hasDeriv n _) this
  have h2 : HasDerivAt (fun s => ffun κ n (r s)) (-(2 * n + 1) * r s * ffun κ (n + 1) (r s) * r') s := by
    have := (ffun_hasDeriv κ n (r s) hr0).scomp s hr
    refine this.congr_deriv ?_
    rw [Complex.real_smul]; ring
  have hβ : HasDerivAt (fun s => a s * r s ^ 2) (a' * r s ^ 2 + a s * (2 * r s * r')) s := by
    have := ha.mul (hr.pow 2)
    refine this.congr_deriv ?_
    simp
  have ea' : (s : ℂ) * a' = 2 * a s := by exact_mod_cast ea
  have er' : (s : ℂ) * r' * r s = c s := by exact_mod_cast er
  have ec' : (s : ℂ) * c' = c s + a s := by exact_mod_cast ec
  cases n with
  | zero =>
    have h := (h1.mul h2).congr_of_eventuallyEq (f₁ := fun s => term κ 0 (a s) (r s) (c s))
      (Filter.Eventually.of_forall fun s => by simp [term, leg])
    refine ⟨_, h, ?_⟩
    simp only [if_true, flux, leg]
    push_cast
    linear_combination efun 1 (κ ^ 2 * (a s : ℂ)) / 6 * κ ^ 2 * ffun κ 0 (r s) * ea' -
      efun 0 (κ ^ 2 * (a s : ℂ)) * ffun κ 1 (r s) * er'
  | succ n =>
    have h3 := (leg_hasDeriv c (fun s => a s * r s ^ 2) (fun _ => c') (fun _ => a' * r s ^ 2 + a s * (2 * r s * r')) s hc hβ n).ofReal_comp
    refine ⟨_, (h1.mul h2).mul h3, ?_⟩
    simp only [Nat.succ_ne_zero, if_false, Nat.add_sub_cancel, flux, Pi.mul_apply]
    have d0 := efun_diff n (κ ^ 2 * (a s : ℂ))
    have f3 := ffun_three κ n (r s) hr0
    have q3 := congrArg Complex.ofReal (leg_three (c s) (a s * r s ^ 2) n)
    have qr := congrArg Complex.ofReal (legD_rel (c s) (a s * r s ^ 2) n)
    have qd := congrArg Complex.ofReal (legD.eq_2 (c s) (a s * r s ^ 2) n)
    have e1 := odd_ne (K := ℂ) n
    have e3 := odd3_ne (K := ℂ) n
    have e5 := odd5_ne (K := ℂ) n
    push_cast at *
    rw [show n + 1 + 1 = n + 2 from rfl] at *
    rw [show 2 * ((n : ℂ) + 1) + 1 = 2 * n + 3 by ring, show 2 * ((n : ℂ) + 1) + 3 = 2 * n + 5 by ring]
    generalize efun (n + 2) (κ ^ 2 * (a s : ℂ)) = E2 at *
    generalize efun (n + 1) (κ ^ 2 * (a s : ℂ)) = E1 at *
    generalize efun n (κ ^ 2 * (a s : ℂ)) = E0 at *
    generalize ffun κ (n + 2) (r s) = F2 at *
    generalize ffun κ (n + 1) (r s) = F1 at *
    generalize ffun κ n (r s) = F0 at *
    generalize (leg (c s) (a s * r s ^ 2) (n + 2) : ℂ) = q2 at *
    generalize (leg (c s) (a s * r s ^ 2) (n + 1) : ℂ) = q1 at *
    generalize (leg (c s) (a s * r s ^ 2) n : ℂ) = q0 at *
    generalize (legD (c s) (a s * r s ^ 2) (n + 1) : ℂ) = D1 at *
    generalize (legD (c s) (a s * r s ^ 2) n : ℂ) = D0 at *
    generalize (a s : ℂ) = A at *
    generalize (c s : ℂ) = C at *
    generalize (r s : ℂ) = R at *
    generalize (a' : ℂ) = A' at *
    generalize (c' : ℂ) = C' at *
    generalize (r' : ℂ) = R' at *
    generalize (s : ℂ) = t at *
    clear h1 h2 h3 hβ ha hr hc ea er ec hr0
    have hk : E2 / (2 * (2 * n + 5)) = (2 * n + 3) * (E2 / ((2 * n + 3) * (2 * n + 5))) / 2 := by field_simp
    rw [hk]
    linear_combination (2 * n + 3) * (E2 / ((2 * n + 3) * (2 * n + 5))) / 2 * κ ^ 2 * F1 * q1 * ea' - (2 * n + 3) * E1 * F2 * q1 * er' +
      E1 * F1 * (D1 * ec' - 1 / 2 * D0 * (R ^ 2 * ea' + 2 * A * er')) + E1 * F1 * qr + A * E1 * F1 * qd +
      E1 * F2 * q3 - E1 * (n + 1) * A * q0 * f3 - (n + 1) * F1 * q1 * d0

theorem sum_hasDeriv (κ : ℂ) (a r c : ℝ → ℝ) (a' r' c' : ℝ) (s : ℝ) (ha : HasDerivAt a a' s) (hr : HasDerivAt r r' s)
    (hc : HasDerivAt c c' s) (hr0 : r s ≠ 0) (ea : s * a' = 2 * a s) (er : s * r' * r s = c s) (ec : s * c' = c s + a s)
    (p : ℕ) : ∃ d, HasDerivAt (fun s => ∑ n ∈ Finset.range (p + 1), term κ n (a s) (r s) (c s)) d s ∧
      s * d = flux κ p (a s) (r s) (c s) := by
  induction p with
  | zero =>
    obtain ⟨d, h1, h2⟩ := term_hasDeriv κ a r c a' r' c' s ha hr hc hr0 ea er ec 0
    refine ⟨d, ?_, by simpa using h2⟩
    simpa using h1
  | succ p ih =>
    obtain ⟨d, h1, h2⟩ := ih
    obtain ⟨e, h3, h4⟩ := term_hasDeriv κ a r c a' r' c' s ha hr hc hr0 ea er ec (p + 1)
    refine ⟨d + e, ?_, ?_⟩
    · simp only [Finset.sum_range_succ _ (p + 1)]
      exact h1.add h3
    · rw [if_neg (Nat.succ_ne_zero p), Nat.add_sub_cancel] at h4
      linear_combination h2 + h4

/-! ### Bounds -/

theorem nrm_leg (v : Point ℝ) (n : ℕ) : nrm v n 0 = (leg v.z (v.norm ^ 2) n : ℂ) := by
  have hz : (v.norm ^ 2 : ℝ) = v.x ^ 2 + v.y ^ 2 + v.z ^ 2 := norm_sq_eq v
  induction n using Nat.twoStepInduction with
  | zero => rw [nrm_mid]; simp [leg, harP, har]
  | one => rw [nrm_mid]; simp [leg, harP, har]
  | more n h0 h1 =>
    have h := mid_three v n
    have hn : ((n : ℂ) + 2) ≠ 0 := by exact_mod_cast Nat.succ_ne_zero (n + 1)
    rw [leg]; push_cast
    rw [eq_div_iff hn, mul_comm, h, h0, h1, ← hz]; push_cast; ring

theorem leg_abs_le (c β : ℝ) (h : c ^ 2 ≤ β) (n : ℕ) : |leg c β n| ≤ √β ^ n := by
  have hv : (⟨√(β - c ^ 2), 0, c⟩ : Point ℝ).norm = √β := by
    refine norm_eq_of_sq _ _ (Real.sqrt_nonneg _) ?_
    simp only
    rw [Real.sq_sqrt (by linarith), Real.sq_sqrt (by nlinarith [sq_nonneg c])]; ring
  have := mid_norm_le ⟨√(β - c ^ 2), 0, c⟩ n
  rw [nrm_leg, hv, Complex.norm_real, Real.norm_eq_abs, Real.sq_sqrt (by nlinarith [sq_nonneg c])] at this
  exact this

theorem leg_homog (k c β : ℝ) (n : ℕ) : leg (k * c) (k ^ 2 * β) n = k ^ n * leg c β n := by
  induction n using Nat.twoStepInduction with
  | zero => simp [leg]
  | one => simp [leg]
  | more n h0 h1 => rw [leg, leg, h0, h1, pow_succ, pow_succ]; ring

theorem form_leg (u t : Point ℝ) (n : ℕ) : form (reg u) t n =
    (leg (u.x * t.x + u.y * t.y + u.z * t.z) (u.norm ^ 2 * t.norm ^ 2) n : ℂ) := by
  obtain ⟨α, c, s, h1, h2⟩ := exists_rot t
  rw [form_rot u t α c s h1, h2, form_axis, ext_reg, nrm_leg, rot_norm α c s h1]
  have hz : t.norm * (rot α c s u).z = u.x * t.x + u.y * t.y + u.z * t.z := by
    have e := rot_norm α c s h1 (u.sub t)
    rw [← rot_sub, h2] at e
    have e2 := congrArg (· ^ 2) e
    simp only [norm_sq_eq] at e2
    have e3 := rot_norm α c s h1 u
    have e4 := congrArg (· ^ 2) e3
    simp only [norm_sq_eq] at e4
    have e5 := norm_sq_eq t
    simp only [Point.sub, axis] at e2
    linarith
  rw [← hz, mul_comm (u.norm ^ 2), leg_homog]; push_cast; ring

theorem ffun_norm_le (κ : ℂ) (n : ℕ) (r : ℝ) (hr : 0 < r) :
    ‖ffun κ n r‖ ≤ Real.exp ((‖κ‖ - κ.re) * r) / r ^ (2 * n + 1) := by
  rw [ffun, norm_div, norm_mul, norm_pow, Complex.norm_real, Real.norm_of_nonneg hr.le, Complex.norm_exp]
  have h1 : ‖theta (κ * r) n‖ ≤ Real.exp (‖κ‖ * r) := by
    refine (theta_norm_le _ _).trans ?_
    rw [norm_mul, Complex.norm_real, Real.norm_of_nonneg hr.le]
    exact theta_real_le _ (by positivity) n
  have h2 : (-(κ * r)).re = -(κ.re * r) := by simp
  rw [h2]
  gcongr
  calc Real.exp (-(κ.re * r)) * ‖theta (κ * r) n‖ ≤ Real.exp (-(κ.re * r)) * Real.exp (‖κ‖ * r) := by gcongr
    _ = _ := by rw [← Real.exp_add]; congr 1; ring

theorem flux_norm_le (κ : ℂ) (p : ℕ) (σ r c : ℝ) (hσ : 0 ≤ σ) (hr : 0 < r) (hc : c ^ 2 ≤ σ ^ 2 * r ^ 2) :
    ‖flux κ p (σ ^ 2) r c‖ ≤ (p + 1) * (Real.exp ((‖κ‖ - κ.re) * r) * Real.exp (‖κ‖ ^ 2 * σ ^ 2 / (2 * (2 * p + 3))) *
      (1 + ‖κ‖ ^ 2 * (σ * r) / ((2 * p + 1) * (2 * p + 3)))) * (σ ^ (p + 1) / r ^ (p + 2)) := by
  set G := Real.exp ((‖κ‖ - κ.re) * r) with hG
  set B := Real.exp (‖κ‖ ^ 2 * σ ^ 2 / (2 * (2 * p + 3))) with hB
  have hG0 : 0 < G := Real.exp_pos _
  have hB0 : 0 < B := Real.exp_pos _
  have hw : ‖κ ^ 2 * ((σ ^ 2 : ℝ) : ℂ)‖ = ‖κ‖ ^ 2 * σ ^ 2 := by
    rw [norm_mul, norm_pow, Complex.norm_real, Real.norm_of_nonneg (by positivity)]
  have hE0 : ‖efun p (κ ^ 2 * ((σ ^ 2 : ℝ) : ℂ))‖ ≤ B := by
    have := efun_norm_le p (κ ^ 2 * ((σ ^ 2 : ℝ) : ℂ)); rwa [hw] at this
  have hE1 : ‖efun (p + 1) (κ ^ 2 * ((σ ^ 2 : ℝ) : ℂ))‖ ≤ B := by
    refine (efun_norm_le (p + 1) (κ ^ 2 * ((σ ^ 2 : ℝ) : ℂ))).trans ?_
    rw [hw, hB]
    refine Real.exp_le_exp.2 ?_
    push_cast
    gcongr; linarith
  have hF0 := ffun_norm_le κ p r hr
  have hF1 := ffun_norm_le κ (p + 1) r hr
  have hsq : √(σ ^ 2 * r ^ 2) = σ * r := by rw [← mul_pow, Real.sqrt_sq (by positivity)]
  have hq : ∀ n, ‖(leg c (σ ^ 2 * r ^ 2) n : ℂ)‖ ≤ (σ * r) ^ n := by
    intro n
    rw [Complex.norm_real, Real.norm_eq_abs]
    have := leg_abs_le c (σ ^ 2 * r ^ 2) hc n
    rwa [hsq] at this
  have hk : ‖κ ^ 2 * ((σ ^ 2 : ℝ) : ℂ) / ((2 * p + 1) * (2 * p + 3))‖ = ‖κ‖ ^ 2 * σ ^ 2 / ((2 * p + 1) * (2 * p + 3)) := by
    have : ((2 * (p : ℂ) + 1) * (2 * p + 3)) = (((2 * p + 1) * (2 * p + 3) : ℝ) : ℂ) := by push_cast; ring
    rw [norm_div, hw, this, Complex.norm_real, Real.norm_of_nonneg (by positivity)]
  rw [flux, norm_mul, show ((p : ℂ) + 1) = ((p + 1 : ℕ) : ℂ) by push_cast; ring, Complex.norm_natCast]
  rw [Nat.cast_add, Nat.cast_one, mul_assoc ((p : ℝ) + 1)]
  refine mul_le_mul_of_nonneg_left ?_ (by positivity)
  refine (norm_sub_le _ _).trans ?_
  simp only [norm_mul] at *
  have t1 : ‖κ ^ 2 * ((σ ^ 2 : ℝ) : ℂ) / ((2 * p + 1) * (2 * p + 3))‖ * ‖efun (p + 1) (κ ^ 2 * ((σ ^ 2 : ℝ) : ℂ))‖ * ‖ffun κ p r‖ *
      ‖(leg c (σ ^ 2 * r ^ 2) p : ℂ)‖ ≤ ‖κ‖ ^ 2 * σ ^ 2 / ((2 * p + 1) * (2 * p + 3)) * B * (G / r ^ (2 * p + 1)) * (σ * r) ^ p := by
    rw [hk]; gcongr; exact hq p
  have t2 : ‖efun p (κ ^ 2 * ((σ ^ 2 : ℝ) : ℂ))‖ * ‖ffun κ (p + 1) r‖ * ‖(leg c (σ ^ 2 * r ^ 2) (p + 1) : ℂ)‖ ≤
      B * (G / r ^ (2 * (p + 1) + 1)) * (σ * r) ^ (p + 1) := by
    gcongr; exact hq (p + 1)
  push_cast at t1 t2 ⊢
  refine (add_le_add t1 t2).trans_eq ?_
  have r1 : r ^ (2 * (p + 1) + 1) = r ^ p * r ^ p * r ^ 3 := by ring
  have r2 : r ^ (2 * p + 1) = r ^ p * r ^ p * r := by ring
  have r3 : r ^ (p + 2) = r ^ p * r ^ 2 := by ring
  rw [r1, r2, r3, mul_pow, mul_pow, pow_succ σ p, pow_succ r p]
  have hp1 := odd_ne (K := ℝ) p
  have hp3 := odd3_ne (K := ℝ) p
  field_simp
  ring

end
end Dashmm.Yuk
