import Verif.Proofs.YukBound
import Verif.Proofs.LapOps
import Verif.Model.Yukawa
import Verif.Spec.Yukawa

/-!
# The expansions of the Yukawa kernel
-/

namespace Dashmm.Yuk

open Bessel Finset Harm Lap
open scoped Nat

noncomputable section

theorem fact_sq : ∀ n, Yukawa.fact n = Lap.sqf n ^ 2
  | 0 => by simp [Yukawa.fact, Lap.sqf]
  | n + 1 => by
    rw [Yukawa.fact, Lap.sqf, fact_sq n, mul_pow, Real.sq_sqrt (by positivity)]

theorem lsqf_pos : ∀ n, 0 < Lap.sqf n
  | 0 => by simp [Lap.sqf]
  | n + 1 => by
    have := lsqf_pos n
    rw [Lap.sqf]
    have : 0 < √((n + 1 : ℕ) : ℝ) := Real.sqrt_pos.2 (by positivity)
    positivity

/-- The coefficients as the Laplace kernel normalizes them. -/
def conv (C : Coef) : Coef := fun n m => C n m * ((Lap.sqf (n + m) / Lap.sqf (n - m) : ℝ) : ℂ)

theorem evalAt_conv (p : ℕ) (C : Coef) (e : ℂ) (ct : ℝ) (B : ℕ → ℝ) :
    Yukawa.evalAt p C e ct B = Lap.evalAt p (conv C) e ct B := by
  rw [Yukawa.evalAt, Lap.evalAt]
  congr 2
  · refine sum_congr rfl fun n _ => ?_
    have := (lsqf_pos n).ne'
    rw [conv, Nat.add_zero, Nat.sub_zero, div_self this, Complex.ofReal_one, mul_one]
  · refine sum_congr rfl fun n _ => sum_congr rfl fun m _ => ?_
    congr 1
    have h1 := (lsqf_pos (n + m)).ne'
    have h2 := (lsqf_pos (n - m)).ne'
    rw [conv, show C n m * (((B n * legendre ct n m : ℝ) : ℂ) * e ^ m) = ((B n * legendre ct n m : ℝ) : ℂ) * (C n m * e ^ m) by ring,
      show C n m * ((Lap.sqf (n + m) / Lap.sqf (n - m) : ℝ) : ℂ) * e ^ m =
        ((Lap.sqf (n + m) / Lap.sqf (n - m) : ℝ) : ℂ) * (C n m * e ^ m) by ring, Complex.re_ofReal_mul, Complex.re_ofReal_mul]
    field_simp

/-- The direction of a point as the code computes it. -/
def dir (v : Point ℝ) : Point ℝ := dirOf (ctheta v) (azi v)

theorem conv_source (v : Point ℝ) (x : ℝ) (n m : ℕ) (hm : m ≤ n) :
    conv (fun n m => ((x * Yukawa.sqf n m * legendre (ctheta v) n m : ℝ) : ℂ) * (starRingEnd ℂ (azi v)) ^ m) n m =
      ((x * (2 * n + 1) : ℝ) : ℂ) * reg (dir v) n m := by
  rw [dir, ← legendre_reg _ _ (ctheta_sq v) (azi_unit v) n m hm, conv, Yukawa.sqf, fact_sq, fact_sq]
  have h1 : (Lap.sqf (n + m) : ℂ) ≠ 0 := by exact_mod_cast (lsqf_pos (n + m)).ne'
  have h2 : (Lap.sqf (n - m) : ℂ) ≠ 0 := by exact_mod_cast (lsqf_pos (n - m)).ne'
  push_cast
  field_simp

/-- The sum over the sources, for `S_to_M` and `S_to_L` alike: `a u n` is the radial factor. -/
theorem sources_form (f : Point ℝ → ℝ → ℝ → Option Coef) (a : Point ℝ → ℕ → ℝ) (c : Point ℝ) (scale : ℝ)
    (hf : ∀ v q C, f v q scale = some C → ∀ n m, m ≤ n → conv C n m = ((q * a v n * (2 * n + 1) : ℝ) : ℂ) * reg (dir v) n m) :
    ∀ (l : List Src) (C : Coef), sumSources f c scale l = some C → ∀ (d : Point ℝ) (n : ℕ), form (conv C) d n =
      (l.map fun s => ((s.charge * a (s.pos.sub c) n * (2 * n + 1) : ℝ) : ℂ) * form (reg (dir (s.pos.sub c))) d n).sum
  | [], C, h, d, n => by
    rw [sumSources] at h; injection h with h; subst h
    have : conv (fun _ _ => 0) = 0 := by funext n m; simp [conv]
    rw [this, form_zero]; rfl
  | s :: l, C, h, d, n => by
    rw [sumSources] at h
    cases hr : sumSources f c scale l with
    | none => rw [hr] at h; cases h
    | some R =>
      rw [hr] at h
      cases hc : f (s.pos.sub c) s.charge scale with
      | none => rw [hc] at h; cases h
      | some D =>
        rw [hc] at h
        have e : C = fun n m => D n m + R n m := (Option.some.inj h).symm
        have e2 : conv C = conv D + conv R := by
          funext n m; rw [e]; simp only [conv, Pi.add_apply]; ring
        rw [e2, form_add, sources_form f a c scale hf l R hr d n, List.map_cons, List.sum_cons]
        congr 1
        rw [← form_smul]
        refine form_congr _ _ d n fun m hm => ?_
        rw [hf _ _ _ hc n m hm]
        simp [Complex.real_smul]

theorem dir_norm (v : Point ℝ) : (dir v).norm = 1 := dirOf_norm _ _ (ctheta_sq v) (azi_unit v)

/-- The cosine of the angle between two directions. -/
def dot (u t : Point ℝ) : ℝ := u.x * t.x + u.y * t.y + u.z * t.z

theorem dot_le (u t : Point ℝ) : |dot u t| ≤ u.norm * t.norm := by
  rw [← abs_of_nonneg (mul_nonneg (norm_nonneg' u) (norm_nonneg' t)), ← sq_le_sq, mul_pow, norm_sq_eq, norm_sq_eq, dot]
  nlinarith [sq_nonneg (u.x * t.y - u.y * t.x), sq_nonneg (u.x * t.z - u.z * t.x), sq_nonneg (u.y * t.z - u.z * t.y)]

theorem dist_dot (u t : Point ℝ) : (t.sub u).norm = √(t.norm ^ 2 - 2 * dot u t + u.norm ^ 2) := by
  refine norm_eq_of_sq _ _ (Real.sqrt_nonneg _) ?_
  rw [Real.sq_sqrt]
  · rw [norm_sq_eq, norm_sq_eq, dot]; simp only [Point.sub]; ring
  · rw [norm_sq_eq, norm_sq_eq, dot]
    nlinarith [sq_nonneg (t.x - u.x), sq_nonneg (t.y - u.y), sq_nonneg (t.z - u.z)]

theorem form_dir (u t : Point ℝ) (n : ℕ) : form (reg (dir u)) (dir t) n = ((leg (dot (dir u) (dir t)) 1 n : ℝ) : ℂ) := by
  rw [form_leg, dir_norm, dir_norm]; simp [dot]

theorem dir_clear (v : Point ℝ) (h : Clear v) : psmul v.norm (dir v) = v := snap_of_clear v h

theorem dot_clear (u t : Point ℝ) (hu : Clear u) (ht : Clear t) : dot u t = u.norm * t.norm * dot (dir u) (dir t) := by
  conv_lhs => rw [← dir_clear u hu, ← dir_clear t ht]
  simp only [dot, psmul]; ring

theorem leg_clear (u t : Point ℝ) (hu : Clear u) (ht : Clear t) (n : ℕ) :
    leg (dot u t) (u.norm ^ 2 * t.norm ^ 2) n = (u.norm * t.norm) ^ n * leg (dot (dir u) (dir t)) 1 n := by
  rw [dot_clear u t hu ht, ← leg_homog, mul_one, mul_pow]

/-- One term of the series. -/
theorem term_value (lam : ℝ) (hl : 0 < lam) (n : ℕ) (ρ r γ : ℝ) (hr : 0 < r) :
    (2 * n + 1) * sphI n (lam * ρ) * sphK n (lam * r) * leg γ 1 n =
      Real.pi / (2 * lam) * (erl n ((lam * ρ) ^ 2) * (Real.exp (-(lam * r)) * theta (lam * r) n) / r ^ (2 * n + 1) *
        ((r * ρ) ^ n * leg γ 1 n)) := by
  rw [sphI_eq, sphK_theta n _ (by positivity)]
  have h1 : (((2 * n + 1)‼ : ℕ) : ℝ) = (2 * n + 1) * ((2 * n - 1)‼ : ℕ) := by
    cases n with
    | zero => simp
    | succ n =>
      rw [show 2 * (n + 1) + 1 = 2 * n + 1 + 2 by ring, Nat.doubleFactorial_add_two, show 2 * (n + 1) - 1 = 2 * n + 1 by omega]
      push_cast; ring
  have h2 := (dfact_pos (2 * n - 1)).ne'
  have h3 := odd_ne (K := ℝ) n
  rw [h1, show 2 * n + 1 = n + n + 1 by ring, pow_succ, pow_succ, pow_add, mul_pow, mul_pow, mul_pow]
  field_simp
  rw [mul_pow]; ring

theorem dfact_odd (n : ℕ) : (((2 * n + 1)‼ : ℕ) : ℝ) = (2 * n + 1) * ((2 * n - 1)‼ : ℕ) := by
  have := dfact_pred n
  rwa [show 2 * (n + 1) - 1 = 2 * n + 1 by omega] at this

/-- The series with approximate radial factors. -/
theorem radial_error (lam : ℝ) (hl : 0 < lam) (p : ℕ) (scale δ ρ r γ : ℝ) (hs : 0 < scale) (hδ : 0 ≤ δ) (hρ : 0 ≤ ρ) (hr : ρ < r)
    (hγ : |γ| ≤ 1) (a : ℕ → ℝ)
    (ha : ∀ n ≤ p, |a n - sphI n (lam * ρ) / scale ^ n| ≤ δ * (sphI n (lam * ρ) / scale ^ n) +
      2 * 10⁻¹ ^ 300 * max 1 (lam * ρ / scale) ^ n) :
    |∑ n ∈ range (p + 1), (2 * n + 1) * a n * (scale ^ n * sphK n (lam * r)) * leg γ 1 n -
      Real.pi / (2 * lam) * (Real.exp (-(lam * √(r ^ 2 - 2 * (r * ρ * γ) + ρ ^ 2))) / √(r ^ 2 - 2 * (r * ρ * γ) + ρ ^ 2))| ≤
      Yukawa.expansionError p lam scale δ ρ r := by
  have hr0 : 0 < r := lt_of_le_of_lt hρ hr
  have hd : 0 < r - ρ := by linarith
  have hpi := Real.pi_pos
  have hg : |r * ρ * γ| ≤ r * ρ := by
    rw [abs_mul, abs_of_nonneg (a := r * ρ) (by positivity)]
    exact mul_le_of_le_one_right (by positivity) hγ
  have hleg : ∀ n, leg (r * ρ * γ) (ρ ^ 2 * r ^ 2) n = (r * ρ) ^ n * leg γ 1 n := by
    intro n; rw [← leg_homog, mul_one, show (r * ρ) ^ 2 = ρ ^ 2 * r ^ 2 by ring]
  have hleg1 : ∀ n, |leg γ 1 n| ≤ 1 := by
    intro n
    have := leg_abs_le γ 1 (by rw [← sq_abs]; nlinarith [abs_nonneg γ]) n
    simpa using this
  have hterm : ∀ n, (2 * n + 1) * sphI n (lam * ρ) * sphK n (lam * r) * leg γ 1 n =
      Real.pi / (2 * lam) * rterm lam n ρ r (r * ρ * γ) := by
    intro n; rw [term_value lam hl n ρ r γ hr0, rterm, hleg]
  have haxis : ∀ n, (2 * n + 1) * sphI n (lam * ρ) * sphK n (lam * r) = Real.pi / (2 * lam) * rterm lam n ρ r (r * ρ) := by
    intro n
    have h := term_value lam hl n ρ r 1 hr0
    have h1 : leg 1 1 n = 1 := by have := leg_axis 1 1 n; simpa using this
    rw [h1, mul_one, mul_one] at h
    rw [h, rterm, leg_axis]
  have hmain := yuk_addition_error lam hl p ρ r (r * ρ * γ) hρ hr hg
  have hax := axis_sum_le lam hl p ρ r hρ hr
  have hsplit : ∀ n ∈ range (p + 1), |(2 * n + 1) * a n * (scale ^ n * sphK n (lam * r)) * leg γ 1 n -
      Real.pi / (2 * lam) * rterm lam n ρ r (r * ρ * γ)| ≤
      Real.pi / (2 * lam) * (δ * rterm lam n ρ r (r * ρ)) + Real.pi / (2 * lam) * (2 * 10⁻¹ ^ 300 *
        (((2 * n + 1)‼ : ℕ) * max 1 (lam * ρ / scale) ^ n * (scale / (lam * r)) ^ n) / r) := by
    intro n hn
    have hn' : n ≤ p := by have := mem_range.1 hn; omega
    have hk := sphK_pos n (lam * r) (by positivity)
    have hsn : 0 < scale ^ n := by positivity
    have e : (2 * n + 1) * a n * (scale ^ n * sphK n (lam * r)) * leg γ 1 n -
        Real.pi / (2 * lam) * rterm lam n ρ r (r * ρ * γ) =
        ((2 * n + 1) * (scale ^ n * sphK n (lam * r))) * (a n - sphI n (lam * ρ) / scale ^ n) * leg γ 1 n := by
      rw [← hterm]; field_simp
    rw [e, abs_mul, abs_mul, abs_of_nonneg (a := (2 * (n : ℝ) + 1) * (scale ^ n * sphK n (lam * r))) (by positivity)]
    have h1 := ha n hn'
    have h2 : scale ^ n * sphK n (lam * r) ≤ scale ^ n * (Real.pi / 2 * ((2 * n - 1)‼ : ℕ) / (lam * r) ^ (n + 1)) := by
      gcongr; exact sphK_le n (lam * r) (by positivity)
    have hM : (0 : ℝ) ≤ max 1 (lam * ρ / scale) := le_trans zero_le_one (le_max_left _ _)
    calc (2 * n + 1) * (scale ^ n * sphK n (lam * r)) * |a n - sphI n (lam * ρ) / scale ^ n| * |leg γ 1 n|
        ≤ (2 * n + 1) * (scale ^ n * sphK n (lam * r)) * (δ * (sphI n (lam * ρ) / scale ^ n) +
          2 * 10⁻¹ ^ 300 * max 1 (lam * ρ / scale) ^ n) * 1 := by
          have := sphI_nonneg n (lam * ρ) (by positivity)
          gcongr; exact hleg1 n
      _ = δ * ((2 * n + 1) * sphI n (lam * ρ) * sphK n (lam * r)) + (scale ^ n * sphK n (lam * r)) * ((2 * n + 1) *
          (2 * 10⁻¹ ^ 300 * max 1 (lam * ρ / scale) ^ n)) := by
          field_simp
      _ ≤ δ * ((2 * n + 1) * sphI n (lam * ρ) * sphK n (lam * r)) +
          (scale ^ n * (Real.pi / 2 * ((2 * n - 1)‼ : ℕ) / (lam * r) ^ (n + 1))) * ((2 * n + 1) *
          (2 * 10⁻¹ ^ 300 * max 1 (lam * ρ / scale) ^ n)) := by
          have : (0 : ℝ) ≤ 10⁻¹ ^ 300 := by positivity
          gcongr
      _ = _ := by
          rw [haxis, dfact_odd, div_pow scale, pow_succ]
          generalize (10⁻¹ : ℝ) ^ 300 = τ
          field_simp
  calc _ = |∑ n ∈ range (p + 1), ((2 * n + 1) * a n * (scale ^ n * sphK n (lam * r)) * leg γ 1 n -
        Real.pi / (2 * lam) * rterm lam n ρ r (r * ρ * γ)) +
        Real.pi / (2 * lam) * (∑ n ∈ range (p + 1), rterm lam n ρ r (r * ρ * γ) -
          Real.exp (-(lam * √(r ^ 2 - 2 * (r * ρ * γ) + ρ ^ 2))) / √(r ^ 2 - 2 * (r * ρ * γ) + ρ ^ 2))| := by
        rw [sum_sub_distrib, ← mul_sum]; congr 1; ring
    _ ≤ ∑ n ∈ range (p + 1), (Real.pi / (2 * lam) * (δ * rterm lam n ρ r (r * ρ)) + Real.pi / (2 * lam) * (2 * 10⁻¹ ^ 300 *
        (((2 * n + 1)‼ : ℕ) * max 1 (lam * ρ / scale) ^ n * (scale / (lam * r)) ^ n) / r)) +
        Real.pi / (2 * lam) * (min ((ρ / r) ^ (p + 1)) (Real.exp (-(lam * (r - ρ)))) / (r - ρ)) := by
        refine (abs_add_le _ _).trans (add_le_add ((abs_sum_le_sum_abs _ _).trans (sum_le_sum hsplit)) ?_)
        rw [abs_mul, abs_of_pos (by positivity : 0 < Real.pi / (2 * lam))]
        gcongr
    _ = Real.pi / (2 * lam) * (δ * ∑ n ∈ range (p + 1), rterm lam n ρ r (r * ρ)) + Real.pi / (2 * lam) *
        (Yukawa.underflow p lam scale ρ r / r) +
        Real.pi / (2 * lam) * (min ((ρ / r) ^ (p + 1)) (Real.exp (-(lam * (r - ρ)))) / (r - ρ)) := by
        rw [sum_add_distrib, ← mul_sum, ← mul_sum, ← mul_sum, ← sum_div, ← mul_sum, Yukawa.underflow]
    _ ≤ Real.pi / (2 * lam) * (δ * (Real.exp (-(lam * (r - ρ))) / (r - ρ))) + Real.pi / (2 * lam) *
        (Yukawa.underflow p lam scale ρ r / r) +
        Real.pi / (2 * lam) * (min ((ρ / r) ^ (p + 1)) (Real.exp (-(lam * (r - ρ)))) / (r - ρ)) := by gcongr
    _ = _ := by rw [Yukawa.expansionError]; ring

end
end Dashmm.Yuk
