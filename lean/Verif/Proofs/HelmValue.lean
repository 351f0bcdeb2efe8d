import Verif.Proofs.HelmErr

/-!
# The values of the expansions of the Helmholtz kernel
-/

namespace Dashmm.Helm

open Finset Harm Lap Bessel Wave Yuk
open scoped Nat

noncomputable section

theorem form_real (C : Coef) (hC : Proper C) (v : Point ℝ) (n : ℕ) : (((form C v n).re : ℝ) : ℂ) = form C v n := by
  rw [← Complex.conj_eq_iff_re, form, map_sum, ← sum_neg_window]
  refine sum_congr rfl fun m _ => ?_
  rw [map_mul, Complex.conj_conj, ext_conj C hC, neg_neg, nrm_conj, powM1_neg]
  ring

theorem conv_proper (M : Coef) (h : Proper M) : Proper (conv M) := by
  intro n
  rw [conv, Complex.im_mul_ofReal, h n, zero_mul]

/-- One degree of an expansion in a direction. -/
def deg (M : Coef) (e : ℂ) (ct : ℝ) (n : ℕ) : ℝ := (M n 0).re * legendre ct n 0 + ∑ m ∈ Icc 1 n, 2 * (M n m * e ^ m).re * legendre ct n m

theorem evalM_deg (p : ℕ) (M : Coef) (hM : Proper M) (e : ℂ) (ct : ℝ) (B : ℕ → ℂ) :
    evalM p M e ct B = ∑ n ∈ range (p + 1), B n * (deg M e ct n : ℂ) := by
  rw [evalM, sum_pos, ← sum_add_distrib]
  refine sum_congr rfl fun n _ => ?_
  have h0 : M n 0 = ((M n 0).re : ℂ) := Complex.ext (by simp) (by simp [hM n])
  rw [deg, h0, Complex.ofReal_re]
  push_cast
  rw [mul_add, mul_sum]
  congr 1
  · ring
  · exact sum_congr rfl fun m _ => by ring

theorem evalAt_deg (p : ℕ) (M : Coef) (e : ℂ) (ct : ℝ) (B : ℕ → ℝ) :
    Yukawa.evalAt p M e ct B = ∑ n ∈ range (p + 1), B n * deg M e ct n := by
  rw [Yukawa.evalAt, sum_pos, ← sum_add_distrib, Complex.re_sum]
  refine sum_congr rfl fun n _ => ?_
  rw [deg, mul_add, mul_sum, Complex.add_re, Complex.re_sum]
  congr 1
  · rw [Complex.re_mul_ofReal]; ring
  · refine sum_congr rfl fun m _ => ?_
    rw [Complex.ofReal_re, mul_left_comm, Complex.re_ofReal_mul]; ring

theorem deg_form (M : Coef) (v : Point ℝ) (hv : Clear v) (n : ℕ) : deg M (azi v) (ctheta v) n = (form (conv M) v n).re / v.norm ^ n := by
  have h1 := evalAt_clear n M v hv (fun k => if k = n then 1 else 0)
  rw [evalAt_deg, Complex.re_sum] at h1
  rw [sum_eq_single n, sum_eq_single n] at h1
  · simp only [if_true, one_mul] at h1
    rw [h1, Complex.re_ofReal_mul]; ring
  · intro b _ hb; simp [hb]
  · intro h; exact absurd (mem_range.2 (by omega)) h
  · intro b _ hb; simp [hb]
  · intro h; exact absurd (mem_range.2 (by omega)) h

theorem deg_le (M : Coef) (v : Point ℝ) (hv : Clear v) (n : ℕ) : |deg M (azi v) (ctheta v) n| ≤ Yukawa.degreeSize M n := by
  have hv0 : 0 < v.norm := lt_of_le_of_ne (norm_nonneg' v) hv.ne.symm
  have hb : Bd (hat (fun _ => 1) M) n (Yukawa.degreeSize M n) := by
    rw [Bd_iff, hat_degree _ _ _ zero_le_one, one_mul]
  have h := Wave.Bd.form hb v
  rw [form_hat, Complex.ofReal_one, one_mul] at h
  rw [deg_form M v hv, abs_div, abs_of_pos (pow_pos hv0 n), div_le_iff₀ (pow_pos hv0 n)]
  exact (Complex.abs_re_le_norm _).trans h

/-- The value with the exact functions. -/
def exactM (om scale : ℝ) (p : ℕ) (M : Coef) (v : Point ℝ) : ℂ :=
  evalM p M (azi v) (ctheta v) fun n => scale ^ n * sphH n (om * v.norm)

theorem exactM_eq (om scale : ℝ) (ho : 0 < om) (p : ℕ) (M : Coef) (hM : Proper M) (v : Point ℝ) (hv : Clear v) :
    exactM om scale p M v = fieldM (kap om) p (hat (am om scale) M) v / (Complex.I * om) := by
  have hv0 : 0 < v.norm := lt_of_le_of_ne (norm_nonneg' v) hv.ne.symm
  have hx : om * v.norm ≠ 0 := by positivity
  have hoc : (om : ℂ) ≠ 0 := by exact_mod_cast ho.ne'
  have hvc : (v.norm : ℂ) ≠ 0 := by exact_mod_cast hv0.ne'
  have hI := Complex.I_ne_zero
  rw [exactM, evalM_deg p M hM, fieldM, sum_div]
  refine sum_congr rfl fun n _ => ?_
  have hd := form_real (conv M) (conv_proper M hM) v n
  rw [deg_form M v hv, form_hat, ffun, sphH_theta _ hx, am]
  have e1 : -(kap om * (v.norm : ℂ)) = Complex.I * ((om * v.norm : ℝ) : ℂ) := by rw [kap]; push_cast; ring
  have e2 : kap om * (v.norm : ℂ) = -(Complex.I * ((om * v.norm : ℝ) : ℂ)) := by rw [kap]; push_cast; ring
  rw [e1, e2, Complex.ofReal_div, hd]
  generalize form (conv M) v n = f
  generalize theta (-(Complex.I * ((om * v.norm : ℝ) : ℂ))) n = th
  generalize Complex.exp (Complex.I * ((om * v.norm : ℝ) : ℂ)) = ex
  push_cast
  generalize (((2 * n - 1)‼ : ℕ) : ℂ) = dd
  rw [pow_succ (_ : ℂ) (2 * n), pow_succ (_ : ℂ) n, two_mul, pow_add, div_pow, mul_pow]
  field_simp

theorem evalM_near (om scale : ℝ) (p : ℕ) (M : Coef) (hM : Proper M) (v : Point ℝ) (hv : Clear v) (β : ℕ → ℝ) (B : ℕ → ℂ)
    (h : NearH p (om * v.norm) scale β B) :
    ‖evalM p M (azi v) (ctheta v) B - exactM om scale p M v‖ ≤ ∑ n ∈ range (p + 1), β n * Yukawa.degreeSize M n := by
  rw [exactM, evalM_deg p M hM, evalM_deg p M hM, ← sum_sub_distrib]
  refine (norm_sum_le _ _).trans (sum_le_sum fun n hn => ?_)
  rw [mem_range] at hn
  rw [← sub_mul, norm_mul, Complex.norm_real, Real.norm_eq_abs]
  exact mul_le_mul (h n (by omega)) (deg_le M v hv n) (abs_nonneg _) ((norm_nonneg _).trans (h n (by omega)))

theorem helm_mToM_proper (J : Table) (size om : ℝ) (hl : 0 < om) (hs : 0 < scale0 size om) (p lev : ℕ) (α x : ℝ) (M : Coef) (hM : Proper M) :
    Proper (tr p (m2m J size om p lev) α x M) := by
  refine proper_of_hat (am om (2 * scaleOf size om lev)) (am_pos _ _ hl (by rw [scaleOf]; positivity)) _ ?_
  refine congr_proper (hat_mToM J size om hl hs p lev α x M) ?_
  exact rotateZ_proper _ _ (rotateY_proper _ (shM_proper _ (jtab_conj J p _) _ (w_conj om) _ _ _ (pre_proper _ _ _ (hat_proper _ _ hM))) _ _ _ (dmatMinus_is x))

end
end Dashmm.Helm
