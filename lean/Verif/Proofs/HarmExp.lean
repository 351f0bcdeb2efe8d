import Verif.Proofs.HarmM2L
import Mathlib.Algebra.BigOperators.Group.List.Basic

/-!
The expansions of sources, and their values at targets.
-/

namespace Dashmm.Harm

open Lap
open Complex (I)

noncomputable section

/-! ### Spherical coordinates -/

/-- The azimuth of a point as the code computes it. -/
def azi (v : Point ℝ) : ℂ :=
  if proj v / v.norm ≤ 10⁻¹ ^ 14 then 1 else (v.x / proj v : ℝ) + (v.y / proj v : ℝ) * I

/-- The point with the spherical coordinates the code computes for `v`. -/
def snap (v : Point ℝ) : Point ℝ := psmul v.norm (dirOf (ctheta v) (azi v))

theorem ephi_eq (v : Point ℝ) (h : v.norm ≠ 0) : ephi v = some (azi v) := by
  unfold ephi azi
  rw [if_neg h]; split_ifs <;> rfl

theorem ephiNeg_eq (v : Point ℝ) (h : v.norm ≠ 0) : ephiNeg v = some (starRingEnd ℂ (azi v)) := by
  unfold ephiNeg azi
  rw [if_neg h]
  split_ifs
  · simp
  · congr 1
    rw [map_add, map_mul, Complex.conj_ofReal, Complex.conj_ofReal, Complex.conj_I]
    push_cast; ring

theorem proj_sq (v : Point ℝ) : proj v ^ 2 = v.x ^ 2 + v.y ^ 2 := by
  rw [proj, Real.sq_sqrt (by nlinarith [sq_nonneg v.x, sq_nonneg v.y])]; ring

theorem proj_nonneg (v : Point ℝ) : 0 ≤ proj v := Real.sqrt_nonneg _

theorem azi_unit (v : Point ℝ) : (azi v).re ^ 2 + (azi v).im ^ 2 = 1 := by
  unfold azi
  split_ifs with h
  · simp
  · have hp : proj v ≠ 0 := by
      rintro h0; rw [h0, zero_div] at h; exact h (by positivity)
    have h2 := proj_sq v
    simp only [Complex.add_re, Complex.add_im, Complex.ofReal_re, Complex.ofReal_im, Complex.mul_re, Complex.mul_im,
      Complex.I_re, Complex.I_im]
    field_simp
    linarith

theorem ctheta_sq (v : Point ℝ) : ctheta v * ctheta v ≤ 1 := by
  unfold ctheta
  split_ifs with h
  · norm_num
  · have h0 : 0 < v.norm := lt_of_lt_of_le (by positivity) (not_le.1 h).le
    have h1 := norm_sq_eq v
    rw [div_mul_div_comm, div_le_one (by positivity)]
    nlinarith [sq_nonneg v.x, sq_nonneg v.y]

theorem snap_norm (v : Point ℝ) : (snap v).norm = v.norm := by
  rw [snap, psmul_norm _ (norm_nonneg' v), dirOf_norm _ _ (ctheta_sq v) (azi_unit v), mul_one]

/-- Points whose spherical coordinates the code computes without rounding them to a pole: farther than `1e-14`
from the centre, and not closer than `1e-14` (as an angle) to the vertical through the centre unless on it. -/
def Clear (v : Point ℝ) : Prop :=
  10⁻¹ ^ 14 < v.norm ∧ (proj v = 0 ∨ 10⁻¹ ^ 14 < proj v / v.norm)

theorem Clear.ne {v : Point ℝ} (h : Clear v) : v.norm ≠ 0 := (lt_trans (by positivity) h.1).ne'

theorem snap_of_clear (v : Point ℝ) (h : Clear v) : snap v = v := by
  obtain ⟨h1, h2⟩ := h
  have h0 : 0 < v.norm := lt_trans (by positivity) h1
  have hn := norm_sq_eq v
  have hp := proj_sq v
  have hp0 := proj_nonneg v
  have ect : ctheta v = v.z / v.norm := by unfold ctheta; rw [if_neg (not_le.2 h1)]
  have es : √(1 - ctheta v * ctheta v) = proj v / v.norm := by
    rw [ect, show 1 - v.z / v.norm * (v.z / v.norm) = (proj v / v.norm) ^ 2 by
      rw [div_pow]; field_simp; linarith, Real.sqrt_sq (by positivity)]
  unfold snap
  rcases v with ⟨x, y, z⟩
  simp only [psmul, dirOf, es, Point.mk.injEq]
  rcases h2 with h2 | h2
  · have hx : x = 0 := by rw [h2] at hp; simp only at hp; nlinarith [sq_nonneg x, sq_nonneg y]
    have hy : y = 0 := by rw [h2] at hp; simp only at hp; nlinarith [sq_nonneg x, sq_nonneg y]
    rw [h2, zero_div, zero_mul, zero_mul, mul_zero, ect]
    refine ⟨hx.symm, hy.symm, ?_⟩
    simp only; field_simp
  · have hpp : proj ⟨x, y, z⟩ ≠ 0 := by
      rintro h3; rw [h3, zero_div] at h2; exact absurd h2 (not_lt.2 (by positivity))
    have ea : azi ⟨x, y, z⟩ = (x / proj ⟨x, y, z⟩ : ℝ) + (y / proj ⟨x, y, z⟩ : ℝ) * I := by
      unfold azi; rw [if_neg (not_le.2 h2)]
    rw [ea, ect]
    simp only [Complex.add_re, Complex.add_im, Complex.ofReal_re, Complex.ofReal_im, Complex.mul_re, Complex.mul_im,
      Complex.I_re, Complex.I_im]
    refine ⟨?_, ?_, ?_⟩ <;> field_simp <;> ring

/-! ### Sources -/

theorem sToM1_eq (v : Point ℝ) (q s : ℝ) (h : v.norm ≠ 0) :
    ∃ C, sToM1 v q s = some C ∧ ∀ n m, m ≤ n → C n m = q * reg (psmul s (snap v)) n m := by
  rw [sToM1, ephiNeg_eq v h]
  refine ⟨_, rfl, fun n m hm => ?_⟩
  simp only
  rw [mul_assoc, legendre_reg _ _ (ctheta_sq v) (azi_unit v) n m hm, snap, reg_psmul, reg_psmul]
  push_cast; ring

theorem sToL1_eq (v : Point ℝ) (q s : ℝ) (h : v.norm ≠ 0) :
    ∃ C, sToL1 v q s = some C ∧ ∀ n m, m ≤ n → C n m =
      ((q * (1 / v.norm / (v.norm * s) ^ n) / v.norm ^ n : ℝ) : ℂ) * reg (snap v) n m := by
  rw [sToL1, ephiNeg_eq v h]
  refine ⟨_, rfl, fun n m hm => ?_⟩
  simp only
  rw [mul_assoc, legendre_reg _ _ (ctheta_sq v) (azi_unit v) n m hm, snap, reg_psmul, ← mul_assoc]
  congr 1
  have hc : (v.norm : ℂ) ≠ 0 := by exact_mod_cast h
  push_cast; field_simp

/-! ### Targets -/

/-- The value of a local expansion at the point `v` from its centre. -/
def locVal (p : ℕ) (s : ℝ) (L : Coef) (v : Point ℝ) : ℝ := ∑ n ∈ Finset.range (p + 1), (form L (psmul s v) n).re

/-- The value of a multipole expansion at the point `v` from its centre. -/
def mulVal (p : ℕ) (s : ℝ) (M : Coef) (v : Point ℝ) : ℝ :=
  ∑ n ∈ Finset.range (p + 1), (form M v n).re / (s ^ n * v.norm ^ (2 * n + 1))

theorem lToT1_eq (p : ℕ) (v : Point ℝ) (s : ℝ) (L : Coef) (h : v.norm ≠ 0) : lToT1 p v s L = some (locVal p s L (snap v)) := by
  rw [lToT1, ephi_eq v h, Option.map_some, evalAt_form _ _ _ _ (ctheta_sq v) (azi_unit v)]
  congr 1
  refine Finset.sum_congr rfl fun n _ => ?_
  rw [form_psmul, snap, form_psmul, ← mul_assoc, ← mul_pow, ← Complex.ofReal_mul, ← Complex.ofReal_pow, Complex.re_ofReal_mul]
  ring

theorem mToT1_eq (p : ℕ) (v : Point ℝ) (s : ℝ) (M : Coef) (h : v.norm ≠ 0) : mToT1 p v s M = some (mulVal p s M (snap v)) := by
  rw [mToT1, ephi_eq v h, Option.map_some, evalAt_form _ _ _ _ (ctheta_sq v) (azi_unit v)]
  congr 1
  refine Finset.sum_congr rfl fun n _ => ?_
  rw [snap_norm, snap, form_psmul, ← Complex.ofReal_pow, Complex.re_ofReal_mul, mul_pow, pow_succ, two_mul n, pow_add]
  have : v.norm ^ n ≠ 0 := pow_ne_zero _ h
  rcases eq_or_ne (s ^ n) 0 with h0 | h0
  · rw [h0]; simp
  · field_simp

/-! ### Errors -/

theorem re_err (z : ℂ) (x e : ℝ) (h : ‖z - x‖ ≤ e) : |z.re - x| ≤ e := by
  refine le_trans ?_ h
  have := Complex.abs_re_le_norm (z - x)
  simpa using this

theorem psub_psmul (s : ℝ) (u v : Point ℝ) : (psmul s u).sub (psmul s v) = psmul s (u.sub v) := by
  simp only [psmul, Point.sub, Point.mk.injEq]; refine ⟨?_, ?_, ?_⟩ <;> ring

/-- The multipole expansion of a unit charge at `u`, evaluated at `t`. -/
theorem mulVal_error (p : ℕ) (s : ℝ) (hs : 0 < s) (u t : Point ℝ) (h : u.norm < t.norm) :
    |mulVal p s (reg (psmul s u)) t - 1 / (t.sub u).norm| ≤ (u.norm / t.norm) ^ (p + 1) / (t.norm - u.norm) := by
  have he := form_error u t h p
  have e := re_err _ _ _ he
  rw [Complex.re_sum] at e
  have : mulVal p s (reg (psmul s u)) t =
      ∑ n ∈ Finset.range (p + 1), (form (reg u) t n / (t.norm : ℂ) ^ (2 * n + 1)).re := by
    refine Finset.sum_congr rfl fun n _ => ?_
    have ef : form (reg (psmul s u)) t n = ((s ^ n : ℝ) : ℂ) * form (reg u) t n := by
      unfold form; rw [Finset.mul_sum]
      refine Finset.sum_congr rfl fun m _ => ?_
      rw [ext_reg, ext_reg, nrm_psmul]; push_cast; ring
    rw [ef, Complex.re_ofReal_mul, ← Complex.ofReal_pow, Complex.div_ofReal_re]
    have : s ^ n ≠ 0 := pow_ne_zero _ hs.ne'
    rw [mul_div_mul_left _ _ this]
  rw [this]; exact e

/-- The pairing is symmetric up to conjugation. -/
theorem form_swap (u v : Point ℝ) (n : ℕ) : form (reg u) v n = starRingEnd ℂ (form (reg v) u n) := by
  unfold form
  rw [map_sum]
  refine Finset.sum_congr rfl fun m _ => ?_
  rw [ext_reg, ext_reg, map_mul, Complex.conj_conj, mul_comm]

/-- A local expansion of a unit charge at `u`, evaluated at `t`. -/
theorem locVal_error (p : ℕ) (s : ℝ) (hs : 0 < s) (u t : Point ℝ) (h : t.norm < u.norm) (C : Coef)
    (hC : ∀ n m, m ≤ n → C n m = ((1 / u.norm / (u.norm * s) ^ n / u.norm ^ n : ℝ) : ℂ) * reg u n m) :
    |locVal p s C t - 1 / (t.sub u).norm| ≤ (t.norm / u.norm) ^ (p + 1) / (u.norm - t.norm) := by
  have h0 := norm_nonneg' t
  have hu : 0 < u.norm := lt_of_le_of_lt h0 h
  have he := form_error t u h p
  have e := re_err _ _ _ he
  rw [Complex.re_sum, norm_sub_comm' u t] at e
  have : locVal p s C t = ∑ n ∈ Finset.range (p + 1), (form (reg t) u n / (u.norm : ℂ) ^ (2 * n + 1)).re := by
    refine Finset.sum_congr rfl fun n _ => ?_
    set a : ℝ := 1 / u.norm / (u.norm * s) ^ n / u.norm ^ n with ha
    have ef : form C (psmul s t) n = ((s ^ n * a : ℝ) : ℂ) * form (reg u) t n := by
      rw [form_psmul, form_congr C (a • reg u) t n (fun m hm => by
        rw [hC n m hm, ← ha]; simp only [Pi.smul_apply, Complex.real_smul]), form_smul]
      push_cast; ring
    rw [ef, Complex.re_ofReal_mul, form_swap, Complex.conj_re, ← Complex.ofReal_pow, Complex.div_ofReal_re, ha]
    have h2 : s ^ n ≠ 0 := pow_ne_zero _ hs.ne'
    rw [mul_pow, pow_succ, two_mul n, pow_add]
    field_simp
  rw [this]; exact e

theorem transErr_scale (a b d s : ℝ) (hs : 0 < s) (p : ℕ) : s * transErr (s * a) (s * b) (s * d) p = transErr a b d p := by
  unfold transErr
  rw [← mul_sub, ← mul_sub, ← mul_sub, mul_div_mul_left _ _ hs.ne', mul_div_mul_left _ _ hs.ne', mul_div_assoc']
  rw [mul_div_mul_left _ _ hs.ne']

/-- The translated expansion of a unit charge at `u` from the centre of its box, evaluated at `v` from the
centre of the target's box, which is `w` away. -/
theorem mToL_val_error (p : ℕ) (s : ℝ) (hs : 0 < s) (x y z : ℤ) (u v w : Point ℝ)
    (hw : psmul s w = ⟨x, y, z⟩) (h : u.norm + v.norm < w.norm) :
    |locVal p s (mToL p s x y z (reg (psmul s u))) v - 1 / ((padd w u).sub v).norm| ≤ transErr u.norm v.norm w.norm p := by
  have hwn : (⟨x, y, z⟩ : Point ℝ).norm = s * w.norm := by rw [← hw, psmul_norm _ hs.le]
  have he := mToL_error p s x y z (psmul s u) (psmul s v) (by
    rw [hwn, psmul_norm _ hs.le, psmul_norm _ hs.le, ← mul_add]; exact mul_lt_mul_of_pos_left h hs)
  have e := re_err _ _ _ he
  rw [Complex.re_sum, hwn, psmul_norm _ hs.le, psmul_norm _ hs.le, abs_of_pos hs, transErr_scale _ _ _ _ hs, ← hw] at e
  have e2 : ((padd (psmul s w) (psmul s u)).sub (psmul s v)).norm = s * ((padd w u).sub v).norm := by
    rw [← psmul_norm _ hs.le]
    congr 1
    simp only [psmul, padd, Point.sub, Point.mk.injEq]; refine ⟨?_, ?_, ?_⟩ <;> ring
  rw [e2] at e
  have e3 : s / (s * ((padd w u).sub v).norm) = 1 / ((padd w u).sub v).norm := by
    rw [← div_div, div_self hs.ne']
  rw [e3] at e
  exact e

theorem locVal_lToL (p c : ℕ) (hc : c < 8) (s : ℝ) (L : Coef) (hL : Proper L) (v : Point ℝ) :
    locVal p s (lToL p c L) v = ∑ n ∈ Finset.range (p + 1), (form L (psmul (1 / 2) (padd (psmul s v) (off c))) n).re := by
  rw [locVal, ← Complex.re_sum, ← Complex.re_sum, form_lToL p c hc L hL]

end
end Dashmm.Harm
