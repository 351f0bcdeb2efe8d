import Verif.Proofs.HarmCode

/-!
`M_to_L` on the coefficients of a point.
-/

namespace Dashmm.Harm

open Lap
open Complex (I)

noncomputable section

theorem mToLg_congr (p : ℕ) (scale : ℝ) (M M' : Coef) (sg : ℕ → ℕ → ℕ → ℝ) (rho : ℕ → ℝ)
    (h : ∀ n m, m ≤ n → M n m = M' n m) : mToLg p scale M sg rho = mToLg p scale M' sg rho := by
  funext j k
  simp only [mToLg]
  congr 1
  refine Finset.sum_congr rfl fun n hn => ?_
  rw [h n k (Finset.mem_Icc.1 hn).1]

theorem sgp_eq (n j k : ℕ) : sgp n j k = (-1) ^ n * powM1 k := by
  rw [sgp, powM1_add, powM1_nat]

theorem sgm_eq (n j k : ℕ) : sgm n j k = (-1) ^ j * powM1 k := by
  rw [sgm, powM1_add, powM1_nat j]; ring

theorem harP_neg (u : Point ℝ) (n : ℕ) (m : ℤ) : harP (psmul (-1) u) n m = (-1) ^ n * harP u n m := by
  have h := har_homog (u.x - u.y * I) (u.x + u.y * I) u.z (-1) n m
  rw [harP, harP, ← h]
  congr 1 <;> simp only [psmul] <;> push_cast <;> ring

theorem bi_neg (u v : Point ℝ) (n j : ℕ) : bi (psmul (-1) u) (psmul (-1) v) n j = (-1) ^ (n + j) * bi u v n j := by
  rw [bi, bi, mul_left_comm]
  congr 1
  rw [Finset.mul_sum]
  refine Finset.sum_congr rfl fun m _ => ?_
  rw [harP_neg, harP_neg, pow_add]; ring

/-- The size of the error of the translation of a unit charge at `u` to `v`, the centres being `d` apart. -/
def transErr (a b d : ℝ) (p : ℕ) : ℝ := ((a / (d - b)) ^ (p + 1) + (b / (d - a)) ^ (p + 1)) / (d - a - b)

theorem zp_error (p : ℕ) (scale d : ℝ) (u v : Point ℝ) (h : u.norm + v.norm < d) :
    ‖(∑ j ∈ Finset.range (p + 1), form (mToLzp p scale (reg u) fun i => 1 / d / d ^ i) v j) -
      ((scale / ((axis d).sub (v.sub u)).norm : ℝ) : ℂ)‖ ≤ |scale| * transErr u.norm v.norm d p := by
  have hb := bi_error u v d h p
  have e : ∑ j ∈ Finset.range (p + 1), form (mToLzp p scale (reg u) fun i => 1 / d / d ^ i) v j =
      (scale : ℂ) * ∑ j ∈ Finset.range (p + 1), ∑ n ∈ Finset.range (p + 1), (-1 : ℂ) ^ n * bi u v n j / (d : ℂ) ^ (n + j + 1) := by
    rw [Finset.mul_sum]
    refine Finset.sum_congr rfl fun j _ => ?_
    rw [mToLzp_eq, form_mToLg p scale u v sgp (fun n _ => (-1) ^ n) sgp_eq]
    congr 1
    refine Finset.sum_congr rfl fun n _ => ?_
    push_cast
    rw [div_div, ← pow_succ', add_comm j n]; ring
  rw [e, show ((scale / ((axis d).sub (v.sub u)).norm : ℝ) : ℂ) = (scale : ℂ) * ((1 / ((axis d).sub (v.sub u)).norm : ℝ) : ℂ) by
    push_cast; ring, ← mul_sub, norm_mul, Complex.norm_real, Real.norm_eq_abs]
  exact mul_le_mul_of_nonneg_left hb (abs_nonneg _)

theorem zm_form (p : ℕ) (scale d : ℝ) (u v : Point ℝ) (j : ℕ) :
    form (mToLzm p scale (reg u) fun i => 1 / d / d ^ i) v j =
      form (mToLzp p scale (reg (psmul (-1) u)) fun i => 1 / d / d ^ i) (psmul (-1) v) j := by
  rw [mToLzp_eq, form_mToLg p scale _ _ sgp (fun n _ => (-1) ^ n) sgp_eq,
    mToLzm_eq, form_mToLg p scale _ _ sgm (fun _ j => (-1) ^ j) sgm_eq]
  congr 1
  refine Finset.sum_congr rfl fun n _ => ?_
  rw [bi_neg, pow_add]
  have := neg_one_pow_mul_self n
  push_cast
  linear_combination (-(-1 : ℂ) ^ j * (1 / d / d ^ (j + n)) * bi u v n j) * this

/-- The rotation of the code takes the direction of the source box to the axis. -/
theorem rot_dir (x y z : ℤ) (hxy : ¬√((x * x + y * y : ℤ) : ℝ) < 10⁻¹ ^ 14) :
    let ρ : ℝ := √((x * x + y * y + z * z : ℤ) : ℝ)
    let pr : ℝ := √((x * x + y * y : ℤ) : ℝ)
    let beta := if y < 0 then 2 * Real.pi - Real.arccos ((x : ℝ) / pr) else Real.arccos ((x : ℝ) / pr)
    let θ := Real.arccos ((z : ℝ) / ρ)
    rot beta (Real.cos (θ / 2)) (Real.sin (θ / 2)) ⟨x, y, z⟩ = axis ρ := by
  intro ρ pr beta θ
  have hpr : 0 < pr := lt_of_lt_of_le (by positivity) (not_lt.1 hxy)
  have hpr2 : pr * pr = (x : ℝ) * x + y * y := by
    rw [Real.mul_self_sqrt (by exact_mod_cast add_nonneg (mul_self_nonneg x) (mul_self_nonneg y))]; push_cast; ring
  have hρ2 : ρ * ρ = (x : ℝ) * x + y * y + z * z := by
    rw [Real.mul_self_sqrt (by exact_mod_cast add_nonneg (add_nonneg (mul_self_nonneg x) (mul_self_nonneg y)) (mul_self_nonneg z))]
    push_cast; ring
  have hρ0 : 0 ≤ ρ := Real.sqrt_nonneg _
  have hρ : 0 < ρ := by nlinarith
  have hx : -1 ≤ (x : ℝ) / pr ∧ (x : ℝ) / pr ≤ 1 := by
    rw [le_div_iff₀ hpr, div_le_iff₀ hpr]; constructor <;> nlinarith
  have hz : -1 ≤ (z : ℝ) / ρ ∧ (z : ℝ) / ρ ≤ 1 := by
    rw [le_div_iff₀ hρ, div_le_iff₀ hρ]; constructor <;> nlinarith
  have hsin1 : Real.sin (Real.arccos ((x : ℝ) / pr)) = |(y : ℝ)| / pr := by
    rw [Real.sin_arccos, show 1 - ((x : ℝ) / pr) ^ 2 = (|(y : ℝ)| / pr) ^ 2 by
      rw [div_pow, div_pow, sq_abs]; field_simp; nlinarith, Real.sqrt_sq (by positivity)]
  have hsin2 : Real.sin θ = pr / ρ := by
    rw [Real.sin_arccos, show 1 - ((z : ℝ) / ρ) ^ 2 = (pr / ρ) ^ 2 by
      rw [div_pow, div_pow]; field_simp; nlinarith, Real.sqrt_sq (by positivity)]
  have hcb : Real.cos beta = x / pr := by
    simp only [beta]
    split_ifs
    · rw [Real.cos_two_pi_sub, Real.cos_arccos hx.1 hx.2]
    · rw [Real.cos_arccos hx.1 hx.2]
  have hsb : Real.sin beta = y / pr := by
    simp only [beta]
    split_ifs with hy
    · rw [Real.sin_two_pi_sub, hsin1, abs_of_neg (by exact_mod_cast hy)]; ring
    · rw [hsin1, abs_of_nonneg (by exact_mod_cast not_lt.1 hy)]
  have hc2 : Real.cos (θ / 2) ^ 2 - Real.sin (θ / 2) ^ 2 = z / ρ := by
    rw [← Real.cos_two_mul', show 2 * (θ / 2) = θ by ring]; exact Real.cos_arccos hz.1 hz.2
  have hs2 : 2 * Real.sin (θ / 2) * Real.cos (θ / 2) = pr / ρ := by
    rw [← Real.sin_two_mul, show 2 * (θ / 2) = θ by ring, hsin2]
  have e1 : (x : ℝ) * (x / pr) + y * (y / pr) = pr := by field_simp; nlinarith
  have e2 : (y : ℝ) * (x / pr) - x * (y / pr) = 0 := by ring
  simp only [rot, rotY, rotZ, axis, hcb, hsb, hc2, hs2, e1, e2, Point.mk.injEq]
  refine ⟨by ring, trivial, ?_⟩
  field_simp; nlinarith

/-- `M_to_L` on a unit charge at `u` (in boxes, from the centre of the source's box), evaluated at `v` (in boxes,
from the centre of the target's box). -/
theorem mToL_error (p : ℕ) (scale : ℝ) (x y z : ℤ) (u v : Point ℝ)
    (h : u.norm + v.norm < (⟨x, y, z⟩ : Point ℝ).norm) :
    ‖(∑ j ∈ Finset.range (p + 1), form (mToL p scale x y z (reg u)) v j) -
      ((scale / ((padd ⟨x, y, z⟩ u).sub v).norm : ℝ) : ℂ)‖ ≤
        |scale| * transErr u.norm v.norm (⟨x, y, z⟩ : Point ℝ).norm p := by
  have hρ : (⟨x, y, z⟩ : Point ℝ).norm = √((x * x + y * y + z * z : ℤ) : ℝ) := by
    rw [Point.norm]; push_cast; rfl
  set ρ : ℝ := √((x * x + y * y + z * z : ℤ) : ℝ) with hρd
  rw [hρ] at h ⊢
  by_cases hxy : √((x * x + y * y : ℤ) : ℝ) < 10⁻¹ ^ 14
  · have h0 : x * x + y * y = 0 := by
      by_contra hne
      have h1 : 1 ≤ x * x + y * y := by
        have := add_nonneg (mul_self_nonneg x) (mul_self_nonneg y); omega
      have h2 : (1 : ℝ) ≤ √((x * x + y * y : ℤ) : ℝ) := by
        rw [Real.one_le_sqrt]; exact_mod_cast h1
      have h3 : (10⁻¹ : ℝ) ^ 14 ≤ 1 := by norm_num
      linarith
    have hx0 : x = 0 := by nlinarith [mul_self_nonneg x, mul_self_nonneg y]
    have hy0 : y = 0 := by nlinarith [mul_self_nonneg x, mul_self_nonneg y]
    subst hx0; subst hy0
    have hρz : ρ = |(z : ℝ)| := by
      rw [hρd]; push_cast
      rw [show (0 : ℝ) + z * z = z ^ 2 by ring, Real.sqrt_sq_eq_abs]
    by_cases hz : z > 0
    · have he := zp_error p scale ρ u v h
      have hab : ρ = z := by rw [hρz, abs_of_pos (by exact_mod_cast hz)]
      have e : mToL p scale 0 0 z (reg u) = mToLzp p scale (reg u) fun i => 1 / ρ / ρ ^ i := by
        simp only [mToL, hxy, hz, if_true]; rfl
      have e2 : ((padd ⟨((0 : ℤ) : ℝ), ((0 : ℤ) : ℝ), z⟩ u).sub v).norm = ((axis ρ).sub (v.sub u)).norm := by
        apply norm_congr_sq; simp only [padd, Point.sub, axis, hab]; push_cast; ring
      rw [e, e2]; exact he
    · have hab : ρ = -z := by rw [hρz, abs_of_nonpos (by exact_mod_cast not_lt.1 hz)]
      have n1 : ∀ w : Point ℝ, (psmul (-1) w).norm = w.norm := fun w => by
        apply norm_congr_sq; simp only [psmul]; ring
      have he := zp_error p scale ρ (psmul (-1) u) (psmul (-1) v) (by rwa [n1, n1])
      rw [n1, n1] at he
      have e : mToL p scale 0 0 z (reg u) = mToLzm p scale (reg u) fun i => 1 / ρ / ρ ^ i := by
        simp only [mToL, hxy, hz, if_true, if_false]; rfl
      have e2 : ((padd ⟨((0 : ℤ) : ℝ), ((0 : ℤ) : ℝ), z⟩ u).sub v).norm =
          ((axis ρ).sub ((psmul (-1) v).sub (psmul (-1) u))).norm := by
        apply norm_congr_sq; simp only [padd, Point.sub, axis, hab, psmul]; push_cast; ring
      rw [e, e2]; simp only [zm_form]; exact he
  · have hr := rot_dir x y z hxy
    simp only at hr
    set pr : ℝ := √((x * x + y * y : ℤ) : ℝ) with hpr
    set beta := if y < 0 then 2 * Real.pi - Real.arccos ((x : ℝ) / pr) else Real.arccos ((x : ℝ) / pr) with hbeta
    set cc := Real.cos (Real.arccos ((z : ℝ) / ρ) / 2) with hcc
    set ss := Real.sin (Real.arccos ((z : ℝ) / ρ) / 2) with hss
    have h1 : cc ^ 2 + ss ^ 2 = 1 := cs_one _
    have h1' : cc ^ 2 + (-ss) ^ 2 = 1 := by rw [neg_sq]; exact h1
    have he := zp_error p scale ρ (rot beta cc ss u) (rot beta cc ss v) (by rwa [rot_norm _ _ _ h1, rot_norm _ _ _ h1])
    rw [rot_norm _ _ _ h1, rot_norm _ _ _ h1] at he
    have e1 : ∀ n m, m ≤ n → rotateY (rotateZ (reg u) beta) (dmatPlus ((z : ℝ) / ρ)) n m = reg (rot beta cc ss u) n m := by
      intro n m hm
      rw [rotateZ_reg]; exact rotateY_reg _ _ cc ss (dmatPlus_is _) h1 n m hm
    have e : mToL p scale x y z (reg u) =
        rotateZ (rotateY (mToLzp p scale (reg (rot beta cc ss u)) fun i => 1 / ρ / ρ ^ i) (dmatMinus ((z : ℝ) / ρ))) (-beta) := by
      have e0 : mToL p scale x y z (reg u) = rotateZ (rotateY (mToLzp p scale (rotateY (rotateZ (reg u) beta) (dmatPlus ((z : ℝ) / ρ)))
          fun i => 1 / ρ / ρ ^ i) (dmatMinus ((z : ℝ) / ρ))) (-beta) := by
        rw [mToL]; exact if_neg hxy
      rw [e0, mToLzp_eq, mToLzp_eq, ← mToLg_congr _ _ _ _ _ _ e1]
    have pL : Proper (mToLzp p scale (reg (rot beta cc ss u)) fun i => 1 / ρ / ρ ^ i) := by
      rw [mToLzp_eq]; exact mToLg_proper _ _ _ (reg_proper _) _ _
    have e2 : ∀ j, form (mToL p scale x y z (reg u)) v j =
        form (mToLzp p scale (reg (rot beta cc ss u)) fun i => 1 / ρ / ρ ^ i) (rot beta cc ss v) j := by
      intro j
      rw [e, form_rotateZ, neg_neg, form_rotateY _ pL _ _ _ (dmatMinus_is _) h1', neg_neg]; rfl
    have e3 : ((padd ⟨x, y, z⟩ u).sub v).norm = ((axis ρ).sub ((rot beta cc ss v).sub (rot beta cc ss u))).norm := by
      rw [← hr, rot_sub, rot_sub, rot_norm _ _ _ h1]
      apply norm_congr_sq; simp only [padd, Point.sub]; ring
    rw [e3]; simp only [e2]; exact he

theorem mToL_proper (p : ℕ) (scale : ℝ) (x y z : ℤ) (M : Coef) (hM : Proper M) : Proper (mToL p scale x y z M) := by
  unfold mToL
  simp only [mToLzp_eq, mToLzm_eq]
  split_ifs
  · exact mToLg_proper _ _ _ hM _ _
  · exact mToLg_proper _ _ _ hM _ _
  · exact rotateZ_proper _ _ (rotateY_proper _ (mToLg_proper _ _ _ (rotateY_proper _ (rotateZ_proper _ _ hM) _ _ _ (dmatPlus_is _)) _ _)
      _ _ _ (dmatMinus_is _))
  · exact rotateZ_proper _ _ (rotateY_proper _ (mToLg_proper _ _ _ (rotateY_proper _ (rotateZ_proper _ _ hM) _ _ _ (dmatPlus_is _)) _ _)
      _ _ _ (dmatMinus_is _))

end
end Dashmm.Harm
