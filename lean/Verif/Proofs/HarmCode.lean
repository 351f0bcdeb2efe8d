import Verif.Proofs.HarmErr
import Mathlib.Algebra.Module.LinearMap.Defs
import Mathlib.Algebra.Module.Pi
import Mathlib.Analysis.Complex.Basic
import Mathlib.Analysis.SpecialFunctions.Trigonometric.Bounds
import Mathlib.Tactic.IntervalCases

/-!
The operators of the code on the coefficients of points.
-/

namespace Dashmm.Harm

open Lap
open Complex (I)

noncomputable section

/-! ### Linearity -/

theorem ext_add (L L' : Coef) (n : ℕ) (m : ℤ) : ext (L + L') n m = ext L n m + ext L' n m := by
  unfold ext
  split_ifs
  · simp only [Pi.add_apply]; ring
  · simp only [Pi.add_apply, map_add]

theorem ext_smul (a : ℝ) (L : Coef) (n : ℕ) (m : ℤ) : ext (a • L) n m = (a : ℂ) * ext L n m := by
  unfold ext
  split_ifs
  · simp only [Pi.smul_apply, Complex.real_smul]; ring
  · simp only [Pi.smul_apply, Complex.real_smul, map_mul, Complex.conj_ofReal]

theorem form_add (L L' : Coef) (v : Point ℝ) (n : ℕ) : form (L + L') v n = form L v n + form L' v n := by
  unfold form; rw [← Finset.sum_add_distrib]
  exact Finset.sum_congr rfl fun m _ => by rw [ext_add]; ring

theorem form_smul (a : ℝ) (L : Coef) (v : Point ℝ) (n : ℕ) : form (a • L) v n = (a : ℂ) * form L v n := by
  unfold form; rw [Finset.mul_sum]
  exact Finset.sum_congr rfl fun m _ => by rw [ext_smul]; ring

theorem rotateZ_lin (α : ℝ) : IsLinearMap ℝ fun M : Coef => rotateZ M α where
  map_add M M' := by funext n m; simp only [rotateZ, Pi.add_apply]; ring
  map_smul a M := by funext n m; simp only [rotateZ, Pi.smul_apply, Complex.real_smul]; ring

theorem rotateY_lin (d : DMat) : IsLinearMap ℝ fun M : Coef => rotateY M d where
  map_add M M' := by
    funext n m
    simp only [Pi.add_apply, rotateY_eq]
    rw [← mul_add, ← Finset.sum_add_distrib]
    congr 1
    exact Finset.sum_congr rfl fun m _ => by rw [ext_add]; ring
  map_smul a M := by
    funext n m
    simp only [Pi.smul_apply, Complex.real_smul, rotateY_eq]
    rw [Finset.mul_sum, Finset.mul_sum, Finset.mul_sum]
    exact Finset.sum_congr rfl fun m _ => by rw [ext_smul]; ring

theorem shiftM_lin (ρ : ℝ) : IsLinearMap ℝ (shiftM ρ) where
  map_add M M' := by
    funext n m; simp only [shiftM, Pi.add_apply, add_mul, Finset.sum_add_distrib]; ring
  map_smul a M := by
    funext n m; simp only [shiftM, Pi.smul_apply, Complex.real_smul, mul_add, Finset.mul_sum, mul_assoc]

theorem shiftL_lin (p : ℕ) (ρ : ℝ) : IsLinearMap ℝ (shiftL p ρ) where
  map_add M M' := by
    funext n m; simp only [shiftL, Pi.add_apply, add_mul, Finset.sum_add_distrib]; ring
  map_smul a M := by
    funext n m; simp only [shiftL, Pi.smul_apply, Complex.real_smul, mul_add, Finset.mul_sum, mul_assoc]

theorem mToLg_lin (p : ℕ) (scale : ℝ) (sg : ℕ → ℕ → ℕ → ℝ) (rho : ℕ → ℝ) :
    IsLinearMap ℝ fun M => mToLg p scale M sg rho where
  map_add M M' := by
    funext n m; simp only [mToLg, Pi.add_apply, add_mul, Finset.sum_add_distrib]
  map_smul a M := by
    funext n m; simp only [mToLg, Pi.smul_apply, Complex.real_smul, Finset.mul_sum, Finset.sum_mul, mul_assoc]

theorem half_lin : IsLinearMap ℝ fun (M : Coef) (n m : ℕ) => M n m * (1 / 2) ^ n where
  map_add M M' := by funext n m; simp only [Pi.add_apply]; ring
  map_smul a M := by funext n m; simp only [Pi.smul_apply, Complex.real_smul]; ring

theorem lin_comp {f g : Coef → Coef} (hf : IsLinearMap ℝ f) (hg : IsLinearMap ℝ g) : IsLinearMap ℝ fun M => f (g M) where
  map_add M M' := by rw [hg.map_add, hf.map_add]
  map_smul a M := by rw [hg.map_smul, hf.map_smul]

theorem mToM_lin (c : ℕ) : IsLinearMap ℝ (mToM c) := by
  unfold mToM
  exact lin_comp half_lin (lin_comp (rotateZ_lin _) (lin_comp (rotateY_lin _) (lin_comp (shiftM_lin _)
    (lin_comp (rotateY_lin _) (rotateZ_lin _)))))

theorem lToL_lin (p c : ℕ) : IsLinearMap ℝ (lToL p c) := by
  unfold lToL
  exact lin_comp half_lin (lin_comp (rotateZ_lin _) (lin_comp (rotateY_lin _) (lin_comp (shiftL_lin _ _)
    (lin_comp (rotateY_lin _) (rotateZ_lin _)))))

/-- The signs of the two translations. -/
def sgp : ℕ → ℕ → ℕ → ℝ := fun n _ k => powM1 (n + k)
def sgm : ℕ → ℕ → ℕ → ℝ := fun _ j k => powM1 (k + j)

theorem mToLzp_eq (p : ℕ) (scale : ℝ) (M : Coef) (rho : ℕ → ℝ) : mToLzp p scale M rho = mToLg p scale M sgp rho := rfl
theorem mToLzm_eq (p : ℕ) (scale : ℝ) (M : Coef) (rho : ℕ → ℝ) : mToLzm p scale M rho = mToLg p scale M sgm rho := rfl

theorem mToL_lin (p : ℕ) (scale : ℝ) (x y z : ℤ) : IsLinearMap ℝ (mToL p scale x y z) := by
  unfold mToL
  simp only [mToLzp_eq, mToLzm_eq]
  by_cases h : √((x * x + y * y : ℤ) : ℝ) < 10⁻¹ ^ 14
  · by_cases hz : z > 0
    · simp only [h, hz, if_true]; exact mToLg_lin _ _ _ _
    · simp only [h, hz, if_true, if_false]; exact mToLg_lin _ _ _ _
  · simp only [h, if_false]
    exact lin_comp (rotateZ_lin _) (lin_comp (rotateY_lin _) (lin_comp (mToLg_lin _ _ _ _)
      (lin_comp (rotateY_lin _) (rotateZ_lin _))))

/-! ### Matrices -/

theorem dmatPlus_is (x : ℝ) : IsWig (dmatPlus x) (Real.cos (Real.arccos x / 2)) (Real.sin (Real.arccos x / 2)) :=
  fun n mp m hp hm => dplus_eq _ n mp m hp hm

theorem dmatMinus_is (x : ℝ) : IsWig (dmatMinus x) (Real.cos (Real.arccos x / 2)) (-Real.sin (Real.arccos x / 2)) :=
  fun n mp m hp hm => dminus_eq _ n mp m hp hm

theorem cs_one (θ : ℝ) : Real.cos θ ^ 2 + Real.sin θ ^ 2 = 1 := Real.cos_sq_add_sin_sq θ

theorem rotateZ_congr (L L' : Coef) (α : ℝ) (n m : ℕ) (h : L n m = L' n m) : rotateZ L α n m = rotateZ L' α n m := by
  rw [rotateZ, rotateZ, h]

theorem shiftM_congr (ρ : ℝ) (L L' : Coef) (h : ∀ n m, m ≤ n → L n m = L' n m) (n m : ℕ) (hm : m ≤ n) :
    shiftM ρ L n m = shiftM ρ L' n m := by
  rw [shiftM, shiftM, h n m hm]
  congr 1
  refine Finset.sum_congr rfl fun k hk => ?_
  simp only [Finset.mem_Icc] at hk
  rw [h (n - k) m (by omega)]

/-! ### The directions of the children -/

/-- The centre of child `c` from that of its parent, in child boxes. -/
def off (c : ℕ) : Point ℝ :=
  ⟨if c &&& 1 ≠ 0 then 1 / 2 else -(1 / 2), if c &&& 2 ≠ 0 then 1 / 2 else -(1 / 2), if c &&& 4 ≠ 0 then 1 / 2 else -(1 / 2)⟩

theorem rot_shift (α c s ρ : ℝ) (h1 : c ^ 2 + s ^ 2 = 1) (u : Point ℝ) :
    rotZ (-α) (rotY c (-s) (addz ρ (rot α c s u))) =
      padd u ⟨ρ * (2 * s * c) * Real.cos α, ρ * (2 * s * c) * Real.sin α, ρ * (c ^ 2 - s ^ 2)⟩ := by
  have e1 : rotY c (-s) (addz ρ (rot α c s u)) = padd (rotZ α u) ⟨ρ * (2 * s * c), 0, ρ * (c ^ 2 - s ^ 2)⟩ := by
    have e := rotY_rotY c s h1 (rotZ α u)
    rw [← rot] at e
    have h2 := congrArg Point.x e
    have h3 := congrArg Point.y e
    have h4 := congrArg Point.z e
    simp only [rotY, addz, padd, Point.mk.injEq] at *
    refine ⟨?_, ?_, ?_⟩
    · linear_combination h2
    · linear_combination h3
    · linear_combination h4
  rw [e1]
  have e := rotZ_rotZ α u
  have h2 := congrArg Point.x e
  have h3 := congrArg Point.y e
  simp only [rotZ, padd, Real.cos_neg, Real.sin_neg, Point.mk.injEq] at *
  refine ⟨?_, ?_, trivial⟩
  · linear_combination h2
  · linear_combination h3

theorem child_dir (c : ℕ) (hc : c < 8) :
    let θ := Real.arccos (childCos c)
    let α := tabAlpha c * (Real.pi / 4)
    (⟨-√3 / 2 * (2 * Real.sin (θ / 2) * Real.cos (θ / 2)) * Real.cos α,
      -√3 / 2 * (2 * Real.sin (θ / 2) * Real.cos (θ / 2)) * Real.sin α,
      -√3 / 2 * (Real.cos (θ / 2) ^ 2 - Real.sin (θ / 2) ^ 2)⟩ : Point ℝ) = off c := by
  intro θ α
  have r3 : √3 * √3 = (3 : ℝ) := Real.mul_self_sqrt (by norm_num)
  have r3p : 0 < √(3 : ℝ) := by positivity
  have r2 : √2 * √2 = (2 : ℝ) := Real.mul_self_sqrt (by norm_num)
  have r2p : 0 < √(2 : ℝ) := by positivity
  have hb : |childCos c| ≤ 1 := by
    have : 1 ≤ √(3 : ℝ) := by nlinarith
    unfold childCos
    split_ifs
    · rw [abs_of_pos (by positivity), div_le_one r3p]; exact this
    · rw [neg_div, abs_neg, abs_of_pos (by positivity), div_le_one r3p]; exact this
  rw [abs_le] at hb
  have hcos : Real.cos (θ / 2) ^ 2 - Real.sin (θ / 2) ^ 2 = childCos c := by
    rw [← Real.cos_two_mul', show 2 * (θ / 2) = θ by ring]; exact Real.cos_arccos hb.1 hb.2
  have hsin : 2 * Real.sin (θ / 2) * Real.cos (θ / 2) = √2 / √3 := by
    rw [← Real.sin_two_mul, show 2 * (θ / 2) = θ by ring, Real.sin_arccos]
    have : 1 - childCos c ^ 2 = (√2 / √3) ^ 2 := by
      have hsq : childCos c ^ 2 = 1 / 3 := by
        unfold childCos
        split_ifs
        · rw [div_pow, sq √3, r3]; norm_num
        · rw [div_pow, sq √3, r3]; norm_num
      rw [hsq, div_pow, sq √2, sq √3, r2, r3]; norm_num
    rw [this, Real.sqrt_sq (by positivity)]
  rw [hcos, hsin]
  have c1 : Real.cos (Real.pi / 4) = √2 / 2 := Real.cos_pi_div_four
  have s1 : Real.sin (Real.pi / 4) = √2 / 2 := Real.sin_pi_div_four
  have c3 : Real.cos (3 * (Real.pi / 4)) = -(√2 / 2) := by
    rw [show 3 * (Real.pi / 4) = Real.pi - Real.pi / 4 by ring, Real.cos_pi_sub, c1]
  have s3 : Real.sin (3 * (Real.pi / 4)) = √2 / 2 := by
    rw [show 3 * (Real.pi / 4) = Real.pi - Real.pi / 4 by ring, Real.sin_pi_sub, s1]
  have c5 : Real.cos (5 * (Real.pi / 4)) = -(√2 / 2) := by
    rw [show 5 * (Real.pi / 4) = Real.pi / 4 + Real.pi by ring, Real.cos_add_pi, c1]
  have s5 : Real.sin (5 * (Real.pi / 4)) = -(√2 / 2) := by
    rw [show 5 * (Real.pi / 4) = Real.pi / 4 + Real.pi by ring, Real.sin_add_pi, s1]
  have c7 : Real.cos (7 * (Real.pi / 4)) = √2 / 2 := by
    rw [show 7 * (Real.pi / 4) = 2 * Real.pi - Real.pi / 4 by ring, Real.cos_two_pi_sub, c1]
  have s7 : Real.sin (7 * (Real.pi / 4)) = -(√2 / 2) := by
    rw [show 7 * (Real.pi / 4) = 2 * Real.pi - Real.pi / 4 by ring, Real.sin_two_pi_sub, s1]
  have e1 : -√3 / 2 * (√2 / √3) * (√2 / 2) = -(1 / 2 : ℝ) := by
    field_simp; nlinarith
  have e2 : -√3 / 2 * (√2 / √3) * -(√2 / 2) = (1 / 2 : ℝ) := by
    field_simp; nlinarith
  have e3 : -√3 / 2 * (1 / √3) = -(1 / 2 : ℝ) := by field_simp
  have e4 : -√3 / 2 * (-1 / √3) = (1 / 2 : ℝ) := by field_simp
  have hα : α = (tabAlpha c : ℕ) * (Real.pi / 4) := rfl
  rw [hα]
  interval_cases c <;>
    simp only [tabAlpha, childCos, off, List.getD_cons_zero, List.getD_cons_succ, Nat.cast_one, one_mul, Nat.cast_ofNat,
      c1, s1, c3, s3, c5, s5, c7, s7, e1, e2, Nat.reduceLT, Nat.reduceAnd, if_true, if_false, e3, e4, ne_eq, not_true, reduceCtorEq,
      not_false_iff, OfNat.ofNat_ne_zero, one_ne_zero]

/-- `M_to_M` is exact. -/
theorem mToM_reg (c : ℕ) (hc : c < 8) (u : Point ℝ) (n m : ℕ) (hm : m ≤ n) :
    mToM c (reg u) n m = reg (psmul (1 / 2) (padd u (off c))) n m := by
  rw [reg_psmul, mToM]
  simp only
  set θ := Real.arccos (childCos c) with hθ
  set α := (tabAlpha c : ℝ) * (Real.pi / 4) with hα
  set cc := Real.cos (θ / 2)
  set ss := Real.sin (θ / 2)
  have h1 : cc ^ 2 + ss ^ 2 = 1 := cs_one _
  have h1' : cc ^ 2 + (-ss) ^ 2 = 1 := by rw [neg_sq]; exact h1
  have e1 : ∀ n m, m ≤ n → rotateY (rotateZ (reg u) α) (dmatPlus (childCos c)) n m = reg (rot α cc ss u) n m := by
    intro n m hm
    rw [rotateZ_reg]; exact rotateY_reg _ _ cc ss (dmatPlus_is _) h1 n m hm
  have e2 : ∀ n m, m ≤ n → shiftM (-√3 / 2) (rotateY (rotateZ (reg u) α) (dmatPlus (childCos c))) n m =
      reg (addz (-√3 / 2) (rot α cc ss u)) n m := by
    intro n m hm
    rw [shiftM_congr _ _ _ e1 n m hm]; exact shiftM_reg _ _ n m hm
  have e3 : ∀ m, m ≤ n → rotateY (shiftM (-√3 / 2) (rotateY (rotateZ (reg u) α) (dmatPlus (childCos c)))) (dmatMinus (childCos c)) n m =
      reg (rotY cc (-ss) (addz (-√3 / 2) (rot α cc ss u))) n m := by
    intro m hm
    rw [rotateY_congr _ _ _ n (fun m hm => e2 n m hm)]
    exact rotateY_reg _ _ cc (-ss) (dmatMinus_is _) h1' n m hm
  rw [rotateZ_congr _ _ _ _ _ (e3 m hm), rotateZ_reg, rot_shift α cc ss _ h1]
  have hd := child_dir c hc
  simp only at hd
  rw [hd]; push_cast; ring

theorem lToL_proper (p c : ℕ) (L : Coef) (hL : Proper L) : Proper (lToL p c L) := by
  intro n
  have hp : Proper (shiftL p (-√3 / 4) (rotateY (rotateZ L (tabAlpha c * (Real.pi / 4))) (dmatPlus (childCos c)))) := by
    have h1 := rotateY_proper _ (rotateZ_proper (tabAlpha c * (Real.pi / 4)) L hL) _ _ _ (dmatPlus_is (childCos c))
    intro n
    rw [shiftL, Complex.add_im, h1 n, zero_add, Complex.im_sum]
    refine Finset.sum_eq_zero fun k _ => ?_
    rw [Complex.mul_im, h1 (n + k), Complex.ofReal_im]; simp
  have h2 := rotateZ_proper (-(tabAlpha c * (Real.pi / 4))) _ (rotateY_proper _ hp _ _ _ (dmatMinus_is (childCos c)))
  have h3 := h2 n
  rw [lToL]
  simp only
  have : ((1 / 2 : ℂ)) ^ n = (((1 / 2 : ℝ) ^ n : ℝ) : ℂ) := by push_cast; rfl
  rw [this, Complex.mul_im, h3, Complex.ofReal_im]; simp

theorem form_half (L : Coef) (v : Point ℝ) (n : ℕ) :
    form (fun n m => L n m * (1 / 2) ^ n) v n = form L (psmul (1 / 2) v) n := by
  rw [form_psmul, form, form, Finset.mul_sum]
  refine Finset.sum_congr rfl fun m _ => ?_
  have : ext (fun n m => L n m * (1 / 2) ^ n) n m = ((1 / 2 : ℝ) : ℂ) ^ n * ext L n m := by
    unfold ext
    split_ifs
    · push_cast; ring
    · rw [map_mul, map_pow, show (1 / 2 : ℂ) = ((1 / 2 : ℝ) : ℂ) by push_cast; rfl, Complex.conj_ofReal]; ring
  rw [this]; ring

/-- `L_to_L` is exact. -/
theorem form_lToL (p c : ℕ) (hc : c < 8) (L : Coef) (hL : Proper L) (v : Point ℝ) :
    ∑ n ∈ Finset.range (p + 1), form (lToL p c L) v n =
      ∑ n ∈ Finset.range (p + 1), form L (psmul (1 / 2) (padd v (off c))) n := by
  set θ := Real.arccos (childCos c) with hθ
  set α := (tabAlpha c : ℝ) * (Real.pi / 4) with hα
  set cc := Real.cos (θ / 2) with hcc
  set ss := Real.sin (θ / 2) with hss
  have h1 : cc ^ 2 + ss ^ 2 = 1 := cs_one _
  have h1' : cc ^ 2 + (-ss) ^ 2 = 1 := by rw [neg_sq]; exact h1
  have pZ := rotateZ_proper α L hL
  have pY := rotateY_proper _ pZ _ _ _ (dmatPlus_is (childCos c))
  have pS : Proper (shiftL p (-√3 / 4) (rotateY (rotateZ L α) (dmatPlus (childCos c)))) := by
    intro n
    rw [shiftL, Complex.add_im, pY n, zero_add, Complex.im_sum]
    refine Finset.sum_eq_zero fun k _ => ?_
    rw [Complex.mul_im, pY (n + k), Complex.ofReal_im]; simp
  have e1 : ∀ n, form (lToL p c L) v n =
      form (shiftL p (-√3 / 4) (rotateY (rotateZ L α) (dmatPlus (childCos c)))) (rot α cc ss (psmul (1 / 2) v)) n := by
    intro n
    rw [lToL]
    rw [form_half, form_rotateZ, neg_neg, form_rotateY _ pS _ _ _ (dmatMinus_is (childCos c)) h1', neg_neg]
    rfl
  have e2 : ∀ w n, form (rotateY (rotateZ L α) (dmatPlus (childCos c))) w n = form L (rotZ (-α) (rotY cc (-ss) w)) n := by
    intro w n
    rw [form_rotateY _ pZ _ _ _ (dmatPlus_is (childCos c)) h1, form_rotateZ]
  simp only [e1]
  rw [form_shiftL]
  simp only [e2]
  refine Finset.sum_congr rfl fun n _ => ?_
  rw [rot_shift α cc ss _ h1]
  have hd := child_dir c hc
  simp only at hd
  congr 1
  have hx := congrArg Point.x hd
  have hy := congrArg Point.y hd
  have hz := congrArg Point.z hd
  simp only [padd, psmul, Point.mk.injEq] at *
  refine ⟨?_, ?_, ?_⟩
  · linear_combination 1 / 2 * hx
  · linear_combination 1 / 2 * hy
  · linear_combination 1 / 2 * hz

end
end Dashmm.Harm
