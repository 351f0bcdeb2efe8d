import Verif.Proofs.HarmLap
import Verif.Proofs.HarmGen
import Mathlib.Analysis.SpecialFunctions.Complex.Arg
import Mathlib.Analysis.SpecialFunctions.Trigonometric.Inverse

/-!
The potential of a point as a series of pairings of solid harmonics.
-/

namespace Dashmm.Harm

open Lap
open Complex (I)

noncomputable section

theorem norm_sq_eq (v : Point ℝ) : v.norm ^ 2 = v.x ^ 2 + v.y ^ 2 + v.z ^ 2 := by
  rw [Point.norm, Real.sq_sqrt (by nlinarith [sq_nonneg v.x, sq_nonneg v.y, sq_nonneg v.z])]; ring

theorem norm_nonneg' (v : Point ℝ) : 0 ≤ v.norm := Real.sqrt_nonneg _

theorem norm_eq_of_sq (v : Point ℝ) (r : ℝ) (hr : 0 ≤ r) (h : v.x ^ 2 + v.y ^ 2 + v.z ^ 2 = r ^ 2) : v.norm = r := by
  have := norm_sq_eq v
  rw [h] at this
  exact (sq_eq_sq₀ (norm_nonneg' v) hr).1 this

theorem norm_congr_sq (u v : Point ℝ) (h : u.x ^ 2 + u.y ^ 2 + u.z ^ 2 = v.x ^ 2 + v.y ^ 2 + v.z ^ 2) : u.norm = v.norm :=
  norm_eq_of_sq u _ (norm_nonneg' v) (by rw [norm_sq_eq, h])

/-- A point on the axis. -/
def axis (ρ : ℝ) : Point ℝ := ⟨0, 0, ρ⟩

/-- The complex number of modulus `|v|` and real part `v.z`. -/
def zeta (v : Point ℝ) : ℂ := (v.z : ℂ) + (√(v.x ^ 2 + v.y ^ 2) : ℝ) * I

theorem zeta_norm (v : Point ℝ) : ‖zeta v‖ = v.norm := by
  symm
  apply norm_eq_of_sq _ _ (norm_nonneg _)
  rw [← Complex.normSq_eq_norm_sq, zeta, Complex.normSq_add_mul_I, Real.sq_sqrt (by positivity)]; ring

theorem sub_zeta_norm (v : Point ℝ) (ρ : ℝ) : ‖(ρ : ℂ) - zeta v‖ = ((axis ρ).sub v).norm := by
  symm
  apply norm_eq_of_sq _ _ (norm_nonneg _)
  have : (ρ : ℂ) - zeta v = ((ρ - v.z : ℝ) : ℂ) + ((-√(v.x ^ 2 + v.y ^ 2) : ℝ) : ℂ) * I := by
    rw [zeta]; push_cast; ring
  rw [← Complex.normSq_eq_norm_sq, this, Complex.normSq_add_mul_I, neg_sq, Real.sq_sqrt (by positivity)]
  simp only [axis, Point.sub]; ring

theorem nrm_mid (v : Point ℝ) (n : ℕ) : nrm v n 0 = (n.factorial : ℂ) * harP v n 0 := by
  rw [nrm, sub_zero, add_zero, sf_mul_self]; simp

theorem mid_three (v : Point ℝ) (n : ℕ) : ((n : ℂ) + 2) * nrm v (n + 2) 0 =
    (2 * n + 3) * v.z * nrm v (n + 1) 0 - (n + 1) * ((v.x ^ 2 + v.y ^ 2 + v.z ^ 2 : ℝ) : ℂ) * nrm v n 0 := by
  have h := har_three (v.x - v.y * I) (v.x + v.y * I) v.z n 0
  rw [nrm_mid, nrm_mid, nrm_mid, Nat.factorial_succ (n + 1), Nat.factorial_succ n]
  unfold harP
  push_cast at *
  have h2 := Complex.I_sq
  linear_combination ((n : ℂ) + 1) * n.factorial * h + (n + 1) * n.factorial * v.y ^ 2 *
    har (v.x - v.y * I) (v.x + v.y * I) v.z n 0 * h2

theorem mid_gen (v : Point ℝ) (n : ℕ) : nrm v n 0 = gen (zeta v) (starRingEnd ℂ (zeta v)) n := by
  have hsum : zeta v + starRingEnd ℂ (zeta v) = 2 * v.z := by
    rw [zeta, map_add, map_mul, Complex.conj_ofReal, Complex.conj_ofReal, Complex.conj_I]; ring
  have hmul : zeta v * starRingEnd ℂ (zeta v) = ((v.x ^ 2 + v.y ^ 2 + v.z ^ 2 : ℝ) : ℂ) := by
    rw [Complex.mul_conj, Complex.normSq_eq_norm_sq, zeta_norm, norm_sq_eq]
  induction n using Nat.twoStepInduction with
  | zero => rw [gen_zero, nrm_mid]; simp [harP, har]
  | one =>
    have := gen_one (zeta v) (starRingEnd ℂ (zeta v))
    rw [hsum] at this
    rw [nrm_mid]
    simp [harP, har]
    linear_combination -1 / 2 * this
  | more n h0 h1 =>
    have hg := gen_three (zeta v) (starRingEnd ℂ (zeta v)) n
    have hm := mid_three v n
    rw [hsum, hmul, ← h0, ← h1] at hg
    have hn : (2 * ((n : ℂ) + 2)) ≠ 0 := by
      have : ((n : ℂ) + 2) ≠ 0 := by exact_mod_cast Nat.succ_ne_zero (n + 1)
      exact mul_ne_zero two_ne_zero this
    apply mul_left_cancel₀ hn
    linear_combination 2 * hm - hg

theorem mid_norm_le (v : Point ℝ) (n : ℕ) : ‖nrm v n 0‖ ≤ v.norm ^ n := by
  rw [mid_gen]
  apply gen_norm_le
  · rw [zeta_norm]
  · rw [Complex.norm_conj, zeta_norm]

theorem mid_hasSum (v : Point ℝ) (ρ : ℝ) (h : v.norm < ρ) :
    HasSum (fun l => nrm v l 0 / (ρ : ℂ) ^ (l + 1)) ((1 / ((axis ρ).sub v).norm : ℝ) : ℂ) := by
  simp only [mid_gen]
  rw [← sub_zeta_norm]
  exact gen_hasSum _ _ (by rwa [zeta_norm])

theorem harP_axis (ρ : ℝ) : ∀ (n : ℕ) (m : ℤ), harP (axis ρ) n m = if m = 0 then (ρ : ℂ) ^ n / n.factorial else 0
  | 0, m => by simp [harP, har]
  | n + 1, m => by
    have hn : ((n : ℂ) + 1) ≠ 0 := by exact_mod_cast Nat.succ_ne_zero n
    have ih := harP_axis ρ n m
    unfold harP at *
    rw [har]
    simp only [axis, Complex.ofReal_zero, zero_mul, sub_zero, add_zero, zero_div] at *
    rw [ih]
    split_ifs
    · rw [Nat.factorial_succ, pow_succ]; push_cast; field_simp
    · simp

theorem nrm_axis (ρ : ℝ) (n : ℕ) (m : ℤ) : nrm (axis ρ) n m = if m = 0 then (ρ : ℂ) ^ n else 0 := by
  rw [nrm, harP_axis]
  split_ifs with h
  · subst h
    have hf : (n.factorial : ℂ) ≠ 0 := by exact_mod_cast n.factorial_ne_zero
    rw [sub_zero, add_zero, sf_mul_self]; simp; field_simp
  · simp

theorem form_axis (L : Coef) (ρ : ℝ) (n : ℕ) : form L (axis ρ) n = (ρ : ℂ) ^ n * ext L n 0 := by
  rw [form, Finset.sum_eq_single 0]
  · rw [nrm_axis, if_pos rfl, map_pow, Complex.conj_ofReal]; ring
  · intro m _ hm; rw [nrm_axis, if_neg hm]; simp
  · intro h; simp at h

/-- The matrices in closed form. -/
def wmat (c s : ℝ) : DMat := fun n mp m => wig c s n mp m

theorem wmat_is (c s : ℝ) : IsWig (wmat c s) c s := fun _ _ _ _ _ => rfl

theorem rotZ_rotZ (α : ℝ) (v : Point ℝ) : rotZ (-α) (rotZ α v) = v := by
  have h := Real.sin_sq_add_cos_sq α
  rcases v with ⟨x, y, z⟩
  simp only [rotZ, Real.cos_neg, Real.sin_neg, Point.mk.injEq, and_true]
  constructor
  · linear_combination x * h
  · linear_combination y * h

theorem rotY_rotY (c s : ℝ) (h1 : c ^ 2 + s ^ 2 = 1) (v : Point ℝ) : rotY c (-s) (rotY c s v) = v := by
  rcases v with ⟨x, y, z⟩
  have h2 : (c ^ 2 - s ^ 2) ^ 2 + (2 * s * c) ^ 2 = 1 := by linear_combination (c ^ 2 + s ^ 2 + 1) * h1
  simp only [rotY, Point.mk.injEq, true_and]
  constructor
  · linear_combination x * h2
  · linear_combination z * h2

theorem rotZ_norm (α : ℝ) (v : Point ℝ) : (rotZ α v).norm = v.norm := by
  have h := Real.sin_sq_add_cos_sq α
  apply norm_congr_sq
  simp only [rotZ]
  linear_combination (v.x ^ 2 + v.y ^ 2) * h

theorem rotY_norm (c s : ℝ) (h1 : c ^ 2 + s ^ 2 = 1) (v : Point ℝ) : (rotY c s v).norm = v.norm := by
  have h2 : (c ^ 2 - s ^ 2) ^ 2 + (2 * s * c) ^ 2 = 1 := by linear_combination (c ^ 2 + s ^ 2 + 1) * h1
  apply norm_congr_sq
  simp only [rotY]
  linear_combination (v.x ^ 2 + v.z ^ 2) * h2

theorem rotZ_sub (α : ℝ) (u v : Point ℝ) : (rotZ α u).sub (rotZ α v) = rotZ α (u.sub v) := by
  simp only [rotZ, Point.sub, Point.mk.injEq, and_true]; constructor <;> ring

theorem rotY_sub (c s : ℝ) (u v : Point ℝ) : (rotY c s u).sub (rotY c s v) = rotY c s (u.sub v) := by
  simp only [rotY, Point.sub, Point.mk.injEq, true_and]; constructor <;> ring

/-- A rotation about the z-axis followed by one about the y-axis. -/
def rot (α c s : ℝ) (v : Point ℝ) : Point ℝ := rotY c s (rotZ α v)

theorem rot_norm (α c s : ℝ) (h1 : c ^ 2 + s ^ 2 = 1) (v : Point ℝ) : (rot α c s v).norm = v.norm := by
  rw [rot, rotY_norm c s h1, rotZ_norm]

theorem rot_sub (α c s : ℝ) (u v : Point ℝ) : (rot α c s u).sub (rot α c s v) = rot α c s (u.sub v) := by
  rw [rot, rot, rotY_sub, rotZ_sub, rot]

theorem form_rot (u t : Point ℝ) (α c s : ℝ) (h1 : c ^ 2 + s ^ 2 = 1) (n : ℕ) :
    form (reg u) t n = form (reg (rot α c s u)) (rot α c s t) n := by
  have e1 : form (reg (rot α c s u)) (rot α c s t) n = form (rotateY (reg (rotZ α u)) (wmat c s)) (rot α c s t) n :=
    form_congr _ _ _ _ fun m hm => (rotateY_reg _ _ c s (wmat_is c s) h1 n m hm).symm
  rw [e1, form_rotateY _ (reg_proper _) _ c s (wmat_is c s) h1, rot, rotY_rotY c s h1, ← rotateZ_reg, form_rotateZ,
    rotZ_rotZ]

theorem exists_rot (t : Point ℝ) : ∃ α c s : ℝ, c ^ 2 + s ^ 2 = 1 ∧ rot α c s t = axis t.norm := by
  set ζ : ℂ := ⟨t.x, t.y⟩ with hζ
  set p := ‖ζ‖ with hp
  have hx : p * Real.cos ζ.arg = t.x := Complex.norm_mul_cos_arg ζ
  have hy : p * Real.sin ζ.arg = t.y := Complex.norm_mul_sin_arg ζ
  have hp0 : 0 ≤ p := norm_nonneg _
  have hp2 : p ^ 2 = t.x ^ 2 + t.y ^ 2 := by
    rw [hp, ← Complex.normSq_eq_norm_sq, Complex.normSq_apply]; ring
  have hr2 := norm_sq_eq t
  have hr0 := norm_nonneg' t
  have key : ∃ c s : ℝ, c ^ 2 + s ^ 2 = 1 ∧ t.norm * (c ^ 2 - s ^ 2) = t.z ∧ t.norm * (2 * s * c) = p := by
    rcases eq_or_lt_of_le hr0 with h0 | h0
    · rw [← h0] at hr2
      refine ⟨1, 0, by norm_num, ?_, ?_⟩
      · rw [← h0]; nlinarith [sq_nonneg t.x, sq_nonneg t.y, sq_nonneg t.z]
      · rw [← h0]; nlinarith [sq_nonneg t.x, sq_nonneg t.y, sq_nonneg t.z]
    · have hz : |t.z / t.norm| ≤ 1 := by
        rw [abs_div, abs_of_pos h0, div_le_one h0]
        apply abs_le_of_sq_le_sq _ hr0
        nlinarith [sq_nonneg t.x, sq_nonneg t.y]
      rw [abs_le] at hz
      set θ := Real.arccos (t.z / t.norm) with hθ
      have hc : Real.cos θ = t.z / t.norm := Real.cos_arccos hz.1 hz.2
      have hs : Real.sin θ = p / t.norm := by
        rw [hθ, Real.sin_arccos]
        rw [show 1 - (t.z / t.norm) ^ 2 = (p / t.norm) ^ 2 by
          rw [div_pow, div_pow]; field_simp; nlinarith]
        exact Real.sqrt_sq (by positivity)
      refine ⟨Real.cos (θ / 2), Real.sin (θ / 2), by rw [add_comm]; exact Real.sin_sq_add_cos_sq _, ?_, ?_⟩
      · rw [← Real.cos_two_mul', show 2 * (θ / 2) = θ by ring, hc]; field_simp
      · rw [← Real.sin_two_mul, show 2 * (θ / 2) = θ by ring, hs]; field_simp
  obtain ⟨c, s, h1, h2, h3⟩ := key
  refine ⟨ζ.arg, c, s, h1, ?_⟩
  have hsc := Real.sin_sq_add_cos_sq ζ.arg
  have g1 : t.x * Real.cos ζ.arg + t.y * Real.sin ζ.arg = p := by
    rw [← hx, ← hy]; linear_combination p * hsc
  have g2 : t.y * Real.cos ζ.arg - t.x * Real.sin ζ.arg = 0 := by
    rw [← hx, ← hy]; ring
  have h4 : (c ^ 2 - s ^ 2) ^ 2 + (2 * s * c) ^ 2 = 1 := by linear_combination (c ^ 2 + s ^ 2 + 1) * h1
  simp only [rot, rotZ, rotY, axis, g1, g2, Point.mk.injEq, true_and]
  constructor
  · rw [← h2, ← h3]; ring
  · rw [← h2, ← h3]; linear_combination t.norm * h4

theorem form_norm_le (u t : Point ℝ) (n : ℕ) : ‖form (reg u) t n‖ ≤ u.norm ^ n * t.norm ^ n := by
  obtain ⟨α, c, s, h1, h2⟩ := exists_rot t
  rw [form_rot u t α c s h1, h2, form_axis, ext_reg, norm_mul, norm_pow, Complex.norm_real,
    Real.norm_of_nonneg (norm_nonneg' t), mul_comm, ← rot_norm α c s h1 u]
  exact mul_le_mul_of_nonneg_right (mid_norm_le _ _) (pow_nonneg (norm_nonneg' t) n)

theorem form_hasSum (u t : Point ℝ) (h : u.norm < t.norm) :
    HasSum (fun n => form (reg u) t n / (t.norm : ℂ) ^ (2 * n + 1)) ((1 / (t.sub u).norm : ℝ) : ℂ) := by
  obtain ⟨α, c, s, h1, h2⟩ := exists_rot t
  have h0 : 0 < t.norm := lt_of_le_of_lt (norm_nonneg' u) h
  have h0' : (t.norm : ℂ) ≠ 0 := by exact_mod_cast h0.ne'
  have e : (fun n => form (reg u) t n / (t.norm : ℂ) ^ (2 * n + 1)) =
      fun n => nrm (rot α c s u) n 0 / (t.norm : ℂ) ^ (n + 1) := by
    funext n
    rw [form_rot u t α c s h1, h2, form_axis, ext_reg, show 2 * n + 1 = n + (n + 1) by ring, pow_add _ n (n + 1)]
    field_simp
  rw [e]
  have := mid_hasSum (rot α c s u) t.norm (by rwa [rot_norm α c s h1])
  rwa [← h2, rot_sub, rot_norm α c s h1] at this

theorem nrm_sq_sum (u : Point ℝ) (n : ℕ) : ∑ m ∈ Finset.Icc (-(n : ℤ)) n, ‖nrm u n m‖ ^ 2 ≤ (u.norm ^ n) ^ 2 := by
  have h := form_norm_le u u n
  have e : form (reg u) u n = ((∑ m ∈ Finset.Icc (-(n : ℤ)) n, ‖nrm u n m‖ ^ 2 : ℝ) : ℂ) := by
    rw [form, Complex.ofReal_sum]
    refine Finset.sum_congr rfl fun m _ => ?_
    rw [ext_reg, Complex.mul_conj, Complex.normSq_eq_norm_sq]
  rw [e, Complex.norm_real, Real.norm_of_nonneg (Finset.sum_nonneg fun _ _ => sq_nonneg _)] at h
  rw [sq]; exact h

end
end Dashmm.Harm
