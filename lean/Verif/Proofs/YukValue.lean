import Verif.Proofs.YukErr2
import Verif.Proofs.YukVal
import Verif.Spec.YukShift

/-!
# The values and the sizes of the expansions of the Yukawa kernel
-/

namespace Dashmm.Yuk

open Finset Harm Lap Bessel Wave
open scoped Nat

noncomputable section

theorem tabErr_eq (p : ℕ) (δ x : ℝ) : tabErr p δ x = Yukawa.tableError p δ x := rfl

theorem form_hat (a : ℕ → ℝ) (M : Coef) (v : Point ℝ) (n : ℕ) : form (hat a M) v n = (a n : ℂ) * form (conv M) v n := by
  rw [← form_smul]
  exact form_congr _ _ _ _ fun m _ => by rw [hat, Pi.smul_apply, Pi.smul_apply, Complex.real_smul]

/-- The loops of the evaluation. -/
theorem evalAt_clear (p : ℕ) (M : Coef) (v : Point ℝ) (hv : Clear v) (B : ℕ → ℝ) :
    Yukawa.evalAt p M (azi v) (ctheta v) B = (∑ n ∈ range (p + 1), ((B n / v.norm ^ n : ℝ) : ℂ) * form (conv M) v n).re := by
  rw [evalAt_conv, evalAt_form _ _ _ _ (ctheta_sq v) (azi_unit v), Complex.re_sum]
  refine sum_congr rfl fun n _ => ?_
  have h : form (conv M) v n = ((v.norm ^ n : ℝ) : ℂ) * form (conv M) (dirOf (ctheta v) (azi v)) n := by
    conv_lhs => rw [← dir_clear v hv, form_psmul, dir]
    rw [Complex.ofReal_pow]
  have h0 : v.norm ^ n ≠ 0 := pow_ne_zero _ hv.ne
  rw [h, ← mul_assoc, ← Complex.ofReal_mul, div_mul_cancel₀ _ h0, Complex.re_ofReal_mul]

theorem ffun_real (lam : ℝ) (n : ℕ) (r : ℝ) : ffun (lam : ℂ) n r = ((Real.exp (-(lam * r)) * theta (lam * r) n / r ^ (2 * n + 1) : ℝ) : ℂ) := by
  rw [ffun, ← Complex.ofReal_mul, theta_ofReal]
  push_cast; rfl

theorem mToT_value (lam : ℝ) (hl : 0 < lam) (p : ℕ) (v : Point ℝ) (hv : Clear v) (scale : ℝ) (hs : 0 < scale) (M : Coef) (x : ℝ)
    (hx : Yukawa.mToT1 lam p v scale M = some x) :
    x = Real.pi / (2 * lam) * (fieldM lam p (hat (am lam scale) M) v).re := by
  rw [Yukawa.mToT1] at hx
  have hv0 : 0 < v.norm := lt_of_le_of_ne (norm_nonneg' v) hv.ne.symm
  cases hk : knScaled (p + 1) (lam * v.norm) scale with
  | none => rw [hk, ephi_eq _ hv.ne] at hx; cases hx
  | some B =>
    rw [hk, ephi_eq _ hv.ne] at hx
    have hx : x = Yukawa.evalAt p M (azi v) (ctheta v) B := (Option.some.inj hx).symm
    rw [hx, evalAt_clear p M v hv, ← Complex.re_ofReal_mul, fieldM, mul_sum]
    congr 1
    refine sum_congr rfl fun n _ => ?_
    rw [form_hat, ffun_real, ← mul_assoc, ← mul_assoc, ← Complex.ofReal_mul, ← Complex.ofReal_mul, kn_some _ _ _ B hk, sphK_theta n _ (by positivity), am]
    congr 2
    have h3 : v.norm ^ (2 * n + 1) = v.norm ^ n * v.norm ^ n * v.norm := by rw [pow_succ, two_mul, pow_add]
    rw [h3, mul_pow, div_pow, pow_succ, pow_succ]
    field_simp

/-- The factors of the evaluation of a local expansion. -/
def ev (F : Table) (p : ℕ) (lam scale r : ℝ) (n : ℕ) : ℝ := inScaled F (p + 1) (lam * r) scale n * ((2 * n + 1)‼ : ℕ) * (scale / lam) ^ n / r ^ n

theorem lToT_value (F : Table) (lam : ℝ) (hl : 0 < lam) (p : ℕ) (v : Point ℝ) (hv : Clear v) (scale : ℝ) (hs : 0 < scale) (L : Coef) :
    Yukawa.lToT1 F lam p v scale L = some (fieldA (fun n => (ev F p lam scale v.norm n : ℂ)) p (hat (al lam scale) L) v).re := by
  have hv0 : 0 < v.norm := lt_of_le_of_ne (norm_nonneg' v) hv.ne.symm
  rw [Yukawa.lToT1, ephi_eq _ hv.ne, Option.map_some, evalAt_clear p L v hv, fieldA]
  congr 2
  refine sum_congr rfl fun n _ => ?_
  have hd := dfact_pos (2 * n + 1)
  rw [form_hat, ← mul_assoc, ← Complex.ofReal_mul, ev, al]
  congr 2
  rw [div_pow, div_pow]
  field_simp

theorem ev_error (F : Table) (δ : ℝ) (hδ0 : 10⁻¹ ^ 17 ≤ δ) (hδ : δ ≤ 1 / 2) (hF : AccurateI F δ) (lam : ℝ) (hl : 0 < lam) (p : ℕ)
    (scale : ℝ) (hs : 0 < scale) (r : ℝ) (hr : 0 < r) (n : ℕ) (hn : n ≤ p) :
    ‖(ev F p lam scale r n : ℂ) - efun n ((lam : ℂ) ^ 2 * (r ^ 2 : ℝ))‖ * r ^ n ≤ Yukawa.evalError p lam δ r * max (scale / lam) r ^ n := by
  have hd := dfact_pos (2 * n + 1)
  have hx : 0 < lam * r := by positivity
  have h := in_any F δ hδ0 hδ hF (p + 1) (lam * r) scale hs hx.le n (by omega)
  have e1 : ((lam : ℂ) ^ 2 * (r ^ 2 : ℝ)) = (((lam * r) ^ 2 : ℝ) : ℂ) := by push_cast; ring
  have hrn : 0 < r ^ n := by positivity
  have he0 : 0 < erl n ((lam * r) ^ 2) := lt_of_lt_of_le one_pos (erl_one_le n _ (by positivity))
  have hbe := besselError_nonneg δ (lam * r) (le_trans (by positivity) hδ0)
  set D : ℝ := ((2 * n + 1)‼ : ℕ) * (scale / lam) ^ n with hD
  have hD0 : 0 < D := by positivity
  have e2 : D * (sphI n (lam * r) / scale ^ n) = erl n ((lam * r) ^ 2) * r ^ n := by
    rw [hD, sphI_eq, mul_pow, div_pow]; field_simp
  have e3 : D * (2 * 10⁻¹ ^ 300 * max 1 (lam * r / scale) ^ n) = 2 * 10⁻¹ ^ 300 * ((2 * n + 1)‼ : ℕ) * max (scale / lam) r ^ n := by
    have : max (scale / lam) r = scale / lam * max 1 (lam * r / scale) := by
      rw [mul_max_of_nonneg _ _ (by positivity), mul_one]; congr 1; field_simp
    rw [this, mul_pow, hD]
    generalize (10⁻¹ : ℝ) ^ 300 = τ
    ring
  rw [e1, efun_ofReal, ← Complex.ofReal_sub, Complex.norm_real, Real.norm_eq_abs, ← abs_of_pos hrn, ← abs_mul]
  have e4 : (ev F p lam scale r n - erl n ((lam * r) ^ 2)) * r ^ n = D * (inScaled F (p + 1) (lam * r) scale n - sphI n (lam * r) / scale ^ n) := by
    rw [mul_sub, e2, ev, hD]; field_simp
  rw [e4, abs_mul, abs_of_pos hD0]
  refine (mul_le_mul_of_nonneg_left h hD0.le).trans ?_
  rw [mul_add, e3, mul_left_comm, e2, Yukawa.evalError, add_mul, ← mul_assoc]
  have hm : r ^ n ≤ max (scale / lam) r ^ n := by gcongr; exact le_max_right _ _
  have h1 : erl n ((lam * r) ^ 2) ≤ Real.exp ((lam * r) ^ 2 / 6) := by
    refine (erl_le n _ (by positivity)).trans (Real.exp_le_exp.2 ?_)
    have : (0 : ℝ) ≤ n := Nat.cast_nonneg n
    gcongr
    linarith
  have h3 := dfact_mono n p hn
  have hτ : (0 : ℝ) ≤ 10⁻¹ ^ 300 := by positivity
  generalize (10⁻¹ : ℝ) ^ 300 = τ at hτ
  gcongr

/-! ### Sizes -/

theorem sum_split' (f : ℤ → ℝ) (n : ℕ) : ∑ m ∈ Icc (-(n : ℤ)) n, f m = f 0 + ∑ m ∈ Icc 1 n, (f m + f (-(m : ℤ))) := by
  have := sum_split (fun m => (f m : ℂ)) n
  exact_mod_cast this

theorem sum_ext_sq (C : Coef) (n : ℕ) : ∑ m ∈ Icc (-(n : ℤ)) n, ‖Harm.ext C n m‖ ^ 2 = ‖C n 0‖ ^ 2 + 2 * ∑ m ∈ Icc 1 n, ‖C n m‖ ^ 2 := by
  rw [sum_split', Harm.ext, if_pos le_rfl]
  have h1 : ∀ m : ℕ, ‖Harm.ext C n (m : ℤ)‖ = ‖C n m‖ := by
    intro m
    rw [Harm.ext, if_pos (by omega), norm_mul, norm_pow, norm_neg, norm_one, one_pow, one_mul, Int.toNat_natCast]
  have h2 : ∀ m ∈ Icc 1 n, ‖Harm.ext C n (-(m : ℤ))‖ = ‖C n m‖ := by
    intro m hm
    rw [mem_Icc] at hm
    rw [Harm.ext, if_neg (by omega), RCLike.norm_conj, neg_neg, Int.toNat_natCast]
  have h0 := h1 0
  rw [mul_sum]
  simp only [Int.toNat_zero, pow_zero, one_mul]
  congr 1
  refine sum_congr rfl fun m hm => ?_
  rw [h1, h2 m hm]; ring

theorem Bd_iff (C : Coef) (n : ℕ) (B : ℝ) : Bd C n B ↔ √(‖C n 0‖ ^ 2 + 2 * ∑ m ∈ Icc 1 n, ‖C n m‖ ^ 2) ≤ B := by
  rw [← sum_ext_sq]
  set S := ∑ m ∈ Icc (-(n : ℤ)) n, ‖Harm.ext C n m‖ ^ 2 with hS
  have hS0 : 0 ≤ S := sum_nonneg fun m _ => by positivity
  constructor
  · intro h
    have h1 := h.2 (fun m => starRingEnd ℂ (Harm.ext C n m))
    have e : ∑ m ∈ Icc (-(n : ℤ)) n, Harm.ext C n m * starRingEnd ℂ (Harm.ext C n m) = (S : ℂ) := by
      rw [hS, Complex.ofReal_sum]
      refine sum_congr rfl fun m _ => ?_
      rw [Complex.mul_conj, Complex.normSq_eq_norm_sq]
    simp only [RCLike.norm_conj] at h1
    rw [e, Complex.norm_real, Real.norm_of_nonneg hS0, ← hS] at h1
    rcases hS0.eq_or_lt with h0 | h0
    · rw [← h0, Real.sqrt_zero]; exact h.1
    · have hs : 0 < √S := Real.sqrt_pos.2 h0
      nlinarith [Real.mul_self_sqrt hS0]
  · intro h
    refine ⟨(Real.sqrt_nonneg _).trans h, fun y => ?_⟩
    refine le_trans ?_ (mul_le_mul_of_nonneg_right h (Real.sqrt_nonneg _))
    refine (norm_sum_le _ _).trans ?_
    simp only [norm_mul]
    exact Real.sum_mul_le_sqrt_mul_sqrt _ _ _

theorem hat_degree (a : ℕ → ℝ) (M : Coef) (n : ℕ) (ha : 0 ≤ a n) :
    √(‖hat a M n 0‖ ^ 2 + 2 * ∑ m ∈ Icc 1 n, ‖hat a M n m‖ ^ 2) = a n * Yukawa.degreeSize M n := by
  have h : ∀ m, ‖hat a M n m‖ ^ 2 = a n ^ 2 * ((((n + m)! : ℝ) / ((n - m)! : ℝ)) * ‖M n m‖ ^ 2) := by
    intro m
    rw [hat, conv, norm_mul, norm_mul, Complex.norm_real, Complex.norm_real, mul_pow, mul_pow, Real.norm_eq_abs, Real.norm_eq_abs, sq_abs, sq_abs,
      div_pow, lsqf_sq, lsqf_sq]; ring
  rw [Yukawa.degreeSize, h]
  simp only [h]
  rw [← mul_sum, Nat.add_zero, Nat.sub_zero, div_self (by positivity), one_mul, ← mul_assoc, mul_comm 2, mul_assoc, ← mul_add, Real.sqrt_mul (sq_nonneg _),
    Real.sqrt_sq ha]

theorem am_nonneg (lam scale : ℝ) (hl : 0 < lam) (hs : 0 < scale) (n : ℕ) : 0 ≤ am lam scale n := by unfold am; positivity

theorem al_nonneg (lam scale : ℝ) (hl : 0 < lam) (hs : 0 < scale) (n : ℕ) : 0 ≤ al lam scale n := by unfold al; positivity

theorem multipoleSize_iff (p : ℕ) (lam scale : ℝ) (hl : 0 < lam) (hs : 0 < scale) (M : Coef) (μ R : ℝ) :
    Yukawa.MultipoleSize p lam scale M μ R ↔ ∀ n ≤ p, Bd (hat (am lam scale) M) n (μ * R ^ n) := by
  refine forall₂_congr fun n _ => ?_
  rw [Bd_iff, hat_degree _ _ _ (am_nonneg lam scale hl hs n), am]

theorem localSize_iff (p : ℕ) (lam scale : ℝ) (hl : 0 < lam) (hs : 0 < scale) (M : Coef) (μ d : ℝ) :
    Yukawa.LocalSize p lam scale M μ d ↔ ∀ n ≤ p, Bd (hat (al lam scale) M) n (μ / d ^ n) := by
  refine forall₂_congr fun n _ => ?_
  rw [Bd_iff, hat_degree _ _ _ (al_nonneg lam scale hl hs n), al]

end
end Dashmm.Yuk
