import Verif.Proofs.YukValue

/-!
# The sizes of expansions of sources, and the error of `L_to_L`
-/

namespace Dashmm.Yuk

open Finset Harm Lap Bessel Wave
open scoped Nat

noncomputable section

theorem proper_of_hat (a : ℕ → ℝ) (ha : ∀ n, 0 < a n) (M : Coef) (h : Proper (hat a M)) : Proper M := by
  intro n
  have h1 := h n
  have h2 := (lsqf_pos n).ne'
  rw [hat, conv, Nat.add_zero, Nat.sub_zero, div_self h2, Complex.ofReal_one, mul_one, Complex.im_ofReal_mul] at h1
  exact (mul_eq_zero.1 h1).resolve_left (ha n).ne'

theorem am_pos (lam scale : ℝ) (hl : 0 < lam) (hs : 0 < scale) (n : ℕ) : 0 < am lam scale n := by
  have := dfact_pos (2 * n - 1)
  unfold am; positivity

theorem al_pos (lam scale : ℝ) (hl : 0 < lam) (hs : 0 < scale) (n : ℕ) : 0 < al lam scale n := by
  have := dfact_pos (2 * n + 1)
  unfold al; positivity

theorem congr_proper {A B : Coef} (h : ∀ n m, A n m = B n m) (hB : Proper B) : Proper A := fun n => by rw [h]; exact hB n

theorem scaleOf_pos (size lam : ℝ) (hs : 0 < Yukawa.scale0 size lam) (lev : ℕ) : 0 < Yukawa.scaleOf size lam lev := by
  unfold Yukawa.scaleOf; positivity

theorem mToM_proper (F : Table) (size lam : ℝ) (hl : 0 < lam) (hs : 0 < Yukawa.scale0 size lam) (p lev : ℕ) (α x : ℝ) (M : Coef) (hM : Proper M) :
    Proper (tr p (Yukawa.m2m F size lam p lev) α x M) := by
  refine proper_of_hat (am lam (2 * Yukawa.scaleOf size lam lev)) (am_pos _ _ hl (by have := scaleOf_pos size lam hs lev; positivity)) _ ?_
  refine congr_proper (hat_mToM F size lam hl hs p lev α x M) ?_
  exact rotateZ_proper _ _ (rotateY_proper _ (shM_proper _ (tab_real F p _) _ (sq_conj lam) _ _ _ (pre_proper _ _ _ (hat_proper _ _ hM))) _ _ _ (dmatMinus_is x))

theorem lToL_proper (F : Table) (size lam : ℝ) (hl : 0 < lam) (hs : 0 < Yukawa.scale0 size lam) (p lev : ℕ) (α x : ℝ) (M : Coef) (hM : Proper M) :
    Proper (tr p (Yukawa.l2l F size lam p lev) α x M) := by
  refine proper_of_hat (al lam (Yukawa.scaleOf size lam lev / 2)) (al_pos _ _ hl (by have := scaleOf_pos size lam hs lev; positivity)) _ ?_
  refine congr_proper (hat_lToL F size lam hl hs p lev α x M) ?_
  exact rotateZ_proper _ _ (rotateY_proper _ (shL_proper _ (tab_real F p _) _ (sq_conj lam) _ _ _ (pre_proper _ _ _ (hat_proper _ _ hM))) _ _ _ (dmatMinus_is x))

/-! ### Sources -/

/-- The size of a sum over sources. -/
theorem sources_bd (f : Point ℝ → ℝ → ℝ → Option Coef) (a : Point ℝ → ℕ → ℝ) (c : Point ℝ) (scale : ℝ) (b : ℕ → ℝ) (n : ℕ) (K : ℝ)
    (hf : ∀ v q C, f v q scale = some C → ∀ n m, m ≤ n → conv C n m = ((q * a v n * (2 * n + 1) : ℝ) : ℂ) * reg (dir v) n m) :
    ∀ (l : List Src) (_ : ∀ s ∈ l, |b n * (a (s.pos.sub c) n * (2 * n + 1))| ≤ K) (C : Coef), sumSources f c scale l = some C →
      Bd (hat b C) n (Yukawa.totalCharge l * K)
  | [], _, C, h => by
    rw [sumSources] at h; injection h with h; subst h
    have e : hat b (fun _ _ => 0) = 0 := by funext n m; simp [hat, conv]
    rw [e, Yukawa.totalCharge, List.map_nil, List.sum_nil, zero_mul]
    exact Bd_zero n
  | s :: l, hK, C, h => by
    rw [sumSources] at h
    cases hr : sumSources f c scale l with
    | none => rw [hr] at h; cases h
    | some R =>
      rw [hr] at h
      cases hc : f (s.pos.sub c) s.charge scale with
      | none => rw [hc] at h; cases h
      | some D =>
        rw [hc] at h
        have e : C = fun n m => D n m + R n m := (Option.some.inj h).symm
        have e2 : hat b C = hat b D + hat b R := by
          funext n m; rw [e]; simp only [hat, conv, Pi.add_apply]; ring
        rw [e2, Yukawa.totalCharge, List.map_cons, List.sum_cons, add_mul]
        refine Bd.add ?_ (sources_bd f a c scale b n K hf l (fun x hx => hK x (List.mem_cons_of_mem _ hx)) R hr)
        have h1 := (Bd_reg (dir (s.pos.sub c)) n).smul (fun n => b n * (s.charge * a (s.pos.sub c) n * (2 * n + 1)))
        rw [dir_norm, one_pow, mul_one] at h1
        refine Bd.mono (Bd.congr h1 fun m hm => ?_) ?_
        · rw [hat, hf _ _ _ hc n m hm]; push_cast; ring
        · have := hK s List.mem_cons_self
          rw [show b n * (s.charge * a (s.pos.sub c) n * (2 * n + 1)) = s.charge * (b n * (a (s.pos.sub c) n * (2 * n + 1))) by ring, abs_mul]
          exact mul_le_mul_of_nonneg_left this (abs_nonneg _)

theorem sources_proper (f : Point ℝ → ℝ → ℝ → Option Coef) (a : Point ℝ → ℕ → ℝ) (c : Point ℝ) (scale : ℝ)
    (hf : ∀ v q C, f v q scale = some C → ∀ n m, m ≤ n → conv C n m = ((q * a v n * (2 * n + 1) : ℝ) : ℂ) * reg (dir v) n m) :
    ∀ (l : List Src) (C : Coef), sumSources f c scale l = some C → Proper C
  | [], C, h => by
    rw [sumSources] at h; injection h with h; subst h
    intro n; rfl
  | s :: l, C, h => by
    rw [sumSources] at h
    cases hr : sumSources f c scale l with
    | none => rw [hr] at h; cases h
    | some R =>
      rw [hr] at h
      cases hc : f (s.pos.sub c) s.charge scale with
      | none => rw [hc] at h; cases h
      | some D =>
        rw [hc] at h
        have e : C = fun n m => D n m + R n m := (Option.some.inj h).symm
        intro n
        have h1 := sources_proper f a c scale hf l R hr n
        have h2 : (D n 0).im = 0 := by
          have := hf _ _ _ hc n 0 (Nat.zero_le n)
          rw [conv, Nat.add_zero, Nat.sub_zero, div_self (lsqf_pos n).ne', Complex.ofReal_one, mul_one] at this
          rw [this, Complex.im_ofReal_mul, reg_proper (dir (s.pos.sub c)) n, mul_zero]
        rw [e]; simp only [Complex.add_im, h1, h2, add_zero]

theorem sToM_conv (F : Table) (lam : ℝ) (p : ℕ) (scale : ℝ) (v : Point ℝ) (q : ℝ) (C : Coef) (hC : Yukawa.sToM1 F lam p v q scale = some C)
    (n m : ℕ) (hm : m ≤ n) : conv C n m = ((q * inScaled F p (lam * v.norm) scale n * (2 * n + 1) : ℝ) : ℂ) * reg (dir v) n m := by
  rw [Yukawa.sToM1] at hC
  cases he : ephiNeg v with
  | none => rw [he] at hC; cases hC
  | some e =>
    have hn : v.norm ≠ 0 := by intro h0; rw [ephiNeg, if_pos h0] at he; cases he
    rw [ephiNeg_eq v hn] at hC
    have hC := (Option.some.inj hC).symm
    subst hC
    have := conv_source v (q * inScaled F p (lam * v.norm) scale n) n m hm
    rw [← this]
    simp only [conv]

theorem sToL_conv (lam : ℝ) (p : ℕ) (scale : ℝ) (v : Point ℝ) (q : ℝ) (C : Coef) (hC : Yukawa.sToL1 lam p v q scale = some C)
    (n m : ℕ) (hm : m ≤ n) : conv C n m = ((q * (scale ^ n * sphK n (lam * v.norm)) * (2 * n + 1) : ℝ) : ℂ) * reg (dir v) n m := by
  rw [Yukawa.sToL1] at hC
  cases he : ephiNeg v with
  | none => rw [he] at hC; cases hC
  | some e =>
    have hn : v.norm ≠ 0 := by intro h0; rw [ephiNeg, if_pos h0] at he; cases he
    cases hk : knScaled p (lam * v.norm) scale with
    | none => rw [hk, ephiNeg_eq v hn] at hC; cases hC
    | some B =>
      rw [hk, ephiNeg_eq v hn] at hC
      have hC := (Option.some.inj hC).symm
      subst hC
      have := conv_source v (q * B n) n m hm
      rw [← kn_some _ _ _ B hk, ← this]
      simp only [conv]

theorem besselError_mono (δ x y : ℝ) (hδ : δ ≤ 1) (h : x ≤ y) : Yukawa.besselError δ x ≤ Yukawa.besselError δ y := by
  unfold Yukawa.besselError
  split_ifs <;> linarith

theorem sToM_size (F : Table) (δ : ℝ) (hδ0 : 10⁻¹ ^ 17 ≤ δ) (hδ : δ ≤ 1 / 2) (hF : AccurateI F δ) (lam : ℝ) (hl : 0 < lam) (p : ℕ)
    (scale : ℝ) (hs : 0 < scale) (c : Point ℝ) (R : ℝ) (hR : 0 < R) (srcs : List Src) (hc : ∀ s ∈ srcs, (s.pos.sub c).norm ≤ R) (M : Coef)
    (hM : Yukawa.sToM F lam p c scale srcs = some M) :
    Yukawa.MultipoleSize p lam scale M (Yukawa.totalCharge srcs * Yukawa.chargeSize p lam scale δ R) R := by
  rw [multipoleSize_iff p lam scale hl hs]
  intro n hn
  rw [mul_assoc]
  refine sources_bd (Yukawa.sToM1 F lam p) (fun v n => inScaled F p (lam * v.norm) scale n) c scale _ n _
    (fun v q C hC n m hm => sToM_conv F lam p scale v q C hC n m hm) srcs (fun s hs' => ?_) M hM
  have hr0 := norm_nonneg' (s.pos.sub c)
  have hrR := hc s hs'
  generalize (s.pos.sub c).norm = r at hr0 hrR
  have h := in_any F δ hδ0 hδ hF p (lam * r) scale hs (by positivity) n hn
  have hd := dfact_pos (2 * n + 1)
  have hI := sphI_nonneg n (lam * r) (by positivity)
  have hbe := besselError_nonneg δ (lam * r) (le_trans (by positivity) hδ0)
  have he0 : 0 < erl n ((lam * r) ^ 2) := lt_of_lt_of_le one_pos (erl_one_le n _ (by positivity))
  have h1 : erl n ((lam * r) ^ 2) ≤ Real.exp ((lam * R) ^ 2 / 6) := by
    refine (erl_le n _ (by positivity)).trans (Real.exp_le_exp.2 ?_)
    have : (0 : ℝ) ≤ n := Nat.cast_nonneg n
    gcongr
    linarith
  have h2 : |inScaled F p (lam * r) scale n| ≤ (1 + Yukawa.besselError δ (lam * r)) * (sphI n (lam * r) / scale ^ n) + 2 * 10⁻¹ ^ 300 * max 1 (lam * r / scale) ^ n := by
    have h3 : 0 ≤ sphI n (lam * r) / scale ^ n := by positivity
    have := abs_sub_abs_le_abs_sub (inScaled F p (lam * r) scale n) (sphI n (lam * r) / scale ^ n)
    rw [abs_of_nonneg h3] at this
    linarith
  have hD0 : 0 < ((2 * n + 1)‼ : ℕ) * (scale / lam) ^ n := by positivity
  have e0 : am lam scale n * (inScaled F p (lam * r) scale n * (2 * n + 1)) = (((2 * n + 1)‼ : ℕ) * (scale / lam) ^ n) * inScaled F p (lam * r) scale n := by
    rw [am, dfact_odd]; ring
  have e2 : (((2 * n + 1)‼ : ℕ) * (scale / lam) ^ n) * (sphI n (lam * r) / scale ^ n) = erl n ((lam * r) ^ 2) * r ^ n := by
    rw [sphI_eq, mul_pow, div_pow]; field_simp
  have e3 : (((2 * n + 1)‼ : ℕ) * (scale / lam) ^ n) * (2 * 10⁻¹ ^ 300 * max 1 (lam * r / scale) ^ n) = 2 * 10⁻¹ ^ 300 * ((2 * n + 1)‼ : ℕ) * max (scale / lam) r ^ n := by
    have : max (scale / lam) r = scale / lam * max 1 (lam * r / scale) := by
      rw [mul_max_of_nonneg _ _ (by positivity), mul_one]; congr 1; field_simp
    rw [this, mul_pow]
    generalize (10⁻¹ : ℝ) ^ 300 = τ
    ring
  show |am lam scale n * (inScaled F p (lam * r) scale n * (2 * n + 1))| ≤ _
  rw [e0, abs_mul, abs_of_pos hD0]
  refine (mul_le_mul_of_nonneg_left h2 hD0.le).trans ?_
  rw [mul_add, e3, mul_left_comm, e2, Yukawa.chargeSize]
  have hb2 := besselError_mono δ (lam * r) (lam * R) (by linarith) (by gcongr)
  have hbe2 := hbe.trans hb2
  have hdm := dfact_mono n p hn
  have hm : max (scale / lam) r ^ n ≤ max 1 (scale / (lam * R)) ^ p * R ^ n := by
    have hA : max (scale / lam) r ≤ max 1 (scale / (lam * R)) * R := by
      refine max_le ?_ ?_
      · calc scale / lam = scale / (lam * R) * R := by field_simp
          _ ≤ _ := by gcongr; exact le_max_right _ _
      · calc r ≤ 1 * R := by linarith
          _ ≤ _ := by gcongr; exact le_max_left _ _
    calc max (scale / lam) r ^ n ≤ (max 1 (scale / (lam * R)) * R) ^ n := pow_le_pow_left₀ (le_max_of_le_right hr0) hA n
      _ = max 1 (scale / (lam * R)) ^ n * R ^ n := mul_pow _ _ _
      _ ≤ _ := by
        refine mul_le_mul_of_nonneg_right (pow_le_pow_right₀ (le_max_left _ _) hn) (by positivity)
  have hτ : (0 : ℝ) ≤ 10⁻¹ ^ 300 := by positivity
  generalize (10⁻¹ : ℝ) ^ 300 = τ at hτ
  have hA0 : 0 ≤ max (scale / lam) r := le_max_of_le_right hr0
  have p1 : (1 + Yukawa.besselError δ (lam * r)) * (erl n ((lam * r) ^ 2) * r ^ n) ≤
      (1 + Yukawa.besselError δ (lam * R)) * (Real.exp ((lam * R) ^ 2 / 6) * R ^ n) := by gcongr
  have p2 : 2 * τ * ((2 * n + 1)‼ : ℕ) * max (scale / lam) r ^ n ≤
      2 * τ * ((2 * p + 1)‼ : ℕ) * (max 1 (scale / (lam * R)) ^ p * R ^ n) := by gcongr
  exact (add_le_add p1 p2).trans_eq (by ring)

theorem sToM_proper (F : Table) (lam : ℝ) (p : ℕ) (scale : ℝ) (c : Point ℝ) (srcs : List Src) (M : Coef)
    (hM : Yukawa.sToM F lam p c scale srcs = some M) : Proper M :=
  sources_proper (Yukawa.sToM1 F lam p) (fun v n => inScaled F p (lam * v.norm) scale n) c scale
    (fun v q C hC n m hm => sToM_conv F lam p scale v q C hC n m hm) srcs M hM

theorem sToL_proper (lam : ℝ) (p : ℕ) (scale : ℝ) (c : Point ℝ) (srcs : List Src) (M : Coef)
    (hM : Yukawa.sToL lam p c scale srcs = some M) : Proper M :=
  sources_proper (Yukawa.sToL1 lam p) (fun v n => scale ^ n * sphK n (lam * v.norm)) c scale
    (fun v q C hC n m hm => sToL_conv lam p scale v q C hC n m hm) srcs M hM

theorem sToL_size (lam : ℝ) (hl : 0 < lam) (p : ℕ) (scale : ℝ) (hs : 0 < scale) (c : Point ℝ) (d : ℝ) (hd : 0 < d) (srcs : List Src)
    (hc : ∀ s ∈ srcs, d ≤ (s.pos.sub c).norm) (L : Coef) (hL : Yukawa.sToL lam p c scale srcs = some L) :
    Yukawa.LocalSize p lam scale L (Real.pi / (2 * lam) * Yukawa.totalCharge srcs / d) d := by
  rw [localSize_iff p lam scale hl hs]
  intro n hn
  have e : Real.pi / (2 * lam) * Yukawa.totalCharge srcs / d / d ^ n = Yukawa.totalCharge srcs * (Real.pi / (2 * lam) / d ^ (n + 1)) := by
    rw [pow_succ]; field_simp
  rw [e]
  refine sources_bd (Yukawa.sToL1 lam p) (fun v n => scale ^ n * sphK n (lam * v.norm)) c scale _ n _
    (fun v q C hC n m hm => sToL_conv lam p scale v q C hC n m hm) srcs (fun s hs' => ?_) L hL
  have hrd := hc s hs'
  generalize (s.pos.sub c).norm = r at hrd
  have hr : 0 < r := lt_of_lt_of_le hd hrd
  have hx : 0 < lam * r := by positivity
  have hD := dfact_pos (2 * n - 1)
  have hθ := theta_real_pos (lam * r) hx.le n
  have hθ2 := theta_real_le (lam * r) hx.le n
  have e2 : al lam scale n * (scale ^ n * sphK n (lam * r) * (2 * n + 1)) = Real.pi / (2 * lam) * (Real.exp (-(lam * r)) * theta (lam * r) n) / r ^ (n + 1) := by
    rw [al, dfact_odd, sphK_theta n _ hx.ne', mul_pow, div_pow, pow_succ]
    have : (2 * (n : ℝ) + 1) ≠ 0 := by positivity
    field_simp
  show |al lam scale n * (scale ^ n * sphK n (lam * r) * (2 * n + 1))| ≤ _
  have hpi := Real.pi_pos
  rw [e2, abs_of_pos (by positivity)]
  have h3 : Real.exp (-(lam * r)) * theta (lam * r) n ≤ 1 := by
    rw [Real.exp_neg, inv_mul_le_iff₀ (Real.exp_pos _), mul_one]; exact hθ2
  calc Real.pi / (2 * lam) * (Real.exp (-(lam * r)) * theta (lam * r) n) / r ^ (n + 1) ≤ Real.pi / (2 * lam) * 1 / d ^ (n + 1) := by gcongr
    _ = _ := by rw [mul_one]

end
end Dashmm.Yuk
