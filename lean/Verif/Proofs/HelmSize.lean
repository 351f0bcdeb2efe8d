import Verif.Proofs.HelmLocal

/-!
# The sizes of the expansions of charges, Helmholtz kernel
-/

namespace Dashmm.Helm

open Finset Harm Lap Bessel Wave Yuk
open scoped Nat

noncomputable section

theorem helm_sToM_conv (J : Table) (om : ℝ) (p : ℕ) (scale : ℝ) (v : Point ℝ) (q : ℝ) (C : Coef) (hC : sToM1 J om p v q scale = some C)
    (n m : ℕ) (hm : m ≤ n) : conv C n m = ((q * jnScaled J p (om * v.norm) scale n * (2 * n + 1) : ℝ) : ℂ) * reg (dir v) n m := by
  rw [sToM1] at hC
  cases he : ephiNeg v with
  | none => rw [he] at hC; cases hC
  | some e =>
    have hn : v.norm ≠ 0 := by intro h0; rw [ephiNeg, if_pos h0] at he; cases he
    rw [ephiNeg_eq v hn] at hC
    have hC := (Option.some.inj hC).symm
    subst hC
    have := conv_source v (q * jnScaled J p (om * v.norm) scale n) n m hm
    rw [← this]
    simp only [conv, sqf_eq]

theorem helm_sToM_proper (J : Table) (om : ℝ) (p : ℕ) (scale : ℝ) (c : Point ℝ) (srcs : List Src) (M : Coef) (hM : sToM J om p c scale srcs = some M) : Proper M :=
  sources_proper (sToM1 J om p) (fun v n => jnScaled J p (om * v.norm) scale n) c scale
    (fun v q C hC n m hm => helm_sToM_conv J om p scale v q C hC n m hm) srcs M hM

theorem erl_neg_abs (n : ℕ) (x : ℝ) : |erl n (-x ^ 2)| ≤ Real.exp (x ^ 2 / 6) := by
  have h := efun_norm_le n ((-x ^ 2 : ℝ) : ℂ)
  rw [efun_ofReal, Complex.norm_real, Complex.norm_real, Real.norm_eq_abs, Real.norm_eq_abs, abs_neg, abs_of_nonneg (sq_nonneg x)] at h
  refine h.trans (Real.exp_le_exp.2 ?_)
  have : (0 : ℝ) ≤ n := Nat.cast_nonneg n
  gcongr
  linarith

theorem helm_sToM_size (J : Table) (om : ℝ) (hl : 0 < om) (p : ℕ) (scale : ℝ) (hs : 0 < scale) (c : Point ℝ) (ε R : ℝ) (srcs : List Src)
    (hc : ∀ s ∈ srcs, (s.pos.sub c).norm ≤ R)
    (hJ : ∀ s ∈ srcs, NearJ p (om * (s.pos.sub c).norm) scale (fun n => ε * ((om * (s.pos.sub c).norm / scale) ^ n / ((2 * n + 1)‼ : ℕ)))
      (jnScaled J p (om * (s.pos.sub c).norm) scale))
    (M : Coef) (hM : sToM J om p c scale srcs = some M) :
    Yukawa.MultipoleSize p om scale M (Yukawa.totalCharge srcs * (Real.exp ((om * R) ^ 2 / 6) + ε)) R := by
  rw [multipoleSize_iff p om scale hl hs]
  intro n hn
  rw [mul_assoc]
  refine sources_bd (sToM1 J om p) (fun v n => jnScaled J p (om * v.norm) scale n) c scale _ n _
    (fun v q C hC n m hm => helm_sToM_conv J om p scale v q C hC n m hm) srcs (fun s hs' => ?_) M hM
  have hr0 := norm_nonneg' (s.pos.sub c)
  have hrR := hc s hs'
  have h := hJ s hs' n hn
  have hε : 0 ≤ ε := by
    have := (abs_nonneg _).trans (hJ s hs' 0 (Nat.zero_le _))
    simpa using this
  generalize (s.pos.sub c).norm = r at hr0 hrR h
  have hd := dfact_pos (2 * n + 1)
  have h1 : |erl n (-(om * r) ^ 2)| ≤ Real.exp ((om * R) ^ 2 / 6) :=
    (erl_neg_abs n (om * r)).trans (Real.exp_le_exp.2 (by gcongr))
  have e0 : am om scale n * (jnScaled J p (om * r) scale n * (2 * n + 1)) =
      erl n (-(om * r) ^ 2) * r ^ n + (((2 * n + 1)‼ : ℕ) * (scale / om) ^ n) * (jnScaled J p (om * r) scale n - sphJ n (om * r) / scale ^ n) := by
    have e2 : (((2 * n + 1)‼ : ℕ) * (scale / om) ^ n) * (sphJ n (om * r) / scale ^ n) = erl n (-(om * r) ^ 2) * r ^ n := by
      rw [sphJ_eq, mul_pow om r, div_pow]; field_simp
    rw [mul_sub, e2, am, dfact_odd]; ring
  have hD0 : 0 < ((2 * n + 1)‼ : ℕ) * (scale / om) ^ n := by positivity
  have h3 := mul_le_mul_of_nonneg_left h hD0.le
  have e3 : (((2 * n + 1)‼ : ℕ) * (scale / om) ^ n) * (ε * ((om * r / scale) ^ n / ((2 * n + 1)‼ : ℕ))) = ε * r ^ n := by
    rw [div_pow, div_pow, mul_pow]; field_simp
  rw [e3] at h3
  rw [e0]
  refine (abs_add_le _ _).trans ?_
  rw [abs_mul, abs_mul, abs_of_nonneg (pow_nonneg hr0 n), abs_of_pos hD0, add_mul]
  have hm : r ^ n ≤ R ^ n := pow_le_pow_left₀ hr0 hrR n
  exact add_le_add (mul_le_mul h1 hm (pow_nonneg hr0 n) (Real.exp_pos _).le) (h3.trans (mul_le_mul_of_nonneg_left hm hε))

/-! ### Local expansions -/

theorem lsize_zero (n : ℕ) : localDegreeSize (fun _ _ => 0) n = 0 := by
  rw [localDegreeSize]; simp

theorem lsize_add (A B : LCoef) (n : ℕ) : localDegreeSize (fun n m => A n m + B n m) n ≤ localDegreeSize A n + localDegreeSize B n := by
  set w : ℤ → ℝ := fun m => ((n + m.natAbs)! : ℝ) / ((n - m.natAbs)! : ℝ) with hw
  have hw0 : ∀ m, 0 ≤ w m := fun m => by rw [hw]; positivity
  have hA : 0 ≤ ∑ m ∈ Icc (-(n : ℤ)) n, w m * ‖A n m‖ ^ 2 := sum_nonneg fun m _ => mul_nonneg (hw0 m) (sq_nonneg _)
  have hB : 0 ≤ ∑ m ∈ Icc (-(n : ℤ)) n, w m * ‖B n m‖ ^ 2 := sum_nonneg fun m _ => mul_nonneg (hw0 m) (sq_nonneg _)
  show √(∑ m ∈ Icc (-(n : ℤ)) n, w m * ‖A n m + B n m‖ ^ 2) ≤ √(∑ m ∈ Icc (-(n : ℤ)) n, w m * ‖A n m‖ ^ 2) + √(∑ m ∈ Icc (-(n : ℤ)) n, w m * ‖B n m‖ ^ 2)
  rw [Real.sqrt_le_left (by positivity), add_sq, Real.sq_sqrt hA, Real.sq_sqrt hB]
  have h := Real.sum_mul_le_sqrt_mul_sqrt (Icc (-(n : ℤ)) n) (fun m => √(w m) * ‖A n m‖) (fun m => √(w m) * ‖B n m‖)
  simp only [mul_pow, Real.sq_sqrt (hw0 _)] at h
  have h2 : ∑ m ∈ Icc (-(n : ℤ)) n, w m * ‖A n m + B n m‖ ^ 2 ≤
      ∑ m ∈ Icc (-(n : ℤ)) n, w m * ‖A n m‖ ^ 2 + 2 * ∑ m ∈ Icc (-(n : ℤ)) n, √(w m) * ‖A n m‖ * (√(w m) * ‖B n m‖) + ∑ m ∈ Icc (-(n : ℤ)) n, w m * ‖B n m‖ ^ 2 := by
    rw [mul_sum, ← sum_add_distrib, ← sum_add_distrib]
    refine sum_le_sum fun m _ => ?_
    have h3 := pow_le_pow_left₀ (norm_nonneg _) (norm_add_le (A n m) (B n m)) 2
    have h4 := mul_le_mul_of_nonneg_left h3 (hw0 m)
    have h5 := Real.mul_self_sqrt (hw0 m)
    refine h4.trans_eq ?_
    linear_combination (-2 * ‖A n m‖ * ‖B n m‖) * h5
  linarith

/-- The array of one source. -/
def src (v : Point ℝ) : Coef := fun n m => ((Yukawa.sqf n m * legendre (ctheta v) n m : ℝ) : ℂ) * (starRingEnd ℂ (azi v)) ^ m

theorem src_size (v : Point ℝ) (n : ℕ) : Yukawa.degreeSize (src v) n ≤ 2 * n + 1 := by
  have h1 := (Bd_reg (dir v) n).smul (fun n => (2 * n + 1 : ℝ))
  rw [dir_norm, one_pow, mul_one, abs_of_nonneg (by positivity)] at h1
  have h2 : Bd (hat (fun _ => 1) (src v)) n (2 * n + 1) := Bd.congr h1 fun m hm => by
    have := conv_source v 1 n m hm
    simp only [one_mul] at this
    rw [hat, Complex.ofReal_one, one_mul]
    exact this.symm
  rw [Bd_iff, hat_degree _ _ _ zero_le_one, one_mul] at h2
  exact h2

theorem powE_norm (e : ℂ) (m : ℤ) : ‖powE e m‖ = ‖e‖ ^ m.natAbs := by
  rw [powE]
  split_ifs
  · rw [norm_pow]
  · rw [RCLike.norm_conj, norm_pow]

theorem lsize_norms (L : LCoef) (S : Coef) (n : ℕ) (x : ℝ) (hx : 0 ≤ x) (h : ∀ m : ℤ, ‖L n m‖ = x * ‖S n m.natAbs‖) :
    localDegreeSize L n = x * Yukawa.degreeSize S n := by
  have e : lsq L n = x ^ 2 * (‖S n 0‖ ^ 2 + 2 * ∑ m ∈ Icc 1 n, ((n + m)! : ℝ) / ((n - m)! : ℝ) * ‖S n m‖ ^ 2) := by
    rw [lsq_split, h 0, Int.natAbs_zero, mul_add, mul_left_comm, mul_sum, mul_sum, mul_pow]
    congr 1
    refine sum_congr rfl fun m _ => ?_
    rw [h, h, Int.natAbs_neg, Int.natAbs_natCast]; ring
  rw [localDegreeSize]
  show √(lsq L n) = _
  rw [e, Real.sqrt_mul (sq_nonneg x), Real.sqrt_sq hx, Yukawa.degreeSize]

theorem one_size (v : Point ℝ) (a : ℕ → ℂ) (n : ℕ) :
    localDegreeSize (fun n m => a n * ((sqf n m.natAbs * legendre (ctheta v) n m.natAbs : ℝ) : ℂ) * powE (starRingEnd ℂ (azi v)) m) n ≤ ‖a n‖ * (2 * n + 1) := by
  rw [lsize_norms _ (src v) n ‖a n‖ (norm_nonneg _) fun m => by rw [src, norm_mul, norm_mul, powE_norm, norm_mul, norm_pow, sqf_eq, mul_assoc]]
  exact mul_le_mul_of_nonneg_left (src_size v n) (norm_nonneg _)

theorem sphH_norm (n : ℕ) (x : ℝ) (hx : 0 < x) : ‖sphH n x‖ ≤ Real.exp x * ((2 * n - 1)‼ : ℕ) / x ^ (n + 1) := by
  have h1 : ‖theta (-(Complex.I * x)) n‖ ≤ Real.exp x := by
    refine (theta_norm_le _ _).trans ?_
    rw [norm_neg, norm_mul, Complex.norm_I, one_mul, Complex.norm_real, Real.norm_of_nonneg hx.le]
    exact theta_real_le x hx.le n
  rw [sphH_theta x hx.ne', norm_div, norm_mul, norm_mul, norm_mul, Complex.norm_I, one_mul, norm_pow]
  have e1 : ‖Complex.exp (Complex.I * x)‖ = 1 := by rw [mul_comm, Complex.norm_exp_ofReal_mul_I]
  have e2 : ‖(x : ℂ)‖ = x := by rw [Complex.norm_real, Real.norm_of_nonneg hx.le]
  have e3 : ‖((((2 * n - 1)‼ : ℕ) : ℝ) : ℂ)‖ = (((2 * n - 1)‼ : ℕ) : ℝ) := by rw [Complex.norm_real, Real.norm_of_nonneg (Nat.cast_nonneg _)]
  rw [e1, e2, e3, one_mul]
  gcongr

theorem helm_sToL_size (J Y : Table) (om : ℝ) (hl : 0 < om) (p : ℕ) (scale : ℝ) (hs : 0 < scale) (c : Point ℝ) (ε d D : ℝ) (hd : 0 < d) :
    ∀ (srcs : List Src) (_ : AllRegular c srcs) (_ : ∀ s ∈ srcs, d ≤ (s.pos.sub c).norm ∧ (s.pos.sub c).norm ≤ D)
      (_ : ∀ s ∈ srcs, NearH p (om * (s.pos.sub c).norm) scale (fun n => ε * (scale ^ n * ((2 * n - 1)‼ : ℕ) / (om * (s.pos.sub c).norm) ^ (n + 1)))
        (hn J Y p (om * (s.pos.sub c).norm) scale)) (L : LCoef), sToL J Y om p c scale srcs = some L →
      LocalSize p om scale L (Yukawa.totalCharge srcs * ((Real.exp (om * D) + ε) / (om * d))) d
  | [], _, _, _, L, h => by
    rw [sToL] at h; injection h with h; subst h
    intro n _
    rw [lsize_zero, Yukawa.totalCharge, List.map_nil, List.sum_nil, zero_mul, zero_div, mul_zero]
  | s :: l, hr, hdist, hH, L, h => by
    rw [sToL] at h
    cases hR : sToL J Y om p c scale l with
    | none => rw [hR] at h; cases h
    | some R =>
      rw [hR] at h
      have ih := helm_sToL_size J Y om hl p scale hs c ε d D hd l (fun x hx => hr x (List.mem_cons_of_mem _ hx))
        (fun x hx => hdist x (List.mem_cons_of_mem _ hx)) (fun x hx => hH x (List.mem_cons_of_mem _ hx)) R hR
      obtain ⟨e, he, hleg⟩ := ephiL_eq _ (clear_of_regular (hr s List.mem_cons_self))
      rw [sToL1, he] at h
      have hL := (Option.some.inj h).symm
      have e1 : L = fun n m => (fun n m => (s.charge * hn J Y p (om * (s.pos.sub c).norm) scale n) *
          ((sqf n m.natAbs * legendre (ctheta (s.pos.sub c)) n m.natAbs : ℝ) : ℂ) * powE (starRingEnd ℂ (azi (s.pos.sub c))) m : LCoef) n m + R n m := by
        rw [hL]
        funext n m
        push_cast
        linear_combination (s.charge * hn J Y p (om * (s.pos.sub c).norm) scale n * sqf n m.natAbs) * hleg n m
      intro n hn'
      have ha := lsize_add (fun n m => (s.charge * hn J Y p (om * (s.pos.sub c).norm) scale n) *
          ((sqf n m.natAbs * legendre (ctheta (s.pos.sub c)) n m.natAbs : ℝ) : ℂ) * powE (starRingEnd ℂ (azi (s.pos.sub c))) m) R n
      rw [← e1] at ha
      have hb := one_size (s.pos.sub c) (fun n => s.charge * hn J Y p (om * (s.pos.sub c).norm) scale n) n
      have hc := ih n hn'
      have hh := hH s List.mem_cons_self n hn'
      obtain ⟨hd1, hd2⟩ := hdist s List.mem_cons_self
      rw [Yukawa.totalCharge, List.map_cons, List.sum_cons]
      change _ ≤ (|s.charge| + Yukawa.totalCharge l) * _ / _
      have hε : 0 ≤ ε := by
        have := (norm_nonneg _).trans (hH s List.mem_cons_self 0 (Nat.zero_le _))
        have hx : 0 < om * (s.pos.sub c).norm := mul_pos hl (lt_of_lt_of_le hd hd1)
        simp only [pow_zero, one_mul, zero_add, pow_one, Nat.mul_zero, Nat.zero_sub, Nat.doubleFactorial, Nat.cast_one] at this
        exact nonneg_of_mul_nonneg_left this (by positivity)
      generalize (s.pos.sub c).norm = r at *
      have hr0 : 0 < r := lt_of_lt_of_le hd hd1
      have hx : 0 < om * r := by positivity
      have hS := sphH_norm n (om * r) hx
      set A := localDegreeSize (fun n m => (s.charge * hn J Y p (om * r) scale n) *
          ((sqf n m.natAbs * legendre (ctheta (s.pos.sub c)) n m.natAbs : ℝ) : ℂ) * powE (starRingEnd ℂ (azi (s.pos.sub c))) m) n
      have hdf := dfact_pos (2 * n + 1)
      have hdf' := dfact_pos (2 * n - 1)
      have h1 : ‖hn J Y p (om * r) scale n‖ ≤ (Real.exp (om * r) + ε) * (scale ^ n * ((2 * n - 1)‼ : ℕ) / (om * r) ^ (n + 1)) := by
        have := norm_sub_norm_le (hn J Y p (om * r) scale n) (scale ^ n * sphH n (om * r))
        have h2 : ‖(scale : ℂ) ^ n * sphH n (om * r)‖ ≤ scale ^ n * (Real.exp (om * r) * ((2 * n - 1)‼ : ℕ) / (om * r) ^ (n + 1)) := by
          rw [norm_mul, norm_pow, Complex.norm_real, Real.norm_of_nonneg hs.le]
          exact mul_le_mul_of_nonneg_left hS (by positivity)
        calc _ ≤ ‖(scale : ℂ) ^ n * sphH n (om * r)‖ + ‖hn J Y p (om * r) scale n - scale ^ n * sphH n (om * r)‖ := by linarith
          _ ≤ _ := add_le_add h2 hh
          _ = _ := by ring
      have h2 : (om / scale) ^ n / ((2 * n + 1)‼ : ℕ) * A ≤ |s.charge| * ((Real.exp (om * D) + ε) / (om * d)) / d ^ n := by
        have h3 : A ≤ |s.charge| * ((Real.exp (om * r) + ε) * (scale ^ n * ((2 * n - 1)‼ : ℕ) / (om * r) ^ (n + 1))) * (2 * n + 1) := by
          refine hb.trans (mul_le_mul_of_nonneg_right ?_ (by positivity))
          rw [norm_mul, Complex.norm_real, Real.norm_eq_abs]
          exact mul_le_mul_of_nonneg_left h1 (abs_nonneg _)
        have h4 : (om / scale) ^ n / ((2 * n + 1)‼ : ℕ) * (|s.charge| * ((Real.exp (om * r) + ε) * (scale ^ n * ((2 * n - 1)‼ : ℕ) / (om * r) ^ (n + 1))) * (2 * n + 1)) =
            |s.charge| * ((Real.exp (om * r) + ε) / (om * r)) / r ^ n := by
          rw [dfact_odd, div_pow, pow_succ, mul_pow]
          field_simp
        refine (mul_le_mul_of_nonneg_left h3 (by positivity)).trans (h4.le.trans ?_)
        have h5 := pow_le_pow_left₀ hd.le hd1 n
        have h6 : 0 < d ^ n := by positivity
        gcongr
      calc _ ≤ (om / scale) ^ n / ((2 * n + 1)‼ : ℕ) * (A + localDegreeSize R n) := mul_le_mul_of_nonneg_left ha (by positivity)
        _ ≤ |s.charge| * ((Real.exp (om * D) + ε) / (om * d)) / d ^ n + Yukawa.totalCharge l * ((Real.exp (om * D) + ε) / (om * d)) / d ^ n := by
          rw [mul_add]; exact add_le_add h2 hc
        _ = _ := by ring

end
end Dashmm.Helm
