import Verif.Proofs.WaveErr

/-!
# The error of the truncated translation of a whole expansion
-/

namespace Dashmm.Wave

open Finset Harm Lap Bessel Yuk
open scoped Nat

noncomputable section

/-! ### Symmetries of the coefficients -/

theorem rt_neg (m : ℤ) (n : ℕ) : rt (-m) n = rt m n := by
  rw [rt, rt, show (n : ℤ) - -m = n + m by ring, show (n : ℤ) + -m = n - m by ring, mul_comm]

theorem qc_neg (m n j : ℤ) (k : ℕ) : qc (-m) n j k = qc m n j k := by
  rw [qc, qc, show (k : ℤ) - -m = k + m by ring, show (k : ℤ) + -m = k - m by ring]; ring

theorem tauB_neg (b : ℕ → ℂ) (w : ℂ) (m : ℤ) (n j : ℕ) (s : ℝ) : tauB b w (-m) n j s = tauB b w m n j s := by
  rw [tauB, tauB, rt_neg, rt_neg, Qb, Qb]
  congr 1
  exact sum_congr rfl fun k _ => by rw [qc_neg]

theorem tauB_conj (b : ℕ → ℂ) (hb : ∀ i, starRingEnd ℂ (b i) = b i) (w : ℂ) (hw : starRingEnd ℂ w = w) (m : ℤ) (n j : ℕ) (s : ℝ) :
    starRingEnd ℂ (tauB b w m n j s) = tauB b w m n j s := by
  rw [tauB, map_mul, Complex.conj_ofReal, Qb, map_sum]
  congr 1
  refine sum_congr rfl fun k _ => ?_
  rw [map_mul, Complex.conj_ofReal, map_mul, map_mul, map_pow, map_pow, hb, hw, Complex.conj_ofReal]

theorem tauB_low (b : ℕ → ℂ) (w : ℂ) (m : ℤ) (n j : ℕ) (s : ℝ) (h : (j : ℤ) < |m|) : tauB b w m n j s = 0 := by
  rw [tauB, Qb, sum_eq_zero, mul_zero]
  intro k hk
  rw [mem_range] at hk
  rw [qc_low m n j k (by omega)]; simp

theorem tauB_low' (b : ℕ → ℂ) (w : ℂ) (m : ℤ) (n j : ℕ) (s : ℝ) (h : (n : ℤ) < |m|) : tauB b w m n j s = 0 := by
  rw [tauB, Qb, sum_eq_zero, mul_zero]
  intro k hk
  by_cases hk : n < k
  · rw [qc_left m n j k (by omega)]; simp
  · rw [qc_low m n j k (by omega)]; simp

theorem tauB_sub (b b' : ℕ → ℂ) (w : ℂ) (m : ℤ) (n j : ℕ) (s : ℝ) :
    tauB b w m n j s - tauB b' w m n j s = tauB (fun i => b i - b' i) w m n j s := by
  rw [tauB, tauB, tauB, ← mul_sub, Qb, Qb, Qb, ← sum_sub_distrib]
  congr 1
  exact sum_congr rfl fun k _ => by ring

/-! ### The shifts of the arrays -/

/-- Of a multipole expansion. -/
def shM (b : ℕ → ℂ) (w : ℂ) (p : ℕ) (s : ℝ) (T : Coef) : Coef := fun n m => ∑ j ∈ range (p + 1), tauB b w m n j s * T j m

/-- Of a local expansion. -/
def shL (b : ℕ → ℂ) (w : ℂ) (p : ℕ) (s : ℝ) (T : Coef) : Coef := fun j m => ∑ n ∈ range (p + 1), tauB b w m n j s * T n m

theorem ext_lin (a : ℤ → ℕ → ℕ → ℂ) (hn : ∀ m n j, a (-m) n j = a m n j) (hc : ∀ m n j, starRingEnd ℂ (a m n j) = a m n j)
    (p : ℕ) (T : Coef) (n : ℕ) (m : ℤ) :
    ext (fun n m => ∑ j ∈ range (p + 1), a m n j * T j m) n m = ∑ j ∈ range (p + 1), a m n j * ext T j m := by
  by_cases h : 0 ≤ m
  · obtain ⟨k, rfl⟩ := Int.eq_ofNat_of_zero_le h
    simp only [Harm.ext, if_pos h, Int.toNat_natCast, mul_sum]
    exact sum_congr rfl fun j _ => by ring
  · simp only [Harm.ext, if_neg h, map_sum, map_mul, hc]
    refine sum_congr rfl fun j _ => ?_
    rw [Int.toNat_of_nonneg (by omega), hn]

theorem ext_shM (b : ℕ → ℂ) (hb : ∀ i, starRingEnd ℂ (b i) = b i) (w : ℂ) (hw : starRingEnd ℂ w = w) (p : ℕ) (s : ℝ) (T : Coef)
    (n : ℕ) (m : ℤ) : ext (shM b w p s T) n m = ∑ j ∈ range (p + 1), tauB b w m n j s * ext T j m :=
  ext_lin (fun m n j => tauB b w m n j s) (fun m n j => tauB_neg b w m n j s) (fun m n j => tauB_conj b hb w hw m n j s) p T n m

theorem ext_shL (b : ℕ → ℂ) (hb : ∀ i, starRingEnd ℂ (b i) = b i) (w : ℂ) (hw : starRingEnd ℂ w = w) (p : ℕ) (s : ℝ) (T : Coef)
    (j : ℕ) (m : ℤ) : ext (shL b w p s T) j m = ∑ n ∈ range (p + 1), tauB b w m n j s * ext T n m :=
  ext_lin (fun m n j => tauB b w m j n s) (fun m n j => tauB_neg b w m j n s) (fun m n j => tauB_conj b hb w hw m j n s) p T j m

theorem shM_proper (b : ℕ → ℂ) (hb : ∀ i, starRingEnd ℂ (b i) = b i) (w : ℂ) (hw : starRingEnd ℂ w = w) (p : ℕ) (s : ℝ) (T : Coef)
    (hT : Proper T) : Proper (shM b w p s T) := by
  intro n
  rw [← Complex.conj_eq_iff_im, shM, map_sum]
  refine sum_congr rfl fun j _ => ?_
  rw [map_mul, tauB_conj b hb w hw, Complex.conj_eq_iff_im.2 (hT j)]

theorem shL_proper (b : ℕ → ℂ) (hb : ∀ i, starRingEnd ℂ (b i) = b i) (w : ℂ) (hw : starRingEnd ℂ w = w) (p : ℕ) (s : ℝ) (T : Coef)
    (hT : Proper T) : Proper (shL b w p s T) := by
  intro n
  rw [← Complex.conj_eq_iff_im, shL, map_sum]
  refine sum_congr rfl fun j _ => ?_
  rw [map_mul, tauB_conj b hb w hw, Complex.conj_eq_iff_im.2 (hT j)]

theorem sum_widen (n p : ℕ) (h : n ≤ p) (f : ℤ → ℂ) (hf : ∀ m : ℤ, (n : ℤ) < |m| → f m = 0) :
    ∑ m ∈ Icc (-(n : ℤ)) n, f m = ∑ m ∈ Icc (-(p : ℤ)) p, f m := by
  refine sum_subset (Icc_subset_Icc (by omega) (by omega)) fun m _ hm => hf m ?_
  rw [mem_Icc, not_and_or] at hm
  rw [lt_abs]; omega

theorem nrm_out (v : Point ℝ) (n : ℕ) (m : ℤ) (h : (n : ℤ) < |m|) : nrm v n m = 0 := by
  rw [nrm, harP_out _ _ _ h, mul_zero]

theorem nrm_norm_neg (v : Point ℝ) (n : ℕ) (m : ℤ) : ‖nrm v n (-m)‖ = ‖nrm v n m‖ := by
  have h := congrArg norm (nrm_conj v n m)
  rw [RCLike.norm_conj, norm_mul] at h
  have e : ‖((powM1 m : ℝ) : ℂ)‖ = 1 := by
    rw [Complex.norm_real]; unfold powM1; split <;> simp
  rw [h]; rw [e, one_mul]

/-- A sum over the coefficients of one degree. -/
theorem Bd.le {C : Coef} {j : ℕ} {B : ℝ} (h : Bd C j B) (N : ℕ) (v : Point ℝ) (y : ℤ → ℂ) (c : ℝ) (hc : 0 ≤ c)
    (hy : ∀ m : ℤ, |m| ≤ j → ‖y m‖ ≤ c * ‖nrm v N m‖) : ‖∑ m ∈ Icc (-(j : ℤ)) j, ext C j m * y m‖ ≤ B * (c * v.norm ^ N) := by
  refine (h.2 y).trans (mul_le_mul_of_nonneg_left ?_ h.1)
  refine Real.sqrt_le_iff.2 ⟨mul_nonneg hc (pow_nonneg (norm_nonneg' v) N), ?_⟩
  calc ∑ m ∈ Icc (-(j : ℤ)) j, ‖y m‖ ^ 2 ≤ ∑ m ∈ Icc (-(j : ℤ)) j, c ^ 2 * ‖nrm v N m‖ ^ 2 := by
        refine sum_le_sum fun m hm => ?_
        rw [mem_Icc] at hm
        rw [← mul_pow]
        exact pow_le_pow_left₀ (norm_nonneg _) (hy m (abs_le.2 hm)) 2
    _ ≤ ∑ m ∈ Icc (-(N : ℤ)) N, c ^ 2 * ‖nrm v N m‖ ^ 2 := by
        have e : ∑ m ∈ Icc (-(N : ℤ)) N, c ^ 2 * ‖nrm v N m‖ ^ 2 = ∑ m ∈ Icc (-(max j N : ℤ)) (max j N), c ^ 2 * ‖nrm v N m‖ ^ 2 := by
          refine sum_subset (Icc_subset_Icc (by omega) (by omega)) fun m _ hm => ?_
          rw [mem_Icc, not_and_or] at hm
          rw [nrm_out _ _ _ (by rw [lt_abs]; omega)]; simp
        rw [e]
        exact sum_le_sum_of_subset_of_nonneg (Icc_subset_Icc (by omega) (by omega)) fun _ _ _ => by positivity
    _ = c ^ 2 * ∑ m ∈ Icc (-(N : ℤ)) N, ‖nrm v N m‖ ^ 2 := (mul_sum ..).symm
    _ ≤ c ^ 2 * (v.norm ^ N) ^ 2 := by gcongr; exact nrm_sq_sum v N
    _ = _ := by rw [mul_pow]

theorem Bd.form {C : Coef} {n : ℕ} {B : ℝ} (h : Bd C n B) (v : Point ℝ) : ‖form C v n‖ ≤ B * v.norm ^ n := by
  have := Bd.le h n v (fun m => starRingEnd ℂ (nrm v n m)) 1 zero_le_one (fun m _ => by rw [RCLike.norm_conj, one_mul])
  rwa [one_mul] at this

/-! ### Multipole expansions -/

/-- The field of a multipole expansion. -/
def fieldM (κ : ℂ) (p : ℕ) (C : Coef) (v : Point ℝ) : ℂ := ∑ n ∈ range (p + 1), ffun κ n v.norm * form C v n

/-- The field of the shifted expansion at a point, and on the way to the other centre. -/
def pathM (κ : ℂ) (p : ℕ) (T : Coef) (s : ℝ) (v : Point ℝ) : ℂ :=
  ∑ j ∈ range (p + 1), ∑ m ∈ Icc (-(j : ℤ)) j, ext T j m * ((powM1 m : ℂ) * ∑ n ∈ range (p + 1), tau (κ ^ 2) (-m) n j s * Kh κ (-m) n v)

theorem fieldM_eq (κ : ℂ) (p : ℕ) (C : Coef) (v : Point ℝ) :
    fieldM κ p C v = ∑ n ∈ range (p + 1), ∑ m ∈ Icc (-(n : ℤ)) n, ext C n m * ((powM1 m : ℂ) * Kh κ (-m) n v) := by
  rw [fieldM]
  refine sum_congr rfl fun n _ => ?_
  rw [form, mul_sum]
  refine sum_congr rfl fun m _ => ?_
  rw [nrm_conj, Kh_eq]; ring

theorem pathM_zero (κ : ℂ) (p : ℕ) (T : Coef) (v : Point ℝ) : pathM κ p T 0 v = fieldM κ p T v := by
  rw [fieldM_eq, pathM]
  refine sum_congr rfl fun j hj => sum_congr rfl fun m hm => ?_
  rw [mem_Icc] at hm
  congr 2
  rw [sum_eq_single j]
  · rw [tau_zero _ _ _ _ (by rw [abs_neg]; exact abs_le.2 hm), if_pos rfl, one_mul]
  · intro n _ hn
    rw [tau_zero _ _ _ _ (by rw [abs_neg]; exact abs_le.2 hm), if_neg hn, zero_mul]
  · intro h; exact absurd hj h

theorem fieldM_shM (κ : ℂ) (hw : starRingEnd ℂ (κ ^ 2) = κ ^ 2) (p : ℕ) (T : Coef) (s : ℝ)
    (hb : ∀ i, starRingEnd ℂ (fn (κ ^ 2) i s) = fn (κ ^ 2) i s) (v : Point ℝ) :
    fieldM κ p (shM (fun i => fn (κ ^ 2) i s) (κ ^ 2) p s T) v = pathM κ p T s v := by
  rw [fieldM_eq, pathM]
  have e1 : ∀ n ∈ range (p + 1), ∑ m ∈ Icc (-(n : ℤ)) n, ext (shM (fun i => fn (κ ^ 2) i s) (κ ^ 2) p s T) n m * ((powM1 m : ℂ) * Kh κ (-m) n v) =
      ∑ m ∈ Icc (-(p : ℤ)) p, ∑ j ∈ range (p + 1), tau (κ ^ 2) (-m) n j s * ext T j m * ((powM1 m : ℂ) * Kh κ (-m) n v) := by
    intro n hn
    rw [mem_range] at hn
    rw [sum_widen n p (by omega)]
    · refine sum_congr rfl fun m _ => ?_
      rw [ext_shM _ hb _ hw, sum_mul]
      exact sum_congr rfl fun j _ => by rw [tau, tauB_neg]
    · intro m hm
      rw [Kh_eq, nrm_out _ _ _ (by rwa [abs_neg])]; simp
  have e2 : ∀ j ∈ range (p + 1), ∑ m ∈ Icc (-(j : ℤ)) j, ext T j m * ((powM1 m : ℂ) * ∑ n ∈ range (p + 1), tau (κ ^ 2) (-m) n j s * Kh κ (-m) n v) =
      ∑ m ∈ Icc (-(p : ℤ)) p, ∑ n ∈ range (p + 1), tau (κ ^ 2) (-m) n j s * ext T j m * ((powM1 m : ℂ) * Kh κ (-m) n v) := by
    intro j hj
    rw [mem_range] at hj
    rw [sum_widen j p (by omega)]
    · refine sum_congr rfl fun m _ => ?_
      rw [mul_sum, mul_sum]
      exact sum_congr rfl fun n _ => by ring
    · intro m hm
      rw [sum_eq_zero, mul_zero, mul_zero]
      intro n _
      rw [tau, tauB_low _ _ _ _ _ _ (by rwa [abs_neg]), zero_mul]
  rw [sum_congr rfl e1, sum_congr rfl e2, sum_comm]
  conv_rhs => rw [sum_comm]
  refine sum_congr rfl fun m _ => sum_comm

theorem ffun_le (κ : ℂ) (n : ℕ) (v : Point ℝ) (G : ℝ) (hv : 0 < v.norm) (hG : Real.exp ((‖κ‖ - κ.re) * v.norm) ≤ G) :
    ‖ffun κ n v.norm‖ * v.norm ^ n ≤ G / v.norm ^ (n + 1) := by
  have h := ffun_norm_le κ n v.norm hv
  calc ‖ffun κ n v.norm‖ * v.norm ^ n ≤ G / v.norm ^ (2 * n + 1) * v.norm ^ n := by gcongr; exact h.trans (by gcongr)
    _ = _ := by rw [show 2 * n + 1 = n + (n + 1) by ring, pow_add]; field_simp

theorem gr_quot (m : ℤ) (p : ℕ) (h : |m| ≤ p) : gr m p / ((2 * p + 1) * (2 * p + 3)) ≤ 1 / 3 := by
  have := gr_le m p h
  have hp : (0 : ℝ) ≤ p := Nat.cast_nonneg p
  rw [div_le_div_iff₀ (by positivity) (by norm_num)]
  nlinarith

theorem sum_choose_le (R s : ℝ) (hR : 0 ≤ R) (hs : 0 ≤ s) (p N : ℕ) (h : p ≤ N) :
    ∑ j ∈ range (p + 1), R ^ j * (N.choose j * s ^ (N - j)) ≤ (R + s) ^ N := by
  rw [add_pow]
  refine (sum_le_sum_of_subset_of_nonneg (range_subset_range.2 (by omega : p + 1 ≤ N + 1)) fun _ _ _ => by positivity).trans
    (sum_le_sum fun j _ => le_of_eq (by ring))

/-- **The truncated translation of a multipole expansion.** -/
theorem shiftM_error (κ : ℂ) (hκ : κ ≠ 0) (hw : starRingEnd ℂ (κ ^ 2) = κ ^ 2) (hb : ∀ i (s : ℝ), starRingEnd ℂ (fn (κ ^ 2) i s) = fn (κ ^ 2) i s)
    (p : ℕ) (T : Coef) (μ R : ℝ) (hR : 0 ≤ R) (hT : ∀ j ≤ p, Bd T j (μ * R ^ j)) (ρ : ℝ) (v : Point ℝ) (η d G : ℝ) (hd : 0 < d)
    (hseg : ∀ s ∈ Set.uIcc 0 ρ, d ≤ (addz (s - ρ) v).norm ∧ R + |s| ≤ η * (addz (s - ρ) v).norm ∧
      Real.exp ((‖κ‖ - κ.re) * (addz (s - ρ) v).norm) ≤ G) :
    ‖fieldM κ p (shM (fun i => fn (κ ^ 2) i ρ) (κ ^ 2) p ρ T) v - fieldM κ p T (addz (-ρ) v)‖ ≤
      |ρ| * (μ * G * Real.exp (‖κ‖ ^ 2 * ρ ^ 2 / 2) * (‖κ‖ ^ 2 / 3 * η ^ (p + 1) + (p + 1) / d ^ 2 * η ^ p)) := by
  have hμ : 0 ≤ μ := by have := (hT 0 (Nat.zero_le _)).1; simpa using this
  rw [fieldM_shM κ hw p T ρ (fun i => hb i ρ), ← pathM_zero]
  have hder : ∀ s ∈ Set.uIcc 0 ρ, HasDerivAt (fun s : ℝ => pathM κ p T s (addz (s - ρ) v))
      (∑ j ∈ range (p + 1), ∑ m ∈ Icc (-(j : ℤ)) j, ext T j m * ((powM1 m : ℂ) *
        (κ ^ 2 * ((gr (-m) p / ((2 * p + 1) * (2 * p + 3)) : ℝ) : ℂ) * tau (κ ^ 2) (-m) (p + 1) j s * Kh κ (-m) p (addz (s - ρ) v) -
          gr (-m) p * tau (κ ^ 2) (-m) p j s * Kh κ (-m) (p + 1) (addz (s - ρ) v)))) s := by
    intro s hs
    refine HasDerivAt.fun_sum fun j hj => HasDerivAt.fun_sum fun m hm => ?_
    rw [mem_range] at hj
    rw [mem_Icc] at hm
    have hm' : |-m| ≤ p := by rw [abs_neg, abs_le]; omega
    exact ((sumK_hasDeriv κ hκ (-m) j p hm' ρ s v (lt_of_lt_of_le hd (hseg s hs).1).ne').const_mul _).const_mul _
  have hbound : ∀ s ∈ Set.uIcc 0 ρ, ‖∑ j ∈ range (p + 1), ∑ m ∈ Icc (-(j : ℤ)) j, ext T j m * ((powM1 m : ℂ) *
        (κ ^ 2 * ((gr (-m) p / ((2 * p + 1) * (2 * p + 3)) : ℝ) : ℂ) * tau (κ ^ 2) (-m) (p + 1) j s * Kh κ (-m) p (addz (s - ρ) v) -
          gr (-m) p * tau (κ ^ 2) (-m) p j s * Kh κ (-m) (p + 1) (addz (s - ρ) v)))‖ ≤
      μ * G * Real.exp (‖κ‖ ^ 2 * ρ ^ 2 / 2) * (‖κ‖ ^ 2 / 3 * η ^ (p + 1) + (p + 1) / d ^ 2 * η ^ p) := by
    intro s hs
    obtain ⟨hd', hη, hG⟩ := hseg s hs
    set u := addz (s - ρ) v with hu
    have hu0 : 0 < u.norm := lt_of_lt_of_le hd hd'
    have hG0 : 0 ≤ G := (Real.exp_pos _).le.trans hG
    have hη0 : 0 ≤ η := by
      by_contra h
      push Not at h
      have := mul_neg_of_neg_of_pos h hu0
      have := abs_nonneg s
      linarith
    have hsρ : s ^ 2 ≤ ρ ^ 2 := by
      rw [sq_le_sq]
      have := Set.abs_sub_left_of_mem_uIcc hs
      simpa using this
    have hexp : Real.exp (‖κ ^ 2‖ * s ^ 2 / 2) ≤ Real.exp (‖κ‖ ^ 2 * ρ ^ 2 / 2) := by
      rw [norm_pow]; gcongr
    set X := Real.exp (‖κ‖ ^ 2 * ρ ^ 2 / 2) with hX
    have hX0 : 0 < X := Real.exp_pos _
    have hpm : ∀ m : ℤ, ‖((powM1 m : ℝ) : ℂ)‖ = 1 := fun m => by
      rw [Complex.norm_real]; unfold powM1; split <;> simp
    have key : ∀ j ∈ range (p + 1), ‖∑ m ∈ Icc (-(j : ℤ)) j, ext T j m * ((powM1 m : ℂ) *
        (κ ^ 2 * ((gr (-m) p / ((2 * p + 1) * (2 * p + 3)) : ℝ) : ℂ) * tau (κ ^ 2) (-m) (p + 1) j s * Kh κ (-m) p u -
          gr (-m) p * tau (κ ^ 2) (-m) p j s * Kh κ (-m) (p + 1) u))‖ ≤
        μ * R ^ j * (‖κ‖ ^ 2 / 3 * (X * ((p + 1).choose j * |s| ^ (p + 1 - j))) * (G / u.norm ^ (p + 1))) +
          μ * R ^ j * ((p + 1) * (X * (p.choose j * |s| ^ (p - j))) * (G / u.norm ^ (p + 2))) := by
      intro j hj
      rw [mem_range] at hj
      have e : ∑ m ∈ Icc (-(j : ℤ)) j, ext T j m * ((powM1 m : ℂ) *
        (κ ^ 2 * ((gr (-m) p / ((2 * p + 1) * (2 * p + 3)) : ℝ) : ℂ) * tau (κ ^ 2) (-m) (p + 1) j s * Kh κ (-m) p u -
          gr (-m) p * tau (κ ^ 2) (-m) p j s * Kh κ (-m) (p + 1) u)) =
          (∑ m ∈ Icc (-(j : ℤ)) j, ext T j m * ((powM1 m : ℂ) *
            (κ ^ 2 * ((gr (-m) p / ((2 * p + 1) * (2 * p + 3)) : ℝ) : ℂ) * tau (κ ^ 2) (-m) (p + 1) j s * Kh κ (-m) p u))) -
          ∑ m ∈ Icc (-(j : ℤ)) j, ext T j m * ((powM1 m : ℂ) * (gr (-m) p * tau (κ ^ 2) (-m) p j s * Kh κ (-m) (p + 1) u)) := by
        rw [← sum_sub_distrib]; exact sum_congr rfl fun m _ => by ring
      rw [e]
      refine (norm_sub_le _ _).trans (add_le_add ?_ ?_)
      · refine (Bd.le (hT j (by omega)) p u _ (‖κ‖ ^ 2 / 3 * (X * ((p + 1).choose j * |s| ^ (p + 1 - j))) * ‖ffun κ p u.norm‖)
          (by positivity) ?_).trans ?_
        · intro m hm
          have hm' : |-m| ≤ p := by rw [abs_neg]; omega
          have ht := (tau_left (κ ^ 2) (-m) (p + 1) j s (by rwa [abs_neg]) (by omega)).trans (mul_le_mul_of_nonneg_right hexp (by positivity))
          have hg := gr_quot (-m) p hm'
          have hg0 : 0 ≤ gr (-m) p / ((2 * p + 1) * (2 * p + 3)) := div_nonneg (gr_nonneg _ _) (by positivity)
          rw [norm_mul, hpm, one_mul, norm_mul, norm_mul, norm_mul, Kh_eq, norm_mul, nrm_norm_neg, Complex.norm_real,
            Real.norm_of_nonneg hg0, norm_pow]
          calc ‖κ‖ ^ 2 * (gr (-m) p / ((2 * p + 1) * (2 * p + 3))) * ‖tau (κ ^ 2) (-m) (p + 1) j s‖ * (‖ffun κ p u.norm‖ * ‖nrm u p m‖)
              ≤ ‖κ‖ ^ 2 * (1 / 3) * (X * ((p + 1).choose j * |s| ^ (p + 1 - j))) * (‖ffun κ p u.norm‖ * ‖nrm u p m‖) := by gcongr
            _ = _ := by ring
        · have := ffun_le κ p u G hu0 hG
          rw [mul_assoc _ ‖ffun κ p u.norm‖]
          have hμR : 0 ≤ μ * R ^ j := by positivity
          gcongr
      · refine (Bd.le (hT j (by omega)) (p + 1) u _ ((p + 1) * (X * (p.choose j * |s| ^ (p - j))) * ‖ffun κ (p + 1) u.norm‖)
          (by positivity) ?_).trans ?_
        · intro m hm
          have hm' : |-m| ≤ p := by rw [abs_neg]; omega
          have ht := (tau_left (κ ^ 2) (-m) p j s (by rwa [abs_neg]) (by omega)).trans (mul_le_mul_of_nonneg_right hexp (by positivity))
          have hg := gr_le (-m) p hm'
          have hg0 := gr_nonneg (-m) p
          rw [norm_mul, hpm, one_mul, norm_mul, norm_mul, Kh_eq, norm_mul, nrm_norm_neg, Complex.norm_real,
            Real.norm_of_nonneg hg0]
          calc gr (-m) p * ‖tau (κ ^ 2) (-m) p j s‖ * (‖ffun κ (p + 1) u.norm‖ * ‖nrm u (p + 1) m‖)
              ≤ (p + 1) * (X * (p.choose j * |s| ^ (p - j))) * (‖ffun κ (p + 1) u.norm‖ * ‖nrm u (p + 1) m‖) := by gcongr
            _ = _ := by ring
        · have := ffun_le κ (p + 1) u G hu0 hG
          rw [mul_assoc _ ‖ffun κ (p + 1) u.norm‖]
          have hμR : 0 ≤ μ * R ^ j := by positivity
          gcongr
    refine (norm_sum_le_of_le _ key).trans ?_
    have hq : ∀ N, (R + |s|) ^ N / u.norm ^ N ≤ η ^ N := fun N => by
      rw [← div_pow]
      refine pow_le_pow_left₀ (by positivity) ?_ N
      rwa [div_le_iff₀ hu0]
    rw [sum_add_distrib]
    have h1 := sum_choose_le R |s| hR (abs_nonneg s) p (p + 1) (by omega)
    have h2 := sum_choose_le R |s| hR (abs_nonneg s) p p le_rfl
    calc _ = μ * G * X * (‖κ‖ ^ 2 / 3 * ((∑ j ∈ range (p + 1), R ^ j * ((p + 1).choose j * |s| ^ (p + 1 - j))) / u.norm ^ (p + 1))) +
          μ * G * X * ((p + 1) / u.norm ^ 2 * ((∑ j ∈ range (p + 1), R ^ j * (p.choose j * |s| ^ (p - j))) / u.norm ^ p)) := by
          congr 1
          · rw [sum_div, mul_sum, mul_sum]; exact sum_congr rfl fun j _ => by ring
          · rw [sum_div, mul_sum, mul_sum]
            refine sum_congr rfl fun j _ => ?_
            rw [show p + 2 = 2 + p by ring, pow_add]; field_simp
      _ ≤ μ * G * X * (‖κ‖ ^ 2 / 3 * ((R + |s|) ^ (p + 1) / u.norm ^ (p + 1))) +
          μ * G * X * ((p + 1) / u.norm ^ 2 * ((R + |s|) ^ p / u.norm ^ p)) := by gcongr
      _ ≤ μ * G * X * (‖κ‖ ^ 2 / 3 * η ^ (p + 1)) + μ * G * X * ((p + 1) / d ^ 2 * η ^ p) := by
          have := hq p
          have := hq (p + 1)
          gcongr
      _ = _ := by ring
  have := Convex.norm_image_sub_le_of_norm_hasDerivWithin_le (fun s hs => (hder s hs).hasDerivWithinAt) hbound
    (convex_uIcc 0 ρ) Set.left_mem_uIcc Set.right_mem_uIcc
  simp only [sub_self, zero_sub, sub_zero] at this
  have ez : addz 0 v = v := by simp [addz]
  rw [ez, Real.norm_eq_abs, mul_comm] at this
  exact this

end
end Dashmm.Wave
