import Verif.Spec.HelmPlane
import Verif.Proofs.YukRule
import Verif.Proofs.HelmTrans

/-!
# The plane waves of the Helmholtz kernel: Legendre functions, harmonics in the direction of a wave
-/

namespace Dashmm.Helm

open Harm Lap
open Complex (I)

noncomputable section

/-! ### The Legendre functions of the code -/

theorem dir_diag (σ ζ s : ℂ) (D : ℕ → ℂ) (hD0 : D 0 = 1) (hD : ∀ m : ℕ, D (m + 1) = -(D m * s * σ * (2 * m + 1))) (m : ℕ) :
    (-1) ^ m * D m = s ^ m * (((2 * m).factorial : ℂ) * har σ σ ζ m m) := by
  rw [har_diag]
  induction m with
  | zero => simp [hD0]
  | succ m ih =>
    have hf : (m.factorial : ℂ) ≠ 0 := by exact_mod_cast m.factorial_ne_zero
    have hm : ((m : ℂ) + 1) ≠ 0 := by exact_mod_cast Nat.succ_ne_zero m
    rw [hD, show 2 * (m + 1) = 2 * m + 1 + 1 by ring, Nat.factorial_succ (2 * m + 1), Nat.factorial_succ (2 * m),
      Nat.factorial_succ m]
    push_cast
    rw [pow_succ, pow_succ, pow_succ]
    field_simp at ih ⊢
    linear_combination (2 * (m : ℂ) + 1) * ((m : ℂ) + 1) * 2 * σ * s * ih

theorem dir_gen (σ ζ s : ℂ) (hq : ζ ^ 2 + σ * σ = -1) (D : ℕ → ℂ) (hD0 : D 0 = 1) (hD : ∀ m : ℕ, D (m + 1) = -(D m * s * σ * (2 * m + 1)))
    (m : ℕ) (Q : ℕ → ℂ) (h0 : Q 0 = D m) (h1 : Q 1 = (2 * m + 1) * (s * ζ) * D m)
    (h2 : ∀ k : ℕ, Q (k + 2) = ((2 * (m + k + 2) - 1) * (s * ζ) * Q (k + 1) + (m + k + 2 + m - 1) * s ^ 2 * Q k) / (k + 2)) (k : ℕ) :
    (-1) ^ m * Q k = s ^ (m + k) * (((2 * m + k).factorial : ℂ) * har σ σ ζ (m + k) m) := by
  have hd := dir_diag σ ζ s D hD0 hD m
  induction k using Nat.twoStepInduction with
  | zero => rw [h0]; simpa using hd
  | one =>
    rw [h1, har_offdiag, Nat.factorial_succ]
    push_cast
    rw [pow_succ]
    linear_combination s * ζ * (2 * m + 1) * hd
  | more k i0 i1 =>
    have h3 := har_three σ σ ζ (m + k) m
    rw [hq] at h3
    rw [h2]
    rw [show 2 * m + (k + 2) = 2 * m + k + 1 + 1 by ring, Nat.factorial_succ (2 * m + k + 1), Nat.factorial_succ (2 * m + k)]
    rw [show 2 * m + (k + 1) = 2 * m + k + 1 by ring, Nat.factorial_succ (2 * m + k)] at i1
    rw [show m + (k + 2) = m + k + 2 by ring]
    rw [show m + (k + 1) = m + k + 1 by ring] at i1
    have hk2 : ((k : ℂ) + 2) ≠ 0 := by exact_mod_cast Nat.succ_ne_zero (k + 1)
    push_cast at *
    generalize Q k = A at i0 ⊢
    generalize Q (k + 1) = B at i1 ⊢
    rw [show m + k + 2 = m + k + 1 + 1 by ring, pow_succ s (m + k + 1), pow_succ s (m + k)] at *
    generalize har σ σ ζ (m + k) m = H0 at *
    generalize har σ σ ζ (m + k + 1) m = H1 at *
    generalize har σ σ ζ (m + k + 1 + 1) m = H2 at *
    generalize (-1 : ℂ) ^ m = i at *
    field_simp
    linear_combination (2 * ((m : ℂ) + k + 2) - 1) * ζ * s * i1 + ((m : ℂ) + k + 2 + m - 1) * s ^ 2 * i0 -
      s ^ (m + k) * s ^ 2 * ((2 * m + k).factorial : ℂ) * (2 * m + k + 1) * h3

/-- The numbers `Q` are, up to factors, the harmonics of the direction `(σ, 0, ζ)`. -/
def IsDir (σ ζ s : ℂ) (Q : ℕ → ℕ → ℂ) : Prop :=
  ∀ m k : ℕ, (-1) ^ m * Q (m + k) m = s ^ (m + k) * (((2 * m + k).factorial : ℂ) * har σ σ ζ (m + k) m)

theorem propP_dir (θ s : ℝ) (h0 : 0 ≤ Real.sin θ) :
    IsDir (-I * Real.sin θ) (-I * Real.cos θ) s (propP (Real.cos θ) s) := by
  intro m k
  have hu : √(1 - Real.cos θ * Real.cos θ) = Real.sin θ := by
    rw [show 1 - Real.cos θ * Real.cos θ = Real.sin θ ^ 2 by linear_combination -Real.sin_sq_add_cos_sq θ, Real.sqrt_sq h0]
  have hq : (-I * (Real.cos θ : ℂ)) ^ 2 + (-I * (Real.sin θ : ℂ)) * (-I * (Real.sin θ : ℂ)) = -1 := by
    have h : ((Real.sin θ : ℝ) : ℂ) ^ 2 + ((Real.cos θ : ℝ) : ℂ) ^ 2 = 1 := by exact_mod_cast Real.sin_sq_add_cos_sq θ
    linear_combination (((Real.sin θ : ℝ) : ℂ) ^ 2 + ((Real.cos θ : ℝ) : ℂ) ^ 2) * Complex.I_sq - h
  rw [propP, hu, Nat.add_sub_cancel_left]
  refine dir_gen _ _ s hq (propDiag (Real.sin θ) (s * I)) rfl (fun i => ?_) m _ rfl ?_ (fun i => ?_) k
  · rw [propDiag]; push_cast; ring
  · rw [propCol]; ring
  · rw [propCol]; push_cast; ring

theorem evanP_dir (X s : ℝ) (hs : 0 ≤ s) :
    IsDir (-I * √(1 + X * X)) X s (fun n m => I ^ m * (evanP X s n m : ℂ)) := by
  intro m k
  have hu : √(s * s + s * X * (s * X)) = s * √(1 + X * X) := by
    rw [show s * s + s * X * (s * X) = s ^ 2 * (1 + X * X) by ring, Real.sqrt_mul (sq_nonneg s), Real.sqrt_sq hs]
  have hq : (X : ℂ) ^ 2 + (-I * (√(1 + X * X) : ℝ)) * (-I * (√(1 + X * X) : ℝ)) = -1 := by
    have h := Real.mul_self_sqrt (by nlinarith : 0 ≤ 1 + X * X)
    have h' : ((√(1 + X * X) : ℝ) : ℂ) * (√(1 + X * X) : ℝ) = 1 + X * X := by exact_mod_cast h
    linear_combination (-1 : ℂ) * h' + ((√(1 + X * X) : ℝ) : ℂ) ^ 2 * Complex.I_sq
  simp only [evanP, hu, Nat.add_sub_cancel_left]
  refine dir_gen _ _ s hq (fun i => I ^ i * (evanDiag (s * √(1 + X * X)) i : ℂ)) (by simp [evanDiag]) (fun i => ?_) m
    (fun k => I ^ m * (evanCol (s * √(1 + X * X)) (s * X) (s * s) m k : ℂ)) rfl ?_ (fun i => ?_) k
  · simp only [evanDiag]; push_cast; ring
  · simp only [evanCol]; push_cast; ring
  · simp only [evanCol]; push_cast; ring

/-! ### Waves -/

/-- Harmonics of the direction of a wave. -/
def hw (σ ζ : ℂ) (n : ℕ) (m : ℤ) : ℂ := (((sf (n - m) * sf (n + m)) ^ 2 : ℝ) : ℂ) * har σ σ ζ n m

theorem hw_neg (σ ζ : ℂ) (n : ℕ) (m : ℤ) : hw σ ζ n (-m) = (powM1 m : ℂ) * hw σ ζ n m := by
  have h := Yuk.har_swap σ σ ζ n (-m)
  rw [neg_neg, powM1_neg] at h
  rw [hw, hw, h, show (n : ℤ) - -m = n + m by ring, show (n : ℤ) + -m = n - m by ring, mul_comm (sf (n + m))]
  ring

theorem IsDir.hw {σ ζ s : ℂ} {Q : ℕ → ℕ → ℂ} (h : IsDir σ ζ s Q) (n i : ℕ) (hi : i ≤ n) :
    ((n - i).factorial : ℂ) * Q n i = s ^ n * ((-1) ^ i * hw σ ζ n i) := by
  obtain ⟨k, rfl⟩ : ∃ k, n = i + k := ⟨n - i, by omega⟩
  have h := h i k
  rw [Helm.hw, mul_pow, sf_sq, sf_sq, show (((i + k : ℕ) : ℤ) - i).toNat = k by omega, show (((i + k : ℕ) : ℤ) + i).toNat = 2 * i + k by omega,
    Nat.add_sub_cancel_left]
  push_cast
  linear_combination (k.factorial : ℂ) * (-1) ^ i * h - (k.factorial : ℂ) * Q (i + k) i * neg_one_pow_mul_self i

/-- The term of degree `n` and frequency `m` of the wave of an expansion. -/
def cwv (C : Coef) (α : ℝ) (n : ℕ) (m : ℤ) : ℂ := Harm.ext C n m / ((sf (n - m) * sf (n + m) : ℝ) : ℂ) * Complex.exp (m * α * I)

/-- The wave of an expansion: degrees up to `p`, frequencies up to `f`, weights `a`. -/
def wav (σ ζ : ℂ) (a : ℕ → ℂ) (p f : ℕ) (C : Coef) (α : ℝ) : ℂ :=
  ∑ n ∈ Finset.range (p + 1), a n * ∑ m ∈ Finset.Icc (-(min n f : ℕ) : ℤ) (min n f : ℕ), cwv C α n m * hw σ ζ n m

theorem cwv_reg (v : Point ℝ) (α : ℝ) (n : ℕ) (m : ℤ) : cwv (reg v) α n m = harP v n m * Complex.exp (m * α * I) := by
  have h : ((sf (n - m) * sf (n + m) : ℝ) : ℂ) ≠ 0 := by
    rw [Complex.ofReal_ne_zero]; exact mul_ne_zero (sf_ne _) (sf_ne _)
  rw [cwv, ext_reg, nrm, mul_div_assoc, mul_div_cancel₀ _ h]

theorem cwv_conj (C : Coef) (hC : Proper C) (α : ℝ) (n : ℕ) (m : ℤ) : starRingEnd ℂ (cwv C α n m) = (powM1 m : ℂ) * cwv C α n (-m) := by
  have e2 : starRingEnd ℂ ((m : ℂ) * α * I) = ((-m : ℤ) : ℂ) * α * I := by simp
  rw [cwv, cwv, map_mul, map_div₀, Complex.conj_ofReal, ← Complex.exp_conj, e2, ext_conj C hC,
    show (n : ℤ) - -m = n + m by ring, show (n : ℤ) + -m = n - m by ring, mul_comm (sf (n + m))]
  ring

theorem wav_congr (σ ζ : ℂ) (a : ℕ → ℂ) (p f : ℕ) (C D : Coef) (h : ∀ n m, m ≤ n → C n m = D n m) (α : ℝ) : wav σ ζ a p f C α = wav σ ζ a p f D α := by
  refine Finset.sum_congr rfl fun n _ => congrArg (a n * ·) (Finset.sum_congr rfl fun m hm => ?_)
  have : Harm.ext C n m = Harm.ext D n m := by
    rw [Finset.mem_Icc] at hm
    unfold Harm.ext
    split_ifs
    · rw [h _ _ (by omega)]
    · rw [h _ _ (by omega)]
  rw [cwv, cwv, this]

theorem wav_cmul (σ ζ : ℂ) (b : ℕ → ℝ) (a : ℕ → ℂ) (p f : ℕ) (C : Coef) (α : ℝ) :
    wav σ ζ a p f (fun n m => (b n : ℂ) * C n m) α = wav σ ζ (fun n => a n * b n) p f C α := by
  refine Finset.sum_congr rfl fun n _ => ?_
  rw [mul_assoc]
  refine congrArg (a n * ·) ?_
  rw [Finset.mul_sum]
  refine Finset.sum_congr rfl fun m _ => ?_
  rw [cwv, Yuk.ext_cmul, cwv]; ring

theorem wav_add (σ ζ : ℂ) (a : ℕ → ℂ) (p f : ℕ) (C D : Coef) (α : ℝ) : wav σ ζ a p f (C + D) α = wav σ ζ a p f C α + wav σ ζ a p f D α := by
  unfold wav
  rw [← Finset.sum_add_distrib]
  refine Finset.sum_congr rfl fun n _ => ?_
  rw [← mul_add, ← Finset.sum_add_distrib]
  refine congrArg (a n * ·) (Finset.sum_congr rfl fun m _ => ?_)
  rw [cwv, cwv, cwv, ext_add]; ring

theorem wav_half (σ ζ : ℂ) (a : ℕ → ℂ) (p f : ℕ) (C : Coef) (α : ℝ) : wav σ ζ a p f C α =
    (∑ n ∈ Finset.range (p + 1), a n * (cwv C α n 0 * hw σ ζ n 0)) +
      ∑ m ∈ Finset.Icc 1 f, ∑ n ∈ Finset.Icc m p, a n * (cwv C α n m * hw σ ζ n m + cwv C α n (-(m : ℤ)) * hw σ ζ n (-(m : ℤ))) := by
  rw [Finset.sum_comm' (t' := Finset.range (p + 1)) (s' := fun n => Finset.Icc 1 (min n f))
    (by intro m n; simp only [Finset.mem_Icc, Finset.mem_range]; omega), ← Finset.sum_add_distrib]
  refine Finset.sum_congr rfl fun n _ => ?_
  rw [sum_sym, mul_add, Finset.mul_sum]

/-- A factor `c` may depend on the parity of the degree. -/
theorem wave_terms {σ ζ s : ℂ} {Q : ℕ → ℕ → ℂ} (h : IsDir σ ζ s Q) (SH : Coef) (α : ℝ) (c : ℂ) (n m : ℕ) (hm : m ≤ n) :
    c * s ^ n * (cwv (Yuk.conv SH) α n m * hw σ ζ n m) = Complex.exp ((m : ℂ) * α * I) * (SH n m * (c * Q n m)) ∧
    (0 < m → c * s ^ n * (cwv (Yuk.conv SH) α n (-(m : ℤ)) * hw σ ζ n (-(m : ℤ))) =
      Complex.exp (-((m : ℂ) * α * I)) * (starRingEnd ℂ (SH n m) * (c * Q n m))) := by
  obtain ⟨e1, e2⟩ := sqf_cast n m hm
  have h1 : (sf ((n : ℤ) - m) : ℂ) ≠ 0 := by exact_mod_cast sf_ne _
  have h2 : (sf ((n : ℤ) + m) : ℂ) ≠ 0 := by exact_mod_cast sf_ne _
  have hf : ((n - m).factorial : ℂ) = (sf ((n : ℤ) - m) : ℂ) * (sf ((n : ℤ) - m) : ℂ) := by
    rw [← Complex.ofReal_mul, sf_mul_self, show ((n : ℤ) - m).toNat = n - m by omega]; simp
  have hw' := h.hw n m hm
  rw [hf] at hw'
  constructor
  · rw [cwv, ext_nat, Yuk.conv, e1, e2]
    push_cast
    field_simp
    generalize Helm.hw σ ζ n m = H at *
    linear_combination (-c * SH n m) * hw'
  · intro hm0
    rw [hw_neg, cpowM1_nat, cwv, ext_neg _ _ _ hm0, Yuk.conv, e1, e2, map_mul, Complex.conj_ofReal,
      show (n : ℤ) - -m = n + m by ring, show (n : ℤ) + -m = n - m by ring,
      show ((-(m : ℤ) : ℤ) : ℂ) * α * I = -((m : ℂ) * α * I) by push_cast; ring]
    push_cast
    field_simp
    generalize Helm.hw σ ζ n m = H at *
    linear_combination (-c * starRingEnd ℂ (SH n m)) * hw'

/-- `Prop(k, j)` for numbers `Q`. -/
theorem propAt_wav (L : Waves.Level) (p : ℕ) {σ ζ s : ℂ} {Q : ℕ → ℕ → ℂ} (h : IsDir σ ζ s Q) (c : ℕ → ℂ) (leg : ℕ → ℕ → ℕ → ℂ)
    (SH : Coef) (k j : ℕ) (hleg : leg k = fun n m => c n * Q n m) (α : ℝ)
    (he : ∀ m, 1 ≤ m → m ≤ L.f k → Yukawa.ealpha L k j m = Complex.exp ((m : ℂ) * α * I)) :
    propAt L p leg SH k j = wav σ ζ (fun n => c n * s ^ n) p (L.f k) (Yuk.conv SH) α := by
  rw [wav_half, propAt, prop0, hleg]
  congr 1
  · refine Finset.sum_congr rfl fun n _ => ?_
    have := (wave_terms h SH α (c n) n 0 (Nat.zero_le _)).1
    rw [Nat.cast_zero, Nat.cast_zero, zero_mul, zero_mul, Complex.exp_zero, one_mul] at this
    exact this.symm
  · refine Finset.sum_congr rfl fun m hm => ?_
    rw [Finset.mem_Icc] at hm
    rw [he m hm.1 hm.2, propPM, Finset.mul_sum, Finset.mul_sum, ← Finset.sum_add_distrib]
    refine Finset.sum_congr rfl fun n hn => ?_
    obtain ⟨t1, t2⟩ := wave_terms h SH α (c n) n m (Finset.mem_Icc.1 hn).1
    rw [mul_add, t1, t2 hm.1, ← Complex.exp_conj]
    congr 3
    simp

theorem evanAt_prop (L : Waves.Level) (p : ℕ) (leg : ℕ → ℕ → ℕ → ℝ) (SH : Coef) (c : ℕ → ℝ) (sgn : ℂ) (k j : ℕ)
    (hs : ∀ m, Yukawa.pz1 p SH (leg k) m + sgn * Yukawa.pz2 p SH (leg k) m = ∑ n ∈ Finset.Icc m p, (c n : ℂ) * (SH n m * (leg k n m : ℂ))) :
    evanAt L p leg SH sgn k j = propAt L p (fun k n m => (c n : ℂ) * (I ^ m * (leg k n m : ℂ))) SH k j := by
  rw [evanAt, propAt, hs, prop0, sum_Icc_zero p 0 _ (by simp)]
  congr 1
  · exact Finset.sum_congr rfl fun n _ => by ring
  · refine Finset.sum_congr rfl fun m _ => ?_
    rw [hs, propPM]
    have e := Complex.add_conj (Yukawa.ealpha L k j m * ∑ n ∈ Finset.Icc m p, (c n : ℂ) * (SH n m * (leg k n m : ℂ)))
    rw [← e, map_mul, map_sum, add_mul, mul_assoc, mul_assoc, Finset.sum_mul, Finset.sum_mul]
    congr 2
    · exact Finset.sum_congr rfl fun n _ => by ring
    · refine Finset.sum_congr rfl fun n _ => ?_
      rw [map_mul, map_mul, Complex.conj_ofReal, Complex.conj_ofReal]; ring

theorem evanAt_wav (L : Waves.Level) (p : ℕ) {σ ζ s : ℂ} (leg : ℕ → ℕ → ℕ → ℝ) (SH : Coef) (k j : ℕ)
    (h : IsDir σ ζ s (fun n m => I ^ m * (leg k n m : ℂ))) (α : ℝ)
    (he : ∀ m, 1 ≤ m → m ≤ L.f k → Yukawa.ealpha L k j m = Complex.exp ((m : ℂ) * α * I)) :
    evanAt L p leg SH 1 k j = wav σ ζ (fun n => s ^ n) p (L.f k) (Yuk.conv SH) α ∧
    evanAt L p leg SH (-1) k j = wav σ ζ (fun n => (((-1) ^ n : ℝ) : ℂ) * s ^ n) p (L.f k) (Yuk.conv SH) α := by
  constructor
  · rw [evanAt_prop L p leg SH (fun _ => 1) 1 k j (by intro m; rw [one_mul, Yuk.pz_add]; simp),
      propAt_wav L p h (fun _ => ((1 : ℝ) : ℂ)) _ SH k j rfl α he]
    simp only [Complex.ofReal_one, one_mul]
  · rw [evanAt_prop L p leg SH (fun n => (-1) ^ n) (-1) k j (by
        intro m
        have := Yuk.pz_sub p SH (leg k) m
        push_cast
        rw [← this]; ring), propAt_wav L p h (fun n => (((-1) ^ n : ℝ) : ℂ)) _ SH k j rfl α he]

/-! ### Conjugates -/

theorem har_conjC (σ ζ : ℂ) : ∀ (n : ℕ) (m : ℤ), starRingEnd ℂ (har σ σ ζ n m) = har (starRingEnd ℂ σ) (starRingEnd ℂ σ) (starRingEnd ℂ ζ) n m
  | 0, m => by
    rw [har_zero, har_zero]; split_ifs <;> simp
  | n + 1, m => by
    rw [har, har, ← har_conjC σ ζ n m, ← har_conjC σ ζ n (m - 1), ← har_conjC σ ζ n (m + 1)]
    simp only [map_mul, map_add, map_sub, map_div₀, map_neg, map_natCast, map_intCast, map_ofNat, map_one]

theorem hw_conj (σ ζ : ℂ) (n : ℕ) (m : ℤ) : starRingEnd ℂ (hw σ ζ n m) = hw (starRingEnd ℂ σ) (starRingEnd ℂ ζ) n m := by
  rw [hw, hw, map_mul, Complex.conj_ofReal, har_conjC]

/-- The conjugate of a propagating wave is the wave of the opposite sources. -/
theorem wav_conj_prop (σ ζ : ℂ) (hσ : starRingEnd ℂ σ = -σ) (hζ : starRingEnd ℂ ζ = -ζ) (a : ℕ → ℝ) (p f : ℕ) (C : Coef) (hC : Proper C) (α : ℝ) :
    starRingEnd ℂ (wav σ ζ (fun n => (a n : ℂ)) p f C α) = wav σ ζ (fun n => (a n : ℂ)) p f (fun n m => (((-1) ^ n : ℝ) : ℂ) * C n m) α := by
  rw [wav_cmul]
  unfold wav
  rw [map_sum]
  refine Finset.sum_congr rfl fun n _ => ?_
  rw [map_mul, Complex.conj_ofReal, map_sum, mul_assoc]
  refine congrArg ((a n : ℂ) * ·) ?_
  rw [← sum_reflect (min n f), Finset.mul_sum]
  refine Finset.sum_congr rfl fun m _ => ?_
  have h1 := har_homog σ σ ζ (-1) n (-m)
  simp only [neg_one_mul] at h1
  rw [map_mul, cwv_conj C hC, hw_conj, hσ, hζ, neg_neg, powM1_neg]
  have h2 : hw (-σ) (-ζ) n (-m) = (-1) ^ n * hw σ ζ n (-m) := by
    rw [hw, hw, h1]; ring
  rw [h2, hw_neg]
  push_cast
  linear_combination (cwv C α n m * (-1) ^ n * hw σ ζ n m) * cpowM1_sq m

/-- The conjugate of an evanescent wave is the wave at the opposite angle. -/
theorem wav_conj_evan (σ ζ : ℂ) (hσ : starRingEnd ℂ σ = -σ) (hζ : starRingEnd ℂ ζ = ζ) (a : ℕ → ℝ) (p f : ℕ) (C : Coef) (hC : Proper C) (α : ℝ) :
    wav σ ζ (fun n => (a n : ℂ)) p f C (α + Real.pi) = starRingEnd ℂ (wav σ ζ (fun n => (a n : ℂ)) p f C α) := by
  unfold wav
  rw [map_sum]
  refine Finset.sum_congr rfl fun n _ => ?_
  rw [map_mul, Complex.conj_ofReal, map_sum]
  refine congrArg ((a n : ℂ) * ·) ?_
  rw [← sum_reflect (min n f)]
  refine Finset.sum_congr rfl fun m _ => ?_
  have hz : ((-1 : ℂ)) ^ m = powM1 m := by
    rcases Int.emod_two_eq_zero_or_one m with h | h
    · rw [powM1, if_neg (by omega), (Int.even_iff.2 (by omega) : Even m).neg_one_zpow]; simp
    · rw [powM1, if_pos (by omega), (Int.odd_iff.2 (by omega) : Odd m).neg_one_zpow]; simp
  have h1 : hw (-σ) ζ n m = (powM1 m : ℂ) * hw σ ζ n m := by
    have := har_phase σ σ ζ (-1) (by norm_num) n m
    rw [show ((-1 : ℂ))⁻¹ = -1 by norm_num, mul_neg_one, hz] at this
    rw [hw, hw, this]; ring
  have h2 : cwv C (α + Real.pi) n (-m) = (powM1 m : ℂ) * cwv C α n (-m) := by
    have : Complex.exp (((-m : ℤ) : ℂ) * ((α + Real.pi : ℝ) : ℂ) * I) = (powM1 m : ℂ) * Complex.exp (((-m : ℤ) : ℂ) * α * I) := by
      rw [show ((-m : ℤ) : ℂ) * ((α + Real.pi : ℝ) : ℂ) * I = ((-m : ℤ) : ℂ) * (Real.pi * I) + ((-m : ℤ) : ℂ) * α * I by
        push_cast; ring, Complex.exp_add, Complex.exp_int_mul, Complex.exp_pi_mul_I, zpow_neg, hz]
      have : ((powM1 m : ℝ) : ℂ)⁻¹ = powM1 m := by
        unfold powM1; split_ifs <;> norm_num
      rw [this]
    rw [cwv, cwv, this]; ring
  rw [map_mul, cwv_conj C hC, hw_conj, hσ, hζ, h1, h2, hw_neg]

/-! ### The terms of a plane wave -/

theorem legC_smul (t c β : ℂ) (n : ℕ) : Yuk.legC (t * c) (t ^ 2 * β) n = t ^ n * Yuk.legC c β n := by
  induction n using Nat.twoStepInduction with
  | zero => simp [Yuk.legC]
  | one => simp [Yuk.legC]
  | more n h0 h1 => rw [Yuk.legC, Yuk.legC, h0, h1]; ring

/-- The terms of a plane wave with cosines `c`. -/
def WaveDir (σ ζ : ℂ) (u : Point ℝ) (c : ℝ → ℂ) : Prop := ∀ (α : ℝ) (n : ℕ),
  ∑ m ∈ Finset.Icc (-(n : ℤ)) n, harP u n m * Complex.exp (m * α * I) * hw σ ζ n m = (-I) ^ n * Yukawa.legendreP (c α) n

theorem travel_dir (θ : ℝ) (u : Point ℝ) (hu : u.norm = 1) :
    WaveDir (-I * Real.sin θ) (-I * Real.cos θ) u (travelCos θ u) := by
  intro α n
  have ha := Yuk.har_addition u α (Real.cos θ) n (Real.sin θ)
  have h1 : ((Real.sin θ : ℝ) : ℂ) ^ 2 + ((Real.cos θ : ℝ) : ℂ) ^ 2 = 1 := by exact_mod_cast Real.sin_sq_add_cos_sq θ
  rw [h1, hu, Complex.ofReal_one, one_pow, one_mul, Yuk.legC_one] at ha
  rw [travelCos, mul_comm (((Real.cos θ : ℝ)) : ℂ), ← ha, Finset.mul_sum]
  refine Finset.sum_congr rfl fun m _ => ?_
  rw [hw, har_homog]; ring

theorem decay_dir (wd x : ℝ) (hw0 : 0 < wd) (u : Point ℝ) (hu : u.norm = 1) :
    WaveDir (-I * √(1 + x / wd * (x / wd))) ((x / wd : ℝ) : ℂ) u (decayCos wd x u) := by
  intro α n
  have ha := Yuk.har_addition u α (x / wd) n (-I * √(1 + x / wd * (x / wd)))
  have hq : √(1 + x / wd * (x / wd)) = √(x * x + wd * wd) / wd := by
    rw [show 1 + x / wd * (x / wd) = (x * x + wd * wd) / wd ^ 2 by field_simp; ring, Real.sqrt_div', Real.sqrt_sq hw0.le]
    positivity
  have h := Real.mul_self_sqrt (by positivity : 0 ≤ 1 + (x / wd) ^ 2)
  have h' : ((√(1 + x / wd * (x / wd)) : ℝ) : ℂ) * (√(1 + x / wd * (x / wd)) : ℝ) = 1 + ((x / wd : ℝ) : ℂ) ^ 2 := by
    rw [← pow_two (x / wd)]; exact_mod_cast h
  have hq2 : (-I * (√(1 + x / wd * (x / wd)) : ℝ)) ^ 2 + ((x / wd : ℝ) : ℂ) ^ 2 = (-I) ^ 2 * 1 := by
    linear_combination (-1 : ℂ) * h' + (((√(1 + x / wd * (x / wd)) : ℝ) : ℂ) ^ 2 - 1) * Complex.I_sq
  have e : -I * (√(1 + x / wd * (x / wd)) : ℝ) * (u.x * Real.cos α + u.y * Real.sin α) + u.z * ((x / wd : ℝ) : ℂ) = -I * decayCos wd x u α := by
    have h0 : (wd : ℂ) ≠ 0 := by exact_mod_cast hw0.ne'
    rw [decayCos, hq]
    push_cast
    field_simp
    linear_combination (u.z * x : ℂ) * Complex.I_sq
  rw [hq2, hu, e, Complex.ofReal_one, one_pow, one_mul, legC_smul, Yuk.legC_one] at ha
  rw [← ha]
  refine Finset.sum_congr rfl fun m _ => ?_
  rw [hw]; ring

theorem cutSeries_wav (p f : ℕ) (b : ℕ → ℝ) {σ ζ : ℂ} {u : Point ℝ} {c : ℝ → ℂ} (h : WaveDir σ ζ u c) (α : ℝ) :
    cutSeries p f b c α = wav σ ζ (fun n => ((2 * n + 1) * b n : ℝ)) p f (reg u) α := by
  set g : ℕ → ℤ → ℂ := fun n m => ((2 * n + 1) * b n : ℝ) * (harP u n m * hw σ ζ n m) with hg
  have hg0 : ∀ (n : ℕ) (m : ℤ), (n : ℤ) < |m| → g n m = 0 := by
    intro n m h
    rw [hg]; simp only
    rw [harP, har_out _ _ _ n m h]; ring
  have h1 : series p b c = fun β : ℝ => ∑ m ∈ Finset.Icc (-(p : ℤ)) p,
      (∑ n ∈ Finset.range (p + 1), g n m) * Complex.exp (m * β * I) := by
    funext β
    unfold series
    simp only [Finset.sum_mul]
    rw [Finset.sum_comm]
    refine Finset.sum_congr rfl fun n hn => ?_
    have hs : Finset.Icc (-(n : ℤ)) n ⊆ Finset.Icc (-(p : ℤ)) p := by
      rw [Finset.mem_range] at hn
      intro m; simp only [Finset.mem_Icc]; omega
    rw [← Finset.sum_subset hs]
    · rw [mul_assoc, ← h β n, Finset.mul_sum]
      refine Finset.sum_congr rfl fun m _ => ?_
      rw [hg]; push_cast; ring
    · intro m _ hm
      rw [hg0, zero_mul]
      rw [Finset.mem_Icc] at hm; rw [lt_abs]; omega
  unfold cutSeries
  rw [h1, fourierCut_trig]
  simp only [Finset.sum_mul]
  rw [Finset.sum_comm]
  unfold wav
  refine Finset.sum_congr rfl fun n hn => ?_
  have hs : Finset.Icc (-(min n f : ℕ) : ℤ) (min n f : ℕ) ⊆ Finset.Icc (-(min p f : ℕ) : ℤ) (min p f : ℕ) := by
    rw [Finset.mem_range] at hn
    intro m; simp only [Finset.mem_Icc]; omega
  rw [← Finset.sum_subset hs, Finset.mul_sum]
  · refine Finset.sum_congr rfl fun m _ => ?_
    rw [cwv_reg, hg]; ring
  · intro m hm' hm
    rw [hg0, zero_mul]
    rw [Finset.mem_Icc] at hm hm'; rw [lt_abs]; omega

/-- What a list of sources leaves in the wave of a direction. -/
theorem sources_wav (F : Point ℝ → ℝ → ℝ → Option Coef) (r : Point ℝ → ℕ → ℝ) (c : Point ℝ) (scale : ℝ)
    (hf : ∀ v q C, F v q scale = some C → ∀ n m, m ≤ n → Yuk.conv C n m = ((q * r v n * (2 * n + 1) : ℝ) : ℂ) * reg (Yuk.dir v) n m)
    (σ ζ : ℂ) (a : ℕ → ℂ) (p fr v : ℕ) (α : ℝ) :
    ∀ (l : List Src) (C : Coef), sumSources F c scale l = some C → wav σ ζ a p fr (Yuk.frameC v (Yuk.conv C)) α =
      (l.map fun s => (s.charge : ℂ) * wav σ ζ (fun n => a n * ((2 * n + 1) * r (s.pos.sub c) n : ℝ)) p fr (reg (turn v (Yuk.dir (s.pos.sub c)))) α).sum
  | [], C, h => by
    rw [sumSources] at h; injection h with h; subst h
    have : Yuk.conv (fun _ _ => 0) = fun n m => (((fun _ => 0 : ℕ → ℝ) n : ℝ) : ℂ) * (0 : Coef) n m := by funext n m; simp [Yuk.conv]
    rw [this, Yuk.frameC_cmul, wav_cmul]
    unfold wav
    simp
  | s :: l, C, h => by
    rw [sumSources] at h
    cases hr : sumSources F c scale l with
    | none => rw [hr] at h; cases h
    | some R =>
      rw [hr] at h
      cases hc : F (s.pos.sub c) s.charge scale with
      | none => rw [hc] at h; cases h
      | some D =>
        rw [hc] at h
        have e : C = fun n m => D n m + R n m := (Option.some.inj h).symm
        have e2 : Yuk.conv C = Yuk.conv D + Yuk.conv R := by
          funext n m; rw [e]; simp only [Yuk.conv, Pi.add_apply]; ring
        rw [e2, Yuk.frameC_add, wav_add, sources_wav F r c scale hf σ ζ a p fr v α l R hr, List.map_cons, List.sum_cons]
        congr 1
        rw [wav_congr σ ζ a p fr _ _ (Yuk.frameC_congr v _ _ (hf _ _ _ hc)),
          Yuk.frameC_cmul v (fun n => s.charge * r (s.pos.sub c) n * (2 * n + 1)), wav_cmul,
          wav_congr σ ζ _ p fr _ _ (Yuk.frameC_reg v _)]
        unfold wav
        rw [Finset.mul_sum]
        refine Finset.sum_congr rfl fun n _ => ?_
        push_cast; ring

end
end Dashmm.Helm
