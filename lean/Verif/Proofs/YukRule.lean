import Verif.Proofs.YukWave
import Verif.Proofs.PlaneKernel
import Verif.Props.Waves

/-!
# The waves of the Yukawa kernel: the terms of a plane wave, frames, sources
-/

namespace Dashmm.Yuk

open Harm Lap
open Complex (I)

noncomputable section

/-! ### Plane waves -/

/-- The weights of the code by the harmonics of the direction of the wave. -/
theorem gw_har (X scale : ℝ) (hX : 1 ≤ X) (n : ℕ) (m : ℤ) (hm : |m| ≤ n) :
    (-I) ^ m * (gw (Yukawa.gt1 X scale) n m.natAbs : ℂ) =
      (scale : ℂ) ^ n * ((((sf (n - m) * sf (n + m)) ^ 2 : ℝ) : ℂ) * har (-I * √(X * X - 1)) (-I * √(X * X - 1)) X n m) := by
  have key : ∀ i : ℕ, i ≤ n → (-I) ^ i * (gw (Yukawa.gt1 X scale) n i : ℂ) =
      (scale : ℂ) ^ n * ((((sf (n - i) * sf (n + i)) ^ 2 : ℝ) : ℂ) * har (-I * √(X * X - 1)) (-I * √(X * X - 1)) X n i) := by
    intro i hi
    obtain ⟨k, rfl⟩ : ∃ k, n = i + k := ⟨n - i, by omega⟩
    have h := gt1_har X scale hX i k
    rw [gw, mul_pow, sf_sq, sf_sq, show (((i + k : ℕ) : ℤ) - i).toNat = k by omega, show (((i + k : ℕ) : ℤ) + i).toNat = 2 * i + k by omega,
      Nat.add_sub_cancel_left]
    push_cast
    linear_combination (k.factorial : ℂ) * h
  rcases le_or_gt 0 m with h | h
  · obtain ⟨i, rfl⟩ := Int.eq_ofNat_of_zero_le h
    rw [Int.natAbs_natCast, zpow_natCast]
    exact key i (by rw [abs_le] at hm; omega)
  · obtain ⟨i, hi⟩ := Int.eq_ofNat_of_zero_le (by omega : 0 ≤ -m)
    obtain rfl : m = -(i : ℤ) := by omega
    have hk := key i (by rw [abs_le] at hm; omega)
    rw [har_swap _ _ _ n (i : ℤ), cpowM1_nat] at hk
    rw [Int.natAbs_neg, Int.natAbs_natCast, zpow_neg, zpow_natCast, ← inv_pow, inv_neg, Complex.inv_I, neg_neg,
      show (n : ℤ) - -(i : ℤ) = n + i by ring, show (n : ℤ) + -(i : ℤ) = n - i by ring, mul_comm (sf (n + i))]
    rw [neg_pow I] at hk
    linear_combination ((-1) ^ i) * hk + ((scale : ℂ) ^ n * ((((sf (n - i) * sf (n + i)) ^ 2 : ℝ) : ℂ) *
      har (-I * √(X * X - 1)) (-I * √(X * X - 1)) X n (-(i : ℤ))) - I ^ i * (gw (Yukawa.gt1 X scale) n i : ℂ)) * neg_one_pow_mul_self i

theorem wave_leg (ld x scale : ℝ) (hld : 0 < ld) (hx : 0 ≤ x) (u : Point ℝ) (hu : u.norm = 1) (α : ℝ) (n : ℕ) :
    ∑ m ∈ Finset.Icc (-(n : ℤ)) n, ct (reg u) α n m * (gw (Yukawa.gt1 (1 + x / ld) scale) n m.natAbs : ℂ) =
      (scale : ℂ) ^ n * Yukawa.legendreP (Yukawa.waveCos ld x u α) n := by
  have hX : 1 ≤ 1 + x / ld := by have := div_nonneg hx hld.le; linarith
  have hq : √((1 + x / ld) * (1 + x / ld) - 1) = √(x * x + 2 * x * ld) / ld := by
    rw [show (1 + x / ld) * (1 + x / ld) - 1 = (x * x + 2 * x * ld) / ld ^ 2 by field_simp; ring, Real.sqrt_div', Real.sqrt_sq hld.le]
    positivity
  have hq2 : (-I * (√((1 + x / ld) * (1 + x / ld) - 1) : ℝ)) ^ 2 + (((1 + x / ld : ℝ)) : ℂ) ^ 2 = 1 := by
    have h := Real.mul_self_sqrt (by nlinarith : 0 ≤ (1 + x / ld) * (1 + x / ld) - 1)
    have h' : ((√((1 + x / ld) * (1 + x / ld) - 1) : ℝ) : ℂ) * (√((1 + x / ld) * (1 + x / ld) - 1) : ℝ) =
        ((1 + x / ld : ℝ) : ℂ) * ((1 + x / ld : ℝ) : ℂ) - 1 := by exact_mod_cast h
    linear_combination (-1 : ℂ) * h' + ((√((1 + x / ld) * (1 + x / ld) - 1) : ℝ) : ℂ) ^ 2 * Complex.I_sq
  have ha := har_addition u α (1 + x / ld) n (-I * (√((1 + x / ld) * (1 + x / ld) - 1) : ℝ))
  rw [hq2, hu] at ha
  rw [← legC_one]
  have e : Yukawa.waveCos ld x u α = -I * (√((1 + x / ld) * (1 + x / ld) - 1) : ℝ) * (u.x * Real.cos α + u.y * Real.sin α) +
      u.z * ((1 + x / ld : ℝ) : ℂ) := by
    have h0 : (ld : ℂ) ≠ 0 := by exact_mod_cast hld.ne'
    rw [Yukawa.waveCos, hq]
    push_cast
    field_simp
    ring
  rw [e, show (1 : ℂ) = ((1 : ℝ) : ℂ) ^ 2 * 1 by norm_num, ← ha, Finset.mul_sum]
  refine Finset.sum_congr rfl fun m hm => ?_
  have hg := gw_har (1 + x / ld) scale hX n m (by rw [abs_le]; exact Finset.mem_Icc.1 hm)
  rw [ct_reg, Harm.wt]
  linear_combination (harP u n m * Complex.exp (m * α * I)) * hg

theorem cutSeries_sig (p f : ℕ) (a : ℕ → ℝ) (ld x scale : ℝ) (hld : 0 < ld) (hx : 0 ≤ x) (u : Point ℝ) (hu : u.norm = 1) (α : ℝ) :
    Yukawa.cutSeries p f (fun n => a n * scale ^ n) ld x u α =
      sig (fun n m => (2 * n + 1) * a n * gw (Yukawa.gt1 (1 + x / ld) scale) n m) p f (reg u) α := by
  set g := Yukawa.gt1 (1 + x / ld) scale
  -- the coefficients of the Fourier series
  set c : ℕ → ℤ → ℂ := fun n m => harP u n m * (-I) ^ m * (((2 * n + 1) * a n * gw g n m.natAbs : ℝ) : ℂ) with hc
  have hc0 : ∀ (n : ℕ) (m : ℤ), (n : ℤ) < |m| → c n m = 0 := by
    intro n m h
    rw [hc]; simp only
    rw [harP, har_out _ _ _ n m h]; ring
  have h1 : Yukawa.waveSeries p (fun n => a n * scale ^ n) ld x u = fun β : ℝ => ∑ m ∈ Finset.Icc (-(p : ℤ)) p,
      (∑ n ∈ Finset.range (p + 1), c n m) * Complex.exp (m * β * I) := by
    funext β
    unfold Yukawa.waveSeries
    simp only [Finset.sum_mul]
    rw [Finset.sum_comm]
    refine Finset.sum_congr rfl fun n hn => ?_
    have hw := wave_leg ld x scale hld hx u hu β n
    have hs : Finset.Icc (-(n : ℤ)) n ⊆ Finset.Icc (-(p : ℤ)) p := by
      rw [Finset.mem_range] at hn
      intro m; simp only [Finset.mem_Icc]; omega
    rw [← Finset.sum_subset hs]
    · rw [show (2 * (n : ℂ) + 1) * ((a n * scale ^ n : ℝ) : ℂ) * Yukawa.legendreP (Yukawa.waveCos ld x u β) n =
        (2 * (n : ℂ) + 1) * (a n : ℂ) * ((scale : ℂ) ^ n * Yukawa.legendreP (Yukawa.waveCos ld x u β) n) by push_cast; ring, ← hw, Finset.mul_sum]
      refine Finset.sum_congr rfl fun m _ => ?_
      rw [ct_reg, Harm.wt, hc]
      push_cast; ring
    · intro m _ hm
      rw [hc0, zero_mul]
      rw [Finset.mem_Icc] at hm; rw [lt_abs]; omega
  unfold Yukawa.cutSeries
  rw [h1, fourierCut_trig]
  simp only [Finset.sum_mul]
  rw [Finset.sum_comm]
  unfold sig
  refine Finset.sum_congr rfl fun n hn => ?_
  have hs : Finset.Icc (-(min n f : ℕ) : ℤ) (min n f : ℕ) ⊆ Finset.Icc (-(min p f : ℕ) : ℤ) (min p f : ℕ) := by
    rw [Finset.mem_range] at hn
    intro m; simp only [Finset.mem_Icc]; omega
  rw [← Finset.sum_subset hs]
  · refine Finset.sum_congr rfl fun m _ => ?_
    rw [ct_reg, Harm.wt, hc]
    push_cast; ring
  · intro m hm' hm
    rw [hc0, zero_mul]
    rw [Finset.mem_Icc] at hm hm'; rw [lt_abs]; omega

/-! ### Linearity -/

theorem ext_cmul (a : ℕ → ℝ) (C : Coef) (n : ℕ) (m : ℤ) : Harm.ext (fun n m => (a n : ℂ) * C n m) n m = a n * Harm.ext C n m := by
  unfold Harm.ext
  split_ifs
  · ring
  · rw [map_mul, Complex.conj_ofReal]

theorem ct_cmul (a : ℕ → ℝ) (C : Coef) (α : ℝ) (n : ℕ) (m : ℤ) : ct (fun n m => (a n : ℂ) * C n m) α n m = a n * ct C α n m := by
  rw [ct, ext_cmul, ct]; ring

theorem sig_cmul (a : ℕ → ℝ) (g : ℕ → ℕ → ℝ) (p f : ℕ) (C : Coef) (α : ℝ) :
    sig g p f (fun n m => (a n : ℂ) * C n m) α = sig (fun n m => a n * g n m) p f C α := by
  refine Finset.sum_congr rfl fun n _ => Finset.sum_congr rfl fun m _ => ?_
  rw [ct_cmul]; push_cast; ring

theorem sig_add (g : ℕ → ℕ → ℝ) (p f : ℕ) (C D : Coef) (α : ℝ) : sig g p f (C + D) α = sig g p f C α + sig g p f D α := by
  unfold sig
  rw [← Finset.sum_add_distrib]
  refine Finset.sum_congr rfl fun n _ => ?_
  rw [← Finset.sum_add_distrib]
  refine Finset.sum_congr rfl fun m _ => ?_
  rw [ct, ct, ct, ext_add]; ring

theorem sig_zero (g : ℕ → ℕ → ℝ) (p f : ℕ) (α : ℝ) : sig g p f 0 α = 0 := by
  have := sig_add g p f 0 0 α
  rw [add_zero] at this
  exact left_eq_add.1 this

theorem rotateY_cmul (a : ℕ → ℝ) (C : Coef) (d : DMat) : rotateY (fun n m => (a n : ℂ) * C n m) d = fun n m => (a n : ℂ) * rotateY C d n m := by
  funext n m
  simp only [rotateY, map_mul, Complex.conj_ofReal]
  rw [← mul_assoc, mul_add, Finset.mul_sum]
  congr 2
  · ring
  · exact Finset.sum_congr rfl fun i _ => by ring

theorem rotateZ_cmul (a : ℕ → ℝ) (C : Coef) (β : ℝ) : rotateZ (fun n m => (a n : ℂ) * C n m) β = fun n m => (a n : ℂ) * rotateZ C β n m := by
  funext n m
  simp only [rotateZ]; ring

/-! ### Frames -/

/-- An expansion in the frame of a direction. -/
def frameC (v : ℕ) (C : Coef) : Coef :=
  match v with
  | 0 => rotateY C (dmatPlus 0)
  | 1 => fun n m => (((-1) ^ n : ℝ) : ℂ) * rotateY C (dmatPlus 0) n m
  | 2 => rotateY (rotateZ C (-Real.pi / 2)) (dmatMinus 0)
  | 3 => fun n m => (((-1) ^ n : ℝ) : ℂ) * rotateY (rotateZ C (-Real.pi / 2)) (dmatMinus 0) n m
  | 4 => C
  | _ => fun n m => (((-1) ^ n : ℝ) : ℂ) * C n m

theorem cmul_add (a : ℕ → ℝ) (C D : Coef) : (fun n m => (a n : ℂ) * (C + D) n m) = (fun n m => (a n : ℂ) * C n m) + fun n m => (a n : ℂ) * D n m := by
  funext n m; simp only [Pi.add_apply]; ring

theorem frameC_add (v : ℕ) (C D : Coef) : frameC v (C + D) = frameC v C + frameC v D := by
  have hY := fun d (C D : Coef) => (rotateY_lin d).map_add C D
  have hZ := fun d (C D : Coef) => (rotateZ_lin d).map_add C D
  unfold frameC
  split
  · exact hY _ _ _
  · rw [hY]; exact cmul_add _ _ _
  · rw [hZ, hY]
  · rw [hZ, hY]; exact cmul_add _ _ _
  · rfl
  · exact cmul_add _ _ _

theorem frameC_cmul (v : ℕ) (a : ℕ → ℝ) (C : Coef) : frameC v (fun n m => (a n : ℂ) * C n m) = fun n m => (a n : ℂ) * frameC v C n m := by
  unfold frameC
  split
  · rw [rotateY_cmul]
  · rw [rotateY_cmul]; funext n m; ring
  · rw [rotateZ_cmul, rotateY_cmul]
  · rw [rotateZ_cmul, rotateY_cmul]; funext n m; ring
  · rfl
  · funext n m; ring

theorem frameC_congr (v : ℕ) (C D : Coef) (h : ∀ n m, m ≤ n → C n m = D n m) : ∀ n m, m ≤ n → frameC v C n m = frameC v D n m := by
  intro n m hm
  have hY : ∀ d (C D : Coef), (∀ n m, m ≤ n → C n m = D n m) → rotateY C d n m = rotateY D d n m := fun d C D h => by
    rw [rotateY_congr C D d n fun i hi => h n i hi]
  have hZ : ∀ n m, m ≤ n → rotateZ C (-Real.pi / 2) n m = rotateZ D (-Real.pi / 2) n m := fun n m hm => rotateZ_congr _ _ _ _ _ (h n m hm)
  unfold frameC
  split
  · exact hY _ _ _ h
  · simp only; rw [hY _ _ _ h]
  · exact hY _ _ _ hZ
  · simp only; rw [hY _ _ _ hZ]
  · exact h n m hm
  · simp only; rw [h n m hm]

theorem frameC_proper (v : ℕ) (C : Coef) (h : Proper C) : Proper (frameC v C) := by
  have hX := rotateY_proper _ h _ _ _ (dmatPlus_is 0)
  have hY := rotateY_proper _ (rotateZ_proper (-Real.pi / 2) _ h) _ _ _ (dmatMinus_is 0)
  have hs : ∀ D : Coef, Proper D → Proper fun n m => (((-1) ^ n : ℝ) : ℂ) * D n m := by
    intro D hD n
    simp only
    rw [Complex.im_ofReal_mul, hD n, mul_zero]
  unfold frameC
  split
  · exact hX
  · exact hs _ hX
  · exact hY
  · exact hs _ hY
  · exact h
  · exact hs _ h

theorem reg_neg (u : Point ℝ) (n m : ℕ) : reg ⟨-u.x, -u.y, -u.z⟩ n m = (((-1) ^ n : ℝ) : ℂ) * reg u n m := by
  unfold reg nrm
  rw [har_homog']
  push_cast; ring

theorem frameC_reg (v : ℕ) (u : Point ℝ) : ∀ n m, m ≤ n → frameC v (reg u) n m = reg (turn v u) n m := by
  intro n m hm
  have hx : rotateY (reg u) (dmatPlus 0) n m = reg ⟨-u.z, u.y, u.x⟩ n m := by
    rw [rotateY_reg u _ _ _ (dmatPlus_is 0) (cs_one _) n m hm, rotY_plus]
  have hy : rotateY (rotateZ (reg u) (-Real.pi / 2)) (dmatMinus 0) n m = reg ⟨u.z, u.x, u.y⟩ n m := by
    rw [rotateZ_reg, rotateY_reg _ _ _ _ (dmatMinus_is 0) (by rw [neg_sq]; exact cs_one _) n m hm, show -Real.pi / 2 = -(Real.pi / 2) by ring,
      rotZ_minus, rotY_minus, neg_neg]
  unfold frameC turn
  split
  · exact hx
  · simp only; rw [hx, ← reg_neg, neg_neg]
  · exact hy
  · simp only; rw [hy, ← reg_neg]
  · rfl
  · simp only; rw [← reg_neg]

theorem ltu_norm (v : ℕ) (u : Point ℝ) : (turn v u).norm = u.norm := by
  unfold turn Point.norm
  split <;> simp only <;> congr 1 <;> ring

/-- What a list of sources leaves in the wave of a direction. -/
theorem sources_sig (f : Point ℝ → ℝ → ℝ → Option Coef) (a : Point ℝ → ℕ → ℝ) (c : Point ℝ) (scale : ℝ)
    (hf : ∀ v q C, f v q scale = some C → ∀ n m, m ≤ n → conv C n m = ((q * a v n * (2 * n + 1) : ℝ) : ℂ) * reg (dir v) n m)
    (g : ℕ → ℕ → ℝ) (p fr v : ℕ) (α : ℝ) :
    ∀ (l : List Src) (C : Coef), sumSources f c scale l = some C → sig g p fr (frameC v (conv C)) α =
      (l.map fun s => (s.charge : ℂ) * sig (fun n m => (2 * n + 1) * a (s.pos.sub c) n * g n m) p fr (reg (turn v (dir (s.pos.sub c)))) α).sum
  | [], C, h => by
    rw [sumSources] at h; injection h with h; subst h
    have : conv (fun _ _ => 0) = fun n m => (((fun _ => 0 : ℕ → ℝ) n : ℝ) : ℂ) * (0 : Coef) n m := by funext n m; simp [conv]
    rw [this, frameC_cmul, sig_cmul]
    unfold sig
    simp
  | s :: l, C, h => by
    rw [sumSources] at h
    cases hr : sumSources f c scale l with
    | none => rw [hr] at h; cases h
    | some R =>
      rw [hr] at h
      cases hc : f (s.pos.sub c) s.charge scale with
      | none => rw [hc] at h; cases h
      | some D =>
        rw [hc] at h
        have e : C = fun n m => D n m + R n m := (Option.some.inj h).symm
        have e2 : conv C = conv D + conv R := by
          funext n m; rw [e]; simp only [conv, Pi.add_apply]; ring
        rw [e2, frameC_add, sig_add, sources_sig f a c scale hf g p fr v α l R hr, List.map_cons, List.sum_cons]
        congr 1
        rw [sig_congr g p fr _ _ (frameC_congr v _ _ (hf _ _ _ hc)),
          frameC_cmul v (fun n => s.charge * a (s.pos.sub c) n * (2 * n + 1)), sig_cmul,
          sig_congr _ p fr _ _ (frameC_reg v _)]
        unfold sig
        rw [Finset.mul_sum]
        refine Finset.sum_congr rfl fun n _ => ?_
        rw [Finset.mul_sum]
        refine Finset.sum_congr rfl fun m _ => ?_
        push_cast; ring

end
end Dashmm.Yuk
