import Verif.Proofs.WaveBound
import Verif.Proofs.HarmUnit
import Mathlib.Analysis.Calculus.MeanValue

/-!
# The truncated translation of waves along the z-axis
-/

namespace Dashmm.Wave

open Finset Harm Lap Bessel Yuk
open scoped Nat

noncomputable section

/-- The exact coefficients for normalized waves. -/
def tau (w : ℂ) (m : ℤ) (n j : ℕ) (s : ℝ) : ℂ := tauB (fun i => fn w i s) w m n j s

/-- Normalized decaying waves. -/
def Kh (κ : ℂ) (m : ℤ) (n : ℕ) (v : Point ℝ) : ℂ := (rt m n : ℂ) * uirr κ m n v

/-- Normalized regular waves. -/
def Uh (w : ℂ) (m : ℤ) (n : ℕ) (v : Point ℝ) : ℂ := (rt m n : ℂ) * ureg w m n v

theorem rtc (m : ℤ) (n : ℕ) : (rt m n : ℂ) ≠ 0 := by exact_mod_cast (rt_pos m n).ne'

theorem wt_rt (m : ℤ) (n : ℕ) : (wt m n : ℂ) = (rt m n : ℂ) ^ 2 := by rw [← rt_sq]; push_cast; rfl

theorem Kh_eq (κ : ℂ) (m : ℤ) (n : ℕ) (v : Point ℝ) : Kh κ m n v = ffun κ n v.norm * nrm v n m := by
  rw [Kh, uirr, nrm, rt]; ring

theorem Uh_eq (w : ℂ) (m : ℤ) (n : ℕ) (v : Point ℝ) : Uh w m n v = efun n (w * (v.norm ^ 2 : ℝ)) * nrm v n m := by
  rw [Uh, ureg, nrm, rt]; ring

theorem tau_Xf (κ : ℂ) (m : ℤ) (n j : ℕ) (s : ℝ) (v : Point ℝ) :
    ((rt m j / ((2 * j - 1)‼ : ℕ) : ℝ) : ℂ) * (Qf (κ ^ 2) m n j s * Xf κ m n v) = tau (κ ^ 2) m n j s * Kh κ m n v := by
  rw [tau, tauB, ← Qf_eq, Xf, Kh]
  push_cast
  rw [wt_rt]; ring

theorem tau_Yf (w : ℂ) (m : ℤ) (n j : ℕ) (s : ℝ) (v : Point ℝ) :
    ((((2 * n + 1)‼ : ℕ) * rt m n : ℝ) : ℂ) * (Qf w m n j s * Yf w m j v) = tau w m n j s * Uh w m j v := by
  rw [tau, tauB, ← Qf_eq, Yf, Uh]
  push_cast
  rw [wt_rt]; ring

/-- The ratio `√((p + 1)² - m²)`. -/
def gr (m : ℤ) (p : ℕ) : ℝ := rt m (p + 1) / rt m p

theorem gr_sq (m : ℤ) (p : ℕ) (h : |m| ≤ p) : gr m p ^ 2 = (p + 1) ^ 2 - m ^ 2 := by
  rw [gr, div_pow, rt_sq, rt_sq, wt_succ m p h]
  have := (wt_pos m p).ne'
  field_simp

theorem gr_nonneg (m : ℤ) (p : ℕ) : 0 ≤ gr m p := div_nonneg (rt_pos _ _).le (rt_pos _ _).le

theorem gr_le (m : ℤ) (p : ℕ) (h : |m| ≤ p) : gr m p ≤ p + 1 := by
  refine le_of_sq_le_sq ?_ (by positivity)
  rw [gr_sq m p h]; nlinarith [sq_nonneg (m : ℝ)]

theorem fluxI_eq (κ : ℂ) (m : ℤ) (p j : ℕ) (s : ℝ) (v : Point ℝ) (h : |m| ≤ p) :
    ((rt m j / ((2 * j - 1)‼ : ℕ) : ℝ) : ℂ) * fluxI κ m p j s v =
      κ ^ 2 * ((gr m p / ((2 * p + 1) * (2 * p + 3)) : ℝ) : ℂ) * tau (κ ^ 2) m (p + 1) j s * Kh κ m p v -
        gr m p * tau (κ ^ 2) m p j s * Kh κ m (p + 1) v := by
  have hg : ((p : ℂ) + 1) ^ 2 - m ^ 2 = (rt m (p + 1) : ℂ) ^ 2 / (rt m p : ℂ) ^ 2 := by
    have := gr_sq m p h
    rw [gr, div_pow] at this
    exact_mod_cast this.symm
  have h1 := rtc m p
  have h2 := rtc m (p + 1)
  have e1 := odd_ne (K := ℂ) p
  have e3 := odd3_ne (K := ℂ) p
  have ed := dfc_succ p
  have hd := dfc' j
  have hd2 := dfc p
  rw [fluxI, hg, tau, tau, tauB, tauB, ← Qf_eq, ← Qf_eq, Xf, Xf, Kh, Kh, gr]
  push_cast
  rw [wt_rt, wt_rt, ed]
  field_simp

theorem fluxR_eq (w : ℂ) (m : ℤ) (n p : ℕ) (s : ℝ) (v : Point ℝ) (h : |m| ≤ p) :
    ((((2 * n + 1)‼ : ℕ) * rt m n : ℝ) : ℂ) * fluxR w m n p s v =
      gr m p * tau w m n (p + 1) s * Uh w m p v -
        w * ((gr m p / ((2 * p + 1) * (2 * p + 3)) : ℝ) : ℂ) * tau w m n p s * Uh w m (p + 1) v := by
  have hg : ((p : ℂ) + 1) ^ 2 - m ^ 2 = (rt m (p + 1) : ℂ) ^ 2 / (rt m p : ℂ) ^ 2 := by
    have := gr_sq m p h
    rw [gr, div_pow] at this
    exact_mod_cast this.symm
  have h1 := rtc m p
  have h2 := rtc m (p + 1)
  have e1 := odd_ne (K := ℂ) p
  have e3 := odd3_ne (K := ℂ) p
  have ed := dfc_pred p
  have hd := dfc' p
  rw [fluxR, hg, tau, tau, tauB, tauB, ← Qf_eq, ← Qf_eq, Yf, Yf, Uh, Uh, gr]
  push_cast
  rw [wt_rt, wt_rt, ed]
  field_simp

theorem tau_zero (w : ℂ) (m : ℤ) (n j : ℕ) (h : |m| ≤ j) : tau w m n j 0 = if n = j then 1 else 0 := by
  rw [tau, tauB, ← Qf_eq, Qf_zero]
  split
  · next e =>
    subst e
    have := rf_wt m n h
    have h1 := (rt_pos m n).ne'
    have h2 := (dfact_pos (2 * n - 1)).ne'
    have h3 := (dfact_pos (2 * n + 1)).ne'
    rw [mul_assoc _ (rf _), this, ← rt_sq, ← Complex.ofReal_mul]
    norm_cast
    field_simp
  · simp

theorem tau_left (w : ℂ) (m : ℤ) (n j : ℕ) (s : ℝ) (hm : |m| ≤ j) (h : j ≤ n) :
    ‖tau w m n j s‖ ≤ Real.exp (‖w‖ * s ^ 2 / 2) * (n.choose j * |s| ^ (n - j)) := by
  have := tauB_left (fun i => fn w i s) _ (Real.exp_pos (‖w‖ * s ^ 2 / 6)).le w m n j s (fun i _ => fn_le w i s) hm h
  rw [← Real.exp_add, show ‖w‖ * s ^ 2 / 6 + ‖w‖ * s ^ 2 / 3 = ‖w‖ * s ^ 2 / 2 by ring] at this
  exact this

theorem tau_right (w : ℂ) (m : ℤ) (n j : ℕ) (s : ℝ) (hm : |m| ≤ n) (h : n ≤ j) :
    ‖tau w m n j s‖ ≤ Real.exp (‖w‖ * s ^ 2 / 2) * ((‖w‖ * |s| / 3) ^ (j - n) / ((j - n) ! : ℝ)) := by
  have := tauB_right (fun i => fn w i s) _ (Real.exp_pos (‖w‖ * s ^ 2 / 6)).le w m n j s (fun i _ => fn_le w i s) hm h
  rw [← Real.exp_add, show ‖w‖ * s ^ 2 / 6 + ‖w‖ * s ^ 2 / 3 = ‖w‖ * s ^ 2 / 2 by ring] at this
  exact this

/-- The sum of waves about one centre, from those about another one. -/
theorem sumK_hasDeriv (κ : ℂ) (hκ : κ ≠ 0) (m : ℤ) (j p : ℕ) (hm : |m| ≤ p) (ρ s : ℝ) (v : Point ℝ) (hv : (addz (s - ρ) v).norm ≠ 0) :
    HasDerivAt (fun s : ℝ => ∑ n ∈ range (p + 1), tau (κ ^ 2) m n j s * Kh κ m n (addz (s - ρ) v))
      (κ ^ 2 * ((gr m p / ((2 * p + 1) * (2 * p + 3)) : ℝ) : ℂ) * tau (κ ^ 2) m (p + 1) j s * Kh κ m p (addz (s - ρ) v) -
        gr m p * tau (κ ^ 2) m p j s * Kh κ m (p + 1) (addz (s - ρ) v)) s := by
  have h := (sumI_hasDeriv κ hκ m j p ρ s v hv).const_mul ((rt m j / ((2 * j - 1)‼ : ℕ) : ℝ) : ℂ)
  rw [fluxI_eq κ m p j s _ hm] at h
  refine h.congr_of_eventuallyEq (Filter.Eventually.of_forall fun y => ?_)
  simp only
  rw [mul_sum]
  exact sum_congr rfl fun n _ => (tau_Xf κ m n j y _).symm

theorem sumU_hasDeriv (w : ℂ) (m : ℤ) (n p : ℕ) (hm : |m| ≤ p) (ρ s : ℝ) (v : Point ℝ) :
    HasDerivAt (fun s : ℝ => ∑ j ∈ range (p + 1), tau w m n j s * Uh w m j (addz (ρ - s) v))
      (gr m p * tau w m n (p + 1) s * Uh w m p (addz (ρ - s) v) -
        w * ((gr m p / ((2 * p + 1) * (2 * p + 3)) : ℝ) : ℂ) * tau w m n p s * Uh w m (p + 1) (addz (ρ - s) v)) s := by
  have h := (sumR_hasDeriv w m n p ρ s v).const_mul ((((2 * n + 1)‼ : ℕ) * rt m n : ℝ) : ℂ)
  rw [fluxR_eq w m n p s _ hm] at h
  refine h.congr_of_eventuallyEq (Filter.Eventually.of_forall fun y => ?_)
  simp only
  rw [mul_sum]
  exact sum_congr rfl fun j _ => (tau_Yf w m n j y _).symm

end
end Dashmm.Wave
