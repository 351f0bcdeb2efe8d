import Verif.Proofs.WaveOde

/-!
# The sums that translate waves along the axis

Along the way from the old to the new centre, the derivative of the sum of the terms up to degree `p` has only the terms of
degree `p` and `p + 1`.
-/

namespace Dashmm.Wave

open Finset Yuk Bessel Harm
open scoped Nat

noncomputable section

theorem dfc' (n : ℕ) : (((2 * n - 1)‼ : ℕ) : ℂ) ≠ 0 := by exact_mod_cast (dfact_pos (2 * n - 1)).ne'

theorem dfc_pred (n : ℕ) : (((2 * (n + 1) - 1)‼ : ℕ) : ℂ) = (2 * n + 1) * ((2 * n - 1)‼ : ℕ) := by
  exact_mod_cast dfact_pred n

/-- Regular waves with the factor of the coefficients of the translation. -/
def Yf (w : ℂ) (m : ℤ) (j : ℕ) (v : Point ℝ) : ℂ := ((wt m j / ((2 * j - 1)‼ : ℕ) : ℝ) : ℂ) * ureg w m j v

/-- Decaying waves with the factor of the coefficients of the translation. -/
def Xf (κ : ℂ) (m : ℤ) (n : ℕ) (v : Point ℝ) : ℂ := ((((2 * n + 1)‼ : ℕ) * wt m n : ℝ) : ℂ) * uirr κ m n v

theorem Yf_out (w : ℂ) (m : ℤ) (j : ℕ) (v : Point ℝ) (h : (j : ℤ) < |m|) : Yf w m j v = 0 := by
  rw [Yf, ureg, harP_out _ _ _ h]; simp

theorem Xf_out (κ : ℂ) (m : ℤ) (j : ℕ) (v : Point ℝ) (h : (j : ℤ) < |m|) : Xf κ m j v = 0 := by
  rw [Xf, uirr, harP_out _ _ _ h]; simp

theorem wt_succC (m : ℤ) (n : ℕ) (h : |m| ≤ n) : (wt m (n + 1) : ℂ) = ((n + 1) ^ 2 - m ^ 2) * wt m n := by
  rw [wt_succ m n h]; push_cast; ring

theorem Yf_hasDeriv (w : ℂ) (m : ℤ) (j : ℕ) (hm : |m| ≤ j) (v : Point ℝ) (x : ℝ) : HasDerivAt (fun x : ℝ => Yf w m j (addz x v))
    ((if j = 0 then 0 else ((j : ℂ) ^ 2 - m ^ 2) / (2 * j - 1) * Yf w m (j - 1) (addz x v)) + w / (2 * j + 3) * Yf w m (j + 1) (addz x v)) x := by
  have h := (ureg_hasDeriv w m j v x).const_mul ((wt m j / ((2 * j - 1)‼ : ℕ) : ℝ) : ℂ)
  refine (h.congr_of_eventuallyEq (Filter.Eventually.of_forall fun y => rfl)).congr_deriv ?_
  have e1 := odd_ne (K := ℂ) j
  have e2 := odd3_ne (K := ℂ) j
  have e3 := dfc' j
  rw [mul_add]
  congr 1
  · split_ifs with hj
    · simp
    · obtain ⟨i, rfl⟩ := Nat.exists_eq_succ_of_ne_zero hj
      simp only [Nat.succ_eq_add_one, Nat.add_sub_cancel] at *
      by_cases hi : |m| ≤ i
      · have e4 := dfc' i
        have e5 := odd_ne (K := ℂ) i
        simp only [Yf]
        push_cast
        rw [wt_succC m i hi, dfc_pred, show 2 * ((i : ℂ) + 1) - 1 = 2 * i + 1 by ring]
        field_simp
      · rw [Yf_out _ _ _ _ (by omega), ureg, harP_out _ _ _ (by omega)]; simp
  · simp only [Yf]
    push_cast
    rw [wt_succC m j hm, dfc_pred]
    field_simp

theorem Xf_hasDeriv (κ : ℂ) (m : ℤ) (n : ℕ) (hm : |m| ≤ n) (v : Point ℝ) (x : ℝ) (hv : (addz x v).norm ≠ 0) :
    HasDerivAt (fun x : ℝ => Xf κ m n (addz x v))
    (-(Xf κ m (n + 1) (addz x v) / (2 * n + 3)) -
      if n = 0 then 0 else κ ^ 2 * ((n : ℂ) ^ 2 - m ^ 2) / (2 * n - 1) * Xf κ m (n - 1) (addz x v)) x := by
  have h := (uirr_hasDeriv κ m n v x hv).const_mul ((((2 * n + 1)‼ : ℕ) * wt m n : ℝ) : ℂ)
  refine (h.congr_of_eventuallyEq (Filter.Eventually.of_forall fun y => rfl)).congr_deriv ?_
  have e1 := odd_ne (K := ℂ) n
  have e2 := odd3_ne (K := ℂ) n
  have e3 := dfc n
  rw [mul_sub]
  congr 1
  · simp only [Xf]
    push_cast
    rw [wt_succC m n hm, dfc_succ, eq_comm, neg_eq_iff_eq_neg, div_eq_iff e2]
    ring
  · split_ifs with hj
    · simp
    · obtain ⟨i, rfl⟩ := Nat.exists_eq_succ_of_ne_zero hj
      simp only [Nat.succ_eq_add_one, Nat.add_sub_cancel] at *
      by_cases hi : |m| ≤ i
      · have e4 := dfc i
        have e5 := odd_ne (K := ℂ) i
        have e6 := odd3_ne (K := ℂ) i
        simp only [Xf]
        push_cast
        rw [wt_succC m i hi, dfc_succ, show 2 * ((i : ℂ) + 1) - 1 = 2 * i + 1 by ring, show 2 * ((i : ℂ) + 1) + 1 = 2 * i + 3 by ring]
        field_simp
      · rw [Xf_out _ _ _ _ (by omega), uirr, harP_out _ _ _ (by omega)]; simp

/-! ### Regular waves -/

/-- What the derivative of the sum of the regular waves leaves. -/
def fluxR (w : ℂ) (m : ℤ) (n j : ℕ) (s : ℝ) (v : Point ℝ) : ℂ :=
  (((j : ℂ) + 1) ^ 2 - m ^ 2) / (2 * j + 1) * Qf w m n (j + 1) s * Yf w m j v - w / (2 * j + 3) * Qf w m n j s * Yf w m (j + 1) v

theorem termR_hasDeriv (w : ℂ) (m : ℤ) (n j : ℕ) (ρ s : ℝ) (v : Point ℝ) :
    HasDerivAt (fun s : ℝ => Qf w m n j s * Yf w m j (addz (ρ - s) v))
      (fluxR w m n j s (addz (ρ - s) v) - if j = 0 then 0 else fluxR w m n (j - 1) s (addz (ρ - s) v)) s := by
  by_cases hm : |m| ≤ j
  · obtain ⟨d, h1, h2⟩ := Qf_col w m n j s
    have h3 : HasDerivAt (fun s : ℝ => ρ - s) (-1) s := by simpa using (hasDerivAt_id s).const_sub ρ
    have h4 := HasDerivAt.scomp s (g₁ := fun x => Yf w m j (addz x v)) (Yf_hasDeriv w m j hm v (ρ - s)) h3
    have h5 := h1.mul h4
    refine (h5.congr_of_eventuallyEq (Filter.Eventually.of_forall fun y => rfl)).congr_deriv ?_
    have e1 := odd_ne (K := ℂ) j
    have e2 := odd3_ne (K := ℂ) j
    have hd : d = (((j + 1) ^ 2 - m ^ 2) * Qf w m n (j + 1) s + if j = 0 then 0 else w * Qf w m n (j - 1) s) / (2 * j + 1) := by
      rw [eq_div_iff e1]; linear_combination h2
    rw [hd]
    simp only [Function.comp, fluxR]
    cases j with
    | zero => simp; ring
    | succ i =>
      simp only [Nat.add_sub_cancel, if_neg (Nat.succ_ne_zero i)]
      have e3 := odd_ne (K := ℂ) i
      have e4 := odd5_ne (K := ℂ) i
      push_cast at *
      rw [show 2 * ((i : ℂ) + 1) + 1 = 2 * i + 3 by ring, show 2 * ((i : ℂ) + 1) - 1 = 2 * i + 1 by ring,
        show 2 * ((i : ℂ) + 1) + 3 = 2 * i + 5 by ring] at *
      simp only [neg_smul, one_smul]
      field_simp
      ring
  · have z : ∀ s x, Qf w m n j s * Yf w m j (addz x v) = 0 := fun s x => by rw [Yf_out _ _ _ _ (by omega), mul_zero]
    have z2 : fluxR w m n j s (addz (ρ - s) v) = 0 := by
      rw [fluxR, Yf_out w m j _ (by omega), Qf_low w m n j _ (by omega)]; simp
    have z3 : (if j = 0 then 0 else fluxR w m n (j - 1) s (addz (ρ - s) v)) = 0 := by
      split_ifs with hj
      · rfl
      · rw [fluxR, Yf_out w m (j - 1) _ (by omega), Qf_low w m n (j - 1) _ (by omega)]; simp
    rw [z2, z3, sub_zero]
    simp only [z]
    exact hasDerivAt_const s 0

theorem sumR_hasDeriv (w : ℂ) (m : ℤ) (n p : ℕ) (ρ s : ℝ) (v : Point ℝ) :
    HasDerivAt (fun s : ℝ => ∑ j ∈ range (p + 1), Qf w m n j s * Yf w m j (addz (ρ - s) v)) (fluxR w m n p s (addz (ρ - s) v)) s := by
  induction p with
  | zero => simpa using termR_hasDeriv w m n 0 ρ s v
  | succ p ih =>
    have h := ih.add (termR_hasDeriv w m n (p + 1) ρ s v)
    refine (h.congr_of_eventuallyEq (Filter.Eventually.of_forall fun y => ?_)).congr_deriv ?_
    · simp only [Pi.add_apply]; rw [sum_range_succ]
    · simp

/-! ### Decaying waves -/

/-- What the derivative of the sum of the decaying waves leaves. -/
def fluxI (κ : ℂ) (m : ℤ) (n j : ℕ) (s : ℝ) (v : Point ℝ) : ℂ :=
  κ ^ 2 * (((n : ℂ) + 1) ^ 2 - m ^ 2) / (2 * n + 1) * Qf (κ ^ 2) m (n + 1) j s * Xf κ m n v -
    Qf (κ ^ 2) m n j s * Xf κ m (n + 1) v / (2 * n + 3)

theorem termI_hasDeriv (κ : ℂ) (hκ : κ ≠ 0) (m : ℤ) (n j : ℕ) (ρ s : ℝ) (v : Point ℝ) (hv : (addz (s - ρ) v).norm ≠ 0) :
    HasDerivAt (fun s : ℝ => Qf (κ ^ 2) m n j s * Xf κ m n (addz (s - ρ) v))
      (fluxI κ m n j s (addz (s - ρ) v) - if n = 0 then 0 else fluxI κ m (n - 1) j s (addz (s - ρ) v)) s := by
  by_cases hm : |m| ≤ n
  · obtain ⟨d, h1, h2⟩ := Qf_row (κ ^ 2) (pow_ne_zero 2 hκ) m n j s
    have h3 : HasDerivAt (fun s : ℝ => s - ρ) 1 s := by simpa using (hasDerivAt_id s).sub_const ρ
    have h4 := HasDerivAt.scomp s (g₁ := fun x => Xf κ m n (addz x v)) (Xf_hasDeriv κ m n hm v (s - ρ) hv) h3
    have h5 := h1.mul h4
    refine (h5.congr_of_eventuallyEq (Filter.Eventually.of_forall fun y => rfl)).congr_deriv ?_
    have e1 := odd_ne (K := ℂ) n
    have e2 := odd3_ne (K := ℂ) n
    have hd : d = (κ ^ 2 * ((n + 1) ^ 2 - m ^ 2) * Qf (κ ^ 2) m (n + 1) j s + if n = 0 then 0 else Qf (κ ^ 2) m (n - 1) j s) / (2 * n + 1) := by
      rw [eq_div_iff e1]; linear_combination h2
    rw [hd]
    simp only [Function.comp, fluxI]
    cases n with
    | zero => simp; ring
    | succ i =>
      simp only [Nat.add_sub_cancel, if_neg (Nat.succ_ne_zero i)]
      have e3 := odd_ne (K := ℂ) i
      have e4 := odd5_ne (K := ℂ) i
      push_cast at *
      rw [show 2 * ((i : ℂ) + 1) + 1 = 2 * i + 3 by ring, show 2 * ((i : ℂ) + 1) - 1 = 2 * i + 1 by ring,
        show 2 * ((i : ℂ) + 1) + 3 = 2 * i + 5 by ring] at *
      simp only [one_smul]
      field_simp
      ring
  · have z : ∀ s x, Qf (κ ^ 2) m n j s * Xf κ m n (addz x v) = 0 := fun s x => by rw [Xf_out _ _ _ _ (by omega), mul_zero]
    have z2 : fluxI κ m n j s (addz (s - ρ) v) = 0 := by
      rw [fluxI, Xf_out κ m n _ (by omega), Qf_low' _ m n _ _ (by omega)]; simp
    have z3 : (if n = 0 then 0 else fluxI κ m (n - 1) j s (addz (s - ρ) v)) = 0 := by
      split_ifs with hj
      · rfl
      · rw [fluxI, Xf_out κ m (n - 1) _ (by omega), Qf_low' _ m (n - 1) _ _ (by omega)]; simp
    rw [z2, z3, sub_zero]
    simp only [z]
    exact hasDerivAt_const s 0

theorem sumI_hasDeriv (κ : ℂ) (hκ : κ ≠ 0) (m : ℤ) (j p : ℕ) (ρ s : ℝ) (v : Point ℝ) (hv : (addz (s - ρ) v).norm ≠ 0) :
    HasDerivAt (fun s : ℝ => ∑ n ∈ range (p + 1), Qf (κ ^ 2) m n j s * Xf κ m n (addz (s - ρ) v)) (fluxI κ m p j s (addz (s - ρ) v)) s := by
  induction p with
  | zero => simpa using termI_hasDeriv κ hκ m 0 j ρ s v hv
  | succ p ih =>
    have h := ih.add (termI_hasDeriv κ hκ m (p + 1) j ρ s v hv)
    refine (h.congr_of_eventuallyEq (Filter.Eventually.of_forall fun y => ?_)).congr_deriv ?_
    · simp only [Pi.add_apply]; rw [sum_range_succ]
    · simp

end
end Dashmm.Wave
