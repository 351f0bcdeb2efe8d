import Verif.Proofs.HarmWig

/-!
Solid harmonics of a point, rotations of the arrays of the code.
-/

namespace Dashmm.Harm

open Lap
open Complex (I)

noncomputable section

/-- The coefficients of a point. -/
def harP (v : Point ℝ) (n : ℕ) (m : ℤ) : ℂ := har (v.x - v.y * I) (v.x + v.y * I) v.z n m

/-- Normalized. -/
def nrm (v : Point ℝ) (n : ℕ) (m : ℤ) : ℂ := ((sf (n - m) * sf (n + m) : ℝ) : ℂ) * harP v n m

/-- As an array of the code. -/
def reg (v : Point ℝ) : Coef := fun n m => (-1) ^ m * nrm v n m

/-- The coefficients of both signs of `m`. -/
def ext (M : Coef) (n : ℕ) (m : ℤ) : ℂ :=
  if 0 ≤ m then (-1) ^ m.toNat * M n m.toNat else starRingEnd ℂ (M n (-m).toNat)

theorem harP_conj (v : Point ℝ) (n : ℕ) (m : ℤ) :
    starRingEnd ℂ (harP v n m) = (powM1 m : ℂ) * harP v n (-m) := by
  have hw : (v.x + v.y * I : ℂ) = starRingEnd ℂ (v.x - v.y * I) := by
    simp
  unfold harP
  rw [hw, har_conj]
  congr 1
  have : (powM1 m : ℝ) = (-1) ^ m.natAbs := by
    rw [← powM1_nat]; apply powM1_eq; omega
  rw [this]; push_cast; rfl

theorem nrm_conj (v : Point ℝ) (n : ℕ) (m : ℤ) :
    starRingEnd ℂ (nrm v n m) = (powM1 m : ℂ) * nrm v n (-m) := by
  unfold nrm
  rw [map_mul, harP_conj, Complex.conj_ofReal, show (n : ℤ) - -m = n + m by ring, show (n : ℤ) + -m = n - m by ring]
  push_cast; ring

theorem cpowM1_nat (m : ℕ) : ((powM1 (m : ℤ) : ℝ) : ℂ) = (-1) ^ m := by
  rw [powM1_nat]; push_cast; rfl

theorem neg_one_pow_mul_self (m : ℕ) : ((-1 : ℂ)) ^ m * (-1) ^ m = 1 := by
  rw [← mul_pow]; simp

theorem ext_nat (M : Coef) (n m : ℕ) : ext M n m = (-1) ^ m * M n m := by
  simp [ext]

theorem ext_neg (M : Coef) (n m : ℕ) (h : 0 < m) : ext M n (-(m : ℤ)) = starRingEnd ℂ (M n m) := by
  rw [ext, if_neg (by omega)]; simp

theorem ext_reg (v : Point ℝ) (n : ℕ) (m : ℤ) : ext (reg v) n m = nrm v n m := by
  rcases lt_or_ge m 0 with h | h
  · obtain ⟨k, hk⟩ := Int.eq_ofNat_of_zero_le (by omega : 0 ≤ -m)
    obtain rfl : m = -(k : ℤ) := by omega
    rw [ext_neg _ _ _ (by omega), reg, map_mul, nrm_conj, cpowM1_nat, map_pow, map_neg, map_one, ← mul_assoc,
      neg_one_pow_mul_self, one_mul]
  · obtain ⟨k, rfl⟩ := Int.eq_ofNat_of_zero_le h
    rw [ext_nat, reg, ← mul_assoc, neg_one_pow_mul_self, one_mul]

/-- The coefficients of order 0 are real. -/
def Proper (M : Coef) : Prop := ∀ n, (M n 0).im = 0

theorem ext_conj (M : Coef) (hM : Proper M) (n : ℕ) (m : ℤ) :
    starRingEnd ℂ (ext M n m) = (powM1 m : ℂ) * ext M n (-m) := by
  rcases lt_trichotomy m 0 with h | rfl | h
  · obtain ⟨k, hk⟩ := Int.eq_ofNat_of_zero_le (by omega : 0 ≤ -m)
    obtain rfl : m = -(k : ℤ) := by omega
    rw [ext_neg _ _ _ (by omega), neg_neg, ext_nat, powM1_neg, cpowM1_nat, ← mul_assoc, neg_one_pow_mul_self,
      one_mul, Complex.conj_conj]
  · have := hM n
    simp only [ext, le_refl, if_true, Int.toNat_zero, pow_zero, one_mul, neg_zero]
    rw [Complex.conj_eq_iff_im.2 this]; simp [powM1]
  · obtain ⟨k, rfl⟩ := Int.eq_ofNat_of_zero_le h.le
    rw [ext_nat, ext_neg _ _ _ (by omega), cpowM1_nat, map_mul, map_pow, map_neg, map_one]

theorem reg_proper (v : Point ℝ) : Proper (reg v) := by
  intro n
  rw [← Complex.conj_eq_iff_im]
  simp only [reg, pow_zero, one_mul, Nat.cast_zero]
  rw [nrm_conj]; simp [powM1]

/-! ### Rotation about the z-axis -/

/-- The direction at angle `α`. -/
def cis (α : ℝ) : ℂ := (Real.cos α : ℂ) + (Real.sin α : ℂ) * I

theorem cis_conj (α : ℝ) : starRingEnd ℂ (cis α) = cis (-α) := by
  simp only [cis, map_add, map_mul, Complex.conj_ofReal, Complex.conj_I, Real.cos_neg, Real.sin_neg, Complex.ofReal_neg]
  ring

theorem cis_mul_neg (α : ℝ) : cis α * cis (-α) = 1 := by
  have h := Real.sin_sq_add_cos_sq α
  have h' : (Real.sin α : ℂ) ^ 2 + (Real.cos α : ℂ) ^ 2 = 1 := by exact_mod_cast h
  unfold cis
  simp only [Real.cos_neg, Real.sin_neg, Complex.ofReal_neg]
  linear_combination h' - (Real.sin α : ℂ) ^ 2 * Complex.I_sq

theorem cis_ne (α : ℝ) : cis α ≠ 0 := left_ne_zero_of_mul_eq_one (cis_mul_neg α)

theorem cis_inv (α : ℝ) : (cis α)⁻¹ = cis (-α) := inv_eq_of_mul_eq_one_right (cis_mul_neg α)

/-- A point rotated by the angle `-α` about the z-axis. -/
def rotZ (α : ℝ) (v : Point ℝ) : Point ℝ :=
  ⟨v.x * Real.cos α + v.y * Real.sin α, v.y * Real.cos α - v.x * Real.sin α, v.z⟩

theorem har_phase (w w' z t : ℂ) (ht : t ≠ 0) : ∀ (n : ℕ) (m : ℤ),
    har (w * t) (w' * t⁻¹) z n m = t ^ m * har w w' z n m
  | 0, m => by
    rw [har_zero, har_zero]
    split_ifs with h
    · simp [h]
    · simp
  | n + 1, m => by
    rw [har, har, har_phase w w' z t ht n m, har_phase w w' z t ht n (m - 1), har_phase w w' z t ht n (m + 1),
      zpow_sub_one₀ ht, zpow_add_one₀ ht]
    field_simp

theorem harP_rotZ (α : ℝ) (v : Point ℝ) (n : ℕ) (m : ℤ) : harP (rotZ α v) n m = cis α ^ m * harP v n m := by
  unfold harP
  rw [← har_phase _ _ _ _ (cis_ne α), cis_inv]
  congr 1
  · simp only [rotZ, cis]; push_cast
    linear_combination (v.y : ℂ) * Complex.sin α * Complex.I_sq
  · simp only [rotZ, cis, Real.cos_neg, Real.sin_neg]; push_cast
    linear_combination (v.y : ℂ) * Complex.sin α * Complex.I_sq

theorem nrm_rotZ (α : ℝ) (v : Point ℝ) (n : ℕ) (m : ℤ) : nrm (rotZ α v) n m = cis α ^ m * nrm v n m := by
  unfold nrm; rw [harP_rotZ]; ring

theorem rotateZ_reg (α : ℝ) (v : Point ℝ) : rotateZ (reg v) α = reg (rotZ α v) := by
  funext n m
  rw [rotateZ, reg, reg, nrm_rotZ]
  change _ * cis α ^ m = _
  rw [zpow_natCast]; ring

theorem ext_rotateZ (α : ℝ) (M : Coef) (n : ℕ) (m : ℤ) : ext (rotateZ M α) n m = cis α ^ m * ext M n m := by
  rcases lt_or_ge m 0 with h | h
  · obtain ⟨k, hk⟩ := Int.eq_ofNat_of_zero_le (by omega : 0 ≤ -m)
    obtain rfl : m = -(k : ℤ) := by omega
    rw [ext_neg _ _ _ (by omega), ext_neg _ _ _ (by omega), rotateZ]
    change starRingEnd ℂ (_ * cis α ^ k) = _
    rw [map_mul, map_pow, cis_conj, ← cis_inv, zpow_neg, zpow_natCast, inv_pow]; ring
  · obtain ⟨k, rfl⟩ := Int.eq_ofNat_of_zero_le h
    rw [ext_nat, ext_nat, rotateZ]
    change _ * (_ * cis α ^ k) = _
    rw [zpow_natCast]; ring

theorem rotateZ_proper (α : ℝ) (M : Coef) (h : Proper M) : Proper (rotateZ M α) := by
  intro n; simpa [rotateZ] using h n

/-! ### Rotation about the y-axis -/

/-- A point rotated about the y-axis; `c`, `s` belong to the half angle. -/
def rotY (c s : ℝ) (v : Point ℝ) : Point ℝ :=
  ⟨v.x * (c ^ 2 - s ^ 2) - v.z * (2 * s * c), v.y, v.z * (c ^ 2 - s ^ 2) + v.x * (2 * s * c)⟩

theorem nrm_rotY (c s : ℝ) (h1 : c ^ 2 + s ^ 2 = 1) (v : Point ℝ) (n : ℕ) (mp : ℤ) (hp : |mp| ≤ n) :
    ∑ m ∈ Finset.Icc (-(n : ℤ)) n, nrm v n m * (wig c s n mp m : ℂ) = nrm (rotY c s v) n mp := by
  have h1' : (c : ℂ) ^ 2 + (s : ℂ) ^ 2 = 1 := by exact_mod_cast h1
  have e : ∀ m ∈ Finset.Icc (-(n : ℤ)) n, nrm v n m * (wig c s n mp m : ℂ) =
      ((sf (n - mp) * sf (n + mp) : ℝ) : ℂ) *
        (harP v n m * (bin c s (-s) c (n + m).toNat (n - m).toNat (n + mp) : ℂ)) := by
    intro m hm
    have hm' : |m| ≤ n := by rw [abs_le]; simpa using hm
    rw [wig_transpose c s n mp m hp hm', wig, neg_neg, nrm]
    have := sf_ne (n + m)
    have := sf_ne (n - m)
    have a1 : (sf (n + m) : ℂ) ≠ 0 := by exact_mod_cast sf_ne (n + m)
    have a2 : (sf (n - m) : ℂ) ≠ 0 := by exact_mod_cast sf_ne (n - m)
    push_cast
    field_simp
  rw [Finset.sum_congr rfl e, ← Finset.mul_sum]
  unfold harP nrm
  rw [har_subst, harP]
  congr 2
  · simp only [rotY]; push_cast
    linear_combination (-v.y * I : ℂ) * h1'
  · simp only [rotY]; push_cast
    linear_combination (v.y * I : ℂ) * h1'
  · simp only [rotY]; push_cast; ring
  · ring

theorem rotateY_eq (M : Coef) (d : DMat) (n mp : ℕ) :
    rotateY M d n mp = (-1) ^ mp * ∑ m ∈ Finset.Icc (-(n : ℤ)) n, ext M n m * (d n mp m : ℂ) := by
  rw [rotateY, sum_split, mul_comm]
  congr 2
  · simp [ext]
  · refine Finset.sum_congr rfl fun m hm => ?_
    simp only [Finset.mem_Icc] at hm
    rw [ext_nat, ext_neg _ _ _ (by omega)]; ring

/-- The matrix is that of a rotation. -/
def IsWig (d : DMat) (c s : ℝ) : Prop :=
  ∀ (n mp : ℕ) (m : ℤ), mp ≤ n → |m| ≤ n → d n mp m = wig c s n mp m

theorem ext_rotateY_nat (M : Coef) (d : DMat) (c s : ℝ) (hd : IsWig d c s) (n mp : ℕ) (hp : mp ≤ n) :
    ext (rotateY M d) n mp = ∑ m ∈ Finset.Icc (-(n : ℤ)) n, ext M n m * (wig c s n mp m : ℂ) := by
  rw [ext_nat, rotateY_eq, ← mul_assoc, neg_one_pow_mul_self, one_mul]
  refine Finset.sum_congr rfl fun m hm => ?_
  rw [hd n mp m hp (by rw [abs_le]; simpa using hm)]

theorem sum_wig_conj (M : Coef) (hM : Proper M) (c s : ℝ) (n : ℕ) (mp : ℤ) (hp : |mp| ≤ n) :
    starRingEnd ℂ (∑ m ∈ Finset.Icc (-(n : ℤ)) n, ext M n m * (wig c s n mp m : ℂ)) =
    (powM1 mp : ℂ) * ∑ m ∈ Finset.Icc (-(n : ℤ)) n, ext M n m * (wig c s n (-mp) m : ℂ) := by
  rw [map_sum, ← sum_neg_window (fun m => ext M n m * (wig c s n (-mp) m : ℂ)), Finset.mul_sum]
  refine Finset.sum_congr rfl fun m _ => ?_
  rw [map_mul, ext_conj M hM, Complex.conj_ofReal, wig_neg c s n mp m hp, powM1_add]
  have := powM1_sq mp
  have h : (powM1 mp : ℂ) * (powM1 mp : ℂ) = 1 := by exact_mod_cast this
  push_cast
  linear_combination -(powM1 m : ℂ) * ext M n (-m) * wig c s n mp m * h

theorem ext_rotateY (M : Coef) (hM : Proper M) (d : DMat) (c s : ℝ) (hd : IsWig d c s) (n : ℕ) (mp : ℤ)
    (hp : |mp| ≤ n) :
    ext (rotateY M d) n mp = ∑ m ∈ Finset.Icc (-(n : ℤ)) n, ext M n m * (wig c s n mp m : ℂ) := by
  rcases lt_or_ge mp 0 with h | h
  · obtain ⟨k, hk⟩ := Int.eq_ofNat_of_zero_le (by omega : 0 ≤ -mp)
    obtain rfl : mp = -(k : ℤ) := by omega
    have hk' : k ≤ n := by rw [abs_le] at hp; omega
    have e := sum_wig_conj M hM c s n k (by rw [abs_le]; omega)
    rw [← ext_rotateY_nat M d c s hd n k hk', ext_nat, map_mul, map_pow, map_neg, map_one, cpowM1_nat] at e
    rw [ext_neg _ _ _ (by omega)]
    exact mul_left_cancel₀ (pow_ne_zero _ (by norm_num)) e
  · obtain ⟨k, rfl⟩ := Int.eq_ofNat_of_zero_le h
    exact ext_rotateY_nat M d c s hd n k (by rw [abs_le] at hp; omega)

theorem rotateY_proper (M : Coef) (hM : Proper M) (d : DMat) (c s : ℝ) (hd : IsWig d c s) :
    Proper (rotateY M d) := by
  intro n
  rw [← Complex.conj_eq_iff_im]
  have e := ext_rotateY M hM d c s hd n 0 (by simp)
  have e2 := sum_wig_conj M hM c s n 0 (by simp)
  rw [neg_zero, ← e] at e2
  simpa [ext, powM1] using e2

/-- Rotating the coefficients of a point yields those of the rotated point. -/
theorem rotateY_reg (v : Point ℝ) (d : DMat) (c s : ℝ) (hd : IsWig d c s) (h1 : c ^ 2 + s ^ 2 = 1) (n mp : ℕ)
    (hp : mp ≤ n) : rotateY (reg v) d n mp = reg (rotY c s v) n mp := by
  have e := ext_rotateY_nat (reg v) d c s hd n mp hp
  simp only [ext_reg] at e
  rw [nrm_rotY c s h1 v n mp (by rw [abs_le]; omega), ext_nat] at e
  rw [reg, ← e, ← mul_assoc, neg_one_pow_mul_self, one_mul]

/-! ### Pairing with a point -/

/-- The pairing of the coefficients of degree `n` with a point. -/
def form (L : Coef) (v : Point ℝ) (n : ℕ) : ℂ :=
  ∑ m ∈ Finset.Icc (-(n : ℤ)) n, ext L n m * starRingEnd ℂ (nrm v n m)

theorem form_rotateZ (L : Coef) (α : ℝ) (v : Point ℝ) (n : ℕ) :
    form (rotateZ L α) v n = form L (rotZ (-α) v) n := by
  refine Finset.sum_congr rfl fun m _ => ?_
  rw [ext_rotateZ, nrm_rotZ, map_mul, map_zpow₀, cis_conj, neg_neg]; ring

theorem form_rotateY (L : Coef) (hL : Proper L) (d : DMat) (c s : ℝ) (hd : IsWig d c s) (h1 : c ^ 2 + s ^ 2 = 1)
    (v : Point ℝ) (n : ℕ) : form (rotateY L d) v n = form L (rotY c (-s) v) n := by
  unfold form
  have e : ∀ mp ∈ Finset.Icc (-(n : ℤ)) n, ext (rotateY L d) n mp * starRingEnd ℂ (nrm v n mp) =
      ∑ m ∈ Finset.Icc (-(n : ℤ)) n, ext L n m * (wig c s n mp m : ℂ) * starRingEnd ℂ (nrm v n mp) := by
    intro mp hmp
    rw [ext_rotateY L hL d c s hd n mp (by rw [abs_le]; simpa using hmp), Finset.sum_mul]
  rw [Finset.sum_congr rfl e, Finset.sum_comm]
  refine Finset.sum_congr rfl fun m hm => ?_
  have hm' : |m| ≤ n := by rw [abs_le]; simpa using hm
  rw [← nrm_rotY c (-s) (by rw [neg_sq]; exact h1) v n m hm', map_sum, Finset.mul_sum]
  refine Finset.sum_congr rfl fun mp hmp => ?_
  rw [wig_transpose c s n mp m (by rw [abs_le]; simpa using hmp) hm', map_mul, Complex.conj_ofReal]
  ring

/-- Only the coefficients with `m ≤ n` matter. -/
theorem ext_congr (L L' : Coef) (n : ℕ) (h : ∀ m ≤ n, L n m = L' n m) (m : ℤ) (hm : |m| ≤ n) :
    ext L n m = ext L' n m := by
  rw [abs_le] at hm
  unfold ext
  split_ifs with h0
  · rw [h _ (by omega)]
  · rw [h _ (by omega)]

theorem form_congr (L L' : Coef) (v : Point ℝ) (n : ℕ) (h : ∀ m ≤ n, L n m = L' n m) : form L v n = form L' v n :=
  Finset.sum_congr rfl fun m hm => by rw [ext_congr L L' n h m (by rw [abs_le]; simpa using hm)]

theorem rotateY_congr (L L' : Coef) (d : DMat) (n : ℕ) (h : ∀ m ≤ n, L n m = L' n m) (mp : ℕ) :
    rotateY L d n mp = rotateY L' d n mp := by
  rw [rotateY_eq, rotateY_eq]
  congr 1
  exact Finset.sum_congr rfl fun m hm => by rw [ext_congr L L' n h m (by rw [abs_le]; simpa using hm)]

end
end Dashmm.Harm
