import Verif.Proofs.HarmCode

/-!
# Rotations do not change the size of the coefficients
-/

namespace Dashmm.Harm

open Finset Lap

noncomputable section

/-- One substitution after another. -/
theorem bin_comp (α β γ δ α' β' γ' δ' : ℝ) (i : ℤ) : ∀ a b : ℕ,
    ∑ k ∈ range (a + b + 1), bin α β γ δ a b k * bin α' β' γ' δ' k (a + b - k) i =
      bin (α * α' + β * γ') (α * β' + β * δ') (γ * α' + δ * γ') (γ * β' + δ * δ') a b i := by
  have step : ∀ (N : ℕ) (x y : ℝ) (f : ℤ → ℝ) (i : ℤ), (∀ k : ℤ, k < 0 ∨ (N : ℤ) < k → f k = 0) →
      ∑ k ∈ range (N + 1 + 1), (x * f (k - 1) + y * f k) * bin α' β' γ' δ' k (N + 1 - k) i =
        (x * α' + y * γ') * ∑ k ∈ range (N + 1), f k * bin α' β' γ' δ' k (N - k) (i - 1) +
        (x * β' + y * δ') * ∑ k ∈ range (N + 1), f k * bin α' β' γ' δ' k (N - k) i := by
    intro N x y f i hf
    have e1 : ∑ k ∈ range (N + 1 + 1), x * f (k - 1) * bin α' β' γ' δ' k (N + 1 - k) i =
        ∑ k ∈ range (N + 1), x * f k * (α' * bin α' β' γ' δ' k (N - k) (i - 1) + β' * bin α' β' γ' δ' k (N - k) i) := by
      rw [sum_range_succ', Nat.cast_zero, hf (0 - 1) (by omega)]
      simp only [mul_zero, zero_mul, add_zero]
      refine sum_congr rfl fun k hk => ?_
      rw [mem_range] at hk
      rw [show ((k + 1 : ℕ) : ℤ) - 1 = k by push_cast; ring, show N + 1 - (k + 1) = N - k by omega, bin_left]
    have e2 : ∑ k ∈ range (N + 1 + 1), y * f k * bin α' β' γ' δ' k (N + 1 - k) i =
        ∑ k ∈ range (N + 1), y * f k * (γ' * bin α' β' γ' δ' k (N - k) (i - 1) + δ' * bin α' β' γ' δ' k (N - k) i) := by
      rw [sum_range_succ, hf ((N + 1 : ℕ) : ℤ) (by push_cast; omega)]
      simp only [mul_zero, zero_mul, add_zero]
      refine sum_congr rfl fun k hk => ?_
      rw [mem_range] at hk
      rw [show N + 1 - k = N - k + 1 by omega, bin_right]
    have e3 : ∀ k : ℕ, (x * f (k - 1) + y * f k) * bin α' β' γ' δ' k (N + 1 - k) i =
      x * f (k - 1) * bin α' β' γ' δ' k (N + 1 - k) i + y * f k * bin α' β' γ' δ' k (N + 1 - k) i := fun k => by ring
    rw [sum_congr rfl fun k _ => e3 k, sum_add_distrib, e1, e2, mul_sum, mul_sum, ← sum_add_distrib, ← sum_add_distrib]
    exact sum_congr rfl fun k _ => by ring
  intro a
  induction a generalizing i with
  | zero =>
    intro b
    induction b generalizing i with
    | zero => simp [bin_zero]
    | succ b ih =>
      have h := step b γ δ (fun k => bin α β γ δ 0 b k) i fun k hk => bin_out _ _ _ _ _ _ _ (by push_cast; omega)
      have e : ∀ i, ∑ k ∈ range (b + 1), bin α β γ δ 0 b k * bin α' β' γ' δ' k (b - k) i = _ := fun i => by
        have := ih i
        simpa only [Nat.zero_add] using this
      rw [e, e] at h
      rw [Nat.zero_add, bin_right, ← h]
      exact sum_congr rfl fun k _ => by rw [bin_right]
  | succ a ih =>
    intro b
    have h := step (a + b) α β (fun k => bin α β γ δ a b k) i fun k hk => bin_out _ _ _ _ _ _ _ (by push_cast at hk ⊢; omega)
    rw [ih, ih] at h
    rw [show a + 1 + b = a + b + 1 by ring, bin_left, ← h]
    exact sum_congr rfl fun k _ => by rw [bin_left]

theorem bin_one : ∀ (a b : ℕ) (i : ℤ), bin 1 0 0 1 a b i = if i = a then 1 else 0
  | 0, 0, i => by simp [bin_zero]
  | 0, b + 1, i => by rw [bin_right, bin_one 0 b, bin_one 0 b]; simp
  | a + 1, b, i => by
    rw [bin_left, bin_one a b]
    by_cases h : i = a + 1
    · subst h; simp
    · rw [if_neg (by omega), if_neg (by push_cast; omega)]; simp

theorem wig_orth (c s : ℝ) (h1 : c ^ 2 + s ^ 2 = 1) (n : ℕ) (m m' : ℤ) (hm : |m| ≤ n) (hm' : |m'| ≤ n) :
    ∑ mp ∈ Icc (-(n : ℤ)) n, wig c s n mp m * wig c s n mp m' = if m = m' then 1 else 0 := by
  have hm2 := abs_le.1 hm
  have hm2' := abs_le.1 hm'
  have e1 : ∑ mp ∈ Icc (-(n : ℤ)) n, wig c s n mp m * wig c s n mp m' =
      ∑ k ∈ range (2 * n + 1), wig c s n (k - n) m * wig c s n (k - n) m' := by
    symm
    refine sum_bij (fun (k : ℕ) _ => (k : ℤ) - n) ?_ ?_ ?_ ?_
    · intro k hk; rw [mem_range] at hk; rw [mem_Icc]; omega
    · intro a _ b _ h; simpa using h
    · intro b hb; rw [mem_Icc] at hb
      exact ⟨(b + n).toNat, by rw [mem_range]; omega, by omega⟩
    · intro k _; rfl
  rw [e1]
  set a := (n + m).toNat with ha
  set b := (n - m).toNat with hb
  have hab : a + b = 2 * n := by omega
  have key := bin_comp c s (-s) c c (-s) s c (n + m') a b
  rw [show c * c + s * s = 1 by nlinarith, show c * -s + s * c = 0 by ring, show -s * c + c * s = 0 by ring,
    show -s * -s + c * c = 1 by nlinarith, bin_one, hab] at key
  have e2 : ∀ k ∈ range (2 * n + 1), wig c s n (k - n) m * wig c s n (k - n) m' =
      sf (n + m') * sf (n - m') / (sf (n + m) * sf (n - m)) * (bin c s (-s) c a b k * bin c (-s) s c k (2 * n - k) (n + m')) := by
    intro k hk
    rw [mem_range] at hk
    rw [wig_transpose c s n (k - n) m (by rw [abs_le]; omega) hm, wig, wig, neg_neg]
    rw [show (n : ℤ) + (k - n) = k by ring, show (n : ℤ) - (k - n) = 2 * n - k by ring, ← ha, ← hb,
      show ((k : ℤ)).toNat = k by omega, show (2 * (n : ℤ) - k).toNat = 2 * n - k by omega]
    have h3 := sf_ne (k : ℤ)
    have h4 := sf_ne (2 * (n : ℤ) - k)
    field_simp
  rw [sum_congr rfl e2, ← mul_sum, key]
  have h5 := sf_ne (n + m)
  have h6 := sf_ne (n - m)
  by_cases h : m = m'
  · subst h
    rw [if_pos rfl, if_pos (by omega), mul_one, div_self (mul_ne_zero h5 h6)]
  · rw [if_neg h, if_neg (by omega), mul_zero]

/-- `B` bounds the coefficients of degree `n`, as a functional. -/
def Bd (C : Coef) (n : ℕ) (B : ℝ) : Prop := 0 ≤ B ∧ ∀ y : ℤ → ℂ,
  ‖∑ m ∈ Icc (-(n : ℤ)) n, ext C n m * y m‖ ≤ B * √(∑ m ∈ Icc (-(n : ℤ)) n, ‖y m‖ ^ 2)

theorem norm_sq_wig (c s : ℝ) (h1 : c ^ 2 + s ^ 2 = 1) (n : ℕ) (y : ℤ → ℂ) :
    ∑ m ∈ Icc (-(n : ℤ)) n, ‖∑ mp ∈ Icc (-(n : ℤ)) n, (wig c s n mp m : ℂ) * y mp‖ ^ 2 = ∑ mp ∈ Icc (-(n : ℤ)) n, ‖y mp‖ ^ 2 := by
  have orth' : ∀ mp mp' : ℤ, |mp| ≤ n → |mp'| ≤ n →
      ∑ m ∈ Icc (-(n : ℤ)) n, wig c s n mp m * wig c s n mp' m = if mp = mp' then 1 else 0 := by
    intro mp mp' h h'
    rw [← wig_orth c (-s) (by rw [neg_sq]; exact h1) n mp mp' h h']
    refine sum_congr rfl fun m hm => ?_
    have : |m| ≤ n := by rw [abs_le]; simpa using hm
    rw [wig_transpose c s n mp m h this, wig_transpose c s n mp' m h' this]
  have key : ((∑ m ∈ Icc (-(n : ℤ)) n, ‖∑ mp ∈ Icc (-(n : ℤ)) n, (wig c s n mp m : ℂ) * y mp‖ ^ 2 : ℝ) : ℂ) =
      ((∑ mp ∈ Icc (-(n : ℤ)) n, ‖y mp‖ ^ 2 : ℝ) : ℂ) := by
    push_cast
    simp only [← Complex.conj_mul']
    have e : ∀ m : ℤ, (starRingEnd ℂ) (∑ mp ∈ Icc (-(n : ℤ)) n, (wig c s n mp m : ℂ) * y mp) *
        (∑ mp ∈ Icc (-(n : ℤ)) n, (wig c s n mp m : ℂ) * y mp) =
        ∑ mp ∈ Icc (-(n : ℤ)) n, ∑ mp' ∈ Icc (-(n : ℤ)) n, starRingEnd ℂ (y mp) * y mp' * ((wig c s n mp m * wig c s n mp' m : ℝ) : ℂ) := by
      intro m
      rw [map_sum, sum_mul_sum]
      refine sum_congr rfl fun a _ => sum_congr rfl fun b _ => ?_
      rw [map_mul, Complex.conj_ofReal]; push_cast; ring
    rw [sum_congr rfl fun m _ => e m, sum_comm]
    refine sum_congr rfl fun mp hmp => ?_
    rw [sum_comm]
    have hmp' : |mp| ≤ n := by rw [abs_le]; simpa using hmp
    rw [sum_eq_single mp]
    · rw [← mul_sum, ← Complex.ofReal_sum, orth' mp mp hmp' hmp', if_pos rfl]; simp
    · intro b hb hne
      have hb' : |b| ≤ n := by rw [abs_le]; simpa using hb
      rw [← mul_sum, ← Complex.ofReal_sum, orth' mp b hmp' hb', if_neg (Ne.symm hne)]; simp
    · intro h; exact absurd hmp h
  exact_mod_cast key

theorem Bd.rotateY {C : Coef} {n : ℕ} {B : ℝ} (h : Bd C n B) (hC : Proper C) (d : DMat) (c s : ℝ) (hd : IsWig d c s)
    (h1 : c ^ 2 + s ^ 2 = 1) : Bd (rotateY C d) n B := by
  refine ⟨h.1, fun y => ?_⟩
  have e : ∑ mp ∈ Icc (-(n : ℤ)) n, ext (Lap.rotateY C d) n mp * y mp =
      ∑ m ∈ Icc (-(n : ℤ)) n, ext C n m * ∑ mp ∈ Icc (-(n : ℤ)) n, (wig c s n mp m : ℂ) * y mp := by
    have : ∀ mp ∈ Icc (-(n : ℤ)) n, ext (Lap.rotateY C d) n mp * y mp =
        ∑ m ∈ Icc (-(n : ℤ)) n, ext C n m * ((wig c s n mp m : ℂ) * y mp) := by
      intro mp hmp
      rw [ext_rotateY C hC d c s hd n mp (by rw [abs_le]; simpa using hmp), sum_mul]
      exact sum_congr rfl fun m _ => by ring
    rw [sum_congr rfl this, sum_comm]
    exact sum_congr rfl fun m _ => by rw [mul_sum]
  rw [e]
  refine (h.2 _).trans_eq ?_
  rw [norm_sq_wig c s h1]

theorem Bd.rotateZ {C : Coef} {n : ℕ} {B : ℝ} (h : Bd C n B) (α : ℝ) : Bd (rotateZ C α) n B := by
  refine ⟨h.1, fun y => ?_⟩
  have e : ∑ m ∈ Icc (-(n : ℤ)) n, ext (Lap.rotateZ C α) n m * y m = ∑ m ∈ Icc (-(n : ℤ)) n, ext C n m * (cis α ^ m * y m) :=
    sum_congr rfl fun m _ => by rw [ext_rotateZ]; ring
  rw [e]
  refine (h.2 _).trans_eq ?_
  have hc : ‖cis α‖ = 1 := by
    have := Complex.norm_cos_add_sin_mul_I α
    rw [cis]; push_cast; exact this
  congr 2
  refine sum_congr rfl fun m _ => ?_
  rw [norm_mul, norm_zpow, hc, one_zpow, one_mul]

theorem Bd.add {C D : Coef} {n : ℕ} {B B' : ℝ} (h : Bd C n B) (h' : Bd D n B') : Bd (C + D) n (B + B') := by
  refine ⟨add_nonneg h.1 h'.1, fun y => ?_⟩
  have e : ∑ m ∈ Icc (-(n : ℤ)) n, ext (C + D) n m * y m =
      ∑ m ∈ Icc (-(n : ℤ)) n, ext C n m * y m + ∑ m ∈ Icc (-(n : ℤ)) n, ext D n m * y m := by
    rw [← sum_add_distrib]; exact sum_congr rfl fun m _ => by rw [ext_add]; ring
  rw [e, add_mul]
  exact (norm_add_le _ _).trans (add_le_add (h.2 y) (h'.2 y))

theorem Bd.mono {C : Coef} {n : ℕ} {B B' : ℝ} (h : Bd C n B) (h' : B ≤ B') : Bd C n B' :=
  ⟨h.1.trans h', fun y => (h.2 y).trans (mul_le_mul_of_nonneg_right h' (Real.sqrt_nonneg _))⟩

theorem Bd.congr {C D : Coef} {n : ℕ} {B : ℝ} (h : Bd C n B) (e : ∀ m ≤ n, C n m = D n m) : Bd D n B := by
  refine ⟨h.1, fun y => ?_⟩
  have : ∑ m ∈ Icc (-(n : ℤ)) n, ext D n m * y m = ∑ m ∈ Icc (-(n : ℤ)) n, ext C n m * y m := by
    refine sum_congr rfl fun m hm => ?_
    rw [mem_Icc] at hm
    unfold ext
    split_ifs
    · rw [e _ (by omega)]
    · rw [e _ (by omega)]
  rw [this]; exact h.2 y

theorem Bd_zero (n : ℕ) : Bd 0 n 0 := by
  refine ⟨le_rfl, fun y => ?_⟩
  have : ∀ m : ℤ, ext (0 : Coef) n m = 0 := fun m => by simp [ext]
  simp [this]

theorem Bd.smul {C : Coef} {n : ℕ} {B : ℝ} (h : Bd C n B) (a : ℕ → ℝ) : Bd (fun n m => (a n : ℂ) * C n m) n (|a n| * B) := by
  refine ⟨mul_nonneg (abs_nonneg _) h.1, fun y => ?_⟩
  have e : ∑ m ∈ Icc (-(n : ℤ)) n, ext (fun n m => (a n : ℂ) * C n m) n m * y m = (a n : ℂ) * ∑ m ∈ Icc (-(n : ℤ)) n, ext C n m * y m := by
    rw [mul_sum]
    refine sum_congr rfl fun m _ => ?_
    have : ext (fun n m => (a n : ℂ) * C n m) n m = (a n : ℂ) * ext C n m := by
      unfold ext
      split_ifs
      · ring
      · rw [map_mul, Complex.conj_ofReal]
    rw [this]; ring
  rw [e, norm_mul, Complex.norm_real, Real.norm_eq_abs, mul_assoc]
  exact mul_le_mul_of_nonneg_left (h.2 y) (abs_nonneg _)

theorem Bd_reg (u : Point ℝ) (n : ℕ) : Bd (reg u) n (u.norm ^ n) := by
  refine ⟨pow_nonneg (norm_nonneg' u) n, fun y => ?_⟩
  simp only [ext_reg]
  calc ‖∑ m ∈ Icc (-(n : ℤ)) n, nrm u n m * y m‖ ≤ ∑ m ∈ Icc (-(n : ℤ)) n, ‖nrm u n m‖ * ‖y m‖ :=
        norm_sum_le_of_le _ fun m _ => (norm_mul _ _).le
    _ ≤ √(∑ m ∈ Icc (-(n : ℤ)) n, ‖nrm u n m‖ ^ 2) * √(∑ m ∈ Icc (-(n : ℤ)) n, ‖y m‖ ^ 2) := Real.sum_mul_le_sqrt_mul_sqrt _ _ _
    _ ≤ u.norm ^ n * √(∑ m ∈ Icc (-(n : ℤ)) n, ‖y m‖ ^ 2) := by
      refine mul_le_mul_of_nonneg_right ?_ (Real.sqrt_nonneg _)
      rw [Real.sqrt_le_left (pow_nonneg (norm_nonneg' u) n)]
      exact nrm_sq_sum u n

end
end Dashmm.Harm
