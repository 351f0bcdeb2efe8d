import Verif.Proofs.GaussQ
import Mathlib.Analysis.InnerProductSpace.PiL2
import Mathlib.Analysis.Calculus.Deriv.Mul
import Mathlib.Analysis.Calculus.Deriv.Add
import Mathlib.MeasureTheory.Integral.IntervalIntegral.FundThmCalculus
/-!
# Exactness of the Gauss rule: proofs
-/
namespace Dashmm.GaussQ

variable {N : ℕ}

/-! ### Legendre polynomials -/

/-- The Legendre polynomials and their derivatives. -/
noncomputable def legP : ℕ → ℝ → ℝ × ℝ
  | 0, _ => (1, 0)
  | 1, t => (t, 1)
  | k + 2, t =>
    (((2 * k + 3) * t * (legP (k + 1) t).1 - (k + 1) * (legP k t).1) / (k + 2),
      ((2 * k + 3) * ((legP (k + 1) t).1 + t * (legP (k + 1) t).2) - (k + 1) * (legP k t).2) / (k + 2))

theorem legP_succ (k : ℕ) (t : ℝ) :
    (k + 2) * (legP (k + 2) t).1 = (2 * k + 3) * t * (legP (k + 1) t).1 - (k + 1) * (legP k t).1 ∧
    (k + 2) * (legP (k + 2) t).2 =
      (2 * k + 3) * ((legP (k + 1) t).1 + t * (legP (k + 1) t).2) - (k + 1) * (legP k t).2 := by
  have : (k : ℝ) + 2 ≠ 0 := by positivity
  constructor <;> rw [legP] <;> field_simp

theorem legP_hasDeriv : ∀ (k : ℕ) (t : ℝ), HasDerivAt (fun t => (legP k t).1) (legP k t).2 t
  | 0, t => by simpa [legP] using hasDerivAt_const t (1 : ℝ)
  | 1, t => by simpa [legP] using hasDerivAt_id' t
  | k + 2, t => by
    have h1 := legP_hasDeriv (k + 1) t
    have h0 := legP_hasDeriv k t
    have := ((((hasDerivAt_id' t).mul h1).const_mul (2 * k + 3 : ℝ)).sub (h0.const_mul (k + 1 : ℝ))).div_const (k + 2 : ℝ)
    refine (this.congr_deriv ?_).congr_of_eventuallyEq (Filter.Eventually.of_forall fun u => ?_)
    · simp only [legP, one_mul]
    · simp only [legP, Pi.sub_apply, Pi.mul_apply]
      ring

theorem legP_ident (t : ℝ) (k : ℕ) :
    (legP (k + 1) t).2 = t * (legP k t).2 + (k + 1) * (legP k t).1 ∧
    t * (legP (k + 1) t).2 = (legP k t).2 + (k + 1) * (legP (k + 1) t).1 := by
  induction k with
  | zero => simp [legP]
  | succ k ih =>
    obtain ⟨ha, hb⟩ := ih
    obtain ⟨h1, h2⟩ := legP_succ k t
    have hk : (k : ℝ) + 2 ≠ 0 := by positivity
    push_cast
    have a : (legP (k + 1 + 1) t).2 = t * (legP (k + 1) t).2 + (k + 1 + 1) * (legP (k + 1) t).1 := by
      apply mul_left_cancel₀ hk
      linear_combination h2 + (k + 1) * hb
    refine ⟨a, ?_⟩
    rw [a]
    linear_combination -h1 + t * hb - ha

theorem legP_prim (t : ℝ) (k : ℕ) : (legP (k + 2) t).2 - (legP k t).2 = (2 * k + 3) * (legP (k + 1) t).1 := by
  obtain ⟨h1, -⟩ := legP_ident t (k + 1)
  obtain ⟨-, h2⟩ := legP_ident t k
  push_cast at h1
  linear_combination h1 + h2

theorem legP_one : ∀ k, (legP k 1).1 = 1
  | 0 => by simp [legP]
  | 1 => by simp [legP]
  | k + 2 => by
    have h := (legP_succ k 1).1
    rw [legP_one (k + 1), legP_one k] at h
    have hk : (k : ℝ) + 2 ≠ 0 := by positivity
    apply mul_left_cancel₀ hk
    linarith

theorem legP_neg_one : ∀ k, (legP k (-1)).1 = (-1) ^ k
  | 0 => by simp [legP]
  | 1 => by simp [legP]
  | k + 2 => by
    have h := (legP_succ k (-1)).1
    rw [legP_neg_one (k + 1), legP_neg_one k] at h
    have hk : (k : ℝ) + 2 ≠ 0 := by positivity
    apply mul_left_cancel₀ hk
    rw [h]; ring

theorem legP_cont (k : ℕ) : Continuous fun t => (legP k t).1 :=
  continuous_iff_continuousAt.2 fun t => (legP_hasDeriv k t).continuousAt

theorem integral_legP (k : ℕ) : ∫ t in (-1 : ℝ)..1, (legP (k + 1) t).1 = 0 := by
  have hk : (2 * k + 3 : ℝ) ≠ 0 := by positivity
  have h := intervalIntegral.integral_eq_sub_of_hasDerivAt (a := -1) (b := 1)
    (f := fun t => ((legP (k + 2) t).1 - (legP k t).1) / (2 * k + 3)) (f' := fun t => (legP (k + 1) t).1)
    (fun t _ => by
      have := ((legP_hasDeriv (k + 2) t).sub (legP_hasDeriv k t)).div_const (2 * k + 3 : ℝ)
      rw [legP_prim, mul_div_cancel_left₀ _ hk] at this
      exact this)
    ((legP_cont (k + 1)).intervalIntegrable _ _)
  rw [h, legP_one, legP_one, legP_neg_one, legP_neg_one]
  ring

/-! ### Moments -/

/-- The infinite matrix. -/
noncomputable def stepInf (v : ℕ → ℝ) (k : ℕ) : ℝ :=
  (if k = 0 then 0 else legendreE (k - 1) * v (k - 1)) + legendreE k * v (k + 1)

/-- Its powers on the first unit vector. -/
noncomputable def pow0 (j : ℕ) : ℕ → ℝ := stepInf^[j] (Pi.single 0 1)

theorem pow0_succ (j : ℕ) : pow0 (j + 1) = stepInf (pow0 j) := Function.iterate_succ_apply' _ _ _

theorem pow0_support : ∀ {j k : ℕ}, j < k → pow0 j k = 0 := by
  intro j
  induction j with
  | zero => intro k h; exact Pi.single_eq_of_ne (by omega) _
  | succ j ih =>
    intro k h
    rw [pow0_succ, stepInf, if_neg (by omega), ih (by omega), ih (by omega)]
    ring

/-- The normed polynomials. -/
noncomputable def legN (k : ℕ) (t : ℝ) : ℝ := √(2 * k + 1) * (legP k t).1

theorem legendreE_eq (k : ℕ) : legendreE k * √(2 * (k + 1 : ℕ) + 1) = (k + 1) / √(2 * k + 1) ∧
    legendreE k * √(2 * k + 1) = (k + 1) / √(2 * (k + 1 : ℕ) + 1) := by
  unfold legendreE
  rw [Real.sqrt_mul (by positivity)]
  have e : (2 * (k + 1 : ℕ) + 1 : ℝ) = 2 * k + 3 := by push_cast; ring
  rw [e]
  have h1 : √(2 * (k : ℝ) + 1) ≠ 0 := by positivity
  have h2 : √(2 * (k : ℝ) + 3) ≠ 0 := by positivity
  constructor <;> field_simp

theorem legN_rec (k : ℕ) (t : ℝ) :
    t * legN k t = (if k = 0 then 0 else legendreE (k - 1) * legN (k - 1) t) + legendreE k * legN (k + 1) t := by
  have h1 : legendreE k * legN (k + 1) t = (k + 1) / √(2 * k + 1) * (legP (k + 1) t).1 := by
    rw [legN, ← mul_assoc, (legendreE_eq k).1]
  rw [h1]
  have hs : √(2 * (k : ℝ) + 1) ≠ 0 := by positivity
  have hq : √(2 * (k : ℝ) + 1) ^ 2 = 2 * k + 1 := Real.sq_sqrt (by positivity)
  rcases k with _ | k
  · simp [legN, legP]
  · rw [if_neg (by omega), Nat.add_sub_cancel]
    have h2 : legendreE k * legN k t = (k + 1) / √(2 * (k + 1 : ℕ) + 1) * (legP k t).1 := by
      rw [legN, ← mul_assoc, (legendreE_eq k).2]
    rw [h2, legN]
    have h3 := (legP_succ k t).1
    generalize √(2 * ((k + 1 : ℕ) : ℝ) + 1) = a at *
    field_simp
    rw [hq]
    push_cast
    linear_combination -h3

theorem pow_eq_sum (t : ℝ) : ∀ (j m : ℕ), j < m → t ^ j = ∑ k ∈ Finset.range m, pow0 j k * legN k t := by
  intro j
  induction j with
  | zero =>
    intro m hm
    rw [Finset.sum_eq_single 0]
    · simp [pow0, legN, legP]
    · intro k _ hk; rw [pow0_support (by omega)]; ring
    · intro h; exact absurd (Finset.mem_range.2 hm) h
  | succ j ih =>
    intro m hm
    obtain ⟨m, rfl⟩ := Nat.exists_eq_succ_of_ne_zero (show m ≠ 0 by omega)
    rw [pow_succ', ih (m + 1) (by omega), Finset.mul_sum]
    have e1 : ∀ k, t * (pow0 j k * legN k t) =
        (if k = 0 then 0 else pow0 j k * (legendreE (k - 1) * legN (k - 1) t)) + pow0 j k * (legendreE k * legN (k + 1) t) := by
      intro k
      have := legN_rec k t
      split_ifs at * with h
      · linear_combination pow0 j k * this
      · linear_combination pow0 j k * this
    have e2 : ∀ k, pow0 (j + 1) k * legN k t =
        (if k = 0 then 0 else legendreE (k - 1) * pow0 j (k - 1) * legN k t) + legendreE k * pow0 j (k + 1) * legN k t := by
      intro k
      rw [pow0_succ, stepInf]
      split_ifs <;> ring
    simp only [e1, e2]
    rw [Finset.sum_add_distrib, Finset.sum_add_distrib, Finset.sum_range_succ', Finset.sum_range_succ,
      Finset.sum_range_succ' (n := m), Finset.sum_range_succ (n := m)]
    simp only [Nat.add_sub_cancel, if_true, Nat.succ_ne_zero, if_false]
    rw [pow0_support (show j < m by omega), pow0_support (show j < m + 1 by omega)]
    simp only [zero_mul, mul_zero, add_zero]
    rw [add_comm]
    congr 1 <;> exact Finset.sum_congr rfl fun k _ => by ring

theorem moment (j : ℕ) : ∫ t in (-1 : ℝ)..1, t ^ j = 2 * pow0 j 0 := by
  have hc : ∀ k, Continuous fun t => pow0 j k * legN k t := fun k =>
    continuous_const.mul (continuous_const.mul (legP_cont k))
  calc ∫ t in (-1 : ℝ)..1, t ^ j = ∫ t in (-1 : ℝ)..1, ∑ k ∈ Finset.range (j + 1), pow0 j k * legN k t := by
        congr 1; funext t; exact pow_eq_sum t j (j + 1) (by omega)
    _ = ∑ k ∈ Finset.range (j + 1), ∫ t in (-1 : ℝ)..1, pow0 j k * legN k t :=
        intervalIntegral.integral_finsetSum fun k _ => (hc k).intervalIntegrable _ _
    _ = 2 * pow0 j 0 := by
        rw [Finset.sum_eq_single 0]
        · simp [legN, legP]; norm_num
        · intro k _ hk
          obtain ⟨k, rfl⟩ := Nat.exists_eq_succ_of_ne_zero hk
          simp only [legN]
          rw [intervalIntegral.integral_const_mul, intervalIntegral.integral_const_mul, integral_legP]
          simp
        · intro h; exact absurd (Finset.mem_range.2 (Nat.succ_pos j)) h

/-! ### The finite matrix -/

/-- The matrix of order `N`. -/
noncomputable def stepN (N : ℕ) : (ℕ → ℝ) →ₗ[ℝ] (ℕ → ℝ) where
  toFun v k := if k < N then (if k = 0 then 0 else legendreE (k - 1) * v (k - 1)) +
    (if k + 1 < N then legendreE k * v (k + 1) else 0) else 0
  map_add' u v := by
    funext k; simp only [Pi.add_apply]; split_ifs <;> ring
  map_smul' a u := by
    funext k; simp only [Pi.smul_apply, smul_eq_mul, RingHom.id_apply]; split_ifs <;> ring

theorem stepN_apply (v : ℕ → ℝ) (k : ℕ) : stepN N v k = if k < N then (if k = 0 then 0 else legendreE (k - 1) * v (k - 1)) +
    (if k + 1 < N then legendreE k * v (k + 1) else 0) else 0 := rfl

/-- Its powers on the first unit vector. -/
noncomputable def powN (N j : ℕ) : ℕ → ℝ := (stepN N)^[j] (Pi.single 0 1)

theorem powN_succ (j : ℕ) : powN N (j + 1) = stepN N (powN N j) := Function.iterate_succ_apply' _ _ _

theorem powN_eq (hN : 0 < N) : ∀ {j k : ℕ}, j + k < 2 * N → powN N j k = pow0 j k := by
  intro j
  induction j with
  | zero => intro k _; rfl
  | succ j ih =>
    intro k h
    rw [powN_succ, stepN_apply, pow0_succ, stepInf]
    by_cases hk : k < N
    · rw [if_pos hk]
      congr 1
      · split_ifs
        · rfl
        · rw [ih (by omega)]
      · split_ifs
        · rw [ih (by omega)]
        · rw [pow0_support (by omega)]; ring
    · rw [if_neg hk]
      rw [if_neg (by omega), pow0_support (by omega), pow0_support (by omega)]
      ring

/-- The product of the first `N` coordinates. -/
def dot (N : ℕ) (u v : ℕ → ℝ) : ℝ := ∑ k ∈ Finset.range N, u k * v k

/-- The bilinear form of the matrix. -/
noncomputable def bform (N : ℕ) (u v : ℕ → ℝ) : ℝ :=
  ∑ k ∈ Finset.range (N - 1), legendreE k * (u k * v (k + 1) + u (k + 1) * v k)

theorem dot_stepN (u v : ℕ → ℝ) : dot N (stepN N u) v = bform N u v := by
  unfold dot bform
  rcases N with _ | n
  · simp
  · have e : ∀ k ∈ Finset.range (n + 1), stepN (n + 1) u k * v k =
        (if k = 0 then 0 else legendreE (k - 1) * u (k - 1) * v k) + if k < n then legendreE k * u (k + 1) * v k else 0 := by
      intro k hk
      rw [Finset.mem_range] at hk
      rw [stepN_apply, if_pos hk]
      simp only [Nat.add_lt_add_iff_right]
      split_ifs <;> ring
    rw [Finset.sum_congr rfl e, Finset.sum_add_distrib, Finset.sum_range_succ', Finset.sum_range_succ (n := n)]
    simp only [Nat.add_sub_cancel, if_true, Nat.succ_ne_zero, if_false, lt_irrefl, add_zero]
    rw [← Finset.sum_add_distrib]
    refine Finset.sum_congr rfl fun k hk => ?_
    rw [if_pos (Finset.mem_range.1 hk)]
    ring

theorem bform_self (y : ℕ → ℝ) : bform N y y = form N (fun _ => 0) legendreE y := by
  unfold bform form
  simp only [zero_mul, Finset.sum_const_zero, zero_add, Finset.mul_sum]
  exact Finset.sum_congr rfl fun k _ => by ring

/-! ### Symmetric forms -/

/-- A form in two arguments that is linear in the sense needed. -/
def Bilin (β : (ℕ → ℝ) → (ℕ → ℝ) → ℝ) : Prop :=
  (∀ u v, β (u + v) (u + v) - β (u - v) (u - v) = 4 * β u v) ∧ ∀ u v (t : ℝ), β u (t • v) = t * β u v

theorem lengthSq_parallelogram (u v : ℕ → ℝ) :
    lengthSq N (u + v) + lengthSq N (u - v) = 2 * (lengthSq N u + lengthSq N v) := by
  unfold lengthSq
  rw [← Finset.sum_add_distrib, ← Finset.sum_add_distrib, Finset.mul_sum]
  exact Finset.sum_congr rfl fun k _ => by simp only [Pi.add_apply, Pi.sub_apply]; ring

theorem Bilin.bound {β : (ℕ → ℝ) → (ℕ → ℝ) → ℝ} (h : Bilin β) {ε : ℝ} (hb : ∀ y, |β y y| ≤ ε * lengthSq N y)
    (u v : ℕ → ℝ) : β u v ≤ ε * ((lengthSq N u + lengthSq N v) / 2) := by
  have h1 := abs_le.1 (hb (u + v))
  have h2 := abs_le.1 (hb (u - v))
  have h3 := h.1 u v
  have h4 := lengthSq_parallelogram (N := N) u v
  have h5 : ε * lengthSq N (u + v) + ε * lengthSq N (u - v) = ε * (2 * (lengthSq N u + lengthSq N v)) := by
    rw [← h4]; ring
  linarith

theorem lengthSq_smul (t : ℝ) (v : ℕ → ℝ) : lengthSq N (t • v) = t ^ 2 * lengthSq N v := by
  unfold lengthSq
  rw [Finset.mul_sum]
  exact Finset.sum_congr rfl fun k _ => by simp only [Pi.smul_apply, smul_eq_mul]; ring

/-- If the form has with `v` the value of the square of the length of `v`, then this is bounded. -/
theorem Bilin.le {β : (ℕ → ℝ) → (ℕ → ℝ) → ℝ} (h : Bilin β) {ε : ℝ} (h0 : 0 ≤ ε) (hb : ∀ y, |β y y| ≤ ε * lengthSq N y)
    {u v : ℕ → ℝ} (he : β u v = lengthSq N v) : lengthSq N v ≤ ε ^ 2 * lengthSq N u := by
  have key : ∀ t : ℝ, t * lengthSq N v ≤ ε * ((lengthSq N u + t ^ 2 * lengthSq N v) / 2) := by
    intro t
    have := h.bound hb u (t • v)
    rwa [h.2, he, lengthSq_smul] at this
  rcases h0.eq_or_lt with rfl | h0
  · have := key 1
    linarith
  · have := key (1 / ε)
    generalize lengthSq N v = D at *
    generalize lengthSq N u = U at *
    field_simp at this
    nlinarith

/-- Length. -/
noncomputable def len (N : ℕ) (y : ℕ → ℝ) : ℝ := √(lengthSq N y)

theorem len_eq (y : ℕ → ℝ) : len N y = ‖(WithLp.toLp 2 fun k : Fin N => y k : EuclideanSpace ℝ (Fin N))‖ := by
  rw [EuclideanSpace.norm_eq, len, lengthSq, Finset.sum_range]
  simp

theorem len_add_le (u v : ℕ → ℝ) : len N (u + v) ≤ len N u + len N v := by
  rw [len_eq, len_eq, len_eq]
  exact norm_add_le (WithLp.toLp 2 fun k : Fin N => u k : EuclideanSpace ℝ (Fin N)) (WithLp.toLp 2 fun k : Fin N => v k)

theorem len_le_of {u v : ℕ → ℝ} {ε : ℝ} (h0 : 0 ≤ ε) (h : lengthSq N v ≤ ε ^ 2 * lengthSq N u) : len N v ≤ ε * len N u := by
  unfold len
  rw [← Real.sqrt_sq h0, ← Real.sqrt_mul (sq_nonneg ε)]
  exact Real.sqrt_le_sqrt h

theorem abs_le_len {k : ℕ} (hk : k < N) (y : ℕ → ℝ) : |y k| ≤ len N y := by
  unfold len
  rw [← Real.sqrt_sq_eq_abs]
  exact Real.sqrt_le_sqrt (Finset.single_le_sum (f := fun k => y k ^ 2) (fun _ _ => sq_nonneg _) (Finset.mem_range.2 hk))

theorem bilin_bform : Bilin (bform N) := by
  constructor
  · intro u v
    unfold bform
    rw [← Finset.sum_sub_distrib, Finset.mul_sum]
    exact Finset.sum_congr rfl fun k _ => by simp only [Pi.add_apply, Pi.sub_apply]; ring
  · intro u v t
    unfold bform
    rw [Finset.mul_sum]
    exact Finset.sum_congr rfl fun k _ => by simp only [Pi.smul_apply, smul_eq_mul]; ring

/-- The matrix makes nothing longer. -/
theorem len_stepN (hN : 0 < N) (u : ℕ → ℝ) : len N (stepN N u) ≤ len N u := by
  have h : lengthSq N (stepN N u) ≤ 1 ^ 2 * lengthSq N u := by
    refine Bilin.le (N := N) (β := bform N) bilin_bform zero_le_one (fun y => ?_) ?_
    · rw [bform_self, ← form_jacobi N 0]
      exact jacobi_form hN 0 y
    · rw [← dot_stepN]
      exact Finset.sum_congr rfl fun k _ => by ring
  simpa using len_le_of zero_le_one h

/-! ### Powers of the nodes -/

/-- Multiplication by the nodes. -/
def mulx (x y : ℕ → ℝ) (k : ℕ) : ℝ := x k * y k

/-- In the coordinates with respect to the eigenvectors the matrix is multiplication by the nodes. -/
theorem IsEigen.len_sub {x : ℕ → ℝ} {ε : ℝ} (h0 : 0 ≤ ε) {V : (ℕ → ℝ) →ₗ[ℝ] (ℕ → ℝ)}
    (v0 : Function.Surjective V) (v1 : ∀ y, lengthSq N (V y) = lengthSq N y)
    (v2 : ∀ y, |(∑ k ∈ Finset.range N, x k * y k ^ 2) - form N (fun _ => 0) legendreE (V y)| ≤ ε * lengthSq N y)
    (y : ℕ → ℝ) : len N (V (mulx x y) - stepN N (V y)) ≤ ε * len N y := by
  have hdot : ∀ u v, dot N (V u) (V v) = dot N u v := by
    intro u v
    have e : ∀ a b : ℕ → ℝ, lengthSq N (a + b) - lengthSq N (a - b) = 4 * dot N a b := by
      intro a b
      unfold lengthSq dot
      rw [← Finset.sum_sub_distrib, Finset.mul_sum]
      exact Finset.sum_congr rfl fun k _ => by simp only [Pi.add_apply, Pi.sub_apply]; ring
    have h1 := e (V u) (V v)
    rw [← map_add, ← map_sub, v1, v1, e] at h1
    linarith
  let β : (ℕ → ℝ) → (ℕ → ℝ) → ℝ := fun u v => dot N (mulx x u) v - bform N (V u) (V v)
  have hβ : Bilin β := by
    obtain ⟨b1, b2⟩ := bilin_bform (N := N)
    constructor
    · intro u v
      have h1 := b1 (V u) (V v)
      rw [← map_add, ← map_sub] at h1
      have h2 : dot N (mulx x (u + v)) (u + v) - dot N (mulx x (u - v)) (u - v) = 4 * dot N (mulx x u) v := by
        unfold dot mulx
        rw [← Finset.sum_sub_distrib, Finset.mul_sum]
        exact Finset.sum_congr rfl fun k _ => by simp only [Pi.add_apply, Pi.sub_apply]; ring
      simp only [β]
      linarith
    · intro u v t
      have h2 : dot N (mulx x u) (t • v) = t * dot N (mulx x u) v := by
        unfold dot
        rw [Finset.mul_sum]
        exact Finset.sum_congr rfl fun k _ => by simp only [Pi.smul_apply, smul_eq_mul]; ring
      simp only [β]
      rw [map_smul, b2, h2]
      ring
  obtain ⟨w, hw⟩ := v0 (V (mulx x y) - stepN N (V y))
  have hb : ∀ y, |β y y| ≤ ε * lengthSq N y := by
    intro y
    have := v2 y
    simp only [β]
    rw [bform_self]
    convert this using 4
    exact Finset.sum_congr rfl fun k _ => by simp only [mulx]; ring
  have he : β y w = lengthSq N w := by
    simp only [β]
    rw [← hdot (mulx x y) w, ← dot_stepN, hw, ← v1 w, hw]
    unfold dot lengthSq
    rw [← Finset.sum_sub_distrib]
    exact Finset.sum_congr rfl fun k _ => by simp only [Pi.sub_apply]; ring
  have := hβ.le h0 hb he
  rw [← v1 w, hw] at this
  exact len_le_of h0 this

theorem IsEigen.moment {x z : ℕ → ℝ} {ε : ℝ} (hN : 0 < N) (h0 : 0 ≤ ε) (h : IsEigen N (fun _ => 0) legendreE x z ε)
    (j : ℕ) : |(∑ k ∈ Finset.range N, z k ^ 2 * x k ^ j) - powN N j 0| ≤ (1 + ε) ^ j - 1 := by
  have hz := h.sum_sq hN
  have hx : ∀ k < N, |x k| ≤ 1 + ε := fun k hk =>
    h.le (B := 1) (fun y => by rw [← form_jacobi N 0]; exact jacobi_form hN 0 y) hk
  obtain ⟨V, v0, v1, v2, v3⟩ := h
  let u : ℕ → ℕ → ℝ := fun j k => x k ^ j * z k
  have hu : ∀ j, u (j + 1) = mulx x (u j) := fun j => by funext k; simp only [u, mulx]; ring
  have hlen : ∀ j, len N (u j) ≤ (1 + ε) ^ j := by
    intro j
    have : lengthSq N (u j) ≤ ((1 + ε) ^ j) ^ 2 * lengthSq N z := by
      unfold lengthSq
      rw [Finset.mul_sum]
      refine Finset.sum_le_sum fun k hk => ?_
      have h1 := pow_le_pow_left₀ (abs_nonneg _) (hx k (Finset.mem_range.1 hk)) j
      have h2 := pow_le_pow_left₀ (by positivity) h1 2
      rw [← abs_pow, sq_abs] at h2
      simp only [u, mul_pow]
      exact mul_le_mul_of_nonneg_right h2 (sq_nonneg _)
    have := len_le_of (by positivity) this
    rwa [show len N z = 1 by rw [len, hz, Real.sqrt_one], mul_one] at this
  have key : ∀ j, len N (V (u j) - powN N j) ≤ (1 + ε) ^ j - 1 := by
    intro j
    induction j with
    | zero =>
      have e : lengthSq N (V (u 0) - powN N 0) = 0 := by
        have hu0 : u 0 = z := by funext k; simp [u]
        have h1 : V z 0 = 1 := by
          rw [v3, ← hz]; exact Finset.sum_congr rfl fun k _ => by ring
        have h2 : lengthSq N (V z) = 1 := by rw [v1, hz]
        have h3 : lengthSq N (V z - Pi.single 0 1) + 2 * V z 0 = lengthSq N (V z) + lengthSq N (Pi.single 0 1) := by
          unfold lengthSq
          rw [← Finset.sum_add_distrib]
          have : 2 * V z 0 = ∑ k ∈ Finset.range N, 2 * (V z k * (Pi.single 0 1 : ℕ → ℝ) k) := by
            rw [Finset.sum_eq_single 0]
            · simp
            · intro k _ hk; rw [Pi.single_eq_of_ne hk]; ring
            · intro hk; exact absurd (Finset.mem_range.2 hN) hk
          rw [this, ← Finset.sum_add_distrib]
          exact Finset.sum_congr rfl fun k _ => by simp only [Pi.sub_apply]; ring
        rw [lengthSq_single hN, h1, h2] at h3
        rw [hu0]
        change lengthSq N (V z - Pi.single 0 1) = 0
        linarith
      simp [len, e]
    | succ j ih =>
      have h1 : V (u (j + 1)) - powN N (j + 1) = (V (mulx x (u j)) - stepN N (V (u j))) + stepN N (V (u j) - powN N j) := by
        rw [hu, powN_succ, map_sub]; abel
      rw [h1]
      refine (len_add_le _ _).trans ?_
      have h2 := IsEigen.len_sub h0 v0 v1 v2 (u j)
      have h3 := len_stepN hN (V (u j) - powN N j)
      have h4 := mul_le_mul_of_nonneg_left (hlen j) h0
      rw [pow_succ]
      linarith
  have h5 := (abs_le_len hN _).trans (key j)
  rw [Pi.sub_apply, v3] at h5
  have e : ∑ k ∈ Finset.range N, z k ^ 2 * x k ^ j = ∑ k ∈ Finset.range N, z k * u j k :=
    Finset.sum_congr rfl fun k _ => by simp only [u]; ring
  rwa [e]

end Dashmm.GaussQ
