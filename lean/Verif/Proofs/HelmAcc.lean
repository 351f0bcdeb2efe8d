import Verif.Proofs.HelmSrc
import Verif.Proofs.YukAcc

/-!
# Every rule of the Helmholtz kernel has some accuracy
-/

namespace Dashmm.Helm

open Harm Lap Waves Bessel
open Complex (I)
open scoped Nat

noncomputable section

theorem cross_le (u : Point ℝ) (hu : u.norm = 1) (β : ℝ) : |u.x * Real.cos β + u.y * Real.sin β| ≤ 2 := by
  obtain ⟨h1, h2, h3⟩ := Yuk.coord_le u hu
  calc _ ≤ |u.x * Real.cos β| + |u.y * Real.sin β| := abs_add_le _ _
    _ ≤ 1 * 1 + 1 * 1 := by
      rw [abs_mul, abs_mul]
      exact add_le_add (mul_le_mul h1 (Real.abs_cos_le_one _) (abs_nonneg _) (by norm_num))
        (mul_le_mul h2 (Real.abs_sin_le_one _) (abs_nonneg _) (by norm_num))
    _ = 2 := by norm_num

theorem travelCos_le (θ : ℝ) (u : Point ℝ) (hu : u.norm = 1) (β : ℝ) : ‖travelCos θ u β‖ ≤ 3 := by
  obtain ⟨h1, h2, h3⟩ := Yuk.coord_le u hu
  have e : travelCos θ u β = ((Real.sin θ * (u.x * Real.cos β + u.y * Real.sin β) + Real.cos θ * u.z : ℝ) : ℂ) := by
    unfold travelCos; push_cast; ring
  rw [e, Complex.norm_real, Real.norm_eq_abs]
  calc _ ≤ |Real.sin θ * (u.x * Real.cos β + u.y * Real.sin β)| + |Real.cos θ * u.z| := abs_add_le _ _
    _ ≤ 1 * 2 + 1 * 1 := by
      rw [abs_mul, abs_mul]
      exact add_le_add (mul_le_mul (Real.abs_sin_le_one _) (cross_le u hu β) (abs_nonneg _) (by norm_num))
        (mul_le_mul (Real.abs_cos_le_one _) h3 (abs_nonneg _) (by norm_num))
    _ = 3 := by norm_num

theorem decayCos_le (wd x : ℝ) (hw : 0 < wd) (u : Point ℝ) (hu : u.norm = 1) (β : ℝ) :
    ‖decayCos wd x u β‖ ≤ (√(x * x + wd * wd) * 2 + |x|) / wd := by
  obtain ⟨h1, h2, h3⟩ := Yuk.coord_le u hu
  unfold decayCos
  rw [norm_div, Complex.norm_real, Real.norm_of_nonneg hw.le]
  refine div_le_div_of_nonneg_right ((norm_add_le _ _).trans (add_le_add ?_ ?_)) hw.le
  · have : ((√(x * x + wd * wd) : ℂ) * ((u.x : ℂ) * Real.cos β + u.y * Real.sin β)) = ((√(x * x + wd * wd) * (u.x * Real.cos β + u.y * Real.sin β) : ℝ) : ℂ) := by push_cast; ring
    rw [this, Complex.norm_real, Real.norm_eq_abs, abs_mul, abs_of_nonneg (Real.sqrt_nonneg _)]
    exact mul_le_mul_of_nonneg_left (cross_le u hu β) (Real.sqrt_nonneg _)
  · rw [norm_mul, Complex.norm_I, one_mul, norm_mul, Complex.norm_real, Complex.norm_real, Real.norm_eq_abs, Real.norm_eq_abs]
    exact mul_le_of_le_one_right (abs_nonneg _) h3

theorem cutSeries_le (p f : ℕ) (B Z : ℝ) (hB : 0 ≤ B) (hZ : 1 ≤ Z) (b : ℕ → ℝ) (hb : ∀ n ≤ p, |b n| ≤ B) (c : ℝ → ℂ) (hc : ∀ β, ‖c β‖ ≤ Z) (α : ℝ) :
    ‖cutSeries p f b c α‖ ≤ (Finset.Icc (-(f : ℤ)) f).card * ∑ n ∈ Finset.range (p + 1), (2 * n + 1) * B * (3 * Z) ^ n := by
  refine fourierCut_le f _ _ (fun β => ?_) α
  unfold series
  refine (norm_sum_le _ _).trans (Finset.sum_le_sum fun n hn => ?_)
  rw [norm_mul, norm_mul, norm_mul, Complex.norm_real, norm_pow, norm_neg, Complex.norm_I, one_pow, mul_one]
  have e1 : ‖(2 * (n : ℂ) + 1)‖ = 2 * (n : ℝ) + 1 := by
    rw [show (2 * (n : ℂ) + 1) = ((2 * n + 1 : ℝ) : ℂ) by push_cast; ring, Complex.norm_real, Real.norm_of_nonneg (by positivity)]
  rw [e1, Real.norm_eq_abs]
  exact mul_le_mul (mul_le_mul_of_nonneg_left (hb n (by have := Finset.mem_range.1 hn; omega)) (by positivity))
    (Yuk.legendreP_le _ Z hZ (hc β) n) (norm_nonneg _) (by positivity)

theorem travelWave_le (κ δ α x y z : ℝ) : ‖travelWave κ δ α x y z‖ ≤ 1 := by
  unfold travelWave
  rw [Complex.norm_exp]
  have e : (I * ((δ : ℂ) * z + κ * (x * Real.cos α + y * Real.sin α))) = I * ((δ * z + κ * (x * Real.cos α + y * Real.sin α) : ℝ) : ℂ) := by push_cast; ring
  rw [e]
  simp

/-- The sum over the angles and nodes of one family. -/
theorem family_le (s : ℕ) (wt : ℕ → ℝ) (m : ℕ → ℕ) (C : ℕ → ℝ) (hC : ∀ k, 0 ≤ C k) (a w b : ℕ → ℕ → ℂ)
    (ha : ∀ k j, ‖a k j‖ ≤ C k) (hw : ∀ k j, ‖w k j‖ ≤ 1) (hb : ∀ k j, ‖b k j‖ ≤ C k) :
    ‖∑ k ∈ Finset.range s, (wt k : ℂ) * ∑ j ∈ Finset.Icc 1 (m k), a k j * w k j * b k j‖ ≤
      ∑ k ∈ Finset.range s, |wt k| * ∑ j ∈ Finset.Icc 1 (m k), C k * 1 * C k := by
  refine (norm_sum_le _ _).trans (Finset.sum_le_sum fun k _ => ?_)
  rw [norm_mul, Complex.norm_real, Real.norm_eq_abs]
  refine mul_le_mul_of_nonneg_left ((norm_sum_le _ _).trans (Finset.sum_le_sum fun j _ => ?_)) (abs_nonneg _)
  rw [norm_mul, norm_mul]
  exact mul_le_mul (mul_le_mul (ha k j) (hw k j) (norm_nonneg _) (hC k)) (hb k j) (norm_nonneg _) (mul_nonneg (hC k) (by norm_num))

theorem planeRule_le (T : PlaneTable) (Q : PropRule) (L : Level × Level) (hlam : ∀ k, 0 ≤ T.rule.lam k) (wd : ℝ) (hw : 0 < wd) (p : ℕ) (B : ℝ) (hB : 0 ≤ B) :
    ∃ K : ℝ, 0 ≤ K ∧ ∀ (ra rb : ℕ → ℝ) (a b : Point ℝ) (x y z : ℤ), (∀ n ≤ p, |ra n| ≤ B) → (∀ n ≤ p, |rb n| ≤ B) → a.norm = 1 → b.norm = 1 → 0 ≤ z →
      ‖planeRule T Q L wd p ra a (x, y, z) rb b‖ ≤ K := by
  let Z := fun k => max 1 ((√(T.rule.lam k * T.rule.lam k + wd * wd) * 2 + |T.rule.lam k|) / wd)
  have hZ : ∀ k, 1 ≤ Z k := fun k => le_max_left _ _
  let S := fun (f : ℕ) (z : ℝ) => ((Finset.Icc (-(f : ℤ)) f).card : ℝ) * ∑ n ∈ Finset.range (p + 1), (2 * (n : ℝ) + 1) * B * (3 * z) ^ n
  have hS : ∀ f z, 1 ≤ z → 0 ≤ S f z := fun f z hz => mul_nonneg (Nat.cast_nonneg _) (Finset.sum_nonneg fun n _ => by positivity)
  refine ⟨(∑ k ∈ Finset.range L.2.s, |Q.w k / L.2.m k| * ∑ j ∈ Finset.Icc 1 (L.2.m k), S (L.2.f k) 3 * 1 * S (L.2.f k) 3) +
    1 / wd * ∑ k ∈ Finset.range L.1.s, |T.rule.wt k / L.1.m k| * ∑ j ∈ Finset.Icc 1 (L.1.m k), S (L.1.f k) (Z k) * 1 * S (L.1.f k) (Z k), ?_, ?_⟩
  · refine add_nonneg (Finset.sum_nonneg fun k _ => mul_nonneg (abs_nonneg _) (Finset.sum_nonneg fun j _ => ?_))
      (mul_nonneg (by positivity) (Finset.sum_nonneg fun k _ => mul_nonneg (abs_nonneg _) (Finset.sum_nonneg fun j _ => ?_)))
    · have := hS (L.2.f k) 3 (by norm_num); positivity
    · have := hS (L.1.f k) (Z k) (hZ k); positivity
  intro ra rb a b x y z hra hrb ha hb hz
  unfold planeRule
  refine (norm_add_le _ _).trans (add_le_add ?_ ?_)
  · refine family_le L.2.s (fun k => Q.w k / L.2.m k) L.2.m (fun k => S (L.2.f k) 3) (fun k => hS _ _ (by norm_num)) _ _ _ (fun k j => ?_) (fun k j => ?_) (fun k j => ?_)
    · exact cutSeries_le p _ B 3 hB (by norm_num) ra hra _ (travelCos_le _ a ha) _
    · exact travelWave_le _ _ _ _ _ _
    · exact cutSeries_le p _ B 3 hB (by norm_num) rb hrb _ (travelCos_le _ _ ((point_neg_norm b).trans hb)) _
  · rw [norm_mul, norm_div, norm_neg, Complex.norm_I, Complex.norm_real, Real.norm_of_nonneg hw.le]
    refine mul_le_mul_of_nonneg_left ?_ (by positivity)
    refine family_le L.1.s (fun k => T.rule.wt k / L.1.m k) L.1.m (fun k => S (L.1.f k) (Z k)) (fun k => hS _ _ (hZ k)) _ _ _ (fun k j => ?_) (fun k j => ?_) (fun k j => ?_)
    · exact cutSeries_le p _ B (Z k) hB (hZ k) ra hra _ (fun β => (decayCos_le wd _ hw a ha β).trans (le_max_right _ _)) _
    · exact Yuk.planeWave_le _ _ _ (hlam k) _ _ _ hz
    · exact cutSeries_le p _ B (Z k) hB (hZ k) rb hrb _ (fun β => (decayCos_le wd _ hw _ ((point_neg_norm b).trans hb) β).trans (le_max_right _ _)) _

theorem factor_le (F : ℕ → ℝ) (x scale : ℝ) (hs : 0 < scale) (n : ℕ) : 0 ≤ factorAt F x scale n ∧ factorAt F x scale n * scale ^ n ≤ √(Real.pi / 2 / x) := by
  induction n with
  | zero => simp [factorAt, Real.sqrt_nonneg]
  | succ n ih =>
    rw [factorAt]
    split_ifs
    · simp [Real.sqrt_nonneg]
    · refine ⟨div_nonneg ih.1 hs.le, ?_⟩
      rw [pow_succ]
      calc _ = factorAt F x scale n * scale ^ n := by field_simp
        _ ≤ _ := ih.2

theorem sphJ_abs (n : ℕ) (x X : ℝ) (hx : 0 ≤ x) (hX : x ≤ X) : |sphJ n x| ≤ X ^ n * Real.exp (X ^ 2 / 6) := by
  rw [sphJ_eq, abs_mul]
  have hX0 : 0 ≤ X := hx.trans hX
  have hd : (1 : ℝ) ≤ ((2 * n + 1)‼ : ℕ) := by exact_mod_cast Nat.doubleFactorial_pos _
  refine mul_le_mul ?_ ((erl_neg_abs n x).trans (Real.exp_le_exp.2 (div_le_div_of_nonneg_right (pow_le_pow_left₀ hx hX 2) (by norm_num)))) (abs_nonneg _) (by positivity)
  rw [abs_of_nonneg (by positivity)]
  exact (div_le_self (by positivity) hd).trans (pow_le_pow_left₀ hx hX n)

theorem radial_le (J : Table) (δ om scale : ℝ) (hδ : 0 ≤ δ) (ho : 0 < om) (hs : 0 < scale) (p : ℕ) (D : ℝ) (hD : 0 < D)
    (hJ : ∀ n ≤ p, ∀ x, 10⁻¹ ^ 4 < x → x ≤ om * D → |J p x n * √(Real.pi / 2 / x) - sphJ n x| ≤ δ) :
    ∃ B : ℝ, 0 ≤ B ∧ ∀ (v : Point ℝ), v.norm ≤ D → ∀ n ≤ p, |radial J om scale p v n| ≤ B := by
  let f : ℕ → ℝ := fun n => (om * D) ^ n * Real.exp ((om * D) ^ 2 / 6) + δ + (((om * D / scale) ^ n + 2 * max 1 (om * D / scale) ^ n) * scale ^ n)
  have hf : ∀ n, 0 ≤ f n := fun n => by have := le_max_left 1 (om * D / scale); positivity
  refine ⟨∑ n ∈ Finset.range (p + 1), f n, Finset.sum_nonneg fun n _ => hf n, fun v hv n hn => ?_⟩
  refine le_trans ?_ (Finset.single_le_sum (f := f) (fun i _ => hf i) (Finset.mem_range.2 (by omega : n < p + 1)))
  have hx0 : 0 ≤ om * v.norm := mul_nonneg ho.le (norm_nonneg' v)
  have hxD : om * v.norm ≤ om * D := mul_le_mul_of_nonneg_left hv ho.le
  unfold radial
  generalize om * v.norm = x at hx0 hxD
  have hsp := sphJ_abs n x (om * D) hx0 hxD
  have hm1 : (1 : ℝ) ≤ max 1 (om * D / scale) := le_max_left _ _
  rw [abs_mul, abs_of_pos (pow_pos hs n)]
  by_cases h4 : x ≤ 10⁻¹ ^ 4
  · have h := C85_jn_small J p x scale hs hx0 h4 n
    have hq : (x / scale) ^ n ≤ (om * D / scale) ^ n := pow_le_pow_left₀ (by positivity) (div_le_div_of_nonneg_right hxD hs.le) n
    have hmax : max 1 (x / scale) ^ n ≤ max 1 (om * D / scale) ^ n :=
      pow_le_pow_left₀ (le_trans zero_le_one (le_max_left _ _)) (max_le_max_left _ (div_le_div_of_nonneg_right hxD hs.le)) n
    have hd : (1 : ℝ) ≤ ((2 * n + 1)‼ : ℕ) := by exact_mod_cast Nat.doubleFactorial_pos _
    have hq2 : (x / scale) ^ n / ((2 * n + 1)‼ : ℕ) ≤ (om * D / scale) ^ n := (div_le_self (by positivity) hd).trans hq
    have h3 := abs_sub_abs_le_abs_sub (jnScaled J p x scale n) (sphJ n x / scale ^ n)
    have e5 : (10⁻¹ : ℝ) ^ 17 * ((x / scale) ^ n / ((2 * n + 1)‼ : ℕ)) ≤ (om * D / scale) ^ n :=
      (mul_le_of_le_one_left (by positivity) (by norm_num)).trans hq2
    have e6 : (2 : ℝ) * 10⁻¹ ^ 300 * max 1 (x / scale) ^ n ≤ 2 * max 1 (om * D / scale) ^ n := by
      rw [mul_assoc]
      exact mul_le_mul_of_nonneg_left ((mul_le_of_le_one_left (by positivity) (pow_le_one₀ (by norm_num) (by norm_num))).trans hmax) (by norm_num)
    have e7 : |jnScaled J p x scale n| ≤ |sphJ n x / scale ^ n| + ((om * D / scale) ^ n + 2 * max 1 (om * D / scale) ^ n) := by
      have h' := h.trans (add_le_add e5 e6)
      clear h e5 e6 hq2 hJ
      linarith
    calc _ ≤ (|sphJ n x / scale ^ n| + ((om * D / scale) ^ n + 2 * max 1 (om * D / scale) ^ n)) * scale ^ n := mul_le_mul_of_nonneg_right e7 (by positivity)
      _ = |sphJ n x| + ((om * D / scale) ^ n + 2 * max 1 (om * D / scale) ^ n) * scale ^ n := by
        rw [add_mul, abs_div, abs_of_pos (pow_pos hs n), div_mul_cancel₀ _ (pow_pos hs n).ne']
      _ ≤ _ := by simp only [f]; linarith
  · have hx4 : 10⁻¹ ^ 4 < x := not_le.1 h4
    obtain ⟨g0, g1⟩ := factor_le (J p x) x scale hs n
    have hj := hJ n hn x hx4 hxD
    have h3 := abs_sub_abs_le_abs_sub (J p x n * √(Real.pi / 2 / x)) (sphJ n x)
    rw [abs_mul, abs_of_nonneg (Real.sqrt_nonneg _)] at h3
    rw [jnScaled, if_neg h4, abs_mul, abs_of_nonneg g0, mul_assoc]
    have e1 : |J p x n| * (factorAt (J p x) x scale n * scale ^ n) ≤ |J p x n| * √(Real.pi / 2 / x) := mul_le_mul_of_nonneg_left g1 (abs_nonneg _)
    have e2 : 0 ≤ ((om * D / scale) ^ n + 2 * max 1 (om * D / scale) ^ n) * scale ^ n := by positivity
    simp only [f]
    linarith

/-- Every rule is accurate to some `ε`. -/
theorem exists_rule_accurate (J : Table) (δ : ℝ) (hδ : 0 ≤ δ) {dg : ℤ} {T : PlaneTable} (hT : waveBase dg = some T) (Q : PropRule)
    (d : Domain ℝ) (hs : 0 < d.size) (om : ℝ) (ho : 0 < om) (p lev : ℕ)
    (hJ : ∀ n ≤ p, ∀ x, 10⁻¹ ^ 4 < x → x ≤ om * d.sizeFromLevel lev → |J p x n * √(Real.pi / 2 / x) - sphJ n x| ≤ δ) :
    ∃ ε : ℝ, 0 ≤ ε ∧ RuleAccurate J T Q d om p lev ε := by
  set D := d.sizeFromLevel lev with hD
  have hD0 : 0 < D := by rw [hD, Domain.sizeFromLevel]; positivity
  have hsc := helm_scaleOf_pos d.size om hs ho lev
  cases hw : wavesAt T Q d.size om lev with
  | none => exact ⟨0, le_rfl, fun L hL => by rw [hw] at hL; cases hL⟩
  | some L0 =>
  obtain ⟨B, hB, hB2⟩ := radial_le J δ om (scaleOf d.size om lev) hδ ho hsc p D hD0 hJ
  obtain ⟨K, hK, hK2⟩ := planeRule_le T Q L0 (waveBase_nonneg hT) (om * D) (by positivity) p B hB
  refine ⟨K * (om * (7 * D)) + 1, by positivity, fun L hL a b x y z ha hb na nb hx hy hz1 hz2 => ?_⟩
  rw [hw] at hL
  obtain rfl := Option.some.inj hL
  have hle : ∀ v : Point ℝ, InUnit ⟨v.x / D, v.y / D, v.z / D⟩ → v.norm ≤ D ∧ |v.x| ≤ D / 2 ∧ |v.y| ≤ D / 2 ∧ |v.z| ≤ D / 2 := by
    intro v hv
    obtain ⟨h1, h2, h3⟩ := hv
    simp only [abs_div, abs_of_pos hD0] at h1 h2 h3
    rw [div_le_iff₀ hD0] at h1 h2 h3
    refine ⟨?_, by linarith, by linarith, by linarith⟩
    refine Real.sqrt_le_iff.2 ⟨hD0.le, ?_⟩
    have sq : ∀ w : ℝ, |w| ≤ 1 / 2 * D → w ^ 2 ≤ D ^ 2 / 4 := fun w hw => by
      rw [← sq_abs]; nlinarith [abs_nonneg w]
    nlinarith [sq _ h1, sq _ h2, sq _ h3]
  obtain ⟨la, a1, a2, a3⟩ := hle a ha
  obtain ⟨lb, b1, b2, b3⟩ := hle b hb
  have hk := hK2 (radial J om (scaleOf d.size om lev) p a) (radial J om (scaleOf d.size om lev) p b) (Yukawa.unit a) (Yukawa.unit b)
    x y z (fun n hn => hB2 a la n hn) (fun n hn => hB2 b lb n hn) (Yuk.unit_norm a na) (Yuk.unit_norm b nb) (by omega)
  rw [abs_le] at a1 a2 a3 b1 b2 b3 hx hy
  have hx1 : (-3 : ℝ) ≤ x := by exact_mod_cast hx.1
  have hx2 : (x : ℝ) ≤ 3 := by exact_mod_cast hx.2
  have hy1 : (-3 : ℝ) ≤ y := by exact_mod_cast hy.1
  have hy2 : (y : ℝ) ≤ 3 := by exact_mod_cast hy.2
  have hz1 : (2 : ℝ) ≤ z := by exact_mod_cast hz1
  have hz2 : (z : ℝ) ≤ 3 := by exact_mod_cast hz2
  simp only
  rw [← hD]
  obtain ⟨hr1, hr7⟩ := Yuk.dist_range hD0 a b x y z hx1 hx2 hy1 hy2 hz1 hz2 a1 a2 a3 b1 b2 b3
  generalize Point.norm (⟨x * D + b.x - a.x, y * D + b.y - a.y, z * D + b.z - a.z⟩ : Point ℝ) = r at hr1 hr7
  have hr0 : 0 < om * r := mul_pos ho (by linarith)
  have hker : ‖Complex.exp (I * (om * r : ℝ)) / (I * (om * r : ℝ))‖ = 1 / (om * r) := by
    rw [norm_div, norm_mul, Complex.norm_I, one_mul, Complex.norm_real, Real.norm_of_nonneg hr0.le, Complex.norm_exp]
    simp
  refine (norm_sub_le _ _).trans ?_
  rw [hker, add_div]
  refine add_le_add (hk.trans ?_) le_rfl
  rw [le_div_iff₀ hr0]
  exact mul_le_mul_of_nonneg_left (mul_le_mul_of_nonneg_left hr7 ho.le) hK

end
end Dashmm.Helm
