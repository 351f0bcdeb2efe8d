import Verif.Proofs.YukPlane
import Verif.Proofs.PlaneBound

/-!
# Every rule of the Yukawa kernel has some accuracy
-/

namespace Dashmm.Yuk

open Harm Lap Waves Bessel
open Complex (I)
open scoped Nat

noncomputable section

theorem legendreP_le (ζ : ℂ) (K : ℝ) (hK : 1 ≤ K) (h : ‖ζ‖ ≤ K) : ∀ n, ‖Yukawa.legendreP ζ n‖ ≤ (3 * K) ^ n
  | 0 => by simp [Yukawa.legendreP]
  | 1 => by simp only [Yukawa.legendreP, pow_one]; linarith
  | n + 2 => by
    have h1 := legendreP_le ζ K hK h (n + 1)
    have h0 := legendreP_le ζ K hK h n
    have hp : 0 < ((n : ℝ) + 2) := by positivity
    rw [Yukawa.legendreP, norm_div]
    have e : ‖((n : ℂ) + 2)‖ = (n : ℝ) + 2 := by
      rw [show ((n : ℂ) + 2) = ((n + 2 : ℝ) : ℂ) by push_cast; ring, Complex.norm_real, Real.norm_of_nonneg hp.le]
    rw [e, div_le_iff₀ hp]
    refine (norm_sub_le _ _).trans ?_
    rw [norm_mul, norm_mul, norm_mul]
    have e1 : ‖(2 * (n : ℂ) + 3)‖ = 2 * (n : ℝ) + 3 := by
      rw [show (2 * (n : ℂ) + 3) = ((2 * n + 3 : ℝ) : ℂ) by push_cast; ring, Complex.norm_real, Real.norm_of_nonneg (by positivity)]
    have e2 : ‖((n : ℂ) + 1)‖ = (n : ℝ) + 1 := by
      rw [show ((n : ℂ) + 1) = ((n + 1 : ℝ) : ℂ) by push_cast; ring, Complex.norm_real, Real.norm_of_nonneg (by positivity)]
    rw [e1, e2]
    have hK3 : 0 ≤ (3 * K) ^ n := by positivity
    have a1 : (2 * (n : ℝ) + 3) * ‖ζ‖ * ‖Yukawa.legendreP ζ (n + 1)‖ ≤ (2 * n + 3) * K * (3 * K) ^ (n + 1) :=
      mul_le_mul (mul_le_mul_of_nonneg_left h (by positivity)) h1 (norm_nonneg _) (by positivity)
    have a2 : ((n : ℝ) + 1) * ‖Yukawa.legendreP ζ n‖ ≤ (n + 1) * (3 * K) ^ n := mul_le_mul_of_nonneg_left h0 (by positivity)
    refine (add_le_add a1 a2).trans ?_
    have : (2 * (n : ℝ) + 3) * K * (3 * K) ^ (n + 1) + (n + 1) * (3 * K) ^ n = ((2 * n + 3) * 3 * K ^ 2 + (n + 1)) * (3 * K) ^ n := by ring
    rw [this, show (3 * K) ^ (n + 2) * ((n : ℝ) + 2) = (9 * K ^ 2 * (n + 2)) * (3 * K) ^ n by ring]
    refine mul_le_mul_of_nonneg_right ?_ hK3
    nlinarith [mul_le_mul hK hK (by norm_num) (by linarith : (0:ℝ) ≤ K), (Nat.cast_nonneg n : (0 : ℝ) ≤ n), mul_nonneg (Nat.cast_nonneg n : (0 : ℝ) ≤ n) (by nlinarith : (0:ℝ) ≤ K ^ 2 - 1)]

theorem coord_le (u : Point ℝ) (hu : u.norm = 1) : |u.x| ≤ 1 ∧ |u.y| ≤ 1 ∧ |u.z| ≤ 1 := by
  have h : u.x ^ 2 + u.y ^ 2 + u.z ^ 2 = 1 := by
    have h0 : 0 ≤ u.x ^ 2 + u.y ^ 2 + u.z ^ 2 := by positivity
    have e : u.norm ^ 2 = u.x ^ 2 + u.y ^ 2 + u.z ^ 2 := by unfold Point.norm; rw [Real.sq_sqrt (by nlinarith)]; ring
    rw [← e, hu]; norm_num
  refine ⟨?_, ?_, ?_⟩ <;> rw [abs_le] <;> constructor <;> nlinarith [sq_nonneg u.x, sq_nonneg u.y, sq_nonneg u.z]

theorem waveCos_le (ld x : ℝ) (hld : 0 < ld) (hx : 0 ≤ x) (u : Point ℝ) (hu : u.norm = 1) (β : ℝ) :
    ‖Yukawa.waveCos ld x u β‖ ≤ (ld + x + 2 * √(x * x + 2 * x * ld)) / ld := by
  obtain ⟨h1, h2, h3⟩ := coord_le u hu
  unfold Yukawa.waveCos
  rw [norm_div, Complex.norm_real, Real.norm_of_nonneg hld.le]
  refine div_le_div_of_nonneg_right ((norm_sub_le _ _).trans (add_le_add ?_ ?_)) hld.le
  · rw [show ((ld : ℂ) + x) * u.z = (((ld + x) * u.z : ℝ) : ℂ) by push_cast; ring, Complex.norm_real, Real.norm_eq_abs, abs_mul, abs_of_nonneg (by linarith)]
    nlinarith
  · rw [norm_mul, Complex.norm_I, one_mul]
    have : ((√(x * x + 2 * x * ld) : ℂ) * ((u.x : ℂ) * Real.cos β + u.y * Real.sin β)) = ((√(x * x + 2 * x * ld) * (u.x * Real.cos β + u.y * Real.sin β) : ℝ) : ℂ) := by push_cast; ring
    rw [this, Complex.norm_real, Real.norm_eq_abs, abs_mul, abs_of_nonneg (Real.sqrt_nonneg _)]
    rw [mul_comm]
    refine mul_le_mul_of_nonneg_right ?_ (Real.sqrt_nonneg _)
    calc _ ≤ |u.x * Real.cos β| + |u.y * Real.sin β| := abs_add_le _ _
      _ ≤ 1 * 1 + 1 * 1 := by
        rw [abs_mul, abs_mul]
        exact add_le_add (mul_le_mul h1 (Real.abs_cos_le_one _) (abs_nonneg _) (by norm_num))
          (mul_le_mul h2 (Real.abs_sin_le_one _) (abs_nonneg _) (by norm_num))
      _ = 2 := by norm_num

theorem cutSeries_le (p f : ℕ) (ld x : ℝ) (hld : 0 < ld) (hx : 0 ≤ x) (B : ℝ) (hB : 0 ≤ B) : ∃ K : ℝ, 0 ≤ K ∧
    ∀ (b : ℕ → ℝ) (u : Point ℝ) (α : ℝ), (∀ n ≤ p, |b n| ≤ B) → u.norm = 1 → ‖Yukawa.cutSeries p f b ld x u α‖ ≤ K := by
  set Z := max 1 ((ld + x + 2 * √(x * x + 2 * x * ld)) / ld)
  have hZ : (1 : ℝ) ≤ Z := le_max_left _ _
  have hZ0 : 0 ≤ Z := by linarith
  refine ⟨(Finset.Icc (-(f : ℤ)) f).card * ∑ n ∈ Finset.range (p + 1), (2 * n + 1) * B * (3 * Z) ^ n,
    mul_nonneg (Nat.cast_nonneg _) (Finset.sum_nonneg fun n _ => by positivity), fun b u α hb hu => ?_⟩
  refine fourierCut_le f _ _ (fun β => ?_) α
  unfold Yukawa.waveSeries
  refine (norm_sum_le _ _).trans (Finset.sum_le_sum fun n hn => ?_)
  rw [norm_mul, norm_mul, Complex.norm_real]
  have e1 : ‖(2 * (n : ℂ) + 1)‖ = 2 * (n : ℝ) + 1 := by
    rw [show (2 * (n : ℂ) + 1) = ((2 * n + 1 : ℝ) : ℂ) by push_cast; ring, Complex.norm_real, Real.norm_of_nonneg (by positivity)]
  rw [e1, Real.norm_eq_abs]
  exact mul_le_mul (mul_le_mul_of_nonneg_left (hb n (by have := Finset.mem_range.1 hn; omega)) (by positivity))
    (legendreP_le _ Z hZ ((waveCos_le ld x hld hx u hu β).trans (le_max_right _ _)) n) (norm_nonneg _) (by positivity)

theorem planeWave_le (κ δ α : ℝ) (hδ : 0 ≤ δ) (x y z : ℤ) (hz : 0 ≤ z) : ‖planeWave κ δ α x y z‖ ≤ 1 := by
  unfold planeWave
  rw [Complex.norm_exp]
  refine Real.exp_le_one_iff.2 ?_
  have hz' : (0 : ℝ) ≤ z := by exact_mod_cast hz
  have h := mul_nonneg hδ hz'
  simp
  exact h

theorem planeRule_le (T : PlaneTable) (L : Level) (hlam : ∀ k, 0 ≤ T.rule.lam k) (ld : ℝ) (hld : 0 < ld) (p : ℕ) (B : ℝ) (hB : 0 ≤ B) :
    ∃ K : ℝ, 0 ≤ K ∧ ∀ (ra rb : ℕ → ℝ) (a b : Point ℝ) (x y z : ℤ), (∀ n ≤ p, |ra n| ≤ B) → (∀ n ≤ p, |rb n| ≤ B) → a.norm = 1 → b.norm = 1 → 0 ≤ z →
      |Yukawa.planeRule T L ld p ra a (x, y, z) rb b| ≤ K := by
  choose C hC hC2 using fun k => cutSeries_le p (L.f k) ld (T.rule.lam k) hld (hlam k) B hB
  refine ⟨Real.pi / (2 * ld) * ∑ k ∈ Finset.range L.s, |T.rule.wt k / L.m k| * ∑ j ∈ Finset.Icc 1 (L.m k), C k * 1 * C k,
    mul_nonneg (by have := Real.pi_pos; positivity) (Finset.sum_nonneg fun k _ => mul_nonneg (abs_nonneg _) (Finset.sum_nonneg fun j _ =>
      mul_nonneg (by have := hC k; positivity) (hC k))), ?_⟩
  intro ra rb a b x y z hra hrb ha hb hz
  unfold Yukawa.planeRule
  rw [abs_mul, abs_of_nonneg (by have := Real.pi_pos; positivity)]
  refine mul_le_mul_of_nonneg_left ?_ (by have := Real.pi_pos; positivity)
  refine (Complex.abs_re_le_norm _).trans ((norm_sum_le _ _).trans (Finset.sum_le_sum fun k _ => ?_))
  rw [norm_mul, Complex.norm_real, Real.norm_eq_abs]
  refine mul_le_mul_of_nonneg_left ((norm_sum_le _ _).trans (Finset.sum_le_sum fun j _ => ?_)) (abs_nonneg _)
  simp only []
  generalize 2 * Real.pi * (j : ℝ) / L.m k = α
  rw [norm_mul, norm_mul]
  exact mul_le_mul (mul_le_mul (hC2 k ra a α hra ha) (planeWave_le _ _ _ (by have := hlam k; linarith) _ _ _ hz) (norm_nonneg _) (hC k))
    (hC2 k rb _ α hrb ((neg_norm b).trans hb)) (norm_nonneg _) (mul_nonneg (hC k) (by norm_num))

theorem radial_le (F : Table) (δ : ℝ) (hδ0 : 10⁻¹ ^ 17 ≤ δ) (hδ : δ ≤ 1 / 2) (hF : AccurateI F δ) (lam scale : ℝ) (hl : 0 < lam) (hs : 0 < scale) (p : ℕ) (D : ℝ) (hD : 0 < D) :
    ∃ B : ℝ, 0 ≤ B ∧ ∀ (nb : ℕ) (v : Point ℝ), v.norm ≤ D → ∀ n ≤ p, n ≤ nb → |Yukawa.radial F lam scale nb v n| ≤ B := by
  let f : ℕ → ℝ := fun n => (2 * ((lam * D) ^ n * Real.exp ((lam * D) ^ 2 / 6)) / scale ^ n + 2 * 10⁻¹ ^ 300 * max 1 (lam * D / scale) ^ n) * scale ^ n
  have hf : ∀ n, 0 ≤ f n := fun n => by have := le_max_left 1 (lam * D / scale); positivity
  refine ⟨∑ n ∈ Finset.range (p + 1), f n, Finset.sum_nonneg fun n _ => hf n, fun nb v hv n hn hnb => ?_⟩
  refine le_trans ?_ (Finset.single_le_sum (f := f) (fun i _ => hf i) (Finset.mem_range.2 (by omega : n < p + 1)))
  have hx0 : 0 ≤ lam * v.norm := mul_nonneg hl.le (norm_nonneg' v)
  have hxD : lam * v.norm ≤ lam * D := mul_le_mul_of_nonneg_left hv hl.le
  have h := in_any F δ hδ0 hδ hF nb (lam * v.norm) scale hs hx0 n hnb
  have hsp : sphI n (lam * v.norm) ≤ (lam * D) ^ n * Real.exp ((lam * D) ^ 2 / 6) := by
    rw [sphI_eq]
    have hd : (1 : ℝ) ≤ ((2 * n + 1)‼ : ℕ) := by exact_mod_cast Nat.doubleFactorial_pos _
    have he := (erl_exp n (lam * v.norm)).trans (Real.exp_le_exp.2 (div_le_div_of_nonneg_right (pow_le_pow_left₀ hx0 hxD 2) (by norm_num : (0:ℝ) ≤ 6)))
    have he0 : 0 ≤ erl n ((lam * v.norm) ^ 2) := le_trans zero_le_one (erl_one_le n _ (sq_nonneg _))
    refine mul_le_mul ?_ he he0 (by positivity)
    exact (div_le_self (by positivity) hd).trans (pow_le_pow_left₀ hx0 hxD n)
  have hsp0 := sphI_nonneg n (lam * v.norm) hx0
  have hb1 : Yukawa.besselError δ (lam * v.norm) ≤ 1 := by unfold Yukawa.besselError; split_ifs <;> linarith
  have hmax : max 1 (lam * v.norm / scale) ^ n ≤ max 1 (lam * D / scale) ^ n :=
    pow_le_pow_left₀ (le_trans zero_le_one (le_max_left _ _)) (max_le_max_left _ (div_le_div_of_nonneg_right hxD hs.le)) n
  unfold Yukawa.radial
  rw [abs_mul, abs_of_pos (pow_pos hs n)]
  refine mul_le_mul_of_nonneg_right ?_ (pow_pos hs n).le
  have hq0 : 0 ≤ sphI n (lam * v.norm) / scale ^ n := by positivity
  have hq : sphI n (lam * v.norm) / scale ^ n ≤ ((lam * D) ^ n * Real.exp ((lam * D) ^ 2 / 6)) / scale ^ n := div_le_div_of_nonneg_right hsp (by positivity)
  have h3 := abs_sub_abs_le_abs_sub (inScaled F nb (lam * v.norm) scale n) (sphI n (lam * v.norm) / scale ^ n)
  rw [abs_of_nonneg hq0] at h3
  have h4 : Yukawa.besselError δ (lam * v.norm) * (sphI n (lam * v.norm) / scale ^ n) ≤ 1 * (sphI n (lam * v.norm) / scale ^ n) := mul_le_mul_of_nonneg_right hb1 hq0
  have h5 : (2 : ℝ) * 10⁻¹ ^ 300 * max 1 (lam * v.norm / scale) ^ n ≤ 2 * 10⁻¹ ^ 300 * max 1 (lam * D / scale) ^ n := mul_le_mul_of_nonneg_left hmax (by positivity)
  have h6 : 2 * ((lam * D) ^ n * Real.exp ((lam * D) ^ 2 / 6)) / scale ^ n = 2 * (((lam * D) ^ n * Real.exp ((lam * D) ^ 2 / 6)) / scale ^ n) := by ring
  rw [h6]
  linarith

theorem unit_norm (v : Point ℝ) (h : v.norm ≠ 0) : (Yukawa.unit v).norm = 1 := by
  have h0 : 0 < v.norm := lt_of_le_of_ne (norm_nonneg' v) h.symm
  have e : Yukawa.unit v = psmul (1 / v.norm) v := by unfold Yukawa.unit psmul; congr 1 <;> ring
  rw [e, psmul_norm _ (by positivity)]
  field_simp

theorem coord_range {D : ℝ} (hD0 : 0 < D) {x a b : ℝ} (h1 : -3 ≤ x) (h2 : x ≤ 3) (ha : -(D / 2) ≤ a ∧ a ≤ D / 2) (hb : -(D / 2) ≤ b ∧ b ≤ D / 2) :
    (x * D + b - a) ^ 2 ≤ 16 * D ^ 2 := by
  have e1 : -(3 * D) ≤ x * D := by nlinarith
  have e2 : x * D ≤ 3 * D := by nlinarith
  obtain ⟨ha1, ha2⟩ := ha
  obtain ⟨hb1, hb2⟩ := hb
  have l : -(4 * D) ≤ x * D + b - a := by linarith
  have u : x * D + b - a ≤ 4 * D := by linarith
  nlinarith

theorem dist_range {D : ℝ} (hD0 : 0 < D) (a b : Point ℝ) (x y z : ℝ) (hx1 : -3 ≤ x) (hx2 : x ≤ 3) (hy1 : -3 ≤ y) (hy2 : y ≤ 3) (hz1 : 2 ≤ z) (hz2 : z ≤ 3)
    (a1 : -(D / 2) ≤ a.x ∧ a.x ≤ D / 2) (a2 : -(D / 2) ≤ a.y ∧ a.y ≤ D / 2) (a3 : -(D / 2) ≤ a.z ∧ a.z ≤ D / 2)
    (b1 : -(D / 2) ≤ b.x ∧ b.x ≤ D / 2) (b2 : -(D / 2) ≤ b.y ∧ b.y ≤ D / 2) (b3 : -(D / 2) ≤ b.z ∧ b.z ≤ D / 2) :
    D ≤ Point.norm (⟨x * D + b.x - a.x, y * D + b.y - a.y, z * D + b.z - a.z⟩ : Point ℝ) ∧
    Point.norm (⟨x * D + b.x - a.x, y * D + b.y - a.y, z * D + b.z - a.z⟩ : Point ℝ) ≤ 7 * D := by
  have e1 := coord_range hD0 hx1 hx2 a1 b1
  have e2 := coord_range hD0 hy1 hy2 a2 b2
  have e3 := coord_range hD0 (by linarith) hz2 a3 b3
  have h2 : D ≤ z * D + b.z - a.z := by nlinarith [a3.2, b3.1]
  clear a1 a2 a3 b1 b2 b3
  unfold Point.norm
  simp only
  generalize x * D + b.x - a.x = X at *
  generalize y * D + b.y - a.y = Y at *
  generalize z * D + b.z - a.z = Z at *
  constructor
  · refine Real.le_sqrt_of_sq_le ?_
    nlinarith [sq_nonneg X, sq_nonneg Y]
  · refine Real.sqrt_le_iff.2 ⟨by positivity, ?_⟩
    nlinarith [sq_nonneg D]

theorem acc_arith {V K m κ : ℝ} (hK : 0 ≤ K) (hm0 : 0 < m) (hκm : m ≤ κ) (hk : |V| ≤ K) : |V - κ| ≤ (K / m + 1) * κ :=
  calc _ ≤ |V| + |κ| := abs_sub _ _
    _ ≤ K + κ := by rw [abs_of_pos (by linarith : 0 < κ)]; linarith
    _ = K / m * m + κ := by rw [div_mul_cancel₀ _ hm0.ne']
    _ ≤ K / m * κ + κ := by have := mul_le_mul_of_nonneg_left hκm (by positivity : 0 ≤ K / m); linarith
    _ = _ := by ring

/-- Every rule is accurate to some `ε`. -/
theorem exists_rule_accurate (F : Table) (δ : ℝ) (hδ0 : 10⁻¹ ^ 17 ≤ δ) (hδ : δ ≤ 1 / 2) (hF : AccurateI F δ) {dg : ℤ} {T : PlaneTable} (hT : waveBase dg = some T)
    (d : Domain ℝ) (hs : 0 < d.size) (lam : ℝ) (hl : 0 < lam) (p lev : ℕ) : ∃ ε : ℝ, 0 ≤ ε ∧ Yukawa.RuleAccurate F T d lam p lev ε := by
  set D := d.sizeFromLevel lev with hD
  have hD0 : 0 < D := by rw [hD, Domain.sizeFromLevel]; positivity
  have hsc := scaleOf_pos d.size lam (scale0_pos d.size lam hs hl) lev
  obtain ⟨B, hB, hB2⟩ := radial_le F δ hδ0 hδ hF lam (Yukawa.scaleOf d.size lam lev) hl hsc p D hD0
  obtain ⟨K, hK, hK2⟩ := planeRule_le T (yukLevel T lam d.size lev) (waveBase_nonneg hT) (lam * D) (by positivity) p B hB
  have hπ := Real.pi_pos
  set m := Real.pi / (2 * lam) * (Real.exp (-(lam * (7 * D))) / (7 * D)) with hm
  have hm0 : 0 < m := by have := Real.exp_pos (-(lam * (7 * D))); positivity
  refine ⟨K / m + 1, by positivity, fun a b x y z ha hb na nb hx hy hz1 hz2 => ?_⟩
  have hle : ∀ v : Point ℝ, InUnit ⟨v.x / D, v.y / D, v.z / D⟩ → v.norm ≤ D ∧ |v.x| ≤ D / 2 ∧ |v.y| ≤ D / 2 ∧ |v.z| ≤ D / 2 := by
    intro v hv
    obtain ⟨h1, h2, h3⟩ := hv
    simp only [abs_div, abs_of_pos hD0] at h1 h2 h3
    rw [div_le_iff₀ hD0] at h1 h2 h3
    refine ⟨?_, by linarith, by linarith, by linarith⟩
    refine Real.sqrt_le_iff.2 ⟨hD0.le, ?_⟩
    have sq : ∀ w : ℝ, |w| ≤ 1 / 2 * D → w ^ 2 ≤ D ^ 2 / 4 := fun w hw => by
      rw [← sq_abs]; nlinarith [abs_nonneg w]
    nlinarith [sq _ h1, sq _ h2, sq _ h3]
  obtain ⟨la, a1, a2, a3⟩ := hle a ha
  obtain ⟨lb, b1, b2, b3⟩ := hle b hb
  have hk := hK2 (Yukawa.radial F lam (Yukawa.scaleOf d.size lam lev) p a) (Yukawa.radial F lam (Yukawa.scaleOf d.size lam lev) (p + 1) b) (Yukawa.unit a) (Yukawa.unit b)
    x y z (fun n hn => hB2 p a la n hn hn) (fun n hn => hB2 (p + 1) b lb n hn (by omega)) (unit_norm a na) (unit_norm b nb) (by omega)
  rw [abs_le] at a1 a2 a3 b1 b2 b3 hx hy
  have hx1 : (-3 : ℝ) ≤ x := by exact_mod_cast hx.1
  have hx2 : (x : ℝ) ≤ 3 := by exact_mod_cast hx.2
  have hy1 : (-3 : ℝ) ≤ y := by exact_mod_cast hy.1
  have hy2 : (y : ℝ) ≤ 3 := by exact_mod_cast hy.2
  have hz1 : (2 : ℝ) ≤ z := by exact_mod_cast hz1
  have hz2 : (z : ℝ) ≤ 3 := by exact_mod_cast hz2
  simp only
  rw [← hD]
  set r := Point.norm (⟨x * D + b.x - a.x, y * D + b.y - a.y, z * D + b.z - a.z⟩ : Point ℝ) with hr
  obtain ⟨hr1, hr7⟩ := dist_range hD0 a b x y z hx1 hx2 hy1 hy2 hz1 hz2 a1 a2 a3 b1 b2 b3
  rw [← hr] at hr1 hr7
  have hr0 : 0 < r := by linarith
  set κ := Real.pi / (2 * lam) * (Real.exp (-(lam * r)) / r) with hκ
  have hκm : m ≤ κ := by
    rw [hm, hκ]
    refine mul_le_mul_of_nonneg_left ?_ (by positivity)
    refine div_le_div₀ (Real.exp_pos _).le (Real.exp_le_exp.2 ?_) hr0 hr7
    nlinarith
  exact acc_arith hK hm0 hκm hk

end
end Dashmm.Yuk
