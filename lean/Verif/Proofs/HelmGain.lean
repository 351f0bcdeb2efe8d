import Verif.Proofs.HelmFmmRun
import Verif.Proofs.YukGain

/-!
The plane waves of every level have some accuracy and some growth (Helmholtz kernel).
-/

namespace Dashmm.Helm

open Finset Harm Lap Bessel Wave Waves
open scoped Nat
open Yuk hiding boxVal_cut exists_gain local_value_le multipole_value_le exists_waves_accurate boxVal levViews sixL iVal oneBox_eq box_spec RelM RelL RelS RelI FRelT FRel FAcc FmmEdge FGood sizeAt grow stepErr mToM_error mToM_bd lToL_error lToL_bd boxVal_lin boxVal_none levViews_lin sixL_lin sixL_congr iVal_spec multipole_error local_error toTargets_some radius_pos radius_double reach_pos downError_child sizeAt_child fmmError_child relL_down relL_waves fmm_edge_rel fmm_dst_not_start fmm_eval_rel fmm_eval_targets

noncomputable section

theorem wav_cut (σ ζ : ℂ) (w : ℕ → ℂ) (p f : ℕ) (C D : Coef) (h : ∀ n ≤ p, ∀ m ≤ n, C n m = D n m) (α : ℝ) : wav σ ζ w p f C α = wav σ ζ w p f D α := by
  refine Finset.sum_congr rfl fun n hn => ?_
  congr 1
  refine Finset.sum_congr rfl fun m hm => ?_
  have hn' : n ≤ p := by have := mem_range.1 hn; omega
  have : Harm.ext C n m = Harm.ext D n m := by
    rw [Finset.mem_Icc] at hm
    unfold Harm.ext
    split_ifs
    · rw [h _ hn' _ (by omega)]
    · rw [h _ hn' _ (by omega)]
  unfold cwv
  rw [this]

theorem boxVal_cut (T : PlaneTable) (Q : PropRule) (L : Level × Level) (size om wd s : ℝ) (p c : ℕ) (dx dy dz : ℤ) (M M' : Coef)
    (h : ∀ n ≤ p, ∀ m ≤ n, M n m = M' n m) : boxVal T Q L size om wd s p c dx dy dz M = boxVal T Q L size om wd s p c dx dy dz M' := by
  have hc : ∀ n ≤ p, ∀ m ≤ n, conv M n m = conv M' n m := fun n hn m hm => by unfold conv; rw [h n hn m hm]
  have he : eWave T L.1 wd s p (conv M) = eWave T L.1 wd s p (conv M') := by
    funext v k j
    exact wav_cut _ _ _ _ _ _ _ (fun n hn => frameC_cut v _ _ n fun m hm => hc n hn m hm) _
  have hp : pWave Q L.2 s p (conv M) = pWave Q L.2 s p (conv M') := by
    funext v k j
    exact wav_cut _ _ _ _ _ _ _ (fun n hn => frameC_cut _ _ _ n fun m hm => hc n hn m hm) _
  have h1 : eSlot T L wd s p c dx dy dz M = eSlot T L wd s p c dx dy dz M' := by funext i; rw [eSlot, he]; rfl
  have h2 : pSlot Q L wd s p c dx dy dz M = pSlot Q L wd s p c dx dy dz M' := by funext i; rw [pSlot, hp]; rfl
  rw [boxVal, h1, h2]; rfl

/-- As `Yuk.lin_bound`. -/
theorem lin_bound_local (p : ℕ) (f : Coef → LCoef) (hlin : ∀ (a : ℝ) M M', f (a • M + M') = a • f M + f M')
    (hcut : ∀ M M', (∀ n ≤ p, ∀ m ≤ n, M n m = M' n m) → f M = f M') :
    ∃ K : ℝ, 0 ≤ K ∧ ∀ (B : ℝ) (M : Coef), (∀ n ≤ p, ∀ m ≤ n, ‖M n m‖ ≤ B) → ∀ n ≤ p, ∀ m ∈ Icc (-(n : ℤ)) n, ‖f M n m‖ ≤ K * B := by
  choose K hK0 hK using fun q : ℕ × ℤ => lin_bound p (fun M _ _ => f M q.1 q.2)
    (fun a M M' => by funext _ _; rw [hlin]; rfl) (fun M M' h => by funext _ _; rw [hcut M M' h])
  let S : Finset (ℕ × ℤ) := range (p + 1) ×ˢ Icc (-(p : ℤ)) p
  refine ⟨∑ q ∈ S, K q, sum_nonneg fun q _ => hK0 q, fun B M hM n hn m hm => ?_⟩
  have hB : 0 ≤ B := (norm_nonneg _).trans (hM 0 (Nat.zero_le _) 0 le_rfl)
  refine (hK (n, m) B M hM 0 (Nat.zero_le _) 0 le_rfl).trans (mul_le_mul_of_nonneg_right (single_le_sum (fun q _ => hK0 q) ?_) hB)
  rw [mem_Icc] at hm
  simp only [S, mem_product, mem_range, mem_Icc]
  omega

theorem local_degree_le (L : LCoef) (n : ℕ) (B : ℝ) (hB : 0 ≤ B) (h : ∀ m ∈ Icc (-(n : ℤ)) n, ‖L n m‖ ≤ B) :
    localDegreeSize L n ≤ √(∑ m ∈ Icc (-(n : ℤ)) n, ((n + m.natAbs)! : ℝ) / ((n - m.natAbs)! : ℝ)) * B := by
  have h0 : 0 ≤ ∑ m ∈ Icc (-(n : ℤ)) n, ((n + m.natAbs)! : ℝ) / ((n - m.natAbs)! : ℝ) := sum_nonneg fun m _ => by positivity
  rw [← Real.sqrt_sq hB, ← Real.sqrt_mul h0]
  refine Real.sqrt_le_sqrt ?_
  rw [sum_mul]
  exact sum_le_sum fun m hm => mul_le_mul_of_nonneg_left (pow_le_pow_left₀ (norm_nonneg _) (h m hm) 2) (by positivity)

/-- The weight of a degree. -/
def rt (n : ℕ) : ℝ := √(∑ m ∈ Icc (-(n : ℤ)) n, ((n + m.natAbs)! : ℝ) / ((n - m.natAbs)! : ℝ))

theorem rt_nonneg (n : ℕ) : 0 ≤ rt n := Real.sqrt_nonneg _

theorem exists_gain_of (f : ℕ × ℤ × ℤ × ℤ → Coef → LCoef) (om sc : ℝ) (ho : 0 < om) (hsc : 0 < sc) (p : ℕ) (R d : ℝ) (hR : 0 ≤ R) (hd : 0 < d)
    (hlin : ∀ q (a : ℝ) M M', f q (a • M + M') = a • f q M + f q M')
    (hcut : ∀ q M M', (∀ n ≤ p, ∀ m ≤ n, M n m = M' n m) → f q M = f q M') :
    ∃ G : ℝ, 0 ≤ G ∧ ∀ (c : ℕ) (dx dy dz : ℤ), c < 8 → (-2 ≤ dx ∧ dx ≤ 3) → (-2 ≤ dy ∧ dy ≤ 3) → (-2 ≤ dz ∧ dz ≤ 3) → ∀ (M : Coef) (μ : ℝ),
      Yukawa.MultipoleSize p om sc M μ R → LocalSize p om sc (f (c, dx, dy, dz) M) (G * μ) d := by
  choose K hK0 hK using fun q : ℕ × ℤ × ℤ × ℤ => lin_bound_local p (f q) (hlin q) (hcut q)
  let S : Finset (ℕ × ℤ × ℤ × ℤ) := range 8 ×ˢ Icc (-2) 3 ×ˢ Icc (-2) 3 ×ˢ Icc (-2) 3
  let b : ℕ → ℝ := fun n => R ^ n / (((2 * n - 1)‼ : ℕ) * (sc / om) ^ n)
  have hb : ∀ n, 0 ≤ b n := fun n => by positivity
  let w : ℕ → ℝ := fun n => (om / sc) ^ n / ((2 * n + 1)‼ : ℕ) * rt n * d ^ n
  have hw : ∀ n, 0 ≤ w n := fun n => by have := rt_nonneg n; positivity
  have hb0 : 0 ≤ ∑ n ∈ range (p + 1), b n := sum_nonneg fun n _ => hb n
  have hw0 : 0 ≤ ∑ n ∈ range (p + 1), w n := sum_nonneg fun n _ => hw n
  have hk0 : 0 ≤ ∑ q ∈ S, K q := sum_nonneg fun q _ => hK0 q
  refine ⟨(∑ n ∈ range (p + 1), w n) * ((∑ q ∈ S, K q) * ∑ n ∈ range (p + 1), b n), by positivity, fun c dx dy dz hc hx hy hz M μ hM n hn => ?_⟩
  have hμ : 0 ≤ μ := by
    have h := hM 0 (Nat.zero_le _)
    rw [pow_zero, pow_zero, mul_one, mul_one] at h
    exact le_trans (by unfold Yukawa.degreeSize; positivity) h
  have hq : K (c, dx, dy, dz) ≤ ∑ q ∈ S, K q := single_le_sum (fun q _ => hK0 q) (by
    simp only [S, mem_product, mem_range, mem_Icc]
    exact ⟨hc, hx, hy, hz⟩)
  have hent : ∀ n ≤ p, ∀ m ≤ n, ‖M n m‖ ≤ (∑ n ∈ range (p + 1), b n) * μ := by
    intro n hn m hm
    have h1 := hM n hn
    have hpos : (0 : ℝ) < ((2 * n - 1)‼ : ℕ) * (sc / om) ^ n := by have := dfact_pos (2 * n - 1); positivity
    have h2 : Yukawa.degreeSize M n ≤ b n * μ := by
      rw [show b n * μ = μ * R ^ n / (((2 * n - 1)‼ : ℕ) * (sc / om) ^ n) by simp only [b]; ring, le_div_iff₀ hpos, mul_comm]
      exact h1
    exact (entry_le M n m hm).trans (h2.trans (mul_le_mul_of_nonneg_right
      (single_le_sum (fun n _ => hb n) (mem_range.2 (by omega))) hμ))
  have hdeg := local_degree_le _ n _ (mul_nonneg (hK0 (c, dx, dy, dz)) (mul_nonneg hb0 hμ)) (hK (c, dx, dy, dz) _ M hent n hn)
  have hd2 := dfact_pos (2 * n + 1)
  rw [le_div_iff₀ (by positivity)]
  exact gain_arith (by positivity) (rt_nonneg n) (by positivity) (hK0 _) hb0 hμ hdeg
    (single_le_sum (f := w) (fun n _ => hw n) (mem_range.2 (by omega))) hq

theorem exists_gain (T : PlaneTable) (Q : PropRule) (L : Level × Level) (size om wd sc : ℝ) (ho : 0 < om) (hsc : 0 < sc) (p : ℕ) (R d : ℝ) (hR : 0 ≤ R) (hd : 0 < d) :
    ∃ G : ℝ, 0 ≤ G ∧ ∀ (c : ℕ) (dx dy dz : ℤ), c < 8 → (-2 ≤ dx ∧ dx ≤ 3) → (-2 ≤ dy ∧ dy ≤ 3) → (-2 ≤ dz ∧ dz ≤ 3) → ∀ (M : Coef) (μ : ℝ),
      Yukawa.MultipoleSize p om sc M μ R → LocalSize p om sc (boxVal T Q L size om wd sc p c dx dy dz M) (G * μ) d :=
  exists_gain_of (fun q => boxVal T Q L size om wd sc p q.1 q.2.1 q.2.2.1 q.2.2.2) om sc ho hsc p R d hR hd
    (fun q => boxVal_lin T Q L size om wd sc p q.1 q.2.1 q.2.2.1 q.2.2.2) (fun q => boxVal_cut T Q L size om wd sc p q.1 q.2.1 q.2.2.1 q.2.2.2)

/-- The value of a local expansion in its box. -/
theorem local_value_le (om sc : ℝ) (ho : 0 < om) (hsc : 0 < sc) (p : ℕ) (C : LCoef) (μ D d : ℝ) (hD : 0 < D) (hd : 0 < d) (v : Point ℝ) (hv : Clear v)
    (hvn : v.norm ≤ D) (hC : LocalSize p om sc C μ d) :
    ‖exactL om sc p C v‖ ≤ (Real.exp ((om * D) ^ 2 / 6) * ∑ n ∈ range (p + 1), (D / d) ^ n) * μ := by
  have h := evalL_near om sc p C v hv (fun n => |sphJ n (om * v.norm) / sc ^ n|) 0 fun n _ => by
    rw [Pi.zero_apply, zero_sub, abs_neg]
  have e0 : evalL p C (azi v) (ctheta v) 0 = 0 := by simp [evalL]
  rw [e0, zero_sub, norm_neg] at h
  refine h.trans ?_
  rw [mul_sum, sum_mul]
  refine sum_le_sum fun n hn => ?_
  have h1 := hC n (by have := mem_range.1 hn; omega)
  have hv0 := norm_nonneg' v
  have he := erl_neg_abs n (om * v.norm)
  have hex : Real.exp ((om * v.norm) ^ 2 / 6) ≤ Real.exp ((om * D) ^ 2 / 6) := by gcongr
  have hl0 : 0 ≤ (om / sc) ^ n / ((2 * n + 1)‼ : ℕ) * localDegreeSize C n := by unfold localDegreeSize; positivity
  rw [sphJ_eq, abs_div, abs_mul, abs_of_nonneg (by positivity : 0 ≤ sc ^ n), abs_of_nonneg (by positivity : 0 ≤ (om * v.norm) ^ n / ((2 * n + 1)‼ : ℕ))]
  have hE0 := abs_nonneg (erl n (-(om * v.norm) ^ 2))
  generalize |erl n (-(om * v.norm) ^ 2)| = E at he hE0 ⊢
  calc _ = v.norm ^ n * E * ((om / sc) ^ n / ((2 * n + 1)‼ : ℕ) * localDegreeSize C n) := by rw [mul_pow, div_pow]; ring
    _ ≤ D ^ n * Real.exp ((om * D) ^ 2 / 6) * (μ / d ^ n) := by
      refine mul_le_mul (mul_le_mul (pow_le_pow_left₀ hv0 hvn n) (he.trans hex) hE0 (by positivity)) h1 hl0 (by positivity)
    _ = _ := by rw [div_pow]; ring

/-- The value of a multipole expansion away from its box. -/
theorem multipole_value_le (om sc : ℝ) (ho : 0 < om) (hsc : 0 < sc) (p : ℕ) (M : Coef) (hM : Proper M) (μ R r X : ℝ) (hr : 0 < r) (hR : 0 ≤ R) (v : Point ℝ) (hv : Clear v)
    (hvn : r ≤ v.norm) (hvX : v.norm ≤ X) (hC : Yukawa.MultipoleSize p om sc M μ R) :
    ‖exactM om sc p M v‖ ≤ (Real.exp (om * X) / (om * r) * ∑ n ∈ range (p + 1), (R / r) ^ n) * μ := by
  have h := evalM_near om sc p M hM v hv (fun n => ‖(sc : ℂ) ^ n * sphH n (om * v.norm)‖) 0 fun n _ => by
    rw [Pi.zero_apply, zero_sub, norm_neg]
  have e0 : evalM p M (azi v) (ctheta v) 0 = 0 := by simp [evalM]
  rw [e0, zero_sub, norm_neg] at h
  refine h.trans ?_
  have hμ : 0 ≤ μ := by
    have h := hC 0 (Nat.zero_le _)
    rw [pow_zero, pow_zero, mul_one, mul_one] at h
    exact le_trans (by unfold Yukawa.degreeSize; positivity) h
  rw [mul_sum, sum_mul]
  refine sum_le_sum fun n hn => ?_
  have h1 := hC n (by have := mem_range.1 hn; omega)
  have hv0 : 0 < v.norm := hr.trans_le hvn
  have he := sphH_norm n (om * v.norm) (by positivity)
  have hex : Real.exp (om * v.norm) ≤ Real.exp (om * X) := by gcongr
  rw [norm_mul, norm_pow, Complex.norm_real, Real.norm_of_nonneg hsc.le]
  have hd0 : 0 ≤ Yukawa.degreeSize M n := by unfold Yukawa.degreeSize; positivity
  calc _ ≤ sc ^ n * (Real.exp (om * v.norm) * ((2 * n - 1)‼ : ℕ) / (om * v.norm) ^ (n + 1)) * Yukawa.degreeSize M n := by gcongr
    _ = Real.exp (om * v.norm) / (om * v.norm ^ (n + 1)) * (((2 * n - 1)‼ : ℕ) * (sc / om) ^ n * Yukawa.degreeSize M n) := by
      rw [mul_pow, div_pow, pow_succ om]; field_simp
    _ ≤ Real.exp (om * X) / (om * r ^ (n + 1)) * (μ * R ^ n) := by
      refine mul_le_mul (div_le_div₀ (Real.exp_pos _).le hex (by positivity) ?_) h1 (by positivity) (by positivity)
      gcongr
    _ = _ := by rw [div_pow, pow_succ]; field_simp

/-- No point of a child is far from a box near the parent. -/
theorem near_point {d : Domain ℝ} (h : 0 < d.size) {n k : Index} (hk : Yukawa.NearParent n k) {c : ℕ} (hc : c < 8) {t : Point ℝ} (ht : InCube d (n.child c) t) :
    (t.sub (d.centerFromIndex k)).norm ≤ 7 * d.sizeFromLevel (n.level + 1) := by
  have hp := size_pos d h (n.level + 1)
  obtain ⟨hl, hx, hy, hz⟩ := hk
  have one : ∀ (x y b : ℕ) (lo u : ℝ), b < 2 → (-2 ≤ (x : ℤ) - 2 * y ∧ (x : ℤ) - 2 * y ≤ 3) →
      |u - ((((2 * y + b : ℕ) : ℝ) + 1 / 2) * d.sizeFromLevel (n.level + 1) + lo)| ≤ d.sizeFromLevel (n.level + 1) / 2 →
      |u - (((x : ℝ) + 1 / 2) * d.sizeFromLevel (n.level + 1) + lo)| ≤ 8 * d.sizeFromLevel (n.level + 1) / 2 := by
    intro x y b lo u hb hxy hu
    obtain ⟨u1, u2⟩ := abs_le.1 hu
    obtain ⟨a, ha⟩ : ∃ a : ℤ, a = (x : ℤ) - (2 * y + b) := ⟨_, rfl⟩
    have h1 : -3 ≤ a ∧ a ≤ 3 := by omega
    have h2 : (x : ℝ) = a + ((2 * y + b : ℕ) : ℝ) := by rw [ha]; push_cast; ring
    have h3 : -3 ≤ (a : ℝ) ∧ (a : ℝ) ≤ 3 := ⟨by exact_mod_cast h1.1, by exact_mod_cast h1.2⟩
    have h4 := mul_le_mul_of_nonneg_right h3.1 hp.le
    have h5 := mul_le_mul_of_nonneg_right h3.2 hp.le
    rw [h2, abs_le]
    constructor <;> nlinarith
  rw [Index.child_eq _ _ hc] at ht
  obtain ⟨t1, t2, t3⟩ := ht
  have hsz : d.sizeFromLevel k.level = d.sizeFromLevel (n.level + 1) := by rw [hl]
  have key := norm_le_box (v := t.sub (d.centerFromIndex k)) (h := 8 * d.sizeFromLevel (n.level + 1)) (by positivity)
    (by
      have := one k.x n.x (c % 2) d.low.x t.x (by omega) hx t1
      rw [← hsz] at this ⊢; exact this)
    (by
      have := one k.y n.y (c / 2 % 2) d.low.y t.y (by omega) hy t2
      rw [← hsz] at this ⊢; exact this)
    (by
      have := one k.z n.z (c / 4 % 2) d.low.z t.z (by omega) hz t3
      rw [← hsz] at this ⊢; exact this)
  refine key.trans ?_
  have := sqrt3_hi
  nlinarith

theorem exists_waves_accurate {dg : ℤ} {T : PlaneTable} (hT : waveBase dg = some T) (Q : PropRule) (hQ : ∀ k < Q.s, 0 ≤ Q.x k ∧ Q.x k ≤ Real.pi)
    (d : Domain ℝ) (hs : 0 < d.size) (om : ℝ) (ho : 0 < om) (hom : om ≤ 10 ∨ om * d.size ≤ 1 / 8) (p lev : ℕ) (hlev : lev ≤ 21) :
    ∃ ε G : ℝ, 0 ≤ ε ∧ 0 ≤ G ∧ WavesAccurate T Q d om p lev ε G := by
  rcases lev with _ | lev
  · exact ⟨0, 0, le_rfl, le_rfl, fun n k c h => by omega⟩
  have hD0 : 0 < d.sizeFromLevel (lev + 1) := size_pos d hs (lev + 1)
  have s3 := sqrt3_hi
  have hsc := helm_scaleOf_pos d.size om hs ho (lev + 1)
  have hR : 0 ≤ Yukawa.childShift d.size (lev + 1) := by unfold Yukawa.childShift; positivity
  obtain ⟨G, hG0, hG⟩ := exists_gain T Q (lv T Q d.size om (lev + 1)) d.size om (unitsAt om d.size (lev + 1)) (scaleOf d.size om (lev + 1)) ho hsc p
    (Yukawa.childShift d.size (lev + 1)) (3 / 2 * d.sizeFromLevel (lev + 1)) hR (by positivity)
  set D := d.sizeFromLevel (lev + 1) with hD
  set A := Real.exp ((om * D) ^ 2 / 6) * ∑ n ∈ range (p + 1), (D / (3 / 2 * D)) ^ n with hA
  set B := Real.exp (om * (7 * D)) / (om * (3 / 2 * D)) * ∑ n ∈ range (p + 1), (Yukawa.childShift d.size (lev + 1) / (3 / 2 * D)) ^ n with hB
  have hA0 : 0 ≤ A := mul_nonneg (Real.exp_pos _).le (sum_nonneg fun n _ => by positivity)
  have hB0 : 0 ≤ B := mul_nonneg (by positivity) (sum_nonneg fun n _ => by positivity)
  refine ⟨A * G + B, G, by positivity, hG0, fun n k c hn hk hc hsep M μ hM hsz => ?_⟩
  obtain rfl : n.level = lev := by omega
  have hL := hG c _ _ _ hc hk.2.1 hk.2.2.1 hk.2.2.2 M μ hsz
  refine ⟨_, oneBox_eq hT Q hQ d hs ho hom p n hlev k hk c hc M, hL, fun t ht hr hrk => ?_⟩
  have hlv : k.level = n.level + 1 := hk.1
  have hfar := sep_point hs (by rw [hlv]; exact le_rfl) hsep ht
  rw [hlv] at hfar
  have hin := inBox_norm hs ht
  have h1 := local_value_le om _ ho hsc p _ _ D (3 / 2 * D) hD0 (by positivity) (t.sub (d.centerFromIndex (n.child c))) (clear_of_regular hr)
    (hin.trans (show √3 / 2 * D ≤ D by nlinarith)) hL
  have h2 := multipole_value_le om _ ho hsc p M hM μ _ (3 / 2 * D) (7 * D) (by positivity) hR (t.sub (d.centerFromIndex k)) (clear_of_regular hrk) hfar
    (near_point hs hk hc ht) hsz
  rw [localValue_clear p om _ _ (t.sub (d.centerFromIndex (n.child c))) hr, multipoleValue_clear p om _ M (t.sub (d.centerFromIndex k)) hrk]
  refine (norm_sub_le _ _).trans ?_
  rw [add_mul, mul_assoc]
  exact add_le_add h1 h2

end
end Dashmm.Helm
