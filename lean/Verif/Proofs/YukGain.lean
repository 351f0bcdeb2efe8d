import Verif.Proofs.YukFmmEval

/-!
The plane waves of every level have some accuracy and some growth: what they do is linear, and there are finitely many coefficients.
-/

namespace Dashmm.Yuk

open Finset Harm Lap Bessel Wave Waves
open scoped Nat

noncomputable section

theorem frameC_cut (v : ℕ) (C D : Coef) (n : ℕ) (h : ∀ m ≤ n, C n m = D n m) : ∀ m ≤ n, frameC v C n m = frameC v D n m := by
  have hy : ∀ (d : DMat) (C D : Coef), (∀ m ≤ n, C n m = D n m) → ∀ m, rotateY C d n m = rotateY D d n m := by
    intro d C D h m
    unfold rotateY
    rw [h 0 (Nat.zero_le _)]
    congr 2
    refine sum_congr rfl fun k hk => ?_
    rw [h k (mem_Icc.1 hk).2]
  have hz : ∀ m ≤ n, rotateZ C (-Real.pi / 2) n m = rotateZ D (-Real.pi / 2) n m := by
    intro m hm; unfold rotateZ; rw [h m hm]
  intro m hm
  rcases v with _ | _ | _ | _ | _ | v
  · exact hy _ _ _ h m
  · show _ * rotateY C (dmatPlus 0) n m = _ * rotateY D (dmatPlus 0) n m; rw [hy _ _ _ h m]
  · exact hy _ _ _ hz m
  · show _ * rotateY (rotateZ C (-Real.pi / 2)) (dmatMinus 0) n m = _ * rotateY (rotateZ D (-Real.pi / 2)) (dmatMinus 0) n m; rw [hy _ _ _ hz m]
  · exact h m hm
  · show _ * C n m = _ * D n m; rw [h m hm]

theorem sig_cut (g : ℕ → ℕ → ℝ) (p f : ℕ) (C D : Coef) (h : ∀ n ≤ p, ∀ m ≤ n, C n m = D n m) (α : ℝ) : sig g p f C α = sig g p f D α := by
  refine Finset.sum_congr rfl fun n hn => Finset.sum_congr rfl fun m hm => ?_
  have hn' : n ≤ p := by have := mem_range.1 hn; omega
  have : Harm.ext C n m = Harm.ext D n m := by
    rw [Finset.mem_Icc] at hm
    unfold Harm.ext
    split_ifs
    · rw [h _ hn' _ (by omega)]
    · rw [h _ hn' _ (by omega)]
  unfold ct
  rw [this]

theorem boxVal_cut (T : PlaneTable) (size lam : ℝ) (p lev c : ℕ) (dx dy dz : ℤ) (M M' : Coef) (h : ∀ n ≤ p, ∀ m ≤ n, M n m = M' n m) :
    boxVal T size lam p lev c dx dy dz M = boxVal T size lam p lev c dx dy dz M' := by
  have hm : ∀ (L : Level) leg, mWave L p leg (conv M) = mWave L p leg (conv M') := by
    intro L leg
    funext v k j
    refine sig_cut _ _ _ _ _ (fun n hn => frameC_cut v _ _ n fun m hm => ?_) _
    unfold conv
    rw [h n hn m hm]
  have hb : ∀ (L : Level) leg, waveBox L p leg dx dy dz M = waveBox L p leg dx dy dz M' := by
    intro L leg; unfold waveBox; rw [hm]
  unfold boxVal
  simp only [hb]

/-- A linear map on coefficients that depends on finitely many of them is bounded. -/
theorem lin_bound (p : ℕ) (f : Coef → Coef) (hlin : ∀ (a : ℝ) M M', f (a • M + M') = a • f M + f M')
    (hcut : ∀ M M', (∀ n ≤ p, ∀ m ≤ n, M n m = M' n m) → f M = f M') :
    ∃ K : ℝ, 0 ≤ K ∧ ∀ (B : ℝ) (M : Coef), (∀ n ≤ p, ∀ m ≤ n, ‖M n m‖ ≤ B) → ∀ n ≤ p, ∀ m ≤ n, ‖f M n m‖ ≤ K * B := by
  classical
  have h0 : f 0 = 0 := by
    have := hlin 1 0 0
    rw [smul_zero, one_smul, add_zero] at this
    exact left_eq_add.1 this
  have hadd : ∀ M M', f (M + M') = f M + f M' := fun M M' => by have := hlin 1 M M'; rwa [one_smul, one_smul] at this
  have hsm : ∀ (a : ℝ) M, f (a • M) = a • f M := fun a M => by have := hlin a M 0; rwa [h0, add_zero, add_zero] at this
  let F : Coef →ₗ[ℝ] Coef := { toFun := f, map_add' := hadd, map_smul' := hsm }
  let S : Finset (ℕ × ℕ) := (range (p + 1) ×ˢ range (p + 1)).filter fun q => q.2 ≤ q.1
  have hS : ∀ n m, (n, m) ∈ S ↔ n ≤ p ∧ m ≤ n := by
    intro n m
    simp only [S, mem_filter, mem_product, mem_range]
    omega
  let E : ℂ → ℕ × ℕ → Coef := fun z q n m => if (n, m) = q then z else 0
  let g : ℕ × ℕ → ℕ × ℕ → ℝ := fun q r => ‖f (E 1 q) r.1 r.2‖ + ‖f (E Complex.I q) r.1 r.2‖
  have hg : ∀ q r, 0 ≤ g q r := fun q r => by positivity
  refine ⟨∑ q ∈ S, ∑ r ∈ S, g q r, sum_nonneg fun q _ => sum_nonneg fun r _ => hg q r, fun B M hM n hn m hm => ?_⟩
  have hB : 0 ≤ B := (norm_nonneg _).trans (hM 0 (Nat.zero_le _) 0 le_rfl)
  have e : f M = ∑ q ∈ S, ((M q.1 q.2).re • f (E 1 q) + (M q.1 q.2).im • f (E Complex.I q)) := by
    have e1 : f M = F (∑ q ∈ S, ((M q.1 q.2).re • E 1 q + (M q.1 q.2).im • E Complex.I q)) := by
      refine hcut _ _ fun n hn m hm => ?_
      rw [Finset.sum_apply, Finset.sum_apply, Finset.sum_eq_single_of_mem (n, m) ((hS n m).2 ⟨hn, hm⟩)]
      · simp only [Pi.add_apply, Pi.smul_apply, E, if_true, Complex.real_smul, mul_one]
        exact (Complex.re_add_im _).symm
      · intro q _ hq
        simp only [Pi.add_apply, Pi.smul_apply, E, if_neg (Ne.symm hq), smul_zero, add_zero]
    rw [e1, map_sum]
    refine sum_congr rfl fun q _ => ?_
    rw [map_add, map_smul, map_smul]
    rfl
  rw [e, Finset.sum_apply, Finset.sum_apply, sum_mul]
  refine (norm_sum_le _ _).trans (sum_le_sum fun q hq => ?_)
  obtain ⟨hq1, hq2⟩ := (hS q.1 q.2).1 hq
  have hMq := hM q.1 hq1 q.2 hq2
  have hr := (Complex.abs_re_le_norm (M q.1 q.2)).trans hMq
  have hi := (Complex.abs_im_le_norm (M q.1 q.2)).trans hMq
  simp only [Pi.add_apply, Pi.smul_apply]
  calc _ ≤ |(M q.1 q.2).re| * ‖f (E 1 q) n m‖ + |(M q.1 q.2).im| * ‖f (E Complex.I q) n m‖ := by
        refine (norm_add_le _ _).trans_eq ?_
        rw [norm_smul, norm_smul, Real.norm_eq_abs, Real.norm_eq_abs]
    _ ≤ B * ‖f (E 1 q) n m‖ + B * ‖f (E Complex.I q) n m‖ := by gcongr
    _ = g q (n, m) * B := by simp only [g]; ring
    _ ≤ _ := mul_le_mul_of_nonneg_right (single_le_sum (f := g q) (fun r _ => hg q r) ((hS n m).2 ⟨hn, hm⟩)) hB

theorem entry_le (M : Coef) (n m : ℕ) (hm : m ≤ n) : ‖M n m‖ ≤ Yukawa.degreeSize M n := by
  have hw : ∀ k, (0 : ℝ) ≤ ((n + k)! : ℝ) / ((n - k)! : ℝ) * ‖M n k‖ ^ 2 := fun k => by positivity
  have hs : 0 ≤ ∑ k ∈ Icc 1 n, ((n + k)! : ℝ) / ((n - k)! : ℝ) * ‖M n k‖ ^ 2 := sum_nonneg fun k _ => hw k
  refine Real.le_sqrt_of_sq_le ?_
  rcases Nat.eq_zero_or_pos m with rfl | h
  · linarith
  · have h1 := single_le_sum (f := fun k : ℕ => ((n + k)! : ℝ) / ((n - k)! : ℝ) * ‖M n k‖ ^ 2) (fun k _ => hw k) (mem_Icc.2 ⟨h, hm⟩)
    have h2 : (1 : ℝ) ≤ ((n + m)! : ℝ) / ((n - m)! : ℝ) := by
      rw [one_le_div (by positivity)]
      exact_mod_cast Nat.factorial_le (by omega)
    have h3 : ‖M n m‖ ^ 2 ≤ ((n + m)! : ℝ) / ((n - m)! : ℝ) * ‖M n m‖ ^ 2 := le_mul_of_one_le_left (by positivity) h2
    have := sq_nonneg ‖M n 0‖
    linarith

theorem degree_le (L : Coef) (n : ℕ) (B : ℝ) (h : ∀ m ≤ n, ‖L n m‖ ≤ B) :
    Yukawa.degreeSize L n ≤ √(1 + 2 * ∑ m ∈ Icc 1 n, ((n + m)! : ℝ) / ((n - m)! : ℝ)) * B := by
  have hB : 0 ≤ B := (norm_nonneg _).trans (h 0 (Nat.zero_le _))
  rw [← Real.sqrt_sq hB, ← Real.sqrt_mul (by positivity)]
  refine Real.sqrt_le_sqrt ?_
  have h1 : ‖L n 0‖ ^ 2 ≤ B ^ 2 := pow_le_pow_left₀ (norm_nonneg _) (h 0 (Nat.zero_le _)) 2
  have h2 : ∑ m ∈ Icc 1 n, ((n + m)! : ℝ) / ((n - m)! : ℝ) * ‖L n m‖ ^ 2 ≤ (∑ m ∈ Icc 1 n, ((n + m)! : ℝ) / ((n - m)! : ℝ)) * B ^ 2 := by
    rw [sum_mul]
    refine sum_le_sum fun m hm => mul_le_mul_of_nonneg_left (pow_le_pow_left₀ (norm_nonneg _) (h m (mem_Icc.1 hm).2) 2) (by positivity)
  linarith

theorem gain_arith {a r D K KS b μ W deg : ℝ} (ha : 0 ≤ a) (hr : 0 ≤ r) (hD : 0 ≤ D) (hK : 0 ≤ K) (hb : 0 ≤ b) (hμ : 0 ≤ μ)
    (hdeg : deg ≤ r * (K * (b * μ))) (hW : a * r * D ≤ W) (hKS : K ≤ KS) : a * deg * D ≤ W * (KS * b) * μ :=
  calc a * deg * D ≤ a * (r * (K * (b * μ))) * D := by gcongr
    _ = a * r * D * (K * (b * μ)) := by ring
    _ ≤ W * (KS * (b * μ)) := mul_le_mul hW (mul_le_mul_of_nonneg_right hKS (by positivity)) (by positivity) (le_trans (by positivity) hW)
    _ = _ := by ring

/-- The growth. -/
theorem exists_gain (T : PlaneTable) (size lam : ℝ) (hs : 0 < size) (hl : 0 < lam) (p lev : ℕ) (R d : ℝ) (hR : 0 ≤ R) (hd : 0 < d) :
    ∃ G : ℝ, 0 ≤ G ∧ ∀ (c : ℕ) (dx dy dz : ℤ), c < 8 → (-2 ≤ dx ∧ dx ≤ 3) → (-2 ≤ dy ∧ dy ≤ 3) → (-2 ≤ dz ∧ dz ≤ 3) → ∀ (M : Coef) (μ : ℝ),
      Yukawa.MultipoleSize p lam (Yukawa.scaleOf size lam (lev + 1)) M μ R →
      Yukawa.LocalSize p lam (Yukawa.scaleOf size lam (lev + 1)) (boxVal T size lam p lev c dx dy dz M) (G * μ) d := by
  have hsc := scaleOf_pos size lam (scale0_pos size lam hs hl) (lev + 1)
  choose K hK0 hK using fun q : ℕ × ℤ × ℤ × ℤ => lin_bound p (boxVal T size lam p lev q.1 q.2.1 q.2.2.1 q.2.2.2)
    (boxVal_lin T size lam p lev q.1 q.2.1 q.2.2.1 q.2.2.2) (boxVal_cut T size lam p lev q.1 q.2.1 q.2.2.1 q.2.2.2)
  set sc := Yukawa.scaleOf size lam (lev + 1) with hscd
  clear_value sc
  let S : Finset (ℕ × ℤ × ℤ × ℤ) := range 8 ×ˢ Icc (-2) 3 ×ˢ Icc (-2) 3 ×ˢ Icc (-2) 3
  let b : ℕ → ℝ := fun n => R ^ n / (((2 * n - 1)‼ : ℕ) * (sc / lam) ^ n)
  have hb : ∀ n, 0 ≤ b n := fun n => by positivity
  let w : ℕ → ℝ := fun n => (lam / sc) ^ n / ((2 * n + 1)‼ : ℕ) * √(1 + 2 * ∑ m ∈ Icc 1 n, ((n + m)! : ℝ) / ((n - m)! : ℝ)) * d ^ n
  have hw : ∀ n, 0 ≤ w n := fun n => by positivity
  have hb0 : 0 ≤ ∑ n ∈ range (p + 1), b n := sum_nonneg fun n _ => hb n
  have hw0 : 0 ≤ ∑ n ∈ range (p + 1), w n := sum_nonneg fun n _ => hw n
  have hk0 : 0 ≤ ∑ q ∈ S, K q := sum_nonneg fun q _ => hK0 q
  refine ⟨(∑ n ∈ range (p + 1), w n) * ((∑ q ∈ S, K q) * ∑ n ∈ range (p + 1), b n), by positivity, fun c dx dy dz hc hx hy hz M μ hM n hn => ?_⟩
  have hd0 : (0 : ℝ) < ((2 * 0 - 1)‼ : ℕ) := by norm_num
  have hμ : 0 ≤ μ := by
    have h := hM 0 (Nat.zero_le _)
    rw [pow_zero, pow_zero, mul_one, mul_one] at h
    exact le_trans (by unfold Yukawa.degreeSize; positivity) h
  have hq : K (c, dx, dy, dz) ≤ ∑ q ∈ S, K q := single_le_sum (fun q _ => hK0 q) (by
    simp only [S, mem_product, mem_range, mem_Icc]
    exact ⟨hc, hx, hy, hz⟩)
  have hent : ∀ n ≤ p, ∀ m ≤ n, ‖M n m‖ ≤ (∑ n ∈ range (p + 1), b n) * μ := by
    intro n hn m hm
    have h1 := hM n hn
    have hpos : (0 : ℝ) < ((2 * n - 1)‼ : ℕ) * (sc / lam) ^ n := by have := dfact_pos (2 * n - 1); positivity
    have h2 : Yukawa.degreeSize M n ≤ b n * μ := by
      rw [show b n * μ = μ * R ^ n / (((2 * n - 1)‼ : ℕ) * (sc / lam) ^ n) by simp only [b]; ring, le_div_iff₀ hpos, mul_comm]
      exact h1
    exact (entry_le M n m hm).trans (h2.trans (mul_le_mul_of_nonneg_right
      (single_le_sum (fun n _ => hb n) (mem_range.2 (by omega))) hμ))
  have hout := fun m hm => hK (c, dx, dy, dz) _ M hent n hn m hm
  have hdeg := degree_le _ n _ hout
  have hd2 := dfact_pos (2 * n + 1)
  rw [le_div_iff₀ (by positivity)]
  exact gain_arith (by positivity) (by positivity) (by positivity) (hK0 _) hb0 hμ hdeg
    (single_le_sum (f := w) (fun n _ => hw n) (mem_range.2 (by omega))) hq

/-- The value of a local expansion in its box. -/
theorem local_value_le (F : Table) (δ : ℝ) (hδ0 : 10⁻¹ ^ 17 ≤ δ) (hδ : δ ≤ 1 / 2) (hF : AccurateI F δ) (lam size : ℝ) (hs : 0 < size) (hl : 0 < lam)
    (p lev : ℕ) : ∃ A : ℝ, 0 ≤ A ∧ ∀ (C : Coef) (μ : ℝ) (v : Point ℝ), Clear v → v.norm ≤ √3 / 2 * (size / 2 ^ lev) →
      Yukawa.LocalSize p lam (Yukawa.scaleOf size lam lev) C μ (3 / 2 * (size / 2 ^ lev)) →
      ∃ x, Yukawa.lToT1 F lam p v (Yukawa.scaleOf size lam lev) C = some x ∧ |x| ≤ A * μ := by
  have hsc := scaleOf_pos size lam (scale0_pos size lam hs hl) lev
  have hle := scaleOf_le size lam hs hl lev
  set sc := Yukawa.scaleOf size lam lev
  set D := size / 2 ^ lev with hD
  have hD0 : 0 < D := by positivity
  have s3 := sqrt3_hi
  set α := Real.exp ((lam * D) ^ 2 / 6) + (Real.exp ((lam * D) ^ 2 / 6) + 2 * 10⁻¹ ^ 300 * ((2 * p + 1)‼ : ℕ))
  have hα : 0 ≤ α := by positivity
  refine ⟨α * (3 / 2 * D) / (3 / 2 * D - D), by
    have : 0 < 3 / 2 * D - D := by linarith
    positivity, fun C μ v hv hvn hC => ⟨_, lToT_value F lam hl p v hv sc hsc C, ?_⟩⟩
  refine (Complex.abs_re_le_norm _).trans ?_
  have hv0 : 0 < v.norm := lt_of_le_of_ne (norm_nonneg' v) hv.ne.symm
  have hvD : v.norm ≤ D := hvn.trans (by nlinarith)
  have hexp : Real.exp ((lam * v.norm) ^ 2 / 6) ≤ Real.exp ((lam * D) ^ 2 / 6) := by gcongr
  refine (fieldA_le _ p _ μ (3 / 2 * D) (by linarith) ((localSize_iff _ _ _ hl hsc _ _ _).1 hC) v α D hD0.le (by linarith) hα fun j hj => ?_).trans_eq (by ring)
  have h1 := ev_error F δ hδ0 hδ hF lam hl p sc hsc v.norm hv0 j hj
  have hmax : max (sc / lam) v.norm ^ j ≤ D ^ j := by
    have : max (sc / lam) v.norm ≤ D := max_le hle hvD
    gcongr
  have hee : Yukawa.evalError p lam δ v.norm ≤ Real.exp ((lam * D) ^ 2 / 6) + 2 * 10⁻¹ ^ 300 * ((2 * p + 1)‼ : ℕ) := by
    rw [Yukawa.evalError]
    have hb : Yukawa.besselError δ (lam * v.norm) ≤ 1 := by unfold Yukawa.besselError; split_ifs <;> linarith
    have := Real.exp_pos ((lam * v.norm) ^ 2 / 6)
    nlinarith
  have hee0 := evalError_nonneg p lam δ v.norm (le_trans (by positivity) hδ0)
  have hef := efun_norm lam j v.norm
  have hvj : v.norm ^ j ≤ D ^ j := by gcongr
  have hDj : 0 < D ^ j := by positivity
  generalize hZ : efun j ((lam : ℂ) ^ 2 * (v.norm ^ 2 : ℝ)) = Z at h1 hef
  generalize (ev F p lam sc v.norm j : ℂ) = X at h1 ⊢
  have h2 : ‖X‖ ≤ ‖Z‖ + ‖X - Z‖ := by
    have := norm_add_le Z (X - Z)
    rwa [add_sub_cancel] at this
  calc ‖X‖ * v.norm ^ j ≤ (‖Z‖ + ‖X - Z‖) * v.norm ^ j := by gcongr
    _ = ‖Z‖ * v.norm ^ j + ‖X - Z‖ * v.norm ^ j := by ring
    _ ≤ Real.exp ((lam * D) ^ 2 / 6) * D ^ j + (Real.exp ((lam * D) ^ 2 / 6) + 2 * 10⁻¹ ^ 300 * ((2 * p + 1)‼ : ℕ)) * D ^ j := by
      refine add_le_add ?_ (h1.trans ?_)
      · exact mul_le_mul (hef.trans hexp) hvj (by positivity) (by positivity)
      · exact mul_le_mul hee hmax (by positivity) (by positivity)
    _ = _ := by ring

/-- The value of a multipole expansion away from its box. -/
theorem multipole_value_le (lam size : ℝ) (hs : 0 < size) (hl : 0 < lam) (p lev : ℕ) (M : Coef) (μ : ℝ) (v : Point ℝ) (hv : Clear v)
    (hvn : 3 / 2 * (size / 2 ^ lev) ≤ v.norm) (hM : Yukawa.MultipoleSize p lam (Yukawa.scaleOf size lam lev) M μ (Yukawa.childShift size lev)) :
    |Yukawa.multipoleValue p lam (Yukawa.scaleOf size lam lev) M v| ≤ Real.pi / (2 * lam) / ((3 / 2 - √3 / 2) * (size / 2 ^ lev)) * μ := by
  have hsc := scaleOf_pos size lam (scale0_pos size lam hs hl) lev
  have hD0 : 0 < size / 2 ^ lev := by positivity
  have s3 := sqrt3_hi
  have hpi := Real.pi_pos
  rw [Yukawa.multipoleValue, ephi_eq _ hv.ne, Option.getD_some, evalAt_field lam hl p _ hv _ hsc M _ fun _ => rfl, abs_mul, abs_of_pos (by positivity)]
  have hA : Yukawa.childShift size lev < v.norm := lt_of_lt_of_le (by unfold Yukawa.childShift; nlinarith) hvn
  have hA0 : 0 ≤ Yukawa.childShift size lev := by unfold Yukawa.childShift; positivity
  have h1 := (Complex.abs_re_le_norm _).trans (fieldM_le (lam : ℂ) p _ μ _ hA0 ((multipoleSize_iff _ _ _ hl hsc _ _ _).1 hM) v hA 1 (by
    rw [Complex.norm_real, Complex.ofReal_re, Real.norm_of_nonneg hl.le, sub_self, zero_mul, Real.exp_zero]))
  have hμ : 0 ≤ μ := by
    have h := hM 0 (Nat.zero_le _)
    rw [pow_zero, pow_zero, mul_one, mul_one] at h
    exact le_trans (by unfold Yukawa.degreeSize; positivity) h
  have h2 : μ * 1 / (v.norm - Yukawa.childShift size lev) ≤ μ / ((3 / 2 - √3 / 2) * (size / 2 ^ lev)) := by
    rw [mul_one]
    refine div_le_div_of_nonneg_left hμ (mul_pos (by linarith) hD0) ?_
    unfold Yukawa.childShift
    nlinarith
  calc _ ≤ Real.pi / (2 * lam) * (μ / ((3 / 2 - √3 / 2) * (size / 2 ^ lev))) := mul_le_mul_of_nonneg_left (h1.trans h2) (by positivity)
    _ = _ := by ring

theorem exists_waves_accurate (F : Table) (δ : ℝ) (hδ0 : 10⁻¹ ^ 17 ≤ δ) (hδ : δ ≤ 1 / 2) (hF : AccurateI F δ) {dg : ℤ} {T : PlaneTable} (hT : waveBase dg = some T)
    (d : Domain ℝ) (hs : 0 < d.size) (lam : ℝ) (hl : 0 < lam) (p lev : ℕ) (hlev : lev ≤ 21) :
    ∃ ε G : ℝ, 0 ≤ ε ∧ 0 ≤ G ∧ Yukawa.WavesAccurate F T d lam p lev ε G := by
  rcases lev with _ | lev
  · exact ⟨0, 0, le_rfl, le_rfl, fun n k c h => by omega⟩
  have hD0 : 0 < d.size / 2 ^ (lev + 1) := by positivity
  have s3 := sqrt3_hi
  have hpi := Real.pi_pos
  obtain ⟨G, hG0, hG⟩ := exists_gain T d.size lam hs hl p lev (Yukawa.childShift d.size (lev + 1)) (3 / 2 * (d.size / 2 ^ (lev + 1)))
    (by unfold Yukawa.childShift; positivity) (by positivity)
  obtain ⟨A, hA0, hA⟩ := local_value_le F δ hδ0 hδ hF lam d.size hs hl p (lev + 1)
  have hB0 : 0 ≤ Real.pi / (2 * lam) / ((3 / 2 - √3 / 2) * (d.size / 2 ^ (lev + 1))) := by
    have : 0 < (3 / 2 - √3 / 2) * (d.size / 2 ^ (lev + 1)) := mul_pos (by linarith) hD0
    positivity
  refine ⟨A * G + Real.pi / (2 * lam) / ((3 / 2 - √3 / 2) * (d.size / 2 ^ (lev + 1))), G, by positivity, hG0, fun n k c hn hk hc hsep M μ hM hsz => ?_⟩
  obtain rfl : n.level = lev := by omega
  have hP := (box_spec hT d.size lam hs hl p n.level hlev _ _ _ hk.2.1 hk.2.2.1 hk.2.2.2 M hM).choose_spec.2.2 c hc
  have hL := hG c _ _ _ hc hk.2.1 hk.2.2.1 hk.2.2.2 M μ hsz
  refine ⟨_, oneBox_eq hT d lam hs hl p n hlev k hk c hc M hM, hP.2, hL, fun t ht hr hrk => ?_⟩
  obtain ⟨x, hx, hxb⟩ := hA _ _ (t.sub (d.centerFromIndex (n.child c))) (clear_of_regular hr) (inBox_norm hs ht) hL
  refine ⟨x, hx, ?_⟩
  have hlv : k.level = n.level + 1 := hk.1
  have hfar := sep_point hs (by rw [hlv]; exact le_rfl) hsep ht
  rw [hlv] at hfar
  have hm := multipole_value_le lam d.size hs hl p (n.level + 1) M μ (t.sub (d.centerFromIndex k)) (clear_of_regular hrk) hfar hsz
  refine (abs_sub _ _).trans ?_
  rw [add_mul, mul_assoc]
  exact add_le_add hxb hm

end
end Dashmm.Yuk
