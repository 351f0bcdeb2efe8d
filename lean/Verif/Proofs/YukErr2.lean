import Verif.Proofs.YukField

/-!
# The errors of the two translations of the Yukawa kernel
-/

namespace Dashmm.Yuk

open Finset Harm Lap Bessel Wave
open scoped Nat

noncomputable section

theorem norm_lam (lam : ℝ) (hl : 0 < lam) : ‖(lam : ℂ)‖ = lam := by rw [Complex.norm_real, Real.norm_eq_abs, abs_of_pos hl]

theorem norm_lam2 (lam : ℝ) : ‖(lam : ℂ) ^ 2‖ = lam ^ 2 := by rw [norm_pow, Complex.norm_real, Real.norm_eq_abs, sq_abs]

theorem exp_one (lam : ℝ) (hl : 0 < lam) (x : ℝ) : Real.exp ((‖(lam : ℂ)‖ - (lam : ℂ).re) * x) ≤ 1 := by
  rw [norm_lam lam hl, Complex.ofReal_re, sub_self, zero_mul, Real.exp_zero]

theorem tabErr_nonneg (p : ℕ) (δ x : ℝ) (h : 0 ≤ δ) : 0 ≤ tabErr p δ x := by
  have := besselError_nonneg δ x h
  unfold tabErr; positivity

/-- A multipole expansion about the centre of the child, and about that of the parent. -/
theorem mToM_error (F : Table) (δ : ℝ) (hδ0 : 10⁻¹ ^ 17 ≤ δ) (hδ : δ ≤ 1 / 2) (hF : AccurateI F δ) (size lam : ℝ) (hsz : 0 < size)
    (hl : 0 < lam) (hs : 0 < Yukawa.scale0 size lam) (p lev c : ℕ) (hc : c < 8) (M : Coef) (hM : Proper M) (μ R : ℝ) (hR : 0 ≤ R)
    (hB : ∀ j ≤ p, Bd (hat (am lam (Yukawa.scaleOf size lam lev)) M) j (μ * R ^ j)) (ρ : ℝ) (hρ : ρ = √3 / 2 * (size / 2 ^ lev))
    (t : Point ℝ) (ht : R + ρ < t.norm) :
    ‖fieldM lam p (hat (am lam (2 * Yukawa.scaleOf size lam lev)) (tr p (Yukawa.m2m F size lam p lev) (tabAlpha c * (Real.pi / 4)) (childCos c) M)) t -
      fieldM lam p (hat (am lam (Yukawa.scaleOf size lam lev)) M) (padd t (psmul (-(size / 2 ^ lev)) (off c)))‖ ≤
      μ * (ρ * Real.exp (lam ^ 2 * ρ ^ 2 / 2) * (lam ^ 2 / 3 * ((R + ρ) / t.norm) ^ (p + 1) + (p + 1) / (t.norm - ρ) ^ 2 * ((R + ρ) / t.norm) ^ p)) +
      μ * (tabErr p δ (lam * ρ) * Real.exp (lam ^ 2 * ρ ^ 2 / 3) * Real.exp (lam ^ 2 * ρ * R / 3) / (t.norm - (R + ρ))) := by
  have hρ0 : 0 < ρ := by rw [hρ]; positivity
  have hμ : 0 ≤ μ := by have := (hB 0 (Nat.zero_le _)).1; simpa using this
  set B := hat (am lam (Yukawa.scaleOf size lam lev)) M with hBdef
  have hBp : Proper B := hat_proper _ _ hM
  set α := (tabAlpha c : ℝ) * (Real.pi / 4) with hα
  set x := childCos c with hx
  set T := pre α x B with hT
  have hTp : Proper T := pre_proper _ _ _ hBp
  have hTb : ∀ j ≤ p, Bd T j (μ * R ^ j) := fun j hj => pre_bd _ _ _ hBp _ _ (hB j hj)
  have eρ : √3 / 2 * size / 2 ^ lev = ρ := by rw [hρ]; ring
  have hW := hat_mToM F size lam hl hs p lev α x M
  rw [eρ, ← hBdef, ← hT] at hW
  have hXp := shM_proper (btab F p (lam * ρ)) (tab_real F p _) _ (sq_conj lam) p (-ρ) T hTp
  rw [field_post (lam : ℂ) p α x _ _ hXp hW]
  set u := turn α x t with hu
  have hun : u.norm = t.norm := turn_norm _ _ _
  have e2 : fieldM lam p B (padd t (psmul (-(size / 2 ^ lev)) (off c))) = fieldM lam p T (addz ρ u) := by
    rw [hT, field_pre _ _ _ _ _ hBp, ← back_child c hc, ← hα, ← hx, hρ]
  rw [e2]
  have hlam : (lam : ℂ) ≠ 0 := by exact_mod_cast hl.ne'
  have h1 := shiftM_error (lam : ℂ) hlam (sq_conj lam) (fn_conj lam) p T μ R hR hTb (-ρ) u ((R + ρ) / t.norm) (t.norm - ρ) 1 (by linarith)
    (by
      intro s hs
      rw [Set.uIcc_of_ge (by linarith), Set.mem_Icc] at hs
      have h := addz_ge (s - -ρ) u
      rw [abs_of_nonneg (by linarith), hun] at h
      refine ⟨by linarith, ?_, exp_one lam hl _⟩
      rw [abs_of_nonpos hs.2]
      have ht0 : 0 < t.norm := by linarith
      refine le_trans ?_ (mul_le_mul_of_nonneg_left h (by positivity))
      rw [div_mul_eq_mul_div, le_div_iff₀ ht0]
      nlinarith [mul_nonneg (show 0 ≤ s + ρ by linarith) (show 0 ≤ t.norm - (R + ρ) by linarith)])
  rw [neg_neg, abs_neg, abs_of_pos hρ0, neg_sq, norm_lam lam hl, mul_one] at h1
  have h2 := fieldM_le (lam : ℂ) p (shM (fun i => btab F p (lam * ρ) i - fn ((lam : ℂ) ^ 2) i (-ρ)) ((lam : ℂ) ^ 2) p (-ρ) T)
    (μ * (tabErr p δ (lam * ρ) * Real.exp (lam ^ 2 * ρ ^ 2 / 3) * Real.exp (lam ^ 2 * ρ * R / 3))) (R + ρ) (by linarith)
    (fun n hn => by
      have := Bd_shM (fun i => btab F p (lam * ρ) i - fn ((lam : ℂ) ^ 2) i (-ρ)) (fun i => by rw [map_sub, tab_real, fn_conj])
        ((lam : ℂ) ^ 2) (sq_conj lam) (tabErr p δ (lam * ρ)) (tabErr_nonneg p δ _ (le_trans (by positivity) hδ0)) p
        (fun i hi => btab_error F δ hδ0 hδ hF p lam ρ (-ρ) hl hρ0 (neg_sq ρ) i hi) (-ρ) T μ R hR hTb n hn
      rwa [norm_lam2, abs_neg, abs_of_pos hρ0, neg_sq] at this)
    u (by rw [hun]; exact ht) 1 (exp_one lam hl _)
  have e3 : fieldM lam p (shM (btab F p (lam * ρ)) ((lam : ℂ) ^ 2) p (-ρ) T) u =
      fieldM lam p (shM (fun i => fn ((lam : ℂ) ^ 2) i (-ρ)) ((lam : ℂ) ^ 2) p (-ρ) T) u +
      fieldM lam p (shM (fun i => btab F p (lam * ρ) i - fn ((lam : ℂ) ^ 2) i (-ρ)) ((lam : ℂ) ^ 2) p (-ρ) T) u := by
    rw [fieldM, fieldM, fieldM, ← sum_add_distrib]
    refine sum_congr rfl fun n _ => ?_
    rw [← mul_add]
    congr 1
    rw [← sub_eq_iff_eq_add', ← form_sub]
    exact form_congr _ _ _ _ fun m _ => shM_sub _ _ _ _ _ _ _ _
  rw [e3, add_sub_right_comm]
  refine (norm_add_le _ _).trans (add_le_add (h1.trans_eq ?_) (h2.trans_eq ?_))
  · ring
  · rw [hun]; ring

/-- The size of the array about the centre of the parent. -/
theorem mToM_bd (F : Table) (δ : ℝ) (hδ0 : 10⁻¹ ^ 17 ≤ δ) (hδ : δ ≤ 1 / 2) (hF : AccurateI F δ) (size lam : ℝ) (hsz : 0 < size)
    (hl : 0 < lam) (hs : 0 < Yukawa.scale0 size lam) (p lev : ℕ) (α x : ℝ) (M : Coef) (hM : Proper M) (μ R : ℝ) (hR : 0 ≤ R)
    (hB : ∀ j ≤ p, Bd (hat (am lam (Yukawa.scaleOf size lam lev)) M) j (μ * R ^ j)) (ρ : ℝ) (hρ : ρ = √3 / 2 * (size / 2 ^ lev))
    (n : ℕ) (hn : n ≤ p) :
    Bd (hat (am lam (2 * Yukawa.scaleOf size lam lev)) (tr p (Yukawa.m2m F size lam p lev) α x M)) n
      (μ * ((Real.exp (lam ^ 2 * ρ ^ 2 / 6) + tabErr p δ (lam * ρ)) * Real.exp (lam ^ 2 * ρ ^ 2 / 3) * Real.exp (lam ^ 2 * ρ * R / 3)) * (R + ρ) ^ n) := by
  have hρ0 : 0 < ρ := by rw [hρ]; positivity
  set B := hat (am lam (Yukawa.scaleOf size lam lev)) M with hBdef
  have hBp : Proper B := hat_proper _ _ hM
  set T := pre α x B with hT
  have hTp : Proper T := pre_proper _ _ _ hBp
  have hTb : ∀ j ≤ p, Bd T j (μ * R ^ j) := fun j hj => pre_bd _ _ _ hBp _ _ (hB j hj)
  have eρ : √3 / 2 * size / 2 ^ lev = ρ := by rw [hρ]; ring
  have hW := hat_mToM F size lam hl hs p lev α x M
  rw [eρ, ← hBdef, ← hT] at hW
  have hXp := shM_proper (btab F p (lam * ρ)) (tab_real F p _) _ (sq_conj lam) p (-ρ) T hTp
  have hX := Bd_shM (btab F p (lam * ρ)) (tab_real F p _) ((lam : ℂ) ^ 2) (sq_conj lam) (Real.exp (lam ^ 2 * ρ ^ 2 / 6) + tabErr p δ (lam * ρ))
    (by have := tabErr_nonneg p δ (lam * ρ) (le_trans (by positivity) hδ0); positivity) p
    (fun i hi => by
      have h1 := btab_error F δ hδ0 hδ hF p lam ρ ρ hl hρ0 rfl i hi
      have h2 : ‖fn ((lam : ℂ) ^ 2) i ρ‖ ≤ Real.exp (lam ^ 2 * ρ ^ 2 / 6) / ((2 * i + 1)‼ : ℕ) := by
        have hd := dfact_pos (2 * i + 1)
        have he : 0 < erl i ((lam * ρ) ^ 2) := lt_of_lt_of_le one_pos (erl_one_le i _ (by positivity))
        rw [fn_real, Complex.norm_real, Real.norm_eq_abs, abs_of_nonneg (by positivity)]
        refine div_le_div_of_nonneg_right ?_ hd.le
        refine (erl_le i _ (by positivity)).trans (Real.exp_le_exp.2 ?_)
        rw [mul_pow]
        have : (0 : ℝ) ≤ i := Nat.cast_nonneg i
        gcongr
        linarith
      calc ‖btab F p (lam * ρ) i‖ = ‖fn ((lam : ℂ) ^ 2) i ρ + (btab F p (lam * ρ) i - fn ((lam : ℂ) ^ 2) i ρ)‖ := by rw [add_sub_cancel]
        _ ≤ _ := norm_add_le _ _
        _ ≤ _ := add_le_add h2 h1
        _ = _ := by rw [add_div])
    (-ρ) T μ R hR hTb n hn
  rw [norm_lam2, abs_neg, abs_of_pos hρ0, neg_sq] at hX
  exact (post_bd α x _ hXp n _ hX).congr fun m _ => (hW n m).symm

end
end Dashmm.Yuk
