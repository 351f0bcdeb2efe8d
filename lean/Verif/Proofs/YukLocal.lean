import Verif.Proofs.YukSize

/-!
# The error of `L_to_L`
-/

namespace Dashmm.Yuk

open Finset Harm Lap Bessel Wave
open scoped Nat

noncomputable section

theorem erl_exp (n : ℕ) (x : ℝ) : erl n (x ^ 2) ≤ Real.exp (x ^ 2 / 6) := by
  refine (erl_le n _ (by positivity)).trans (Real.exp_le_exp.2 ?_)
  have : (0 : ℝ) ≤ n := Nat.cast_nonneg n
  gcongr
  linarith

theorem btab_le (F : Table) (δ : ℝ) (hδ0 : 10⁻¹ ^ 17 ≤ δ) (hδ : δ ≤ 1 / 2) (hF : AccurateI F δ) (p : ℕ) (lam ρ : ℝ) (hl : 0 < lam) (hρ0 : 0 < ρ)
    (i : ℕ) (hi : i ≤ 2 * p) :
    ‖btab F p (lam * ρ) i‖ ≤ (Real.exp (lam ^ 2 * ρ ^ 2 / 6) + tabErr p δ (lam * ρ)) / ((2 * i + 1)‼ : ℕ) := by
  have h1 := btab_error F δ hδ0 hδ hF p lam ρ ρ hl hρ0 rfl i hi
  have h2 : ‖fn ((lam : ℂ) ^ 2) i ρ‖ ≤ Real.exp (lam ^ 2 * ρ ^ 2 / 6) / ((2 * i + 1)‼ : ℕ) := by
    have hd := dfact_pos (2 * i + 1)
    have he : 0 < erl i ((lam * ρ) ^ 2) := lt_of_lt_of_le one_pos (erl_one_le i _ (by positivity))
    rw [fn_real, Complex.norm_real, Real.norm_eq_abs, abs_of_nonneg (by positivity), ← mul_pow]
    exact div_le_div_of_nonneg_right (erl_exp i _) hd.le
  calc ‖btab F p (lam * ρ) i‖ = ‖fn ((lam : ℂ) ^ 2) i ρ + (btab F p (lam * ρ) i - fn ((lam : ℂ) ^ 2) i ρ)‖ := by rw [add_sub_cancel]
    _ ≤ _ := norm_add_le _ _
    _ ≤ _ := add_le_add h2 h1
    _ = _ := by rw [add_div]

theorem fieldA_sub (a a' : ℕ → ℂ) (p : ℕ) (C : Coef) (v : Point ℝ) : fieldA a p C v - fieldA a' p C v = fieldA (fun n => a n - a' n) p C v := by
  rw [fieldA, fieldA, fieldA, ← sum_sub_distrib]
  exact sum_congr rfl fun n _ => by ring

theorem fieldA_sub' (a : ℕ → ℂ) (p : ℕ) (b b' : ℕ → ℂ) (w : ℂ) (s : ℝ) (T : Coef) (v : Point ℝ) :
    fieldA a p (shL b w p s T) v - fieldA a p (shL b' w p s T) v = fieldA a p (shL (fun i => b i - b' i) w p s T) v := by
  rw [fieldA, fieldA, fieldA, ← sum_sub_distrib]
  refine sum_congr rfl fun n _ => ?_
  rw [← mul_sub, ← form_sub]
  congr 1
  exact form_congr _ _ _ _ fun m _ => shL_sub _ _ _ _ _ _ _ _

theorem addz_between (ρ s : ℝ) (u : Point ℝ) (hs : s ∈ Set.uIcc 0 ρ) : (addz (ρ - s) u).norm ≤ max u.norm (addz ρ u).norm := by
  have hz : |u.z + (ρ - s)| ≤ max |u.z| |u.z + ρ| := by
    rcases le_total 0 ρ with h | h
    · rw [Set.uIcc_of_le h, Set.mem_Icc] at hs
      exact abs_le_max_abs_abs (by linarith) (by linarith)
    · rw [Set.uIcc_of_ge h, Set.mem_Icc] at hs
      rw [max_comm]
      exact abs_le_max_abs_abs (by linarith) (by linarith)
  have h1 : (addz (ρ - s) u).norm ^ 2 = u.x ^ 2 + u.y ^ 2 + |u.z + (ρ - s)| ^ 2 := by rw [norm_sq_eq, sq_abs]; simp only [addz]
  have h2 : u.norm ^ 2 = u.x ^ 2 + u.y ^ 2 + |u.z| ^ 2 := by rw [norm_sq_eq, sq_abs]
  have h3 : (addz ρ u).norm ^ 2 = u.x ^ 2 + u.y ^ 2 + |u.z + ρ| ^ 2 := by rw [norm_sq_eq, sq_abs]; simp only [addz]
  rcases le_max_iff.1 hz with h | h
  · refine le_max_of_le_left (le_of_sq_le_sq ?_ (norm_nonneg' _))
    rw [h1, h2]
    have := pow_le_pow_left₀ (abs_nonneg _) h 2
    linarith
  · refine le_max_of_le_right (le_of_sq_le_sq ?_ (norm_nonneg' _))
    rw [h1, h3]
    have := pow_le_pow_left₀ (abs_nonneg _) h 2
    linarith

theorem evalError_nonneg (p : ℕ) (lam δ r : ℝ) (h : 0 ≤ δ) : 0 ≤ Yukawa.evalError p lam δ r := by
  have := besselError_nonneg δ (lam * r) h
  unfold Yukawa.evalError; positivity

theorem efun_norm (lam : ℝ) (n : ℕ) (r : ℝ) : ‖efun n ((lam : ℂ) ^ 2 * (r ^ 2 : ℝ))‖ ≤ Real.exp ((lam * r) ^ 2 / 6) := by
  have e1 : ((lam : ℂ) ^ 2 * (r ^ 2 : ℝ)) = (((lam * r) ^ 2 : ℝ) : ℂ) := by push_cast; ring
  have he : 0 < erl n ((lam * r) ^ 2) := lt_of_lt_of_le one_pos (erl_one_le n _ (by positivity))
  rw [e1, efun_ofReal, Complex.norm_real, Real.norm_eq_abs, abs_of_pos he]
  exact erl_exp n _

theorem lToL_error (F : Table) (δ : ℝ) (hδ0 : 10⁻¹ ^ 17 ≤ δ) (hδ : δ ≤ 1 / 2) (hF : AccurateI F δ) (size lam : ℝ) (hsz : 0 < size)
    (hl : 0 < lam) (hs : 0 < Yukawa.scale0 size lam) (p lev c : ℕ) (hc : c < 8) (L : Coef) (hL : Proper L) (μ d : ℝ) (hd : 0 < d)
    (hB : ∀ j ≤ p, Bd (hat (al lam (Yukawa.scaleOf size lam lev)) L) j (μ / d ^ j)) (ρ : ℝ) (hρ : ρ = √3 / 4 * (size / 2 ^ lev))
    (t t' : Point ℝ) (ht' : t' = padd t (psmul (size / 2 ^ lev / 2) (off c))) (h0 : 0 < t.norm) (h0' : 0 < t'.norm)
    (h1 : max (Yukawa.scaleOf size lam lev / 2 / lam) t.norm + ρ < d) (h2 : max (Yukawa.scaleOf size lam lev / lam) t'.norm < d) :
    ‖fieldA (fun n => (ev F p lam (Yukawa.scaleOf size lam lev / 2) t.norm n : ℂ)) p
        (hat (al lam (Yukawa.scaleOf size lam lev / 2)) (tr p (Yukawa.l2l F size lam p lev) (tabAlpha c * (Real.pi / 4)) (childCos c) L)) t -
      fieldA (fun n => (ev F p lam (Yukawa.scaleOf size lam lev) t'.norm n : ℂ)) p (hat (al lam (Yukawa.scaleOf size lam lev)) L) t'‖ ≤
      μ * Yukawa.lToLBound p lam (Yukawa.scaleOf size lam lev) δ ρ t.norm t'.norm d := by
  have hρ0 : 0 < ρ := by rw [hρ]; positivity
  have hδ1 : 0 ≤ δ := le_trans (by positivity) hδ0
  have hσ := scaleOf_pos size lam hs lev
  set σ := Yukawa.scaleOf size lam lev with hσdef
  set B := hat (al lam σ) L with hBdef
  have hBp : Proper B := hat_proper _ _ hL
  set α := (tabAlpha c : ℝ) * (Real.pi / 4) with hα
  set x := childCos c with hx
  set T := pre α x B with hT
  have hTp : Proper T := pre_proper _ _ _ hBp
  have hTb : ∀ j ≤ p, Bd T j (μ / d ^ j) := fun j hj => pre_bd _ _ _ hBp _ _ (hB j hj)
  have eρ : √3 / 4 * size / 2 ^ lev = ρ := by rw [hρ]; ring
  have hW := hat_lToL F size lam hl hs p lev α x L
  rw [eρ, ← hσdef, ← hBdef, ← hT] at hW
  have hXp := shL_proper (btab F p (lam * ρ)) (tab_real F p _) _ (sq_conj lam) p (-ρ) T hTp
  rw [fieldA_post _ p α x _ _ hXp hW]
  set u := turn α x t with hu
  have hun : u.norm = t.norm := turn_norm _ _ _
  have eb : t' = back α x (addz (-ρ) u) := by
    have := back_child c hc (-(size / 2 ^ lev / 2)) t
    rw [neg_neg, ← ht', ← hα, ← hx, ← hu] at this
    rw [← this, hρ]; congr 2; ring
  have hun' : (addz (-ρ) u).norm = t'.norm := by rw [eb, back_norm]
  have e4 : fieldL ((lam : ℂ) ^ 2) p B t' = fieldL ((lam : ℂ) ^ 2) p T (addz (-ρ) u) := by
    rw [hT, fieldL_pre _ _ _ _ _ hBp, ← eb]
  set w := (lam : ℂ) ^ 2 with hw
  have hwn : ‖w‖ = lam ^ 2 := norm_lam2 lam
  set ef : ℕ → ℂ := fun n => efun n (w * (t.norm ^ 2 : ℝ)) with hef
  set ef' : ℕ → ℂ := fun n => efun n (w * (t'.norm ^ 2 : ℝ)) with hef'
  have hsrc := h1
  have hr1 : t.norm + ρ < d := lt_of_le_of_lt (by have := le_max_right (σ / 2 / lam) t.norm; linarith) h1
  -- the four parts
  have p1 := fieldA_shL_le w (sq_conj lam) (btab F p (lam * ρ)) (tab_real F p _) (Real.exp (lam ^ 2 * ρ ^ 2 / 6) + tabErr p δ (lam * ρ))
    (by have := tabErr_nonneg p δ (lam * ρ) hδ1; positivity) p (fun i hi => btab_le F δ hδ0 hδ hF p lam ρ hl hρ0 i hi) (-ρ) T μ d hd hTb
    (fun n => (ev F p lam (σ / 2) t.norm n : ℂ) - ef n) u (Yukawa.evalError p lam δ t.norm) (max (σ / 2 / lam) t.norm)
    (le_max_of_le_right h0.le) (by rwa [abs_neg, abs_of_pos hρ0]) (evalError_nonneg p lam δ _ hδ1)
    (fun j hj => by rw [hun]; exact ev_error F δ hδ0 hδ hF lam hl p (σ / 2) (by positivity) t.norm h0 j hj)
  have p2 := fieldA_shL_le w (sq_conj lam) (fun i => btab F p (lam * ρ) i - fn w i (-ρ)) (fun i => by rw [map_sub, tab_real, fn_conj])
    (tabErr p δ (lam * ρ)) (tabErr_nonneg p δ (lam * ρ) hδ1) p (fun i hi => btab_error F δ hδ0 hδ hF p lam ρ (-ρ) hl hρ0 (neg_sq ρ) i hi) (-ρ) T μ d hd hTb
    ef u (Real.exp ((lam * t.norm) ^ 2 / 6)) t.norm h0.le (by rwa [abs_neg, abs_of_pos hρ0]) (Real.exp_pos _).le
    (fun j _ => by rw [hun]; exact mul_le_mul_of_nonneg_right (efun_norm lam j t.norm) (by positivity))
  have p3 := shiftL_error w (sq_conj lam) (fn_conj lam) p T μ d hd hTb (-ρ) u (max t.norm t'.norm)
    (fun s hs' => by have := addz_between (-ρ) s u hs'; rwa [hun, hun'] at this)
  have p4 := fieldA_le (fun n => (ev F p lam σ t'.norm n : ℂ) - ef' n) p B μ d hd hB t' (Yukawa.evalError p lam δ t'.norm) (max (σ / lam) t'.norm)
    (le_max_of_le_right h0'.le) h2 (evalError_nonneg p lam δ _ hδ1)
    (fun j hj => ev_error F δ hδ0 hδ hF lam hl p σ hσ t'.norm h0' j hj)
  rw [← fieldA_sub] at p1 p4
  rw [← fieldA_sub' (w := w)] at p2
  have e5 : ∀ X : Coef, fieldL w p X u = fieldA ef p X u := by intro X; rw [fieldL, hun]; rfl
  have e6 : fieldL w p B t' = fieldA ef' p B t' := rfl
  rw [e5, ← e4, e6] at p3
  rw [hwn, abs_neg, abs_of_pos hρ0, neg_sq] at p1 p2 p3
  set A1 := fieldA (fun n => (ev F p lam (σ / 2) t.norm n : ℂ)) p (shL (btab F p (lam * ρ)) w p (-ρ) T) u
  set A2 := fieldA ef p (shL (btab F p (lam * ρ)) w p (-ρ) T) u
  set A3 := fieldA ef p (shL (fun i => fn w i (-ρ)) w p (-ρ) T) u
  set A4 := fieldA ef' p B t'
  set A5 := fieldA (fun n => (ev F p lam σ t'.norm n : ℂ)) p B t'
  have e7 : A1 - A5 = (A3 - A4) + (A2 - A3) + (A1 - A2) - (A5 - A4) := by ring
  rw [e7]
  refine (norm_sub_le _ _).trans ?_
  refine (add_le_add ((norm_add_le _ _).trans (add_le_add ((norm_add_le _ _).trans (add_le_add p3 p2)) p1)) p4).trans_eq ?_
  rw [Yukawa.lToLBound, Yukawa.localShiftError, tabErr_eq]
  ring

end
end Dashmm.Yuk
