import Verif.Proofs.HelmTrans
import Verif.Proofs.HelmVal
import Verif.Proofs.YukDown

/-!
# The errors of the two translations of the Helmholtz kernel
-/

namespace Dashmm.Helm

open Finset Harm Lap Bessel Wave Yuk
open scoped Nat

noncomputable section

theorem mToM_error (J : Table) (ε size om : ℝ) (hsz : 0 < size)
    (hl : 0 < om) (hs : 0 < scale0 size om) (p lev c : ℕ) (hc : c < 8) (M : Coef) (hM : Proper M) (μ R : ℝ) (hR : 0 ≤ R)
    (hB : ∀ j ≤ p, Bd (hat (am om (scaleOf size om lev)) M) j (μ * R ^ j)) (ρ : ℝ) (hρ : ρ = √3 / 2 * (size / 2 ^ lev))
    (hJ : GoodTab J p ε (om * ρ)) (t : Point ℝ) (ht : R + ρ < t.norm) :
    ‖fieldM (kap om) p (hat (am om (2 * scaleOf size om lev)) (tr p (m2m J size om p lev) (tabAlpha c * (Real.pi / 4)) (childCos c) M)) t -
      fieldM (kap om) p (hat (am om (scaleOf size om lev)) M) (padd t (psmul (-(size / 2 ^ lev)) (off c)))‖ ≤
      μ * (Yukawa.shiftError p om ρ R t.norm * Real.exp (om * (t.norm + ρ))) +
      μ * (ε * Real.exp (om ^ 2 * ρ ^ 2 / 3) * Real.exp (om ^ 2 * ρ * R / 3) * Real.exp (om * t.norm) / (t.norm - (R + ρ))) := by
  have hρ0 : 0 < ρ := by rw [hρ]; positivity
  have hμ : 0 ≤ μ := by have := (hB 0 (Nat.zero_le _)).1; simpa using this
  set B := hat (am om (scaleOf size om lev)) M with hBdef
  have hBp : Proper B := hat_proper _ _ hM
  set α := (tabAlpha c : ℝ) * (Real.pi / 4) with hα
  set x := childCos c with hx
  set T := pre α x B with hT
  have hTp : Proper T := pre_proper _ _ _ hBp
  have hTb : ∀ j ≤ p, Bd T j (μ * R ^ j) := fun j hj => pre_bd _ _ _ hBp _ _ (hB j hj)
  have eρ : √3 / 2 * size / 2 ^ lev = ρ := by rw [hρ]; ring
  have hW := hat_mToM J size om hl hs p lev α x M
  rw [eρ, ← hBdef, ← hT] at hW
  have hXp := shM_proper (jtab J p (om * ρ)) (jtab_conj J p _) _ (w_conj om) p (-ρ) T hTp
  rw [field_post (kap om) p α x _ _ hXp hW]
  set u := turn α x t with hu
  have hun : u.norm = t.norm := turn_norm _ _ _
  have e2 : fieldM (kap om) p B (padd t (psmul (-(size / 2 ^ lev)) (off c))) = fieldM (kap om) p T (addz ρ u) := by
    rw [hT, field_pre _ _ _ _ _ hBp, ← back_child c hc, ← hα, ← hx, hρ]
  rw [e2]
  have h1 := shiftM_error (kap om) (kap_ne om hl) (by rw [kap_sq]; exact w_conj om) (fun i s => by rw [kap_sq]; exact fnw_conj om i s)
    p T μ R hR hTb (-ρ) u ((R + ρ) / t.norm) (t.norm - ρ) (Real.exp (om * (t.norm + ρ))) (by linarith)
    (by
      intro s hs
      rw [Set.uIcc_of_ge (by linarith), Set.mem_Icc] at hs
      have h := addz_ge (s - -ρ) u
      have h' := addz_le (s - -ρ) u
      rw [abs_of_nonneg (by linarith), hun] at h h'
      refine ⟨by linarith, ?_, ?_⟩
      · rw [abs_of_nonpos hs.2]
        have ht0 : 0 < t.norm := by linarith
        refine le_trans ?_ (mul_le_mul_of_nonneg_left h (by positivity))
        rw [div_mul_eq_mul_div, le_div_iff₀ ht0]
        nlinarith [mul_nonneg (show 0 ≤ s + ρ by linarith) (show 0 ≤ t.norm - (R + ρ) by linarith)]
      · rw [kap_norm om hl, kap_re, sub_zero]
        exact Real.exp_le_exp.2 (mul_le_mul_of_nonneg_left (by linarith) hl.le))
  rw [neg_neg, abs_neg, abs_of_pos hρ0, neg_sq, kap_norm om hl, kap_sq] at h1
  have h2 := fieldM_le (kap om) p (shM (fun i => jtab J p (om * ρ) i - fn ((-om ^ 2 : ℝ) : ℂ) i (-ρ)) ((-om ^ 2 : ℝ) : ℂ) p (-ρ) T)
    (μ * (ε * Real.exp (om ^ 2 * ρ ^ 2 / 3) * Real.exp (om ^ 2 * ρ * R / 3))) (R + ρ) (by linarith)
    (fun n hn => by
      have := Bd_shM (fun i => jtab J p (om * ρ) i - fn ((-om ^ 2 : ℝ) : ℂ) i (-ρ)) (fun i => by rw [map_sub, jtab_conj, fnw_conj])
        ((-om ^ 2 : ℝ) : ℂ) (w_conj om) ε hJ.nonneg p
        (fun i hi => jtab_error J p ε om ρ hl hρ0 hJ (-ρ) (neg_sq ρ) i hi) (-ρ) T μ R hR hTb n hn
      rwa [w_norm, abs_neg, abs_of_pos hρ0, neg_sq] at this)
    u (by rw [hun]; exact ht) (Real.exp (om * t.norm)) (by rw [kap_norm om hl, kap_re, sub_zero, hun])
  have e3 : fieldM (kap om) p (shM (jtab J p (om * ρ)) ((-om ^ 2 : ℝ) : ℂ) p (-ρ) T) u =
      fieldM (kap om) p (shM (fun i => fn ((-om ^ 2 : ℝ) : ℂ) i (-ρ)) ((-om ^ 2 : ℝ) : ℂ) p (-ρ) T) u +
      fieldM (kap om) p (shM (fun i => jtab J p (om * ρ) i - fn ((-om ^ 2 : ℝ) : ℂ) i (-ρ)) ((-om ^ 2 : ℝ) : ℂ) p (-ρ) T) u := by
    rw [fieldM, fieldM, fieldM, ← sum_add_distrib]
    refine sum_congr rfl fun n _ => ?_
    rw [← mul_add]
    congr 1
    rw [← sub_eq_iff_eq_add', ← form_sub]
    exact form_congr _ _ _ _ fun m _ => shM_sub _ _ _ _ _ _ _ _
  rw [e3, add_sub_right_comm]
  refine (norm_add_le _ _).trans (add_le_add (h1.trans_eq ?_) (h2.trans_eq ?_))
  · rw [Yukawa.shiftError]; ring
  · rw [hun]; ring

theorem mToM_bd (J : Table) (ε size om : ℝ) (hsz : 0 < size)
    (hl : 0 < om) (hs : 0 < scale0 size om) (p lev : ℕ) (α x : ℝ) (M : Coef) (hM : Proper M) (μ R : ℝ) (hR : 0 ≤ R)
    (hB : ∀ j ≤ p, Bd (hat (am om (scaleOf size om lev)) M) j (μ * R ^ j)) (ρ : ℝ) (hρ : ρ = √3 / 2 * (size / 2 ^ lev))
    (hJ : GoodTab J p ε (om * ρ)) (n : ℕ) (hn : n ≤ p) :
    Bd (hat (am om (2 * scaleOf size om lev)) (tr p (m2m J size om p lev) α x M)) n
      (μ * ((Real.exp (om ^ 2 * ρ ^ 2 / 6) + ε) * Real.exp (om ^ 2 * ρ ^ 2 / 3) * Real.exp (om ^ 2 * ρ * R / 3)) * (R + ρ) ^ n) := by
  have hρ0 : 0 < ρ := by rw [hρ]; positivity
  set B := hat (am om (scaleOf size om lev)) M with hBdef
  have hBp : Proper B := hat_proper _ _ hM
  set T := pre α x B with hT
  have hTp : Proper T := pre_proper _ _ _ hBp
  have hTb : ∀ j ≤ p, Bd T j (μ * R ^ j) := fun j hj => pre_bd _ _ _ hBp _ _ (hB j hj)
  have eρ : √3 / 2 * size / 2 ^ lev = ρ := by rw [hρ]; ring
  have hW := hat_mToM J size om hl hs p lev α x M
  rw [eρ, ← hBdef, ← hT] at hW
  have hXp := shM_proper (jtab J p (om * ρ)) (jtab_conj J p _) _ (w_conj om) p (-ρ) T hTp
  have hX := Bd_shM (jtab J p (om * ρ)) (jtab_conj J p _) ((-om ^ 2 : ℝ) : ℂ) (w_conj om) (Real.exp (om ^ 2 * ρ ^ 2 / 6) + ε)
    (by have := hJ.nonneg; positivity) p (fun i hi => jtab_le J p ε om ρ hl hρ0 hJ i hi)
    (-ρ) T μ R hR hTb n hn
  rw [w_norm, abs_neg, abs_of_pos hρ0, neg_sq] at hX
  exact (post_bd α x _ hXp n _ hX).congr fun m _ => (hW n m).symm

/-- The angles of `L_to_L` point the other way. -/
theorem opp_dir (c : ℕ) (hc : c < 8) :
    let θ := Real.arccos (-childCos c)
    let α := (([5, 7, 3, 1, 5, 7, 3, 1].getD c 0 : ℕ) : ℝ) * (Real.pi / 4)
    (⟨√3 / 2 * (2 * Real.sin (θ / 2) * Real.cos (θ / 2)) * Real.cos α,
      √3 / 2 * (2 * Real.sin (θ / 2) * Real.cos (θ / 2)) * Real.sin α,
      √3 / 2 * (Real.cos (θ / 2) ^ 2 - Real.sin (θ / 2) ^ 2)⟩ : Point ℝ) = off c := by
  intro θ α
  have e := child_dir c hc
  simp only at e
  have hθ : θ / 2 = Real.pi / 2 - Real.arccos (childCos c) / 2 := by
    show Real.arccos (-childCos c) / 2 = _
    rw [Real.arccos_neg]; ring
  have hα : Real.cos α = -Real.cos (tabAlpha c * (Real.pi / 4)) ∧ Real.sin α = -Real.sin (tabAlpha c * (Real.pi / 4)) := by
    have h1 : α = tabAlpha c * (Real.pi / 4) + Real.pi ∨ α = tabAlpha c * (Real.pi / 4) - Real.pi := by
      show (([5, 7, 3, 1, 5, 7, 3, 1].getD c 0 : ℕ) : ℝ) * (Real.pi / 4) = tabAlpha c * (Real.pi / 4) + Real.pi ∨
        (([5, 7, 3, 1, 5, 7, 3, 1].getD c 0 : ℕ) : ℝ) * (Real.pi / 4) = tabAlpha c * (Real.pi / 4) - Real.pi
      interval_cases c <;> simp only [tabAlpha, List.getD_cons_zero, List.getD_cons_succ] <;> push_cast
      all_goals first | (left; ring1) | (right; ring1)
    rcases h1 with h1 | h1 <;> rw [h1]
    · exact ⟨Real.cos_add_pi _, Real.sin_add_pi _⟩
    · exact ⟨Real.cos_sub_pi _, Real.sin_sub_pi _⟩
  rw [hα.1, hα.2, hθ, Real.sin_pi_div_two_sub, Real.cos_pi_div_two_sub, ← e]
  congr 1 <;> ring

theorem back_child_opp (c : ℕ) (hc : c < 8) (h : ℝ) (t : Point ℝ) :
    back ((([5, 7, 3, 1, 5, 7, 3, 1].getD c 0 : ℕ) : ℝ) * (Real.pi / 4)) (-childCos c)
      (addz (√3 / 2 * h) (turn ((([5, 7, 3, 1, 5, 7, 3, 1].getD c 0 : ℕ) : ℝ) * (Real.pi / 4)) (-childCos c) t)) =
      padd t (psmul h (off c)) := by
  rw [back, turn, rot_shift _ _ _ _ (cs_one _)]
  have e := opp_dir c hc
  simp only at e
  rw [← e]
  simp only [padd, psmul]
  congr 1 <;> ring

end
end Dashmm.Helm
