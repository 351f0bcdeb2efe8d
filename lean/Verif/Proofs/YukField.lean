import Verif.Proofs.YukTrans

/-!
# The two translations of the Yukawa kernel on the fields
-/

namespace Dashmm.Yuk

open Finset Harm Lap Bessel Wave
open scoped Nat

noncomputable section

/-- The common part of the two translations. -/
def tr (p : ℕ) (coeff : ℕ → ℕ → ℕ → ℝ) (α x : ℝ) (M : Coef) : Coef :=
  rotateZ (rotateY (Yukawa.shiftZ p coeff (rotateY (rotateZ M α) (Yukawa.ydmatPlus x))) (Yukawa.ydmatMinus x)) (-α)

theorem hat_tr (a a' : ℕ → ℝ) (p : ℕ) (coeff : ℕ → ℕ → ℕ → ℝ) (q : ℕ → ℕ → ℕ → ℂ) (α x : ℝ) (M : Coef)
    (h : ∀ n m np, m ≤ n → m ≤ np → ((a' n * (Lap.sqf (n + m) / Lap.sqf (n - m)) * coeff n m np : ℝ) : ℂ) =
      q m n np * ((a np * (Lap.sqf (np + m) / Lap.sqf (np - m)) : ℝ) : ℂ))
    (h0 : ∀ n m np, np < m → q m n np = 0) (n m : ℕ) :
    hat a' (tr p coeff α x M) n m =
      rotateZ (rotateY (fun n m => ∑ j ∈ range (p + 1), q m n j * rotateY (rotateZ (hat a M) α) (dmatPlus x) j m) (dmatMinus x)) (-α) n m := by
  rw [tr, hat_rotateZ]
  refine rotateZ_congr _ _ _ _ _ ?_
  unfold Yukawa.ydmatMinus
  rw [hat_rotateY]
  refine rotateY_congr _ _ _ _ (fun m' hm' => ?_) _
  rw [hat_shiftZ a' a coeff (q m' n) p n m' _ (fun np hnp => h n m' np hm' hnp) (fun np hnp => h0 n m' np hnp)]
  refine sum_congr rfl fun j _ => ?_
  unfold Yukawa.ydmatPlus
  rw [hat_rotateY, hat_rotateZ]

/-- The array before the shift. -/
def pre (α x : ℝ) (B : Coef) : Coef := rotateY (rotateZ B α) (dmatPlus x)

theorem pre_proper (α x : ℝ) (B : Coef) (h : Proper B) : Proper (pre α x B) :=
  rotateY_proper _ (rotateZ_proper _ _ h) _ _ _ (dmatPlus_is x)

theorem pre_bd (α x : ℝ) (B : Coef) (h : Proper B) (n : ℕ) (c : ℝ) (hb : Bd B n c) : Bd (pre α x B) n c :=
  (hb.rotateZ α).rotateY (rotateZ_proper _ _ h) _ _ _ (dmatPlus_is x) (cs_one _)

theorem post_bd (α x : ℝ) (X : Coef) (h : Proper X) (n : ℕ) (c : ℝ) (hb : Bd X n c) : Bd (rotateZ (rotateY X (dmatMinus x)) (-α)) n c :=
  (hb.rotateY h _ _ _ (dmatMinus_is x) (by rw [neg_sq]; exact cs_one _)).rotateZ _

/-- The direction of the turned axis. -/
def turn (α x : ℝ) (t : Point ℝ) : Point ℝ := rot α (Real.cos (Real.arccos x / 2)) (Real.sin (Real.arccos x / 2)) t

def back (α x : ℝ) (u : Point ℝ) : Point ℝ := rotZ (-α) (rotY (Real.cos (Real.arccos x / 2)) (-Real.sin (Real.arccos x / 2)) u)

theorem turn_norm (α x : ℝ) (t : Point ℝ) : (turn α x t).norm = t.norm := rot_norm _ _ _ (cs_one _) _

theorem back_norm (α x : ℝ) (u : Point ℝ) : (back α x u).norm = u.norm := by
  rw [back, rotZ_norm, rotY_norm _ _ (by rw [neg_sq]; exact cs_one _)]

theorem back_child (c : ℕ) (hc : c < 8) (h : ℝ) (t : Point ℝ) :
    back (tabAlpha c * (Real.pi / 4)) (childCos c) (addz (√3 / 2 * h) (turn (tabAlpha c * (Real.pi / 4)) (childCos c) t)) =
      padd t (psmul (-h) (off c)) := by
  rw [back, turn, rot_shift _ _ _ _ (cs_one _)]
  have e := child_dir c hc
  simp only at e
  rw [← e]
  simp only [padd, psmul]
  congr 1 <;> ring

theorem tauB_tab (F : Table) (p : ℕ) (x lam : ℝ) (m n j : ℕ) (s : ℝ) (hm : m ≤ n) :
    tauB (btab F p x) ((lam : ℂ) ^ 2) m n j s = ((tauR (inScaled F (2 * p) x x) (lam ^ 2) m n j s : ℝ) : ℂ) := by
  rw [← tauB_real _ _ _ _ _ _ hm, Complex.ofReal_pow]; rfl

/-- The array of `M_to_M`. -/
theorem hat_mToM (F : Table) (size lam : ℝ) (hl : 0 < lam) (hs : 0 < Yukawa.scale0 size lam) (p lev : ℕ) (α x : ℝ) (M : Coef) (n m : ℕ) :
    hat (am lam (2 * Yukawa.scaleOf size lam lev)) (tr p (Yukawa.m2m F size lam p lev) α x M) n m =
      rotateZ (rotateY (shM (btab F p (lam * (√3 / 2 * size / 2 ^ lev))) ((lam : ℂ) ^ 2) p (-(√3 / 2 * size / 2 ^ lev))
        (pre α x (hat (am lam (Yukawa.scaleOf size lam lev)) M))) (dmatMinus x)) (-α) n m := by
  rw [hat_tr (am lam (Yukawa.scaleOf size lam lev)) _ p _
    (fun m n j => tauB (btab F p (lam * (√3 / 2 * size / 2 ^ lev))) ((lam : ℂ) ^ 2) m n j (-(√3 / 2 * size / 2 ^ lev)))]
  · rfl
  · intro n m np hm hmp
    rw [tauB_tab _ _ _ _ _ _ _ _ hm, ← Complex.ofReal_mul, Complex.ofReal_inj]
    exact m2m_tau F size lam hl hs p lev n m np hm hmp
  · intro n m np h
    exact tauB_low _ _ _ _ _ _ (by rw [Nat.abs_cast]; omega)

/-- The array of `L_to_L`. -/
theorem hat_lToL (F : Table) (size lam : ℝ) (hl : 0 < lam) (hs : 0 < Yukawa.scale0 size lam) (p lev : ℕ) (α x : ℝ) (M : Coef) (n m : ℕ) :
    hat (al lam (Yukawa.scaleOf size lam lev / 2)) (tr p (Yukawa.l2l F size lam p lev) α x M) n m =
      rotateZ (rotateY (shL (btab F p (lam * (√3 / 4 * size / 2 ^ lev))) ((lam : ℂ) ^ 2) p (-(√3 / 4 * size / 2 ^ lev))
        (pre α x (hat (al lam (Yukawa.scaleOf size lam lev)) M))) (dmatMinus x)) (-α) n m := by
  rw [hat_tr (al lam (Yukawa.scaleOf size lam lev)) _ p _
    (fun m n j => tauB (btab F p (lam * (√3 / 4 * size / 2 ^ lev))) ((lam : ℂ) ^ 2) m j n (-(√3 / 4 * size / 2 ^ lev)))]
  · rfl
  · intro n m np hm hmp
    rw [tauB_tab _ _ _ _ _ _ _ _ hmp, ← Complex.ofReal_mul, Complex.ofReal_inj]
    exact l2l_tau F size lam hl hs p lev n m np hm hmp
  · intro n m np h
    exact tauB_low' _ _ _ _ _ _ (by rw [Nat.abs_cast]; omega)

theorem field_post (κ : ℂ) (p : ℕ) (α x : ℝ) (X W : Coef) (hX : Proper X)
    (h : ∀ n m, W n m = rotateZ (rotateY X (dmatMinus x)) (-α) n m) (t : Point ℝ) : fieldM κ p W t = fieldM κ p X (turn α x t) := by
  rw [fieldM, fieldM, turn_norm]
  refine sum_congr rfl fun n _ => ?_
  rw [form_congr W _ t n (fun m _ => h n m), rotated_form X hX]; rfl

theorem field_pre (κ : ℂ) (p : ℕ) (α x : ℝ) (B : Coef) (hB : Proper B) (u : Point ℝ) : fieldM κ p (pre α x B) u = fieldM κ p B (back α x u) := by
  rw [fieldM, fieldM, back_norm]
  refine sum_congr rfl fun n _ => ?_
  rw [pre, rotated_form' B hB]; rfl

theorem fieldA_post (a : ℕ → ℂ) (p : ℕ) (α x : ℝ) (X W : Coef) (hX : Proper X)
    (h : ∀ n m, W n m = rotateZ (rotateY X (dmatMinus x)) (-α) n m) (t : Point ℝ) : fieldA a p W t = fieldA a p X (turn α x t) := by
  rw [fieldA, fieldA]
  refine sum_congr rfl fun n _ => ?_
  rw [form_congr W _ t n (fun m _ => h n m), rotated_form X hX]; rfl

theorem fieldL_post (w : ℂ) (p : ℕ) (α x : ℝ) (X W : Coef) (hX : Proper X)
    (h : ∀ n m, W n m = rotateZ (rotateY X (dmatMinus x)) (-α) n m) (t : Point ℝ) : fieldL w p W t = fieldL w p X (turn α x t) := by
  rw [fieldL, fieldL, turn_norm]
  refine sum_congr rfl fun n _ => ?_
  rw [form_congr W _ t n (fun m _ => h n m), rotated_form X hX]; rfl

theorem fieldL_pre (w : ℂ) (p : ℕ) (α x : ℝ) (B : Coef) (hB : Proper B) (u : Point ℝ) : fieldL w p (pre α x B) u = fieldL w p B (back α x u) := by
  rw [fieldL, fieldL, back_norm]
  refine sum_congr rfl fun n _ => ?_
  rw [pre, rotated_form' B hB]; rfl

theorem form_sub (A B : Coef) (v : Point ℝ) (n : ℕ) : form (fun n m => A n m - B n m) v n = form A v n - form B v n := by
  rw [form, form, form, ← sum_sub_distrib]
  refine sum_congr rfl fun m _ => ?_
  rw [← sub_mul]
  congr 1
  unfold Harm.ext
  split_ifs
  · simp only; ring
  · rw [map_sub]

theorem shM_sub (b b' : ℕ → ℂ) (w : ℂ) (p : ℕ) (s : ℝ) (T : Coef) (n m : ℕ) :
    shM b w p s T n m - shM b' w p s T n m = shM (fun i => b i - b' i) w p s T n m := by
  rw [shM, shM, shM, ← sum_sub_distrib]
  exact sum_congr rfl fun j _ => by rw [← tauB_sub]; ring

theorem shL_sub (b b' : ℕ → ℂ) (w : ℂ) (p : ℕ) (s : ℝ) (T : Coef) (n m : ℕ) :
    shL b w p s T n m - shL b' w p s T n m = shL (fun i => b i - b' i) w p s T n m := by
  rw [shL, shL, shL, ← sum_sub_distrib]
  exact sum_congr rfl fun j _ => by rw [← tauB_sub]; ring

end
end Dashmm.Yuk
