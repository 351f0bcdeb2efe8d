import Verif.Proofs.YukOps

/-!
# The values of the expansions of the Yukawa kernel
-/

namespace Dashmm.Yuk

open Bessel Finset Harm Lap
open scoped Nat

noncomputable section

theorem kn_some (nb : ℕ) (x scale : ℝ) (B : ℕ → ℝ) (h : knScaled nb x scale = some B) (n : ℕ) :
    B n = scale ^ n * sphK n x := by
  rw [knScaled] at h
  split at h
  · next h' =>
    injection h with h; subst h
    exact knEntry_eq x scale (lt_of_lt_of_le xmin_pos h'.2.1).ne' n
  · exact absurd h (by simp)

theorem in_any (F : Table) (δ : ℝ) (hδ0 : 10⁻¹ ^ 17 ≤ δ) (hδ : δ ≤ 1 / 2) (hF : AccurateI F δ) (nb : ℕ) (x scale : ℝ)
    (hs : 0 < scale) (hx : 0 ≤ x) (n : ℕ) (hn : n ≤ nb) :
    |inScaled F nb x scale n - sphI n x / scale ^ n| ≤ Yukawa.besselError δ x * (sphI n x / scale ^ n) +
      2 * 10⁻¹ ^ 300 * max 1 (x / scale) ^ n := by
  rw [Yukawa.besselError]
  split
  · next h => exact in_error F δ hδ0 hδ hF nb x scale hs hx h n hn
  · next h =>
    rw [inScaled, if_neg, if_pos (not_le.1 h), zero_sub, abs_neg, one_mul, abs_of_nonneg]
    · have hM : (0 : ℝ) ≤ max 1 (x / scale) := le_trans zero_le_one (le_max_left _ _)
      have : (0 : ℝ) ≤ 2 * 10⁻¹ ^ 300 * max 1 (x / scale) ^ n := by positivity
      linarith
    · have := sphI_nonneg n x hx; positivity
    · intro h4; exact h (h4.trans (by norm_num))

theorem besselError_nonneg (δ x : ℝ) (hδ : 0 ≤ δ) : 0 ≤ Yukawa.besselError δ x := by
  rw [Yukawa.besselError]; split <;> linarith

theorem dist_clear (u t : Point ℝ) (hu : Clear u) (ht : Clear t) :
    (t.sub u).norm = √(t.norm ^ 2 - 2 * (t.norm * u.norm * dot (dir u) (dir t)) + u.norm ^ 2) := by
  rw [dist_dot, dot_clear u t hu ht]; ring_nf

theorem dot_dir_le (u t : Point ℝ) : |dot (dir u) (dir t)| ≤ 1 := by
  have := dot_le (dir u) (dir t)
  rwa [dir_norm, dir_norm, one_mul] at this

/-- The value of an expansion made from sources. -/
theorem value_eq (p : ℕ) (l : List Src) (c : Point ℝ) (a : Point ℝ → ℕ → ℝ) (C : Coef) (t : Point ℝ) (B : ℕ → ℝ)
    (h : ∀ d n, form (conv C) d n =
      (l.map fun s => ((s.charge * a (s.pos.sub c) n * (2 * n + 1) : ℝ) : ℂ) * form (reg (dir (s.pos.sub c))) d n).sum) :
    Yukawa.evalAt p C (azi t) (ctheta t) B =
      (l.map fun s => s.charge * ∑ n ∈ range (p + 1), (2 * n + 1) * a (s.pos.sub c) n * B n *
        leg (dot (dir (s.pos.sub c)) (dir t)) 1 n).sum := by
  rw [evalAt_conv, evalAt_form _ _ _ _ (ctheta_sq t) (azi_unit t)]
  have e : ∀ n, (form (conv C) (dirOf (ctheta t) (azi t)) n).re =
      (l.map fun s => s.charge * a (s.pos.sub c) n * (2 * n + 1) * leg (dot (dir (s.pos.sub c)) (dir t)) 1 n).sum := by
    intro n
    have := h (dir t) n
    rw [dir] at this
    rw [this]
    clear h this
    induction l with
    | nil => simp
    | cons s l ih =>
      rw [List.map_cons, List.sum_cons, Complex.add_re, ih, List.map_cons, List.sum_cons]
      congr 1
      rw [Complex.re_ofReal_mul, show dirOf (ctheta t) (azi t) = dir t from rfl, form_dir, Complex.ofReal_re]
  simp only [e]
  clear h e
  induction l with
  | nil => simp
  | cons s l ih =>
    simp only [List.map_cons, List.sum_cons]
    rw [← ih, mul_sum, ← sum_add_distrib]
    exact sum_congr rfl fun n _ => by ring

theorem list_error (l : List Src) (f g b : Src → ℝ) (h : ∀ s ∈ l, |f s - g s| ≤ b s) :
    |(l.map f).sum - (l.map g).sum| ≤ (l.map b).sum := by
  induction l with
  | nil => simp
  | cons s l ih =>
    simp only [List.map_cons, List.sum_cons]
    rw [add_sub_add_comm]
    exact (abs_add_le _ _).trans (add_le_add (h s List.mem_cons_self) (ih fun x hx => h x (List.mem_cons_of_mem _ hx)))

theorem psub_center (a b c : Point ℝ) : (a.sub c).sub (b.sub c) = a.sub b := by
  simp only [Point.sub]; congr 1 <;> ring

/-- The value of the multipole expansion of sources with the exact functions `k_n` of the target. -/
theorem multipole_error_at (F : Table) (δ lam : ℝ) (hl : 0 < lam) (hδ0 : 10⁻¹ ^ 17 ≤ δ) (hδ : δ ≤ 1 / 2) (hF : AccurateI F δ) (p : ℕ)
    (scale : ℝ) (hs : 0 < scale) (c : Point ℝ) (srcs : List Src) (hc : AllRegular c srcs) (t : Point ℝ) (ht : Regular (t.sub c))
    (hfar : ∀ s ∈ srcs, (s.pos.sub c).norm < (t.sub c).norm) (M : Coef) (hM : Yukawa.sToM F lam p c scale srcs = some M)
    (B : ℕ → ℝ) (hB : ∀ n, B n = scale ^ n * sphK n (lam * (t.sub c).norm)) :
    |Yukawa.evalAt p M (azi (t.sub c)) (ctheta (t.sub c)) B - Yukawa.potential lam srcs t| ≤
      Yukawa.multipoleBound p lam scale δ c srcs t := by
  have ht' := clear_of_regular ht
  have hd0 : 0 ≤ δ := le_trans (by positivity) hδ0
  have hform := sources_form (Yukawa.sToM1 F lam p) (fun u n => inScaled F p (lam * u.norm) scale n) c scale ?_ srcs M hM
  · rw [value_eq p srcs c (fun u n => inScaled F p (lam * u.norm) scale n) M (t.sub c) B hform, Yukawa.potential, Yukawa.multipoleBound]
    refine list_error _ _ _ _ fun s hs' => ?_
    have hu := clear_of_regular (hc s hs')
    have hR : (t.sub s.pos).norm = √((t.sub c).norm ^ 2 - 2 * ((t.sub c).norm * (s.pos.sub c).norm *
        dot (dir (s.pos.sub c)) (dir (t.sub c))) + (s.pos.sub c).norm ^ 2) := by
      rw [← dist_clear _ _ hu ht', psub_center]
    have hR0 : (t.sub s.pos).norm ≠ 0 := by
      have h1 := dot_le (s.pos.sub c) (t.sub c)
      have h2 : (t.sub s.pos).norm = √((t.sub c).norm ^ 2 - 2 * dot (s.pos.sub c) (t.sub c) + (s.pos.sub c).norm ^ 2) := by
        rw [← dist_dot, psub_center]
      rw [h2]
      refine (Real.sqrt_pos.2 ?_).ne'
      have h3 := hfar s hs'
      have h4 := (abs_le.1 h1).2
      nlinarith [mul_pos (sub_pos.2 h3) (sub_pos.2 h3)]
    have key := radial_error lam hl p scale (Yukawa.besselError δ (lam * (s.pos.sub c).norm)) (s.pos.sub c).norm (t.sub c).norm
      (dot (dir (s.pos.sub c)) (dir (t.sub c))) hs (besselError_nonneg _ _ hd0) (norm_nonneg' _) (hfar s hs') (dot_dir_le _ _)
      (inScaled F p (lam * (s.pos.sub c).norm) scale)
      (fun n hn => in_any F δ hδ0 hδ hF p _ scale hs (mul_nonneg hl.le (norm_nonneg' _)) n hn)
    rw [← hR] at key
    rw [if_neg hR0, show Real.pi / (2 * lam) * (s.charge * Real.exp (-(lam * (t.sub s.pos).norm)) / (t.sub s.pos).norm) =
      s.charge * (Real.pi / (2 * lam) * (Real.exp (-(lam * (t.sub s.pos).norm)) / (t.sub s.pos).norm)) by ring,
      ← mul_sub, abs_mul]
    refine mul_le_mul_of_nonneg_left ?_ (abs_nonneg _)
    simpa only [hB] using key
  · intro v q C hC n m hm
    rw [Yukawa.sToM1] at hC
    cases he : ephiNeg v with
    | none => rw [he] at hC; cases hC
    | some e =>
      have hn : v.norm ≠ 0 := by intro h0; rw [ephiNeg, if_pos h0] at he; cases he
      rw [ephiNeg_eq v hn] at hC
      have hC := (Option.some.inj hC).symm
      subst hC
      have := conv_source v (q * inScaled F p (lam * v.norm) scale n) n m hm
      rw [← this]
      simp only [conv]

theorem multipole_error (F : Table) (δ lam : ℝ) (hl : 0 < lam) (hδ0 : 10⁻¹ ^ 17 ≤ δ) (hδ : δ ≤ 1 / 2) (hF : AccurateI F δ) (p : ℕ)
    (scale : ℝ) (hs : 0 < scale) (c : Point ℝ) (srcs : List Src) (hc : AllRegular c srcs) (t : Point ℝ) (ht : Regular (t.sub c))
    (hfar : ∀ s ∈ srcs, (s.pos.sub c).norm < (t.sub c).norm) (M : Coef) (hM : Yukawa.sToM F lam p c scale srcs = some M)
    (v : ℝ) (hv : Yukawa.mToT lam p c scale M t = some v) :
    |v - Yukawa.potential lam srcs t| ≤ Yukawa.multipoleBound p lam scale δ c srcs t := by
  have ht' := clear_of_regular ht
  rw [Yukawa.mToT, Yukawa.mToT1] at hv
  cases hk : knScaled (p + 1) (lam * (t.sub c).norm) scale with
  | none => rw [hk, ephi_eq _ ht'.ne] at hv; cases hv
  | some B =>
    rw [hk, ephi_eq _ ht'.ne] at hv
    have hv : v = Yukawa.evalAt p M (azi (t.sub c)) (ctheta (t.sub c)) B := (Option.some.inj hv).symm
    rw [hv]
    exact multipole_error_at F δ lam hl hδ0 hδ hF p scale hs c srcs hc t ht hfar M hM B (kn_some _ _ _ B hk)

theorem local_error (F : Table) (δ lam : ℝ) (hl : 0 < lam) (hδ0 : 10⁻¹ ^ 17 ≤ δ) (hδ : δ ≤ 1 / 2) (hF : AccurateI F δ) (p : ℕ)
    (scale : ℝ) (hs : 0 < scale) (c : Point ℝ) (srcs : List Src) (hc : AllRegular c srcs) (t : Point ℝ) (ht : Regular (t.sub c))
    (hfar : ∀ s ∈ srcs, (t.sub c).norm < (s.pos.sub c).norm) (L : Coef) (hL : Yukawa.sToL lam p c scale srcs = some L) :
    ∃ v, Yukawa.lToT F lam p c scale L t = some v ∧
      |v - Yukawa.potential lam srcs t| ≤ Yukawa.localBound p lam scale δ c srcs t := by
  have ht' := clear_of_regular ht
  have hd0 : 0 ≤ δ := le_trans (by positivity) hδ0
  have hform := sources_form (Yukawa.sToL1 lam p) (fun u n => scale ^ n * sphK n (lam * u.norm)) c scale ?_ srcs L hL
  · refine ⟨Yukawa.evalAt p L (azi (t.sub c)) (ctheta (t.sub c)) (inScaled F (p + 1) (lam * (t.sub c).norm) scale),
      by rw [Yukawa.lToT, Yukawa.lToT1, ephi_eq _ ht'.ne]; rfl, ?_⟩
    rw [value_eq p srcs c (fun u n => scale ^ n * sphK n (lam * u.norm)) L (t.sub c) _ hform, Yukawa.potential, Yukawa.localBound]
    refine list_error _ _ _ _ fun s hs' => ?_
    have hu := clear_of_regular (hc s hs')
    have hR : (t.sub s.pos).norm = √((s.pos.sub c).norm ^ 2 - 2 * ((s.pos.sub c).norm * (t.sub c).norm *
        dot (dir (s.pos.sub c)) (dir (t.sub c))) + (t.sub c).norm ^ 2) := by
      rw [← psub_center t s.pos c, dist_clear _ _ hu ht']; ring_nf
    have hR0 : (t.sub s.pos).norm ≠ 0 := by
      have h1 := dot_le (s.pos.sub c) (t.sub c)
      have h2 : (t.sub s.pos).norm = √((t.sub c).norm ^ 2 - 2 * dot (s.pos.sub c) (t.sub c) + (s.pos.sub c).norm ^ 2) := by
        rw [← dist_dot, psub_center]
      rw [h2]
      refine (Real.sqrt_pos.2 ?_).ne'
      have h3 := hfar s hs'
      have h4 := (abs_le.1 h1).2
      nlinarith [mul_pos (sub_pos.2 h3) (sub_pos.2 h3)]
    have key := radial_error lam hl p scale (Yukawa.besselError δ (lam * (t.sub c).norm)) (t.sub c).norm (s.pos.sub c).norm
      (dot (dir (s.pos.sub c)) (dir (t.sub c))) hs (besselError_nonneg _ _ hd0) (norm_nonneg' _) (hfar s hs') (dot_dir_le _ _)
      (inScaled F (p + 1) (lam * (t.sub c).norm) scale)
      (fun n hn => in_any F δ hδ0 hδ hF (p + 1) _ scale hs (mul_nonneg hl.le (norm_nonneg' _)) n (by omega))
    rw [← hR] at key
    rw [if_neg hR0, show Real.pi / (2 * lam) * (s.charge * Real.exp (-(lam * (t.sub s.pos).norm)) / (t.sub s.pos).norm) =
      s.charge * (Real.pi / (2 * lam) * (Real.exp (-(lam * (t.sub s.pos).norm)) / (t.sub s.pos).norm)) by ring,
      ← mul_sub, abs_mul]
    refine mul_le_mul_of_nonneg_left ?_ (abs_nonneg _)
    refine le_of_eq_of_le ?_ key
    congr 2
    exact sum_congr rfl fun n _ => by ring
  · intro v q C hC n m hm
    rw [Yukawa.sToL1] at hC
    cases he : ephiNeg v with
    | none => rw [he] at hC; cases hC
    | some e =>
      have hn : v.norm ≠ 0 := by intro h0; rw [ephiNeg, if_pos h0] at he; cases he
      cases hk : knScaled p (lam * v.norm) scale with
      | none => rw [hk, ephiNeg_eq v hn] at hC; cases hC
      | some B =>
        rw [hk, ephiNeg_eq v hn] at hC
        have hC := (Option.some.inj hC).symm
        subst hC
        have := conv_source v (q * B n) n m hm
        rw [← kn_some _ _ _ B hk, ← this]
        simp only [conv]

end
end Dashmm.Yuk
