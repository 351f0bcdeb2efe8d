import Verif.Proofs.HelmBound
import Verif.Proofs.YukVal
import Verif.Model.Helmholtz

/-!
# The values of the expansions of the Helmholtz kernel
-/

namespace Dashmm.Helm

open Bessel Finset Harm Lap Yuk

noncomputable section

theorem fact_eq : ∀ n, fact n = Yukawa.fact n
  | 0 => rfl
  | n + 1 => by rw [fact, Yukawa.fact, fact_eq n]

theorem sqf_eq (n m : ℕ) : sqf n m = Yukawa.sqf n m := by rw [sqf, Yukawa.sqf, fact_eq, fact_eq]

/-- The addition theorem of the harmonics of one degree, in the terms of the code. -/
theorem zonal (u t : Point ℝ) (n : ℕ) :
    sqf n 0 * legendre (ctheta u) n 0 * legendre (ctheta t) n 0 + ∑ m ∈ Icc 1 n, 2 * (sqf n m * legendre (ctheta u) n m *
      legendre (ctheta t) n m) * ((starRingEnd ℂ (azi u)) ^ m * azi t ^ m).re = (2 * n + 1) * leg (dot (dir u) (dir t)) 1 n := by
  set C : Coef := fun n m => ((1 * Yukawa.sqf n m * legendre (ctheta u) n m : ℝ) : ℂ) * (starRingEnd ℂ (azi u)) ^ m with hC
  set B : ℕ → ℝ := fun k => if k = n then 1 else 0 with hB
  have h1 : Yukawa.evalAt n C (azi t) (ctheta t) B = (2 * n + 1) * leg (dot (dir u) (dir t)) 1 n := by
    rw [evalAt_conv, evalAt_form _ _ _ _ (ctheta_sq t) (azi_unit t), sum_eq_single n]
    · have : form (conv C) (dirOf (ctheta t) (azi t)) n = (2 * n + 1 : ℝ) * form (reg (dir u)) (dir t) n := by
        rw [← form_smul]
        refine form_congr _ _ _ n fun m hm => ?_
        rw [hC, conv_source u 1 n m hm]
        simp [Complex.real_smul]
      rw [this, form_dir, ← Complex.ofReal_mul, Complex.ofReal_re]
      simp [hB]
    · intro k _ hk; simp [hB, hk]
    · intro h; exact absurd (mem_range.2 (Nat.lt_succ_self n)) h
  rw [← h1, Yukawa.evalAt]
  rw [sum_eq_single n (fun k _ hk => by simp [hB, hk]) (fun h => absurd (mem_range.2 (Nat.lt_succ_self n)) h), Complex.add_re]
  congr 1
  · rw [hC, hB, sqf_eq]
    simp only [if_true, one_mul, pow_zero, mul_one, ← Complex.ofReal_mul, Complex.ofReal_re]
  · rcases n.eq_zero_or_pos with h0 | h0
    · subst h0; simp
    · symm
      rw [sum_eq_single n (fun k _ hk => by simp [hB, hk]) (fun h => absurd (mem_Icc.2 ⟨h0, le_rfl⟩) h), Complex.re_sum]
      symm
      refine sum_congr rfl fun m _ => ?_
      rw [Complex.ofReal_re, hC, hB, sqf_eq]
      simp only [if_true, one_mul]
      rw [show ((Yukawa.sqf n m * legendre (ctheta u) n m : ℝ) : ℂ) * (starRingEnd ℂ) (azi u) ^ m * ((legendre (ctheta t) n m : ℝ) * azi t ^ m) =
        ((Yukawa.sqf n m * legendre (ctheta u) n m * legendre (ctheta t) n m : ℝ) : ℂ) * ((starRingEnd ℂ) (azi u) ^ m * azi t ^ m) by
        push_cast; ring, Complex.re_ofReal_mul]
      ring

theorem zonal_c (u t : Point ℝ) (n : ℕ) :
    (sqf n 0 * legendre (ctheta u) n 0 * legendre (ctheta t) n 0 : ℂ) + ∑ m ∈ Icc 1 n, 2 * (sqf n m * legendre (ctheta u) n m *
      legendre (ctheta t) n m) * ((((starRingEnd ℂ (azi u)) ^ m * azi t ^ m).re : ℝ) : ℂ) = (2 * n + 1) * (leg (dot (dir u) (dir t)) 1 n : ℂ) := by
  have := congrArg (fun x : ℝ => (x : ℂ)) (zonal u t n)
  push_cast at this
  exact this

/-! ### Multipole expansions -/

theorem evalM_add (p : ℕ) (M N : Coef) (e : ℂ) (ct : ℝ) (B : ℕ → ℂ) :
    evalM p (fun n m => M n m + N n m) e ct B = evalM p M e ct B + evalM p N e ct B := by
  simp only [evalM]
  rw [add_add_add_comm, ← sum_add_distrib, ← sum_add_distrib]
  congr 1
  · exact sum_congr rfl fun n _ => by ring
  · refine sum_congr rfl fun n _ => ?_
    rw [← sum_add_distrib]
    refine sum_congr rfl fun m _ => ?_
    rw [add_mul, Complex.add_re]; push_cast; ring

theorem evalM_source (p : ℕ) (u t : Point ℝ) (a : ℕ → ℝ) (B : ℕ → ℂ) :
    evalM p (fun n m => ((a n * sqf n m * legendre (ctheta u) n m : ℝ) : ℂ) * (starRingEnd ℂ (azi u)) ^ m) (azi t) (ctheta t) B =
      ∑ n ∈ range (p + 1), (2 * n + 1) * (a n : ℂ) * B n * (leg (dot (dir u) (dir t)) 1 n : ℂ) := by
  rw [evalM]
  have h : ∀ f : ℕ → ℕ → ℂ, ∑ n ∈ Icc 1 p, ∑ m ∈ Icc 1 n, f n m = ∑ n ∈ range (p + 1), ∑ m ∈ Icc 1 n, f n m := by
    intro f
    refine sum_subset (fun n hn => mem_range.2 (by have := (mem_Icc.1 hn).2; omega)) fun n hn h => ?_
    have : n = 0 := by
      have := mem_range.1 hn
      by_contra h0
      exact h (mem_Icc.2 ⟨by omega, by omega⟩)
    subst this; simp
  rw [h, ← sum_add_distrib]
  refine sum_congr rfl fun n _ => ?_
  rw [show (2 * n + 1) * (a n : ℂ) * B n * (leg (dot (dir u) (dir t)) 1 n : ℂ) =
    (a n : ℂ) * B n * ((2 * n + 1) * (leg (dot (dir u) (dir t)) 1 n : ℂ)) by ring, ← zonal_c, mul_add, mul_sum]
  congr 1
  · push_cast; ring
  · refine sum_congr rfl fun m _ => ?_
    rw [mul_assoc (((a n * sqf n m * legendre (ctheta u) n m : ℝ) : ℂ)), Complex.re_ofReal_mul]; push_cast; ring

theorem evalM_sources (J : Table) (om : ℝ) (p : ℕ) (c : Point ℝ) (scale : ℝ) (t : Point ℝ) (B : ℕ → ℂ) :
    ∀ (l : List Src) (M : Coef), sToM J om p c scale l = some M → evalM p M (azi t) (ctheta t) B =
      (l.map fun s => (s.charge : ℂ) * ∑ n ∈ range (p + 1), (2 * n + 1) * (jnScaled J p (om * (s.pos.sub c).norm) scale n : ℂ) * B n *
        (leg (dot (dir (s.pos.sub c)) (dir t)) 1 n : ℂ)).sum
  | [], M, h => by
    rw [sToM, sumSources] at h; injection h with h; subst h
    simp [evalM]
  | s :: l, M, h => by
    rw [sToM, sumSources] at h
    cases hr : sumSources (sToM1 J om p) c scale l with
    | none => rw [hr] at h; cases h
    | some R =>
      rw [hr] at h
      by_cases hn : (s.pos.sub c).norm = 0
      · rw [sToM1, ephiNeg, if_pos hn] at h; cases h
      · rw [sToM1, ephiNeg_eq _ hn] at h
        have e := (Option.some.inj h).symm
        have e2 := evalM_add p (fun n m => ((s.charge * jnScaled J p (om * (s.pos.sub c).norm) scale n * sqf n m *
          legendre (ctheta (s.pos.sub c)) n m : ℝ) : ℂ) * (starRingEnd ℂ (azi (s.pos.sub c))) ^ m) R (azi t) (ctheta t) B
        rw [e, List.map_cons, List.sum_cons, ← evalM_sources J om p c scale t B l R hr]
        refine e2.trans ?_
        congr 1
        rw [evalM_source p _ t (fun n => s.charge * jnScaled J p (om * (s.pos.sub c).norm) scale n), mul_sum]
        exact sum_congr rfl fun n _ => by push_cast; ring

/-! ### Local expansions -/

theorem evalL_add (p : ℕ) (M N : LCoef) (e : ℂ) (ct : ℝ) (B : ℕ → ℝ) :
    evalL p (fun n m => M n m + N n m) e ct B = evalL p M e ct B + evalL p N e ct B := by
  simp only [evalL]
  rw [← sum_add_distrib]
  refine sum_congr rfl fun n _ => ?_
  rw [← sum_add_distrib]
  exact sum_congr rfl fun m _ => by ring

theorem legendre_axis (ct : ℝ) (h : ct * ct = 1) (n m : ℕ) (hm : 1 ≤ m) : legendre ct n m = 0 := by
  rw [legendre, h, sub_self, Real.sqrt_zero, neg_zero]
  have h0 : legDiag 0 m = 0 := by
    obtain ⟨k, rfl⟩ : ∃ k, m = k + 1 := ⟨m - 1, by omega⟩
    simp [legDiag]
  induction n - m using Nat.twoStepInduction with
  | zero => rw [legCol, h0]
  | one => rw [legCol, h0]; ring
  | more k h1 h2 => rw [legCol]; simp only [h1, h2]; simp

theorem ephiL_eq (v : Point ℝ) (h : Clear v) : ∃ e, ephiL v = some e ∧ ∀ (n : ℕ) (m : ℤ),
    (legendre (ctheta v) n m.natAbs : ℂ) * powE e m = (legendre (ctheta v) n m.natAbs : ℂ) * powE (starRingEnd ℂ (azi v)) m := by
  have h0 := h.ne
  rw [ephiL, if_neg h0]
  split
  · next hp =>
    refine ⟨0, rfl, fun n m => ?_⟩
    have hp0 : proj v = 0 := by
      rcases h.2 with h2 | h2
      · exact h2
      · exact absurd hp (not_le.2 h2)
    have hct : ctheta v * ctheta v = 1 := by
      rw [ctheta, if_neg (not_le.2 h.1)]
      have h1 := norm_sq_eq v
      have h2 := proj_sq v
      rw [hp0] at h2
      have : v.z ^ 2 = v.norm ^ 2 := by rw [h1]; nlinarith
      field_simp
      exact this
    rcases Nat.eq_zero_or_pos m.natAbs with hm | hm
    · rw [Int.natAbs_eq_zero] at hm; subst hm; simp [powE]
    · rw [legendre_axis _ hct n _ hm]; simp
  · next hp =>
    refine ⟨_, rfl, fun n m => ?_⟩
    congr 2
    rw [azi, if_neg hp]
    simp [neg_div]

theorem evalL_source (p : ℕ) (u t : Point ℝ) (a : ℕ → ℂ) (B : ℕ → ℝ) :
    evalL p (fun n m => a n * ((sqf n m.natAbs * legendre (ctheta u) n m.natAbs : ℝ) : ℂ) * powE (starRingEnd ℂ (azi u)) m) (azi t) (ctheta t) B =
      ∑ n ∈ range (p + 1), (2 * n + 1) * a n * (B n : ℂ) * (leg (dot (dir u) (dir t)) 1 n : ℂ) := by
  rw [evalL]
  refine sum_congr rfl fun n _ => ?_
  rw [show (2 * n + 1) * a n * (B n : ℂ) * (leg (dot (dir u) (dir t)) 1 n : ℂ) =
    a n * (B n : ℂ) * ((2 * n + 1) * (leg (dot (dir u) (dir t)) 1 n : ℂ)) by ring, ← zonal_c, mul_add, mul_sum, Harm.sum_split]
  congr 1
  · simp [powE]; ring
  · refine sum_congr rfl fun m hm => ?_
    have hm1 := (mem_Icc.1 hm).1
    have h1 : powE (starRingEnd ℂ (azi u)) m * powE (azi t) m + powE (starRingEnd ℂ (azi u)) (-m) * powE (azi t) (-m) =
        2 * ((((starRingEnd ℂ (azi u)) ^ m * azi t ^ m).re : ℝ) : ℂ) := by
      have hneg : ¬ (0 ≤ -(m : ℤ)) := by omega
      rw [powE, powE, powE, powE, if_pos (by omega), if_pos (by omega), if_neg hneg, if_neg hneg, Int.natAbs_neg, Int.natAbs_natCast,
        ← map_mul]
      have := Complex.add_conj ((starRingEnd ℂ (azi u)) ^ m * azi t ^ m)
      rw [this]; push_cast; ring
    rw [Int.natAbs_neg, Int.natAbs_natCast]
    push_cast
    linear_combination (a n * sqf n m * legendre (ctheta u) n m * B n * legendre (ctheta t) n m) * h1

theorem evalL_sources (J Y : Table) (om : ℝ) (p : ℕ) (c : Point ℝ) (scale : ℝ) (t : Point ℝ) (B : ℕ → ℝ) :
    ∀ (l : List Src), AllRegular c l → ∃ L, sToL J Y om p c scale l = some L ∧ evalL p L (azi t) (ctheta t) B =
      (l.map fun s => (s.charge : ℂ) * ∑ n ∈ range (p + 1), (2 * n + 1) * hn J Y p (om * (s.pos.sub c).norm) scale n * (B n : ℂ) *
        (leg (dot (dir (s.pos.sub c)) (dir t)) 1 n : ℂ)).sum
  | [], _ => ⟨_, rfl, by simp [evalL]⟩
  | s :: l, h => by
    obtain ⟨R, hR, hv⟩ := evalL_sources J Y om p c scale t B l fun x hx => h x (List.mem_cons_of_mem _ hx)
    obtain ⟨e, he, hleg⟩ := ephiL_eq _ (clear_of_regular (h s List.mem_cons_self))
    refine ⟨_, by rw [sToL, hR, sToL1, he]; rfl, ?_⟩
    rw [evalL_add, hv, List.map_cons, List.sum_cons]
    congr 1
    have e2 := evalL_source p (s.pos.sub c) t (fun n => s.charge * hn J Y p (om * (s.pos.sub c).norm) scale n) B
    have e3 : ∀ f g : LCoef, f = g → evalL p f (azi t) (ctheta t) B = evalL p g (azi t) (ctheta t) B := fun f g h => by rw [h]
    refine (e3 _ _ ?_).trans (e2.trans ?_)
    · funext n m
      push_cast
      linear_combination (s.charge * hn J Y p (om * (s.pos.sub c).norm) scale n * sqf n m.natAbs) * hleg n m
    · rw [mul_sum]
      exact sum_congr rfl fun n _ => by ring

theorem list_error (l : List Src) (f g : Src → ℂ) (b : Src → ℝ) (h : ∀ s ∈ l, ‖f s - g s‖ ≤ b s) :
    ‖(l.map f).sum - (l.map g).sum‖ ≤ (l.map b).sum := by
  induction l with
  | nil => simp
  | cons s l ih =>
    simp only [List.map_cons, List.sum_cons]
    rw [add_sub_add_comm]
    exact (norm_add_le _ _).trans (add_le_add (h s List.mem_cons_self) (ih fun x hx => h x (List.mem_cons_of_mem _ hx)))

theorem dist_ne (u t : Point ℝ) (h : u.norm ≠ t.norm) : (t.sub u).norm ≠ 0 := by
  have h1 := dot_le u t
  rw [dist_dot]
  refine (Real.sqrt_pos.2 ?_).ne'
  have h4 := (abs_le.1 h1).2
  have := sq_pos_of_ne_zero (sub_ne_zero.2 h)
  nlinarith

/-- The value of a sum over the sources, one source at a time. -/
theorem field_error (om : ℝ) (srcs : List Src) (t : Point ℝ) (f : Src → ℂ) (b : Src → ℝ)
    (h : ∀ s ∈ srcs, (t.sub s.pos).norm ≠ 0 ∧ ‖f s - Complex.exp (Complex.I * (om * (t.sub s.pos).norm : ℝ)) /
      (Complex.I * (om * (t.sub s.pos).norm : ℝ))‖ ≤ b s) :
    ‖(srcs.map fun s => (s.charge : ℂ) * f s).sum - field om srcs t‖ ≤ (srcs.map fun s => |s.charge| * b s).sum := by
  rw [field]
  refine list_error _ _ _ _ fun s hs => ?_
  obtain ⟨h1, h2⟩ := h s hs
  rw [if_neg h1, mul_div_assoc, ← mul_sub, norm_mul, Complex.norm_real, Real.norm_eq_abs]
  exact mul_le_mul_of_nonneg_left h2 (abs_nonneg _)

theorem multipole_error (J Y : Table) (om : ℝ) (ho : 0 < om) (p : ℕ) (scale : ℝ) (hs : 0 < scale) (c : Point ℝ) (srcs : List Src)
    (hc : AllRegular c srcs) (t : Point ℝ) (ht : Regular (t.sub c)) (hfar : ∀ s ∈ srcs, (s.pos.sub c).norm < (t.sub c).norm)
    (α : Src → ℕ → ℝ) (β : ℕ → ℝ)
    (hJ : ∀ s ∈ srcs, NearJ p (om * (s.pos.sub c).norm) scale (α s) (jnScaled J p (om * (s.pos.sub c).norm) scale))
    (hH : NearH p (om * (t.sub c).norm) scale β (hn J Y p (om * (t.sub c).norm) scale))
    (M : Coef) (hM : sToM J om p c scale srcs = some M) :
    ∃ v, mToT J Y om p c scale M t = some v ∧ ‖v - field om srcs t‖ ≤ (srcs.map fun s => |s.charge| *
      (truncation p om (s.pos.sub c).norm (t.sub c).norm +
        functionError p om scale (s.pos.sub c).norm (t.sub c).norm (α s) β)).sum := by
  have ht' := clear_of_regular ht
  refine ⟨_, by rw [mToT, ephi_eq _ ht'.ne]; rfl, ?_⟩
  beta_reduce
  rw [evalM_sources J om p c scale (t.sub c) _ srcs M hM]
  refine field_error _ _ _ _ _ fun s hs' => ?_
  have hd : (t.sub s.pos) = (t.sub c).sub (s.pos.sub c) := (psub_center _ _ _).symm
  refine ⟨by rw [hd]; exact dist_ne _ _ (hfar s hs').ne, ?_⟩
  have key := helm_radial_error om ho p scale _ _ (dot (dir (s.pos.sub c)) (dir (t.sub c))) hs (norm_nonneg' _) (hfar s hs')
    (dot_dir_le _ _) (α s) β _ _ (hJ s hs') hH
  rw [← dist_clear _ _ (clear_of_regular (hc s hs')) ht', ← hd] at key
  exact key

theorem local_error (J Y : Table) (om : ℝ) (ho : 0 < om) (p : ℕ) (scale : ℝ) (hs : 0 < scale) (c : Point ℝ) (srcs : List Src)
    (hc : AllRegular c srcs) (t : Point ℝ) (ht : Regular (t.sub c)) (hfar : ∀ s ∈ srcs, (t.sub c).norm < (s.pos.sub c).norm)
    (α : ℕ → ℝ) (β : Src → ℕ → ℝ)
    (hJ : NearJ p (om * (t.sub c).norm) scale α (jnScaled J p (om * (t.sub c).norm) scale))
    (hH : ∀ s ∈ srcs, NearH p (om * (s.pos.sub c).norm) scale (β s) (hn J Y p (om * (s.pos.sub c).norm) scale)) :
    ∃ L v, sToL J Y om p c scale srcs = some L ∧ lToT J om p c scale L t = some v ∧
      ‖v - field om srcs t‖ ≤ (srcs.map fun s => |s.charge| *
        (truncation p om (t.sub c).norm (s.pos.sub c).norm +
          functionError p om scale (t.sub c).norm (s.pos.sub c).norm α (β s))).sum := by
  have ht' := clear_of_regular ht
  obtain ⟨L, hL, hv⟩ := evalL_sources J Y om p c scale (t.sub c) (jnScaled J p (om * (t.sub c).norm) scale) srcs hc
  refine ⟨L, _, hL, by rw [lToT, ephi_eq _ ht'.ne]; rfl, ?_⟩
  beta_reduce
  rw [hv]
  refine field_error _ _ _ _ _ fun s hs' => ?_
  have hd : (t.sub s.pos) = (t.sub c).sub (s.pos.sub c) := (psub_center _ _ _).symm
  refine ⟨by rw [hd]; exact dist_ne _ _ (hfar s hs').ne', ?_⟩
  have key := helm_radial_error om ho p scale _ _ (dot (dir (s.pos.sub c)) (dir (t.sub c))) hs (norm_nonneg' _) (hfar s hs')
    (dot_dir_le _ _) α (β s) _ _ hJ (hH s hs')
  have hR : (t.sub s.pos).norm = √((s.pos.sub c).norm ^ 2 - 2 * ((s.pos.sub c).norm * (t.sub c).norm *
      dot (dir (s.pos.sub c)) (dir (t.sub c))) + (t.sub c).norm ^ 2) := by
    rw [hd, dist_clear _ _ (clear_of_regular (hc s hs')) ht']; ring_nf
  rw [← hR] at key
  refine le_of_eq_of_le ?_ key
  congr 2
  exact sum_congr rfl fun n _ => by ring

end
end Dashmm.Helm
