import Verif.Proofs.HelmValue

/-!
# Local expansions of the Helmholtz kernel
-/

namespace Dashmm.Helm

open Finset Harm Lap Bessel Wave Yuk
open scoped Nat

noncomputable section

theorem norm_le_of_phase (z : ℂ) (b : ℝ) (h : ∀ u : ℂ, ‖u‖ = 1 → (u * z).re ≤ b) : ‖z‖ ≤ b := by
  rcases eq_or_ne z 0 with rfl | hz
  · have := h 1 (by simp)
    simpa using this
  · have hn : ‖z‖ ≠ 0 := norm_ne_zero_iff.2 hz
    have := h (starRingEnd ℂ z / ‖z‖) (by rw [norm_div, RCLike.norm_conj, Complex.norm_real, norm_norm, div_self hn])
    have e : starRingEnd ℂ z / (‖z‖ : ℂ) * z = ((‖z‖ : ℝ) : ℂ) := by
      have hc : (‖z‖ : ℂ) ≠ 0 := by exact_mod_cast hn
      rw [div_mul_eq_mul_div, mul_comm, Complex.mul_conj, Complex.normSq_eq_norm_sq, Complex.ofReal_pow, sq, mul_div_assoc, div_self hc, mul_one]
    rwa [e, Complex.ofReal_re] at this

/-- A local expansion times a phase. -/
def ph (u : ℂ) (L : LCoef) : LCoef := fun n m => u * L n m

theorem prt_sq (u : ℂ) (hu : ‖u‖ = 1) (L : LCoef) (n m : ℕ) : 2 * ‖prt (ph u L) n m‖ ^ 2 ≤ ‖L n m‖ ^ 2 + ‖L n (-(m : ℤ))‖ ^ 2 := by
  rw [prt, norm_div, ph, ph, Complex.norm_ofNat]
  have h := norm_add_le (u * L n m) (starRingEnd ℂ (u * L n (-(m : ℤ))))
  rw [RCLike.norm_conj, norm_mul, norm_mul, hu, one_mul, one_mul] at h
  have h0 := norm_nonneg (u * L n m + starRingEnd ℂ (u * L n (-(m : ℤ))))
  have h2 := pow_le_pow_left₀ h0 h 2
  rw [div_pow]
  nlinarith [sq_nonneg (‖L n m‖ - ‖L n (-(m : ℤ))‖)]

/-- The squares of the coefficients of one degree. -/
def lsq (L : LCoef) (n : ℕ) : ℝ := ∑ m ∈ Icc (-(n : ℤ)) n, ((n + m.natAbs)! : ℝ) / ((n - m.natAbs)! : ℝ) * ‖L n m‖ ^ 2

theorem lsq_split (L : LCoef) (n : ℕ) : lsq L n = ‖L n 0‖ ^ 2 + ∑ m ∈ Icc 1 n, ((n + m)! : ℝ) / ((n - m)! : ℝ) * (‖L n m‖ ^ 2 + ‖L n (-(m : ℤ))‖ ^ 2) := by
  rw [lsq, Yuk.sum_split']
  congr 1
  · simp only [Int.natAbs_zero, Nat.add_zero, Nat.sub_zero]
    rw [div_self (by positivity), one_mul]
  · refine sum_congr rfl fun m _ => ?_
    rw [Int.natAbs_neg, Int.natAbs_natCast, mul_add]

theorem degree_prt (u : ℂ) (hu : ‖u‖ = 1) (L : LCoef) (n : ℕ) : Yukawa.degreeSize (prt (ph u L)) n ≤ localDegreeSize L n := by
  rw [Yukawa.degreeSize, localDegreeSize]
  refine Real.sqrt_le_sqrt ?_
  show _ ≤ lsq L n
  rw [lsq_split, mul_sum]
  refine add_le_add ?_ (sum_le_sum fun m _ => ?_)
  · have := prt_sq u hu L n 0
    rw [Nat.cast_zero, neg_zero] at this
    linarith
  · have h := prt_sq u hu L n m
    have h0 : (0 : ℝ) ≤ ((n + m)! : ℝ) / ((n - m)! : ℝ) := by positivity
    calc _ = ((n + m)! : ℝ) / ((n - m)! : ℝ) * (2 * ‖prt (ph u L) n m‖ ^ 2) := by ring
      _ ≤ _ := mul_le_mul_of_nonneg_left h h0

theorem prt_one_i (L : LCoef) (n m : ℕ) :
    ‖L n m‖ ^ 2 + ‖L n (-(m : ℤ))‖ ^ 2 = 2 * ‖prt (ph 1 L) n m‖ ^ 2 + 2 * ‖prt (ph Complex.I L) n m‖ ^ 2 := by
  rw [← RCLike.norm_conj (L n (-(m : ℤ)))]
  rw [prt, prt, ph, ph, ph, ph, one_mul, one_mul, map_mul, Complex.conj_I]
  generalize L n m = a
  generalize starRingEnd ℂ (L n (-(m : ℤ))) = b
  have e : (Complex.I * a + -Complex.I * b) / 2 = Complex.I * ((a - b) / 2) := by ring
  rw [e, norm_mul, Complex.norm_I, one_mul, norm_div, norm_div, Complex.norm_ofNat, div_pow, div_pow]
  rw [← Complex.normSq_eq_norm_sq, ← Complex.normSq_eq_norm_sq, ← Complex.normSq_eq_norm_sq, ← Complex.normSq_eq_norm_sq, Complex.normSq_apply, Complex.normSq_apply,
    Complex.normSq_apply, Complex.normSq_apply, Complex.add_re, Complex.add_im, Complex.sub_re, Complex.sub_im]
  ring

theorem local_two (L : LCoef) (n : ℕ) (b : ℝ) (h1 : Yukawa.degreeSize (prt (ph 1 L)) n ≤ b) (h2 : Yukawa.degreeSize (prt (ph Complex.I L)) n ≤ b) :
    localDegreeSize L n ≤ √2 * b := by
  have hb : 0 ≤ b := (Real.sqrt_nonneg _).trans h1
  rw [localDegreeSize]
  show √(lsq L n) ≤ _
  have e : lsq L n = Yukawa.degreeSize (prt (ph 1 L)) n ^ 2 + Yukawa.degreeSize (prt (ph Complex.I L)) n ^ 2 := by
    rw [Yukawa.degreeSize, Yukawa.degreeSize, Real.sq_sqrt (by positivity), Real.sq_sqrt (by positivity), lsq_split]
    have h0 := prt_one_i L n 0
    rw [Nat.cast_zero, neg_zero] at h0
    have hm : ∑ m ∈ Icc 1 n, ((n + m)! : ℝ) / ((n - m)! : ℝ) * (‖L n m‖ ^ 2 + ‖L n (-(m : ℤ))‖ ^ 2) =
        2 * ∑ m ∈ Icc 1 n, ((n + m)! : ℝ) / ((n - m)! : ℝ) * ‖prt (ph 1 L) n m‖ ^ 2 +
        2 * ∑ m ∈ Icc 1 n, ((n + m)! : ℝ) / ((n - m)! : ℝ) * ‖prt (ph Complex.I L) n m‖ ^ 2 := by
      rw [mul_sum, mul_sum, ← sum_add_distrib]
      refine sum_congr rfl fun m _ => ?_
      rw [prt_one_i]; ring
    rw [hm]
    linarith
  rw [e, Real.sqrt_le_left (by positivity), mul_pow, Real.sq_sqrt (by norm_num)]
  have a1 := pow_le_pow_left₀ (show 0 ≤ Yukawa.degreeSize (prt (ph 1 L)) n from Real.sqrt_nonneg _) h1 2
  have a2 := pow_le_pow_left₀ (show 0 ≤ Yukawa.degreeSize (prt (ph Complex.I L)) n from Real.sqrt_nonneg _) h2 2
  linarith

/-! ### Values -/

/-- The value with the exact functions. -/
def exactL (om scale : ℝ) (p : ℕ) (L : LCoef) (v : Point ℝ) : ℂ :=
  evalL p L (azi v) (ctheta v) fun n => sphJ n (om * v.norm) / scale ^ n

theorem exactL_ph (om scale : ℝ) (p : ℕ) (u : ℂ) (L : LCoef) (v : Point ℝ) : exactL om scale p (ph u L) v = u * exactL om scale p L v :=
  evalL_smul u p L _ _ _

theorem exactL_re (om scale : ℝ) (ho : 0 < om) (p : ℕ) (L : LCoef) (v : Point ℝ) (hv : Clear v) :
    (exactL om scale p L v).re = (fieldL ((-om ^ 2 : ℝ) : ℂ) p (hat (al om scale) (prt L)) v).re := by
  have hv0 : 0 < v.norm := lt_of_le_of_ne (norm_nonneg' v) hv.ne.symm
  rw [exactL, evalL_re, evalAt_clear _ _ _ hv, fieldL]
  congr 1
  refine sum_congr rfl fun n _ => ?_
  have e1 : (((-om ^ 2 : ℝ) : ℂ) * ((v.norm ^ 2 : ℝ) : ℂ)) = ((-(om * v.norm) ^ 2 : ℝ) : ℂ) := by push_cast; ring
  rw [form_hat, ← mul_assoc, e1, efun_ofReal, ← Complex.ofReal_mul]
  congr 2
  have hd := (dfact_pos (2 * n + 1)).ne'
  rw [sphJ_eq, al, div_pow, mul_pow]
  field_simp

theorem evalL_near (om scale : ℝ) (p : ℕ) (L : LCoef) (v : Point ℝ) (hv : Clear v) (α : ℕ → ℝ) (B : ℕ → ℝ)
    (h : NearJ p (om * v.norm) scale α B) :
    ‖evalL p L (azi v) (ctheta v) B - exactL om scale p L v‖ ≤ ∑ n ∈ range (p + 1), α n * localDegreeSize L n := by
  refine norm_le_of_phase _ _ fun u hu => ?_
  rw [mul_sub, ← exactL_ph, ← evalL_smul, Complex.sub_re, exactL, evalL_re, evalL_re, evalAt_deg, evalAt_deg, ← sum_sub_distrib]
  refine sum_le_sum fun n hn => ?_
  rw [mem_range] at hn
  have h1 := h n (by omega)
  show B n * deg (prt (ph u L)) (azi v) (ctheta v) n - _ ≤ _
  rw [← sub_mul]
  calc _ ≤ |B n - sphJ n (om * v.norm) / scale ^ n| * |deg (prt (ph u L)) (azi v) (ctheta v) n| := by rw [← abs_mul]; exact le_abs_self _
    _ ≤ α n * localDegreeSize L n := mul_le_mul h1 ((deg_le _ v hv n).trans (degree_prt u hu L n)) (abs_nonneg _) ((abs_nonneg _).trans h1)

/-! ### The translation -/

/-- The translation as a whole. -/
def trL (p : ℕ) (coeff : ℕ → ℕ → ℕ → ℝ) (α x : ℝ) (L : LCoef) : LCoef :=
  rotateZL (rotateYL (shiftZL p coeff (rotateYL (rotateZL L α) (hdmatPlus x))) (hdmatMinus x)) (-α)

theorem trL_ph (p : ℕ) (coeff : ℕ → ℕ → ℕ → ℝ) (α x : ℝ) (u : ℂ) (L : LCoef) : trL p coeff α x (ph u L) = ph u (trL p coeff α x L) := by
  unfold trL ph
  rw [rotateZL_smul, rotateYL_smul, shiftZL_smul, rotateYL_smul, rotateZL_smul]

theorem prt_trL (p : ℕ) (coeff : ℕ → ℕ → ℕ → ℝ) (α x : ℝ) (L : LCoef) (n m : ℕ) (hm : m ≤ n) :
    prt (trL p coeff α x L) n m = tr p coeff α x (prt L) n m := by
  rw [trL, prt_rotateZ, tr]
  refine rotateZ_congr _ _ _ _ _ ?_
  rw [hdmatMinus, prt_rotateY _ _ _ _ (dmatMinus_is x) n m hm]
  have e2 := minus_eq x
  rw [hdmatMinus] at e2
  rw [e2]
  refine rotateY_congr _ _ _ _ (fun k hk => ?_) _
  rw [prt_shiftZ, shiftZ_eq, Yukawa.shiftZ, Yukawa.shiftZ]
  refine sum_congr rfl fun j hj => ?_
  rw [mem_Icc] at hj
  congr 1
  rw [hdmatPlus, prt_rotateY _ _ _ _ (dmatPlus_is x) j k hj.1]
  have e1 := plus_eq x
  rw [hdmatPlus] at e1
  rw [e1]
  exact rotateY_congr _ _ _ _ (fun i _ => prt_rotateZ _ _ _ _) _

theorem hat_prt (a : ℕ → ℝ) (p : ℕ) (coeff : ℕ → ℕ → ℕ → ℝ) (α x : ℝ) (L : LCoef) (n m : ℕ) (hm : m ≤ n) :
    hat a (prt (trL p coeff α x L)) n m = hat a (tr p coeff α x (prt L)) n m := by
  rw [hat, hat, conv, conv, prt_trL p coeff α x L n m hm]

theorem lToL_error_re (J : Table) (ε size om : ℝ) (hsz : 0 < size) (hl : 0 < om) (hs : 0 < scale0 size om) (p lev c : ℕ) (hc : c < 8) (L : LCoef) (μ d : ℝ)
    (hd : 0 < d) (hB : ∀ j ≤ p, Bd (hat (al om (scaleOf size om lev)) (prt L)) j (μ / d ^ j)) (ρ : ℝ) (hρ : ρ = √3 / 4 * (size / 2 ^ lev))
    (hJ : GoodTab J p ε (om * ρ)) (t t' : Point ℝ) (ht' : t' = padd t (psmul (size / 2 ^ lev / 2) (off c))) (h0 : Clear t) (h0' : Clear t')
    (h1 : t.norm + ρ < d) :
    (exactL om (scaleOf size om lev / 2) p (trL p (l2l J size om p lev) ((([5, 7, 3, 1, 5, 7, 3, 1].getD c 0 : ℕ) : ℝ) * (Real.pi / 4)) (-childCos c) L) t -
      exactL om (scaleOf size om lev) p L t').re ≤ μ * lToLBound p om ε ρ t.norm t'.norm d := by
  have hρ0 : 0 < ρ := by rw [hρ]; positivity
  set B := hat (al om (scaleOf size om lev)) (prt L) with hBdef
  have hBp : Proper B := hat_proper _ _ (prt_proper L)
  set α := (([5, 7, 3, 1, 5, 7, 3, 1].getD c 0 : ℕ) : ℝ) * (Real.pi / 4) with hα
  set x := -childCos c with hx
  set T := pre α x B with hT
  have hTp : Proper T := pre_proper _ _ _ hBp
  have hTb : ∀ j ≤ p, Bd T j (μ / d ^ j) := fun j hj => pre_bd _ _ _ hBp _ _ (hB j hj)
  have eρ : √3 / 4 * size / 2 ^ lev = ρ := by rw [hρ]; ring
  have hW := hat_lToL J size om hl hs p lev α x (prt L)
  rw [eρ, ← hBdef, ← hT] at hW
  set w := ((-om ^ 2 : ℝ) : ℂ) with hw
  have hwn : ‖w‖ = om ^ 2 := w_norm om
  have hXp := shL_proper (jtab J p (om * ρ)) (jtab_conj J p _) w (w_conj om) p ρ T hTp
  rw [Complex.sub_re, exactL_re om _ hl p _ t h0, exactL_re om _ hl p _ t' h0', ← Complex.sub_re]
  refine (Complex.re_le_norm _).trans ?_
  have ef : fieldL w p (hat (al om (scaleOf size om lev / 2)) (prt (trL p (l2l J size om p lev) α x L))) t =
      fieldL w p (hat (al om (scaleOf size om lev / 2)) (tr p (l2l J size om p lev) α x (prt L))) t := by
    rw [fieldL, fieldL]
    refine sum_congr rfl fun n _ => ?_
    congr 1
    exact form_congr _ _ _ _ fun m hm => hat_prt _ _ _ _ _ _ _ _ hm
  rw [ef, fieldL_post w p α x _ _ hXp hW, ← hBdef]
  set u := turn α x t with hu
  have hun : u.norm = t.norm := turn_norm _ _ _
  have eb : t' = back α x (addz ρ u) := by
    have := back_child_opp c hc (size / 2 ^ lev / 2) t
    rw [← ht', ← hα, ← hx, ← hu] at this
    rw [← this, hρ]; congr 2; ring
  have hun' : (addz ρ u).norm = t'.norm := by rw [eb, back_norm]
  have e4 : fieldL w p B t' = fieldL w p T (addz ρ u) := by
    rw [hT, fieldL_pre _ _ _ _ _ hBp, ← eb]
  set ef : ℕ → ℂ := fun n => efun n (w * (t.norm ^ 2 : ℝ)) with hef
  have p2 := fieldA_shL_le w (w_conj om) (fun i => jtab J p (om * ρ) i - fn w i ρ) (fun i => by rw [map_sub, jtab_conj, fnw_conj])
    ε hJ.nonneg p (fun i hi => jtab_error J p ε om ρ hl hρ0 hJ ρ rfl i hi) ρ T μ d hd hTb
    ef u (Real.exp ((om * t.norm) ^ 2 / 6)) t.norm (norm_nonneg' _) (by rwa [abs_of_pos hρ0]) (Real.exp_pos _).le
    (fun j _ => by
      rw [hun]
      refine mul_le_mul_of_nonneg_right ?_ (pow_nonneg (norm_nonneg' _) _)
      have := efun_le w j t.norm t.norm (norm_nonneg' _) le_rfl
      rwa [hwn, ← mul_pow] at this)
  have p3 := shiftL_error w (w_conj om) (fnw_conj om) p T μ d hd hTb ρ u (max t.norm t'.norm)
    (fun s hs' => by have := addz_between ρ s u hs'; rwa [hun, hun'] at this)
  rw [← fieldA_sub' (w := w)] at p2
  have e5 : ∀ X : Coef, fieldL w p X u = fieldA ef p X u := by intro X; rw [fieldL, hun]; rfl
  rw [e5, ← e4] at p3
  rw [hwn, abs_of_pos hρ0] at p2 p3
  rw [e5]
  set A2 := fieldA ef p (shL (jtab J p (om * ρ)) w p ρ T) u
  set A3 := fieldA ef p (shL (fun i => fn w i ρ) w p ρ T) u
  set A4 := fieldL w p B t'
  have e7 : A2 - A4 = (A3 - A4) + (A2 - A3) := by ring
  rw [e7]
  refine (norm_add_le _ _).trans ((add_le_add p3 p2).trans_eq ?_)
  rw [lToLBound, Yukawa.localShiftError]
  ring

theorem prt_size (p : ℕ) (om scale : ℝ) (hl : 0 < om) (hs : 0 < scale) (L : LCoef) (μ d : ℝ) (h : LocalSize p om scale L μ d) (u : ℂ) (hu : ‖u‖ = 1) (j : ℕ)
    (hj : j ≤ p) : Bd (hat (al om scale) (prt (ph u L))) j (μ / d ^ j) := by
  rw [Bd_iff, hat_degree _ _ _ (al_nonneg om scale hl hs j)]
  exact (mul_le_mul_of_nonneg_left (degree_prt u hu L j) (al_nonneg om scale hl hs j)).trans (h j hj)

theorem lToL_error (J : Table) (ε size om : ℝ) (hsz : 0 < size) (hl : 0 < om) (hs : 0 < scale0 size om) (p lev c : ℕ) (hc : c < 8) (L : LCoef) (μ d : ℝ)
    (hd : 0 < d) (hB : LocalSize p om (scaleOf size om lev) L μ d) (ρ : ℝ) (hρ : ρ = √3 / 4 * (size / 2 ^ lev))
    (hJ : GoodTab J p ε (om * ρ)) (t t' : Point ℝ) (ht' : t' = padd t (psmul (size / 2 ^ lev / 2) (off c))) (h0 : Clear t) (h0' : Clear t')
    (h1 : t.norm + ρ < d) :
    ‖exactL om (scaleOf size om lev / 2) p (trL p (l2l J size om p lev) ((([5, 7, 3, 1, 5, 7, 3, 1].getD c 0 : ℕ) : ℝ) * (Real.pi / 4)) (-childCos c) L) t -
      exactL om (scaleOf size om lev) p L t'‖ ≤ μ * lToLBound p om ε ρ t.norm t'.norm d := by
  refine norm_le_of_phase _ _ fun u hu => ?_
  rw [mul_sub, ← exactL_ph, ← exactL_ph, ← trL_ph]
  exact lToL_error_re J ε size om hsz hl hs p lev c hc _ μ d hd
    (fun j hj => prt_size p om _ hl (by rw [scaleOf]; positivity) L μ d hB u hu j hj) ρ hρ hJ t t' ht' h0 h0' h1

theorem lToL_bd (J : Table) (ε size om : ℝ) (hsz : 0 < size) (hl : 0 < om) (hs : 0 < scale0 size om) (p lev : ℕ) (α x : ℝ) (L : LCoef) (μ d : ℝ)
    (hB : LocalSize p om (scaleOf size om lev) L μ d) (ρ : ℝ) (hρ : ρ = √3 / 4 * (size / 2 ^ lev)) (hd : ρ < d) (hJ : GoodTab J p ε (om * ρ)) :
    LocalSize p om (scaleOf size om lev / 2) (trL p (l2l J size om p lev) α x L) (μ * lToLGrowth om ε ρ d) (d - ρ) := by
  have hρ0 : 0 < ρ := by rw [hρ]; positivity
  have hσ : 0 < scaleOf size om lev := by rw [scaleOf]; positivity
  intro n hn
  have key : ∀ u : ℂ, ‖u‖ = 1 → al om (scaleOf size om lev / 2) n * Yukawa.degreeSize (prt (ph u (trL p (l2l J size om p lev) α x L))) n ≤
      μ * ((Real.exp (om ^ 2 * ρ ^ 2 / 6) + ε) * Real.exp (om ^ 2 * ρ ^ 2 / 3) * Real.exp (om ^ 2 * ρ * d / 3) * (d / (d - ρ))) / (d - ρ) ^ n := by
    intro u hu
    rw [← hat_degree _ _ _ (al_nonneg om _ hl (by positivity) n), ← Bd_iff, ← trL_ph]
    have hB' := fun j hj => prt_size p om _ hl hσ L μ d hB u hu j hj
    set B := hat (al om (scaleOf size om lev)) (prt (ph u L)) with hBdef
    have hBp : Proper B := hat_proper _ _ (prt_proper _)
    set T := pre α x B with hT
    have hTp : Proper T := pre_proper _ _ _ hBp
    have hTb : ∀ j ≤ p, Bd T j (μ / d ^ j) := fun j hj => pre_bd _ _ _ hBp _ _ (hB' j hj)
    have eρ : √3 / 4 * size / 2 ^ lev = ρ := by rw [hρ]; ring
    have hW := hat_lToL J size om hl hs p lev α x (prt (ph u L))
    rw [eρ, ← hBdef, ← hT] at hW
    have hXp := shL_proper (jtab J p (om * ρ)) (jtab_conj J p _) _ (w_conj om) p ρ T hTp
    have hX := Bd_shL (jtab J p (om * ρ)) (jtab_conj J p _) _ (w_conj om) (Real.exp (om ^ 2 * ρ ^ 2 / 6) + ε)
      (by have := hJ.nonneg; positivity) p (fun i hi => jtab_le J p ε om ρ hl hρ0 hJ i hi)
      ρ T μ d (by rwa [abs_of_pos hρ0]) hTb n hn
    rw [w_norm, abs_of_pos hρ0] at hX
    exact (post_bd α x _ hXp n _ hX).congr fun m hm => by rw [hat_prt _ _ _ _ _ _ _ _ hm, hW n m]
  have ha := al_pos om (scaleOf size om lev / 2) hl (by positivity) n
  have h2 := local_two (trL p (l2l J size om p lev) α x L) n _ ((le_div_iff₀' ha).2 (key 1 (by simp))) ((le_div_iff₀' ha).2 (key Complex.I (by simp)))
  have h3 := mul_le_mul_of_nonneg_left h2 ha.le
  rw [al] at h3
  refine h3.trans_eq ?_
  rw [lToLGrowth, ← al]
  field_simp

end
end Dashmm.Helm
