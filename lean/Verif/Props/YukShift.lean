import Verif.Proofs.YukLocal
import Verif.Model.YukShift
import Verif.Props.Yukawa
import Mathlib.Analysis.SpecificLimits.Normed

/-!
# C98: the translations of the Yukawa kernel
-/

namespace Dashmm

open Finset Harm Lap Bessel Wave Yuk
open scoped Nat

theorem child_at (d : Domain ℝ) (h : 0 < d.size) (ix : Index) (c : ℕ) (hc : c < 8) :
    d.centerFromIndex (ix.child c) = padd (d.centerFromIndex ix) (psmul (d.size / 2 ^ (ix.level + 1)) (off c)) := by
  have e := child_center d h ix c hc
  rw [← e]
  have e2 : scaleOf d.size (ix.level + 1) = 2 ^ (ix.level + 1) / d.size := by rw [scaleOf]; ring
  simp only [padd, psmul, Point.sub, e2]
  have h0 := h.ne'
  congr 1 <;> field_simp <;> ring

theorem scaleOf_half (size lam : ℝ) (lev : ℕ) : Yukawa.scaleOf size lam (lev + 1) = Yukawa.scaleOf size lam lev / 2 := by
  rw [Yukawa.scaleOf, Yukawa.scaleOf, pow_succ, div_div]

theorem yuk_mToM_eq (F : Table) (size lam : ℝ) (hs : 0 < Yukawa.scale0 size lam) (p lev c : ℕ) (hlev : lev ≤ 21) (M : Coef) :
    Yukawa.mToM F size lam p c (Yukawa.scaleOf size lam lev) M =
      some (tr p (Yukawa.m2m F size lam p lev) (tabAlpha c * (Real.pi / 4)) (childCos c) M) := by
  rw [Yukawa.mToM, level_eq size lam hs]
  simp only
  rw [if_pos (by rw [Yukawa.maxlev]; exact hlev)]
  rfl

theorem yuk_lToL_eq (F : Table) (size lam : ℝ) (hs : 0 < Yukawa.scale0 size lam) (p lev c : ℕ) (hlev : lev ≤ 21) (M : Coef) :
    Yukawa.lToL F size lam p c (Yukawa.scaleOf size lam lev) M =
      some (tr p (Yukawa.l2l F size lam p lev) (tabAlpha c * (Real.pi / 4)) (childCos c) M) := by
  rw [Yukawa.lToL, level_eq size lam hs]
  simp only
  rw [if_pos (by rw [Yukawa.maxlev]; exact hlev)]
  rfl

/-- **C98** `M_to_M` makes of the multipole expansion of a child one about the centre of the parent, which has the same value
at every target that is farther than the old one reaches, up to the bound; and the bound on its size. -/
theorem C98_m_to_m (F : Table) (δ lam : ℝ) (hl : 0 < lam) (hδ0 : 10⁻¹ ^ 17 ≤ δ) (hδ : δ ≤ 1 / 2) (hF : AccurateI F δ)
    (d : Domain ℝ) (h : 0 < d.size) (p : ℕ) (ix : Index) (hlev : ix.level + 1 ≤ 21) (c : Fin 8) (M : Coef) (hM : RealZonal M)
    (μ R : ℝ) (hR : 0 ≤ R) (hsize : Yukawa.MultipoleSize p lam (Yukawa.scaleOf d.size lam (ix.level + 1)) M μ R) :
    ∃ N, Yukawa.mToM F d.size lam p c (Yukawa.scaleOf d.size lam (ix.level + 1)) M = some N ∧ RealZonal N ∧
      Yukawa.MultipoleSize p lam (Yukawa.scaleOf d.size lam ix.level) N
        (μ * Yukawa.mToMGrowth p lam δ (Yukawa.childShift d.size (ix.level + 1)) R) (R + Yukawa.childShift d.size (ix.level + 1)) ∧
      ∀ t : Point ℝ, Regular (t.sub (d.centerFromIndex (ix.child c))) → Regular (t.sub (d.centerFromIndex ix)) →
        R + Yukawa.childShift d.size (ix.level + 1) < (t.sub (d.centerFromIndex ix)).norm → ∀ x y,
        Yukawa.mToT lam p (d.centerFromIndex (ix.child c)) (Yukawa.scaleOf d.size lam (ix.level + 1)) M t = some x →
        Yukawa.mToT lam p (d.centerFromIndex ix) (Yukawa.scaleOf d.size lam ix.level) N t = some y →
        |y - x| ≤ μ * Yukawa.mToMBound p lam δ (Yukawa.childShift d.size (ix.level + 1)) R (t.sub (d.centerFromIndex ix)).norm := by
  have hs0 := scale0_pos d.size lam h hl
  have hs1 := scaleOf_pos d.size lam hs0 (ix.level + 1)
  have hs2 := scaleOf_pos d.size lam hs0 ix.level
  have e2 : 2 * Yukawa.scaleOf d.size lam (ix.level + 1) = Yukawa.scaleOf d.size lam ix.level := by rw [scaleOf_half]; ring
  have hB := (multipoleSize_iff p lam _ hl hs1 M μ R).1 hsize
  refine ⟨_, yuk_mToM_eq F d.size lam hs0 p (ix.level + 1) c hlev M, mToM_proper F d.size lam hl hs0 p _ _ _ M hM, ?_, ?_⟩
  · rw [multipoleSize_iff p lam _ hl hs2, ← e2]
    intro n hn
    exact mToM_bd F δ hδ0 hδ hF d.size lam h hl hs0 p (ix.level + 1) _ _ M hM μ R hR hB _ rfl n hn
  · intro t hc hp ht x y hx hy
    have key := mToM_error F δ hδ0 hδ hF d.size lam h hl hs0 p (ix.level + 1) c c.2 M hM μ R hR hB _ rfl
      (t.sub (d.centerFromIndex ix)) ht
    rw [Yukawa.mToT] at hx hy
    rw [mToT_value lam hl p _ (clear_of_regular hc) _ hs1 M x hx, mToT_value lam hl p _ (clear_of_regular hp) _ hs2 _ y hy, ← mul_sub, ← Complex.sub_re,
      abs_mul, abs_of_pos (by have := Real.pi_pos; positivity)]
    have e3 : padd (t.sub (d.centerFromIndex ix)) (psmul (-(d.size / 2 ^ (ix.level + 1))) (off c)) = t.sub (d.centerFromIndex (ix.child c)) := by
      rw [child_at d h ix c c.2]
      simp only [padd, psmul, Point.sub]
      congr 1 <;> ring
    rw [e3, e2] at key
    refine (mul_le_mul_of_nonneg_left ((Complex.abs_re_le_norm _).trans key) (by have := Real.pi_pos; positivity)).trans_eq ?_
    rw [Yukawa.mToMBound, Yukawa.shiftError, tabErr_eq, Yukawa.childShift]; ring

/-- **C98** `L_to_L` makes of the local expansion of the parent one about the centre of the child, which has the same value at
every target, up to the bound. -/
theorem C98_l_to_l (F : Table) (δ lam : ℝ) (hl : 0 < lam) (hδ0 : 10⁻¹ ^ 17 ≤ δ) (hδ : δ ≤ 1 / 2) (hF : AccurateI F δ)
    (d : Domain ℝ) (h : 0 < d.size) (p : ℕ) (ix : Index) (hlev : ix.level ≤ 21) (c : Fin 8) (L : Coef) (hL : RealZonal L)
    (μ dist : ℝ) (hd : 0 < dist) (hsize : Yukawa.LocalSize p lam (Yukawa.scaleOf d.size lam ix.level) L μ dist) :
    ∃ N, Yukawa.lToL F d.size lam p c (Yukawa.scaleOf d.size lam ix.level) L = some N ∧ RealZonal N ∧
      ∀ t : Point ℝ, Regular (t.sub (d.centerFromIndex (ix.child c))) → Regular (t.sub (d.centerFromIndex ix)) →
        max (Yukawa.scaleOf d.size lam (ix.level + 1) / lam) (t.sub (d.centerFromIndex (ix.child c))).norm + Yukawa.childShift d.size (ix.level + 1) < dist →
        max (Yukawa.scaleOf d.size lam ix.level / lam) (t.sub (d.centerFromIndex ix)).norm < dist →
        ∃ x y, Yukawa.lToT F lam p (d.centerFromIndex ix) (Yukawa.scaleOf d.size lam ix.level) L t = some x ∧
          Yukawa.lToT F lam p (d.centerFromIndex (ix.child c)) (Yukawa.scaleOf d.size lam (ix.level + 1)) N t = some y ∧
          |y - x| ≤ μ * Yukawa.lToLBound p lam (Yukawa.scaleOf d.size lam ix.level) δ (Yukawa.childShift d.size (ix.level + 1))
            (t.sub (d.centerFromIndex (ix.child c))).norm (t.sub (d.centerFromIndex ix)).norm dist := by
  have hs0 := scale0_pos d.size lam h hl
  have hs1 := scaleOf_pos d.size lam hs0 (ix.level + 1)
  have hs2 := scaleOf_pos d.size lam hs0 ix.level
  have hB := (localSize_iff p lam _ hl hs2 L μ dist).1 hsize
  refine ⟨_, yuk_lToL_eq F d.size lam hs0 p ix.level c hlev L, lToL_proper F d.size lam hl hs0 p _ _ _ L hL, ?_⟩
  intro t hc hp h1 h2
  have hc' := clear_of_regular hc
  have hp' := clear_of_regular hp
  refine ⟨_, _, lToT_value F lam hl p _ hp' _ hs2 L, lToT_value F lam hl p _ hc' _ hs1 _, ?_⟩
  have e3 : t.sub (d.centerFromIndex ix) = padd (t.sub (d.centerFromIndex (ix.child c))) (psmul (d.size / 2 ^ ix.level / 2) (off c)) := by
    rw [child_at d h ix c c.2, pow_succ]
    simp only [padd, psmul, Point.sub]
    congr 1 <;> ring
  have eρ : Yukawa.childShift d.size (ix.level + 1) = √3 / 4 * (d.size / 2 ^ ix.level) := by rw [Yukawa.childShift, pow_succ]; ring
  rw [← Complex.sub_re]
  refine (Complex.abs_re_le_norm _).trans ?_
  rw [scaleOf_half] at h1 ⊢
  exact lToL_error F δ hδ0 hδ hF d.size lam h hl hs0 p ix.level c c.2 L hL μ dist hd hB _ eρ _ _ e3
    (lt_of_le_of_ne (norm_nonneg' _) hc'.ne.symm) (lt_of_le_of_ne (norm_nonneg' _) hp'.ne.symm) h1 h2

/-- **C98** The expansions of charges meet the hypotheses. -/
theorem C98_sources (F : Table) (δ lam : ℝ) (hl : 0 < lam) (hδ0 : 10⁻¹ ^ 17 ≤ δ) (hδ : δ ≤ 1 / 2) (hF : AccurateI F δ)
    (p : ℕ) (scale : ℝ) (hs : 0 < scale) (c : Point ℝ) (srcs : List Src) (M L : Coef) :
    (Yukawa.sToM F lam p c scale srcs = some M → RealZonal M ∧ ∀ R, 0 < R → (∀ s ∈ srcs, (s.pos.sub c).norm ≤ R) →
      Yukawa.MultipoleSize p lam scale M (Yukawa.totalCharge srcs * Yukawa.chargeSize p lam scale δ R) R) ∧
    (Yukawa.sToL lam p c scale srcs = some L → RealZonal L ∧ ∀ dist, 0 < dist → (∀ s ∈ srcs, dist ≤ (s.pos.sub c).norm) →
      Yukawa.LocalSize p lam scale L (Real.pi / (2 * lam) * Yukawa.totalCharge srcs / dist) dist) :=
  ⟨fun hM => ⟨sToM_proper F lam p scale c srcs M hM, fun R hR hc => sToM_size F δ hδ0 hδ hF lam hl p scale hs c R hR srcs hc M hM⟩,
    fun hL => ⟨sToL_proper lam p scale c srcs L hL, fun D hD hc => sToL_size lam hl p scale hs c D hD srcs hc L hL⟩⟩

/-- **C98** The distance in the bounds is that of the two centres. -/
theorem C98_shift_distance (d : Domain ℝ) (h : 0 < d.size) (ix : Index) (c : Fin 8) :
    Yukawa.childShift d.size (ix.level + 1) = ((d.centerFromIndex (ix.child c)).sub (d.centerFromIndex ix)).norm := by
  rw [child_at d h ix c c.2]
  symm
  refine norm_eq_of_sq _ _ (by unfold Yukawa.childShift; positivity) ?_
  have h3 : √3 ^ 2 = (3 : ℝ) := Real.sq_sqrt (by norm_num)
  rw [Yukawa.childShift, mul_pow, div_pow, h3]
  generalize d.size / 2 ^ (ix.level + 1) = z
  simp only [padd, psmul, Point.sub, off]
  split_ifs <;> ring

/-- **C98** Charges in a child box, through `S_to_M`, `M_to_M` and `M_to_T` of the parent. -/
theorem C98_multipole_error (F : Table) (δ lam : ℝ) (hl : 0 < lam) (hδ0 : 10⁻¹ ^ 17 ≤ δ) (hδ : δ ≤ 1 / 2) (hF : AccurateI F δ)
    (d : Domain ℝ) (h : 0 < d.size) (p : ℕ) (ix : Index) (hlev : ix.level + 1 ≤ 21) (c : Fin 8) (srcs : List Src)
    (hr : AllRegular (d.centerFromIndex (ix.child c)) srcs) (R : ℝ) (hR : 0 < R)
    (hsrc : ∀ s ∈ srcs, (s.pos.sub (d.centerFromIndex (ix.child c))).norm ≤ R) (t : Point ℝ)
    (htc : Regular (t.sub (d.centerFromIndex (ix.child c)))) (htp : Regular (t.sub (d.centerFromIndex ix)))
    (hfar : ∀ s ∈ srcs, (s.pos.sub (d.centerFromIndex (ix.child c))).norm < (t.sub (d.centerFromIndex (ix.child c))).norm)
    (ht : R + Yukawa.childShift d.size (ix.level + 1) < (t.sub (d.centerFromIndex ix)).norm) :
    ∃ M N, Yukawa.sToM F lam p (d.centerFromIndex (ix.child c)) (Yukawa.scaleOf d.size lam (ix.level + 1)) srcs = some M ∧
      Yukawa.mToM F d.size lam p c (Yukawa.scaleOf d.size lam (ix.level + 1)) M = some N ∧
      ((∃ x, Yukawa.mToT lam p (d.centerFromIndex (ix.child c)) (Yukawa.scaleOf d.size lam (ix.level + 1)) M t = some x) →
        ∀ y, Yukawa.mToT lam p (d.centerFromIndex ix) (Yukawa.scaleOf d.size lam ix.level) N t = some y →
        |y - Yukawa.potential lam srcs t| ≤
          Yukawa.multipoleBound p lam (Yukawa.scaleOf d.size lam (ix.level + 1)) δ (d.centerFromIndex (ix.child c)) srcs t +
          Yukawa.totalCharge srcs * Yukawa.chargeSize p lam (Yukawa.scaleOf d.size lam (ix.level + 1)) δ R *
            Yukawa.mToMBound p lam δ (Yukawa.childShift d.size (ix.level + 1)) R (t.sub (d.centerFromIndex ix)).norm) := by
  have hs0 := scale0_pos d.size lam h hl
  have hs1 := scaleOf_pos d.size lam hs0 (ix.level + 1)
  obtain ⟨M, hM, hv⟩ := C86_multipole_error F δ lam hl hδ0 hδ hF p _ hs1 _ srcs hr t htc hfar
  obtain ⟨hz, hsz⟩ := (C98_sources F δ lam hl hδ0 hδ hF p _ hs1 (d.centerFromIndex (ix.child c)) srcs M M).1 hM
  obtain ⟨N, hN, -, -, hval⟩ := C98_m_to_m F δ lam hl hδ0 hδ hF d h p ix hlev c M hz _ R hR.le (hsz R hR hsrc)
  refine ⟨M, N, hM, hN, fun ⟨x, hx⟩ y hy => ?_⟩
  have h1 := hval t htc htp ht x y hx hy
  have h2 := hv x hx
  have : y - Yukawa.potential lam srcs t = (x - Yukawa.potential lam srcs t) + (y - x) := by ring
  rw [this]
  exact (abs_add_le _ _).trans (add_le_add h2 h1)

/-- **C98** Far charges, through `S_to_L` of the parent, `L_to_L` and `L_to_T` of the child. -/
theorem C98_local_error (F : Table) (δ lam : ℝ) (hl : 0 < lam) (hδ0 : 10⁻¹ ^ 17 ≤ δ) (hδ : δ ≤ 1 / 2) (hF : AccurateI F δ)
    (d : Domain ℝ) (h : 0 < d.size) (p : ℕ) (ix : Index) (hlev : ix.level ≤ 21) (c : Fin 8) (srcs : List Src)
    (hr : AllRegular (d.centerFromIndex ix) srcs) (dist : ℝ) (hd : 0 < dist)
    (hsrc : ∀ s ∈ srcs, dist ≤ (s.pos.sub (d.centerFromIndex ix)).norm) (t : Point ℝ)
    (htc : Regular (t.sub (d.centerFromIndex (ix.child c)))) (htp : Regular (t.sub (d.centerFromIndex ix)))
    (h1 : max (Yukawa.scaleOf d.size lam (ix.level + 1) / lam) (t.sub (d.centerFromIndex (ix.child c))).norm + Yukawa.childShift d.size (ix.level + 1) < dist)
    (h2 : max (Yukawa.scaleOf d.size lam ix.level / lam) (t.sub (d.centerFromIndex ix)).norm < dist)
    (L : Coef) (hL : Yukawa.sToL lam p (d.centerFromIndex ix) (Yukawa.scaleOf d.size lam ix.level) srcs = some L) :
    ∃ N y, Yukawa.lToL F d.size lam p c (Yukawa.scaleOf d.size lam ix.level) L = some N ∧
      Yukawa.lToT F lam p (d.centerFromIndex (ix.child c)) (Yukawa.scaleOf d.size lam (ix.level + 1)) N t = some y ∧
      |y - Yukawa.potential lam srcs t| ≤
        Yukawa.localBound p lam (Yukawa.scaleOf d.size lam ix.level) δ (d.centerFromIndex ix) srcs t +
        Real.pi / (2 * lam) * Yukawa.totalCharge srcs / dist *
          Yukawa.lToLBound p lam (Yukawa.scaleOf d.size lam ix.level) δ (Yukawa.childShift d.size (ix.level + 1))
            (t.sub (d.centerFromIndex (ix.child c))).norm (t.sub (d.centerFromIndex ix)).norm dist := by
  have hs0 := scale0_pos d.size lam h hl
  have hs2 := scaleOf_pos d.size lam hs0 ix.level
  obtain ⟨hz, hsz⟩ := (C98_sources F δ lam hl hδ0 hδ hF p _ hs2 (d.centerFromIndex ix) srcs L L).2 hL
  obtain ⟨N, hN, -, hval⟩ := C98_l_to_l F δ lam hl hδ0 hδ hF d h p ix hlev c L hz _ dist hd (hsz dist hd hsrc)
  obtain ⟨x, y, hx, hy, hxy⟩ := hval t htc htp h1 h2
  obtain ⟨x', hx', herr⟩ := C86_local_error F δ lam hl hδ0 hδ hF p _ hs2 _ srcs hr t htp
    (fun s hs => lt_of_lt_of_le (lt_of_le_of_lt (le_max_right _ _) h2) (hsrc s hs)) L hL
  obtain rfl : x' = x := by rw [hx] at hx'; exact (Option.some.inj hx').symm
  refine ⟨N, y, hN, hy, ?_⟩
  have : y - Yukawa.potential lam srcs t = (x' - Yukawa.potential lam srcs t) + (y - x') := by ring
  rw [this]
  exact (abs_add_le _ _).trans (add_le_add herr hxy)

theorem poly_geom (q : ℝ) (h0 : 0 ≤ q) (h1 : q < 1) : Filter.Tendsto (fun p : ℕ => ((p : ℝ) + 1) * q ^ p) Filter.atTop (nhds 0) := by
  have a := tendsto_self_mul_const_pow_of_lt_one h0 h1
  have b := tendsto_pow_atTop_nhds_zero_of_lt_one h0 h1
  have := a.add b
  rw [add_zero] at this
  exact this.congr fun p => by ring

/-- **C98** What the truncation contributes vanishes as the order grows. -/
theorem C98_truncation_vanishes (lam ρ R r dist : ℝ) (hρ : 0 ≤ ρ) (hR : 0 ≤ R) (hr : R + ρ < r) (hd : R < dist) :
    Filter.Tendsto (fun p => Yukawa.shiftError p lam ρ R r) Filter.atTop (nhds 0) ∧
    Filter.Tendsto (fun p => Yukawa.localShiftError p lam ρ R dist) Filter.atTop (nhds 0) := by
  have hr0 : 0 < r := by linarith
  have hd0 : 0 < dist := by linarith
  have q1 : (R + ρ) / r < 1 := (div_lt_one hr0).2 hr
  have q0 : 0 ≤ (R + ρ) / r := by positivity
  have q1' : R / dist < 1 := (div_lt_one hd0).2 hd
  have q0' : 0 ≤ R / dist := by positivity
  refine ⟨?_, ?_⟩
  · have a := (tendsto_pow_atTop_nhds_zero_of_lt_one q0 q1).const_mul (lam ^ 2 / 3 * ((R + ρ) / r))
    have b := (poly_geom _ q0 q1).const_mul (1 / (r - ρ) ^ 2)
    have := (a.add b).const_mul (ρ * Real.exp (lam ^ 2 * ρ ^ 2 / 2))
    simp only [mul_zero, add_zero] at this
    refine this.congr fun p => ?_
    rw [Yukawa.shiftError, pow_succ]; ring
  · have a := (tendsto_pow_atTop_nhds_zero_of_lt_one q0' q1').const_mul (lam ^ 2 * R / 3)
    have b := (poly_geom _ q0' q1').const_mul (1 / dist)
    have := (a.add b).const_mul (ρ * Real.exp (lam ^ 2 * (ρ ^ 2 / 2 + R ^ 2 / 6 + ρ * dist / 3)))
    simp only [mul_zero, add_zero] at this
    refine this.congr fun p => ?_
    rw [Yukawa.localShiftError]; ring

/-- **C98** Below the last level of the tables the translations read past their end. -/
theorem C98_too_deep (F : Table) (size lam : ℝ) (hsz : 0 < size) (hl : 0 < lam) (p c lev : ℕ) (h : 21 < lev) (M : Coef) :
    Yukawa.mToM F size lam p c (Yukawa.scaleOf size lam lev) M = none ∧ Yukawa.lToL F size lam p c (Yukawa.scaleOf size lam lev) M = none := by
  have hs0 := scale0_pos size lam hsz hl
  constructor
  · rw [Yukawa.mToM, level_eq size lam hs0]
    exact if_neg (by rw [Yukawa.maxlev]; omega)
  · rw [Yukawa.lToL, level_eq size lam hs0]
    exact if_neg (by rw [Yukawa.maxlev]; omega)

/-! ### Cases that meet the hypotheses -/

/-- A table without errors. -/
noncomputable def exactI : Table := fun _ x n => sphI n x / √(Real.pi / 2 / x)

theorem exactI_accurate : AccurateI exactI (10⁻¹ ^ 17) := by
  intro nb x hx hx2 n _
  have hx0 : 0 < x := lt_trans (by positivity) hx
  have : 0 < √(Real.pi / 2 / x) := Real.sqrt_pos.2 (by have := Real.pi_pos; positivity)
  have e : sphI n x / √(Real.pi / 2 / x) * √(Real.pi / 2 / x) - sphI n x = 0 := by field_simp; ring
  show |sphI n x / √(Real.pi / 2 / x) * √(Real.pi / 2 / x) - sphI n x| ≤ _
  rw [e, abs_zero]
  have := sphI_nonneg n x hx0.le
  positivity

/-- The box of level 1 at the origin, of which `lapA` is a child. -/
def lapP : Index := ⟨0, 0, 0, 1⟩

theorem lapP_child : lapP.child ((0 : Fin 8) : ℕ) = lapA := by decide

theorem lapP_center : lapDom.centerFromIndex lapP = ⟨1 / 4, 1 / 4, 1 / 4⟩ := by
  simp only [Domain.centerFromIndex, Domain.sizeFromLevel, lapDom, lapP, Point.mk.injEq]; norm_num

theorem lap_shift_le : Yukawa.childShift lapDom.size (lapP.level + 1) ≤ 11 / 50 := by
  have h3 : √3 ≤ 7 / 4 := Real.sqrt_le_iff.2 ⟨by norm_num, by norm_num⟩
  simp only [Yukawa.childShift, lapDom, lapP]
  norm_num
  linarith

/-- Two charges in `lapA`, a target in another box, `λ = 1`, 3 digits: all the operators return, and the error is bounded. -/
example : let t : Point ℝ := ⟨4 / 5, 1 / 10, 1 / 10⟩
    ∃ M N y, Yukawa.sToM exactI 1 9 (lapDom.centerFromIndex lapA) (Yukawa.scaleOf 1 1 2) lapSrcs = some M ∧
      Yukawa.mToM exactI 1 1 9 0 (Yukawa.scaleOf 1 1 2) M = some N ∧
      Yukawa.mToT 1 9 (lapDom.centerFromIndex lapP) (Yukawa.scaleOf 1 1 1) N t = some y ∧
      |y - Yukawa.potential 1 lapSrcs t| ≤
        Yukawa.multipoleBound 9 1 (Yukawa.scaleOf 1 1 2) (10⁻¹ ^ 17) (lapDom.centerFromIndex lapA) lapSrcs t +
        Yukawa.totalCharge lapSrcs * Yukawa.chargeSize 9 1 (Yukawa.scaleOf 1 1 2) (10⁻¹ ^ 17) (1 / 4) *
          Yukawa.mToMBound 9 1 (10⁻¹ ^ 17) (Yukawa.childShift 1 2) (1 / 4) (t.sub (lapDom.centerFromIndex lapP)).norm := by
  intro t
  have hsrc : ∀ s ∈ lapSrcs, (s.pos.sub (lapDom.centerFromIndex lapA)).norm ≤ 1 / 4 := by
    intro s hs
    rw [lapA_center]
    simp only [lapSrcs, List.mem_cons, List.not_mem_nil, or_false] at hs
    rcases hs with rfl | rfl <;> exact norm_le_of (by norm_num) (by simp only [Point.sub]; norm_num)
  have hA : (1 / 2 : ℝ) ≤ (t.sub (lapDom.centerFromIndex lapA)).norm := by
    rw [lapA_center]; exact Real.le_sqrt_of_sq_le (by simp only [t, Point.sub]; norm_num)
  have hA2 : (t.sub (lapDom.centerFromIndex lapA)).norm ≤ 1 := by
    rw [lapA_center]; exact norm_le_of (by norm_num) (by simp only [t, Point.sub]; norm_num)
  have hP : (1 / 2 : ℝ) ≤ (t.sub (lapDom.centerFromIndex lapP)).norm := by
    rw [lapP_center]; exact Real.le_sqrt_of_sq_le (by simp only [t, Point.sub]; norm_num)
  have hP2 : (t.sub (lapDom.centerFromIndex lapP)).norm ≤ 1 := by
    rw [lapP_center]; exact norm_le_of (by norm_num) (by simp only [t, Point.sub]; norm_num)
  obtain ⟨M, N, hM, hN, hv⟩ := C98_multipole_error exactI (10⁻¹ ^ 17) 1 one_pos le_rfl (by norm_num) exactI_accurate lapDom
    (by norm_num [lapDom]) 9 lapP (by decide) 0 lapSrcs (by rw [lapP_child]; exact lapSrcs_regular) (1 / 4) (by norm_num)
    (by rw [lapP_child]; exact hsrc) t
    (by rw [lapP_child, lapA_center]; refine regular_of ?_ ?_ <;> simp only [t, Point.sub] <;> norm_num)
    (by rw [lapP_center]; refine regular_of ?_ ?_ <;> simp only [t, Point.sub] <;> norm_num)
    (by rw [lapP_child]; intro s hs; have := hsrc s hs; linarith)
    (by have := lap_shift_le; linarith)
  rw [lapP_child] at hM hv
  have h200 : (10⁻¹ : ℝ) ^ 200 ≤ 10⁻¹ ^ 1 := pow_le_pow_of_le_one (by norm_num) (by norm_num) (by norm_num)
  obtain ⟨x, hx⟩ := C86_multipole_returns 9 (by norm_num) 1 1 one_pos one_pos 2 (lapDom.centerFromIndex lapA) t (by norm_num; linarith)
    (h200.trans (by norm_num; linarith)) (by norm_num; linarith) M
  obtain ⟨y, hy⟩ := C86_multipole_returns 9 (by norm_num) 1 1 one_pos one_pos 1 (lapDom.centerFromIndex lapP) t (by norm_num; linarith)
    (h200.trans (by norm_num; linarith)) (by norm_num; linarith) N
  exact ⟨M, N, y, hM, hN, hy, hv ⟨x, hx⟩ y hy⟩

/-- A charge far from `lapP`, a target in its child `lapA`. -/
example : let s : List Src := [⟨⟨9 / 10, 9 / 10, 1 / 5⟩, 3⟩]
    let t : Point ℝ := ⟨1 / 5, 1 / 10, 1 / 10⟩
    ∃ L N y, Yukawa.sToL 1 9 (lapDom.centerFromIndex lapP) (Yukawa.scaleOf 1 1 1) s = some L ∧
      Yukawa.lToL exactI 1 1 9 0 (Yukawa.scaleOf 1 1 1) L = some N ∧
      Yukawa.lToT exactI 1 9 (lapDom.centerFromIndex lapA) (Yukawa.scaleOf 1 1 2) N t = some y ∧
      |y - Yukawa.potential 1 s t| ≤
        Yukawa.localBound 9 1 (Yukawa.scaleOf 1 1 1) (10⁻¹ ^ 17) (lapDom.centerFromIndex lapP) s t +
        Real.pi / (2 * 1) * Yukawa.totalCharge s / (4 / 5) * Yukawa.lToLBound 9 1 (Yukawa.scaleOf 1 1 1) (10⁻¹ ^ 17) (Yukawa.childShift 1 2)
          (t.sub (lapDom.centerFromIndex lapA)).norm (t.sub (lapDom.centerFromIndex lapP)).norm (4 / 5) := by
  intro s t
  have hs0 : ∀ lev, Yukawa.scaleOf 1 1 lev = 1 / 2 ^ lev := by
    intro lev; rw [Yukawa.scaleOf, Yukawa.scale0]; norm_num
  have hd : ∀ x ∈ s, (4 / 5 : ℝ) ≤ (x.pos.sub (lapDom.centerFromIndex lapP)).norm ∧ (x.pos.sub (lapDom.centerFromIndex lapP)).norm ≤ 1 := by
    intro x hx
    obtain rfl := List.mem_singleton.1 hx
    rw [lapP_center]
    exact ⟨Real.le_sqrt_of_sq_le (by simp only [Point.sub]; norm_num), norm_le_of (by norm_num) (by simp only [Point.sub]; norm_num)⟩
  have hA : (t.sub (lapDom.centerFromIndex lapA)).norm ≤ 1 / 4 := by
    rw [lapA_center]; exact norm_le_of (by norm_num) (by simp only [t, Point.sub]; norm_num)
  have hP : (t.sub (lapDom.centerFromIndex lapP)).norm ≤ 1 / 4 := by
    rw [lapP_center]; exact norm_le_of (by norm_num) (by simp only [t, Point.sub]; norm_num)
  have h200 : (10⁻¹ : ℝ) ^ 200 ≤ 10⁻¹ ^ 1 := pow_le_pow_of_le_one (by norm_num) (by norm_num) (by norm_num)
  obtain ⟨L, hL⟩ := C86_local_returns 9 (by norm_num) (by norm_num) 1 1 one_pos one_pos 1 (lapDom.centerFromIndex lapP) s
    (fun x hx => by
      obtain ⟨h1, h2⟩ := hd x hx
      exact ⟨by norm_num; linarith, h200.trans (by norm_num; linarith), by norm_num; linarith⟩)
  have hsh := lap_shift_le
  obtain ⟨N, y, hN, hy, hv⟩ := C98_local_error exactI (10⁻¹ ^ 17) 1 one_pos le_rfl (by norm_num) exactI_accurate lapDom
    (by norm_num [lapDom]) 9 lapP (by decide) 0 s
    (by rw [lapP_center]; intro x hx; obtain rfl := List.mem_singleton.1 hx; refine regular_of ?_ ?_ <;> simp only [Point.sub] <;> norm_num)
    (4 / 5) (by norm_num) (fun x hx => (hd x hx).1) t
    (by rw [lapP_child, lapA_center]; refine regular_of ?_ ?_ <;> simp only [t, Point.sub] <;> norm_num)
    (by rw [lapP_center]; refine regular_of ?_ ?_ <;> simp only [t, Point.sub] <;> norm_num)
    (by
      rw [lapP_child]
      have : max (Yukawa.scaleOf lapDom.size 1 (lapP.level + 1) / 1) (t.sub (lapDom.centerFromIndex lapA)).norm ≤ 1 / 4 :=
        max_le (by show Yukawa.scaleOf 1 1 2 / 1 ≤ _; rw [hs0]; norm_num) hA
      linarith)
    (by
      have : max (Yukawa.scaleOf lapDom.size 1 lapP.level / 1) (t.sub (lapDom.centerFromIndex lapP)).norm ≤ 1 / 2 :=
        max_le (by show Yukawa.scaleOf 1 1 1 / 1 ≤ _; rw [hs0]; norm_num) (by linarith)
      linarith)
    L hL
  rw [lapP_child] at hy hv
  exact ⟨L, N, y, hL, hN, hy, hv⟩

end Dashmm
