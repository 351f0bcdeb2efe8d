import Verif.Proofs.HelmSize
import Verif.Model.HelmShift
import Verif.Props.Helmholtz
import Verif.Props.YukShift
import Verif.Props.Methods

/-!
# C103: the translations of the Helmholtz kernel
-/

namespace Dashmm

open Finset Harm Lap Bessel Wave Yuk
open scoped Nat

theorem helm_scale0_pos (size om : ℝ) (hs : 0 < size) (ho : 0 < om) : 0 < Helm.scale0 size om := by
  unfold Helm.scale0; split <;> positivity

theorem helm_scaleOf_pos (size om : ℝ) (hs : 0 < size) (ho : 0 < om) (lev : ℕ) : 0 < Helm.scaleOf size om lev := by
  have := helm_scale0_pos size om hs ho
  unfold Helm.scaleOf; positivity

theorem helm_scaleOf_half (size om : ℝ) (lev : ℕ) : Helm.scaleOf size om (lev + 1) = Helm.scaleOf size om lev / 2 := by
  rw [Helm.scaleOf, Helm.scaleOf, pow_succ, div_div]

theorem helm_level_eq (size om : ℝ) (hs : 0 < Helm.scale0 size om) (lev : ℕ) : Helm.level size om (Helm.scaleOf size om lev) = lev := by
  have e : Helm.scale0 size om / Helm.scaleOf size om lev = 2 ^ lev := by
    rw [Helm.scaleOf]; field_simp
  rw [Helm.level, e, Real.logb_pow, Real.logb_self_eq_one (by norm_num), mul_one, Nat.floor_natCast]

theorem helm_mToM_eq (J : Table) (size om : ℝ) (hs : 0 < Helm.scale0 size om) (p lev c : ℕ) (h3 : 3 ≤ lev) (hlev : lev ≤ 21) (M : Coef) :
    Helm.mToM J size om p c (Helm.scaleOf size om lev) M =
      some (tr p (Helm.m2m J size om p lev) (tabAlpha c * (Real.pi / 4)) (childCos c) M) := by
  rw [Helm.mToM, helm_level_eq size om hs]
  simp only
  rw [if_pos ⟨h3, show lev ≤ Helm.maxlev from hlev⟩, Helm.plus_eq, Helm.minus_eq, Helm.shiftZ_eq]
  rfl

theorem helm_lToL_eq (J : Table) (size om : ℝ) (hs : 0 < Helm.scale0 size om) (p lev c : ℕ) (h2 : 2 ≤ lev) (hlev : lev ≤ 20) (L : Helm.LCoef) :
    Helm.lToL J size om p c (Helm.scaleOf size om lev) L =
      some (Helm.trL p (Helm.l2l J size om p lev) ((([5, 7, 3, 1, 5, 7, 3, 1].getD c 0 : ℕ) : ℝ) * (Real.pi / 4)) (-childCos c) L) := by
  rw [Helm.lToL, helm_level_eq size om hs]
  simp only
  rw [if_pos ⟨h2, show lev - 2 ≤ Helm.maxlev - 3 by rw [Helm.maxlev]; omega⟩, Helm.trL]
  have e : (if c < 4 then -1 / √3 else 1 / √3 : ℝ) = -childCos c := by
    rw [childCos]; split_ifs <;> ring
  rw [e]

/-- **C103** `M_to_M` makes of the multipole expansion of a box one about the centre of its parent. It has a bounded size, and at every target that is
farther than the old one reaches `M_to_T` has the same value for both, up to the bound and to the errors of the functions at the target. -/
theorem C103_m_to_m (J Y : Table) (ε om : ℝ) (ho : 0 < om) (d : Domain ℝ) (h : 0 < d.size) (p : ℕ) (ix : Index) (h2 : 2 ≤ ix.level)
    (hlev : ix.level + 1 ≤ 21) (c : Fin 8) (M : Coef) (hM : RealZonal M) (μ R : ℝ) (hR : 0 ≤ R)
    (hsize : Yukawa.MultipoleSize p om (Helm.scaleOf d.size om (ix.level + 1)) M μ R)
    (hJ : Helm.GoodTab J p ε (om * Yukawa.childShift d.size (ix.level + 1))) :
    ∃ N, Helm.mToM J d.size om p c (Helm.scaleOf d.size om (ix.level + 1)) M = some N ∧ RealZonal N ∧
      Yukawa.MultipoleSize p om (Helm.scaleOf d.size om ix.level) N
        (μ * Helm.mToMGrowth om ε (Yukawa.childShift d.size (ix.level + 1)) R) (R + Yukawa.childShift d.size (ix.level + 1)) ∧
      ∀ t : Point ℝ, Regular (t.sub (d.centerFromIndex (ix.child c))) → Regular (t.sub (d.centerFromIndex ix)) →
        R + Yukawa.childShift d.size (ix.level + 1) < (t.sub (d.centerFromIndex ix)).norm → ∀ β β' : ℕ → ℝ,
        Helm.NearH p (om * (t.sub (d.centerFromIndex (ix.child c))).norm) (Helm.scaleOf d.size om (ix.level + 1)) β
          (Helm.hn J Y p (om * (t.sub (d.centerFromIndex (ix.child c))).norm) (Helm.scaleOf d.size om (ix.level + 1))) →
        Helm.NearH p (om * (t.sub (d.centerFromIndex ix)).norm) (Helm.scaleOf d.size om ix.level) β'
          (Helm.hn J Y p (om * (t.sub (d.centerFromIndex ix)).norm) (Helm.scaleOf d.size om ix.level)) →
        ∃ x y, Helm.mToT J Y om p (d.centerFromIndex (ix.child c)) (Helm.scaleOf d.size om (ix.level + 1)) M t = some x ∧
          Helm.mToT J Y om p (d.centerFromIndex ix) (Helm.scaleOf d.size om ix.level) N t = some y ∧
          ‖y - x‖ ≤ μ * Helm.mToMBound p om ε (Yukawa.childShift d.size (ix.level + 1)) R (t.sub (d.centerFromIndex ix)).norm +
            Helm.evalCost p β (Yukawa.degreeSize M) + Helm.evalCost p β' (Yukawa.degreeSize N) := by
  have hs0 := helm_scale0_pos d.size om h ho
  have hs1 := helm_scaleOf_pos d.size om h ho (ix.level + 1)
  have hs2 := helm_scaleOf_pos d.size om h ho ix.level
  have e2 : 2 * Helm.scaleOf d.size om (ix.level + 1) = Helm.scaleOf d.size om ix.level := by rw [helm_scaleOf_half]; ring
  have hB := (multipoleSize_iff p om _ ho hs1 M μ R).1 hsize
  have hNp := Helm.helm_mToM_proper J d.size om ho hs0 p (ix.level + 1) (tabAlpha c * (Real.pi / 4)) (childCos c) M hM
  refine ⟨_, helm_mToM_eq J d.size om hs0 p (ix.level + 1) c (by omega) hlev M, hNp, ?_, ?_⟩
  · rw [multipoleSize_iff p om _ ho hs2, ← e2]
    intro n hn
    exact Helm.mToM_bd J ε d.size om h ho hs0 p (ix.level + 1) _ _ M hM μ R hR hB _ rfl hJ n hn
  · intro t hc hp ht β β' hβ hβ'
    have hc' := clear_of_regular hc
    have hp' := clear_of_regular hp
    refine ⟨_, _, by rw [Helm.mToT, ephi_eq _ hc'.ne]; rfl, by rw [Helm.mToT, ephi_eq _ hp'.ne]; rfl, ?_⟩
    have key := Helm.mToM_error J ε d.size om h ho hs0 p (ix.level + 1) c c.2 M hM μ R hR hB _ rfl hJ (t.sub (d.centerFromIndex ix)) ht
    have k1 := Helm.evalM_near om _ p M hM _ hc' β _ hβ
    have k2 := Helm.evalM_near om _ p _ hNp _ hp' β' _ hβ'
    have e3 : padd (t.sub (d.centerFromIndex ix)) (psmul (-(d.size / 2 ^ (ix.level + 1))) (off c)) = t.sub (d.centerFromIndex (ix.child c)) := by
      rw [child_at d h ix c c.2]
      simp only [padd, psmul, Point.sub]
      congr 1 <;> ring
    rw [e3, e2] at key
    have hmid : ‖Helm.exactM om (Helm.scaleOf d.size om ix.level) p (tr p (Helm.m2m J d.size om p (ix.level + 1)) (tabAlpha c * (Real.pi / 4)) (childCos c) M) (t.sub (d.centerFromIndex ix)) -
        Helm.exactM om (Helm.scaleOf d.size om (ix.level + 1)) p M (t.sub (d.centerFromIndex (ix.child c)))‖ ≤
        μ * Helm.mToMBound p om ε (Yukawa.childShift d.size (ix.level + 1)) R (t.sub (d.centerFromIndex ix)).norm := by
      rw [Helm.exactM_eq om _ ho p _ hNp _ hp', Helm.exactM_eq om _ ho p M hM _ hc', ← sub_div, norm_div, norm_mul, Complex.norm_I, one_mul, Complex.norm_real,
        Real.norm_of_nonneg ho.le, div_eq_mul_one_div, mul_comm]
      refine (mul_le_mul_of_nonneg_left key (by positivity)).trans_eq ?_
      rw [Helm.mToMBound, Yukawa.childShift]; ring
    beta_reduce at k1 k2 ⊢
    rw [Helm.evalCost, Helm.evalCost]
    generalize Helm.exactM om (Helm.scaleOf d.size om ix.level) p (tr p (Helm.m2m J d.size om p (ix.level + 1)) (tabAlpha c * (Real.pi / 4)) (childCos c) M) (t.sub (d.centerFromIndex ix)) = b at *
    generalize Helm.exactM om (Helm.scaleOf d.size om (ix.level + 1)) p M (t.sub (d.centerFromIndex (ix.child c))) = a at *
    generalize Helm.evalM p M _ _ _ = x at *
    generalize Helm.evalM p _ _ _ _ = y at *
    have e : y - x = (b - a) + -(x - a) + (y - b) := by ring
    rw [e]
    refine (norm_add_le _ _).trans (add_le_add ((norm_add_le _ _).trans (add_le_add hmid ?_)) k2)
    rw [norm_neg]; exact k1

/-- **C103** `L_to_L` makes of the local expansion of a box one about the centre of a child. Its size is bounded, and at every target that is closer than the
sources of the field `L_to_T` has the same value for both, up to the bound and to the errors of the functions at the target. -/
theorem C103_l_to_l (J : Table) (ε om : ℝ) (ho : 0 < om) (d : Domain ℝ) (h : 0 < d.size) (p : ℕ) (ix : Index) (h2 : 2 ≤ ix.level)
    (hlev : ix.level + 1 ≤ 21) (c : Fin 8) (L : Helm.LCoef) (μ dist : ℝ) (hd : Yukawa.childShift d.size (ix.level + 1) < dist)
    (hsize : Helm.LocalSize p om (Helm.scaleOf d.size om ix.level) L μ dist)
    (hJ : Helm.GoodTab J p ε (om * Yukawa.childShift d.size (ix.level + 1))) :
    ∃ N, Helm.lToL J d.size om p c (Helm.scaleOf d.size om ix.level) L = some N ∧
      Helm.LocalSize p om (Helm.scaleOf d.size om (ix.level + 1)) N
        (μ * Helm.lToLGrowth om ε (Yukawa.childShift d.size (ix.level + 1)) dist) (dist - Yukawa.childShift d.size (ix.level + 1)) ∧
      ∀ t : Point ℝ, Regular (t.sub (d.centerFromIndex (ix.child c))) → Regular (t.sub (d.centerFromIndex ix)) →
        (t.sub (d.centerFromIndex (ix.child c))).norm + Yukawa.childShift d.size (ix.level + 1) < dist → ∀ α α' : ℕ → ℝ,
        Helm.NearJ p (om * (t.sub (d.centerFromIndex (ix.child c))).norm) (Helm.scaleOf d.size om (ix.level + 1)) α
          (jnScaled J p (om * (t.sub (d.centerFromIndex (ix.child c))).norm) (Helm.scaleOf d.size om (ix.level + 1))) →
        Helm.NearJ p (om * (t.sub (d.centerFromIndex ix)).norm) (Helm.scaleOf d.size om ix.level) α'
          (jnScaled J p (om * (t.sub (d.centerFromIndex ix)).norm) (Helm.scaleOf d.size om ix.level)) →
        ∃ x y, Helm.lToT J om p (d.centerFromIndex ix) (Helm.scaleOf d.size om ix.level) L t = some x ∧
          Helm.lToT J om p (d.centerFromIndex (ix.child c)) (Helm.scaleOf d.size om (ix.level + 1)) N t = some y ∧
          ‖y - x‖ ≤ μ * Helm.lToLBound p om ε (Yukawa.childShift d.size (ix.level + 1))
              (t.sub (d.centerFromIndex (ix.child c))).norm (t.sub (d.centerFromIndex ix)).norm dist +
            Helm.evalCost p α' (Helm.localDegreeSize L) + Helm.evalCost p α (Helm.localDegreeSize N) := by
  have hs0 := helm_scale0_pos d.size om h ho
  have hρ0 : 0 < Yukawa.childShift d.size (ix.level + 1) := by unfold Yukawa.childShift; positivity
  have eρ : Yukawa.childShift d.size (ix.level + 1) = √3 / 4 * (d.size / 2 ^ ix.level) := by rw [Yukawa.childShift, pow_succ]; ring
  have hd0 : 0 < dist := hρ0.trans hd
  refine ⟨_, helm_lToL_eq J d.size om hs0 p ix.level c h2 (by omega) L, ?_, ?_⟩
  · rw [helm_scaleOf_half]
    exact Helm.lToL_bd J ε d.size om h ho hs0 p ix.level _ _ L μ dist hsize _ eρ hd hJ
  · intro t hc hp ht α α' hα hα'
    have hc' := clear_of_regular hc
    have hp' := clear_of_regular hp
    refine ⟨_, _, by rw [Helm.lToT, ephi_eq _ hp'.ne]; rfl, by rw [Helm.lToT, ephi_eq _ hc'.ne]; rfl, ?_⟩
    have e3 : t.sub (d.centerFromIndex ix) = padd (t.sub (d.centerFromIndex (ix.child c))) (psmul (d.size / 2 ^ ix.level / 2) (off c)) := by
      rw [child_at d h ix c c.2, pow_succ]
      simp only [padd, psmul, Point.sub]
      congr 1 <;> ring
    have hmid := Helm.lToL_error J ε d.size om h ho hs0 p ix.level c c.2 L μ dist hd0 hsize _ eρ hJ _ _ e3 hc' hp' ht
    rw [← helm_scaleOf_half] at hmid
    have k1 := Helm.evalL_near om _ p L _ hp' α' _ hα'
    have k2 := Helm.evalL_near om _ p (Helm.trL p (Helm.l2l J d.size om p ix.level) ((([5, 7, 3, 1, 5, 7, 3, 1].getD c 0 : ℕ) : ℝ) * (Real.pi / 4)) (-childCos c) L)
      _ hc' α _ hα
    rw [Helm.evalCost, Helm.evalCost]
    beta_reduce at k1 k2 ⊢
    generalize Helm.trL p _ _ _ L = N at *
    generalize Helm.exactL om _ p N _ = b at *
    generalize Helm.exactL om _ p L _ = a at *
    generalize Helm.evalL p N _ _ _ = y at *
    generalize Helm.evalL p L _ _ _ = x at *
    have e : y - x = (b - a) + -(x - a) + (y - b) := by ring
    rw [e]
    refine (norm_add_le _ _).trans (add_le_add ((norm_add_le _ _).trans (add_le_add hmid ?_)) k2)
    rw [norm_neg]; exact k1

/-- **C103** The expansions of charges meet the hypotheses, if the functions at the charges are accurate relative to their leading terms. -/
theorem C103_sources (J Y : Table) (om : ℝ) (ho : 0 < om) (p : ℕ) (scale : ℝ) (hs : 0 < scale) (c : Point ℝ) (srcs : List Src) (ε : ℝ) :
    (∀ M, Helm.sToM J om p c scale srcs = some M → RealZonal M ∧ ∀ R, (∀ s ∈ srcs, (s.pos.sub c).norm ≤ R) →
      (∀ s ∈ srcs, Helm.NearJ p (om * (s.pos.sub c).norm) scale (fun n => ε * ((om * (s.pos.sub c).norm / scale) ^ n / ((2 * n + 1)‼ : ℕ)))
        (jnScaled J p (om * (s.pos.sub c).norm) scale)) →
      Yukawa.MultipoleSize p om scale M (Yukawa.totalCharge srcs * (Real.exp ((om * R) ^ 2 / 6) + ε)) R) ∧
    (∀ L, Helm.sToL J Y om p c scale srcs = some L → ∀ dist far, 0 < dist → AllRegular c srcs →
      (∀ s ∈ srcs, dist ≤ (s.pos.sub c).norm ∧ (s.pos.sub c).norm ≤ far) →
      (∀ s ∈ srcs, Helm.NearH p (om * (s.pos.sub c).norm) scale
        (fun n => ε * (scale ^ n * ((2 * n - 1)‼ : ℕ) / (om * (s.pos.sub c).norm) ^ (n + 1))) (Helm.hn J Y p (om * (s.pos.sub c).norm) scale)) →
      Helm.LocalSize p om scale L (Yukawa.totalCharge srcs * ((Real.exp (om * far) + ε) / (om * dist))) dist) :=
  ⟨fun M hM => ⟨Helm.helm_sToM_proper J om p scale c srcs M hM, fun R hR hJ => Helm.helm_sToM_size J om ho p scale hs c ε R srcs hR hJ M hM⟩,
    fun L hL dist far hd hr hdist hH => Helm.helm_sToL_size J Y om ho p scale hs c ε dist far hd srcs hr hdist hH L hL⟩

/-- **C103** Charges in a box, through `S_to_M`, `M_to_M` and `M_to_T` of the parent. -/
theorem C103_multipole_error (J Y : Table) (ε om : ℝ) (ho : 0 < om) (d : Domain ℝ) (h : 0 < d.size) (p : ℕ) (ix : Index) (h2 : 2 ≤ ix.level)
    (hlev : ix.level + 1 ≤ 21) (c : Fin 8) (srcs : List Src) (hr : AllRegular (d.centerFromIndex (ix.child c)) srcs) (R : ℝ) (hR : 0 ≤ R)
    (hsrc : ∀ s ∈ srcs, (s.pos.sub (d.centerFromIndex (ix.child c))).norm ≤ R) (t : Point ℝ)
    (htc : Regular (t.sub (d.centerFromIndex (ix.child c)))) (htp : Regular (t.sub (d.centerFromIndex ix)))
    (hfar : ∀ s ∈ srcs, (s.pos.sub (d.centerFromIndex (ix.child c))).norm < (t.sub (d.centerFromIndex (ix.child c))).norm)
    (ht : R + Yukawa.childShift d.size (ix.level + 1) < (t.sub (d.centerFromIndex ix)).norm)
    (hJ : Helm.GoodTab J p ε (om * Yukawa.childShift d.size (ix.level + 1))) (ε' : ℝ)
    (hJ' : ∀ s ∈ srcs, Helm.NearJ p (om * (s.pos.sub (d.centerFromIndex (ix.child c))).norm) (Helm.scaleOf d.size om (ix.level + 1))
      (fun n => ε' * ((om * (s.pos.sub (d.centerFromIndex (ix.child c))).norm / Helm.scaleOf d.size om (ix.level + 1)) ^ n / ((2 * n + 1)‼ : ℕ)))
      (jnScaled J p (om * (s.pos.sub (d.centerFromIndex (ix.child c))).norm) (Helm.scaleOf d.size om (ix.level + 1))))
    (β β' : ℕ → ℝ)
    (hβ : Helm.NearH p (om * (t.sub (d.centerFromIndex (ix.child c))).norm) (Helm.scaleOf d.size om (ix.level + 1)) β
      (Helm.hn J Y p (om * (t.sub (d.centerFromIndex (ix.child c))).norm) (Helm.scaleOf d.size om (ix.level + 1))))
    (hβ' : Helm.NearH p (om * (t.sub (d.centerFromIndex ix)).norm) (Helm.scaleOf d.size om ix.level) β'
      (Helm.hn J Y p (om * (t.sub (d.centerFromIndex ix)).norm) (Helm.scaleOf d.size om ix.level))) :
    ∃ M N y, Helm.sToM J om p (d.centerFromIndex (ix.child c)) (Helm.scaleOf d.size om (ix.level + 1)) srcs = some M ∧
      Helm.mToM J d.size om p c (Helm.scaleOf d.size om (ix.level + 1)) M = some N ∧
      Helm.mToT J Y om p (d.centerFromIndex ix) (Helm.scaleOf d.size om ix.level) N t = some y ∧
      ‖y - Helm.field om srcs t‖ ≤
        (srcs.map fun s => |s.charge| * (Helm.truncation p om (s.pos.sub (d.centerFromIndex (ix.child c))).norm (t.sub (d.centerFromIndex (ix.child c))).norm +
          Helm.functionError p om (Helm.scaleOf d.size om (ix.level + 1)) (s.pos.sub (d.centerFromIndex (ix.child c))).norm
            (t.sub (d.centerFromIndex (ix.child c))).norm
            (fun n => ε' * ((om * (s.pos.sub (d.centerFromIndex (ix.child c))).norm / Helm.scaleOf d.size om (ix.level + 1)) ^ n / ((2 * n + 1)‼ : ℕ))) β)).sum +
        (Yukawa.totalCharge srcs * (Real.exp ((om * R) ^ 2 / 6) + ε') *
          Helm.mToMBound p om ε (Yukawa.childShift d.size (ix.level + 1)) R (t.sub (d.centerFromIndex ix)).norm +
          Helm.evalCost p β (Yukawa.degreeSize M) + Helm.evalCost p β' (Yukawa.degreeSize N)) := by
  have hs1 := helm_scaleOf_pos d.size om h ho (ix.level + 1)
  obtain ⟨M, v, hM, hv, hb⟩ := C88_multipole_error J Y om ho p _ hs1 _ srcs hr t htc hfar _ β hJ' hβ
  obtain ⟨hz, hsz⟩ := (C103_sources J Y om ho p _ hs1 (d.centerFromIndex (ix.child c)) srcs ε').1 M hM
  obtain ⟨N, hN, -, -, hval⟩ := C103_m_to_m J Y ε om ho d h p ix h2 hlev c M hz _ R hR (hsz R hsrc hJ') hJ
  obtain ⟨x, y, hx, hy, hxy⟩ := hval t htc htp ht β β' hβ hβ'
  obtain rfl : v = x := by rw [hx] at hv; exact (Option.some.inj hv).symm
  refine ⟨M, N, y, hM, hN, hy, ?_⟩
  have : y - Helm.field om srcs t = (v - Helm.field om srcs t) + (y - v) := by ring
  rw [this]
  exact (norm_add_le _ _).trans (add_le_add hb hxy)

/-- **C103** Charges far from a box, through `S_to_L`, `L_to_L` and `L_to_T` of a child. -/
theorem C103_local_error (J Y : Table) (ε om : ℝ) (ho : 0 < om) (d : Domain ℝ) (h : 0 < d.size) (p : ℕ) (ix : Index) (h2 : 2 ≤ ix.level)
    (hlev : ix.level + 1 ≤ 21) (c : Fin 8) (srcs : List Src) (hr : AllRegular (d.centerFromIndex ix) srcs) (dist far : ℝ)
    (hdist : ∀ s ∈ srcs, dist ≤ (s.pos.sub (d.centerFromIndex ix)).norm ∧ (s.pos.sub (d.centerFromIndex ix)).norm ≤ far)
    (t : Point ℝ) (htc : Regular (t.sub (d.centerFromIndex (ix.child c)))) (htp : Regular (t.sub (d.centerFromIndex ix)))
    (hin : (t.sub (d.centerFromIndex ix)).norm < dist)
    (ht : (t.sub (d.centerFromIndex (ix.child c))).norm + Yukawa.childShift d.size (ix.level + 1) < dist)
    (hJ : Helm.GoodTab J p ε (om * Yukawa.childShift d.size (ix.level + 1))) (ε' : ℝ)
    (hH : ∀ s ∈ srcs, Helm.NearH p (om * (s.pos.sub (d.centerFromIndex ix)).norm) (Helm.scaleOf d.size om ix.level)
      (fun n => ε' * (Helm.scaleOf d.size om ix.level ^ n * ((2 * n - 1)‼ : ℕ) / (om * (s.pos.sub (d.centerFromIndex ix)).norm) ^ (n + 1)))
      (Helm.hn J Y p (om * (s.pos.sub (d.centerFromIndex ix)).norm) (Helm.scaleOf d.size om ix.level)))
    (α α' : ℕ → ℝ)
    (hα : Helm.NearJ p (om * (t.sub (d.centerFromIndex (ix.child c))).norm) (Helm.scaleOf d.size om (ix.level + 1)) α
      (jnScaled J p (om * (t.sub (d.centerFromIndex (ix.child c))).norm) (Helm.scaleOf d.size om (ix.level + 1))))
    (hα' : Helm.NearJ p (om * (t.sub (d.centerFromIndex ix)).norm) (Helm.scaleOf d.size om ix.level) α'
      (jnScaled J p (om * (t.sub (d.centerFromIndex ix)).norm) (Helm.scaleOf d.size om ix.level))) :
    ∃ L N y, Helm.sToL J Y om p (d.centerFromIndex ix) (Helm.scaleOf d.size om ix.level) srcs = some L ∧
      Helm.lToL J d.size om p c (Helm.scaleOf d.size om ix.level) L = some N ∧
      Helm.lToT J om p (d.centerFromIndex (ix.child c)) (Helm.scaleOf d.size om (ix.level + 1)) N t = some y ∧
      ‖y - Helm.field om srcs t‖ ≤
        (srcs.map fun s => |s.charge| * (Helm.truncation p om (t.sub (d.centerFromIndex ix)).norm (s.pos.sub (d.centerFromIndex ix)).norm +
          Helm.functionError p om (Helm.scaleOf d.size om ix.level) (t.sub (d.centerFromIndex ix)).norm (s.pos.sub (d.centerFromIndex ix)).norm α'
            (fun n => ε' * (Helm.scaleOf d.size om ix.level ^ n * ((2 * n - 1)‼ : ℕ) / (om * (s.pos.sub (d.centerFromIndex ix)).norm) ^ (n + 1))))).sum +
        (Yukawa.totalCharge srcs * ((Real.exp (om * far) + ε') / (om * dist)) *
          Helm.lToLBound p om ε (Yukawa.childShift d.size (ix.level + 1)) (t.sub (d.centerFromIndex (ix.child c))).norm (t.sub (d.centerFromIndex ix)).norm dist +
          Helm.evalCost p α' (Helm.localDegreeSize L) + Helm.evalCost p α (Helm.localDegreeSize N)) := by
  have hs0 := helm_scaleOf_pos d.size om h ho ix.level
  have hn := norm_nonneg' (t.sub (d.centerFromIndex ix))
  have hn' := norm_nonneg' (t.sub (d.centerFromIndex (ix.child c)))
  obtain ⟨L, v, hL, hv, hb⟩ := C88_local_error J Y om ho p _ hs0 _ srcs hr t htp (fun s hs => hin.trans_le (hdist s hs).1) α' _ hα' hH
  have hsz := (C103_sources J Y om ho p _ hs0 (d.centerFromIndex ix) srcs ε').2 L hL dist far (hn.trans_lt hin) hr hdist hH
  obtain ⟨N, hN, -, hval⟩ := C103_l_to_l J ε om ho d h p ix h2 hlev c L _ dist (by linarith) hsz hJ
  obtain ⟨x, y, hx, hy, hxy⟩ := hval t htc htp ht α α' hα hα'
  obtain rfl : v = x := by rw [hx] at hv; exact (Option.some.inj hv).symm
  refine ⟨L, N, y, hL, hN, hy, ?_⟩
  have : y - Helm.field om srcs t = (v - Helm.field om srcs t) + (y - v) := by ring
  rw [this]
  exact (norm_add_le _ _).trans (add_le_add hb hxy)

/-- **C103** What the truncation contributes vanishes as the order grows. -/
theorem C103_truncation_vanishes (om ρ R r dist : ℝ) (hρ : 0 ≤ ρ) (hR : 0 ≤ R) (hr : R + ρ < r) (hd : max R r < dist) :
    Filter.Tendsto (fun p => Helm.mToMBound p om 0 ρ R r) Filter.atTop (nhds 0) ∧
    Filter.Tendsto (fun p => Helm.lToLBound p om 0 ρ R r dist) Filter.atTop (nhds 0) := by
  have hm : 0 ≤ max R r := le_max_of_le_left hR
  obtain ⟨a, -⟩ := C98_truncation_vanishes om ρ R r (R + 1) hρ hR hr (by linarith)
  obtain ⟨-, b⟩ := C98_truncation_vanishes om ρ (max R r) (max R r + ρ + 1) dist hρ hm (by linarith) hd
  constructor
  · have := (a.mul_const (Real.exp (om * (r + ρ)))).const_mul (1 / om)
    simp only [zero_mul, mul_zero] at this
    refine this.congr fun p => ?_
    rw [Helm.mToMBound]; ring
  · refine b.congr fun p => ?_
    rw [Helm.lToLBound]; ring

/-- **C103** In a box small compared to the wavelength the tables of the shifts need no table of Bessel functions. -/
theorem C103_small_box (J : Table) (p : ℕ) (x : ℝ) (hx : 0 < x) (hx4 : x ≤ 10⁻¹ ^ 4) :
    Helm.GoodTab J p (10⁻¹ ^ 17 + 2 * 10⁻¹ ^ 300 * ((4 * p + 1)‼ : ℕ)) x := by
  intro i hi
  have h := C85_jn_small J (2 * p) x x hx hx.le hx4 i
  rw [div_self hx.ne', one_pow, max_self, one_pow, mul_one] at h
  refine h.trans ?_
  have hd := dfact_pos (2 * i + 1)
  have hm : (((2 * i + 1)‼ : ℕ) : ℝ) ≤ ((4 * p + 1)‼ : ℕ) := by
    have := dfact_mono i (2 * p) hi
    rw [show 2 * (2 * p) + 1 = 4 * p + 1 by ring] at this
    exact this
  have hτ : (0 : ℝ) ≤ 10⁻¹ ^ 300 := by positivity
  generalize (10⁻¹ : ℝ) ^ 300 = τ at *
  generalize (10⁻¹ : ℝ) ^ 17 = σ at *
  show _ ≤ (σ + 2 * τ * ((4 * p + 1)‼ : ℕ)) / ((2 * i + 1)‼ : ℕ)
  rw [add_div]
  have : 2 * τ ≤ 2 * τ * ((4 * p + 1)‼ : ℕ) / ((2 * i + 1)‼ : ℕ) := by
    rw [le_div_iff₀ hd]
    exact mul_le_mul_of_nonneg_left hm (by positivity)
  rw [mul_one_div]
  linarith

/-- **C103** The tables have the levels from 3 to 21 (of the child); for others the translations read outside of them. -/
theorem C103_range (J : Table) (size om : ℝ) (hsz : 0 < size) (ho : 0 < om) (p c lev : ℕ) (M : Coef) (L : Helm.LCoef) :
    ((Helm.mToM J size om p c (Helm.scaleOf size om lev) M).isSome ↔ 3 ≤ lev ∧ lev ≤ 21) ∧
    ((Helm.lToL J size om p c (Helm.scaleOf size om lev) L).isSome ↔ 3 ≤ lev + 1 ∧ lev + 1 ≤ 21) := by
  have hs0 := helm_scale0_pos size om hsz ho
  constructor
  · by_cases h : 3 ≤ lev ∧ lev ≤ 21
    · rw [helm_mToM_eq J size om hs0 p lev c h.1 h.2]; simp [h]
    · have : Helm.mToM J size om p c (Helm.scaleOf size om lev) M = none := by
        rw [Helm.mToM, helm_level_eq size om hs0]
        exact if_neg (by rw [Helm.maxlev]; exact h)
      rw [this]; simp only [Option.isSome_none, Bool.false_eq_true, false_iff]; exact h
  · by_cases h : 2 ≤ lev ∧ lev ≤ 20
    · rw [helm_lToL_eq J size om hs0 p lev c h.1 h.2]; simp; omega
    · have : Helm.lToL J size om p c (Helm.scaleOf size om lev) L = none := by
        rw [Helm.lToL, helm_level_eq size om hs0]
        exact if_neg (by rw [Helm.maxlev]; omega)
      rw [this]; simp only [Option.isSome_none, Bool.false_eq_true, false_iff]; omega

/-- **C103** FMM97, the only method that asks the Helmholtz kernel for translations, asks for none above these levels. -/
theorem C103_fmm97_levels (unif : Nat) (same : Bool) (s t : Fin 8 → Oct) (acts : List Act) (hr : Runs (createProg FMM97 unif same s t) acts) (e : Edge)
    (he : e ∈ edgesOf acts) : (e.op = .MtoM → 3 ≤ e.src.ix.level) ∧ (e.op = .LtoL → 2 ≤ e.src.ix.level) := by
  rcases createDag_mem (mem_edges_createDag hr he) with ⟨n, hu, ha⟩ | ⟨n, p, c, hv, ha⟩
  · have h := FMM97_src_act n _ ha
    generalize hx : Act.link e = x at h
    cases h with
    | parts => cases hx
    | normal => cases hx
    | interm => cases hx
    | StoM => cases hx; simp
    | @MtoM k hk h2 =>
      cases hx
      obtain ⟨i, hi⟩ := mem_kids.1 hk
      refine ⟨fun _ => ?_, fun h => by cases h⟩
      show 3 ≤ k.ix.level
      rw [hi.2, Index.child_eq _ _ i.2]
      show 3 ≤ n.ix.level + 1
      omega
    | MtoI => cases hx; simp
  · have h := FMM97_visit_act (FMM97_cons hv (F97Ok_root s t)).cons _ ha
    generalize hx : Act.link e = x at h
    cases h with
    | fmm h =>
      cases h with
      | parts => cases hx
      | normal => cases hx
      | LtoL h3 => cases hx; simp [Index.parent_eq]; omega
      | LtoT h2 => cases hx; simp
      | loop h =>
        cases h with
        | StoTbig => cases hx; simp
        | StoTsmall => cases hx; simp
        | MtoL => cases hx; simp
        | StoL => cases hx; simp
        | MtoT => cases hx; simp
    | interm => cases hx
    | ItoL h2 => cases hx; simp
    | ItoI => cases hx; simp

/-- Tables of the Bessel functions without errors. -/
noncomputable def exactJ : Table := fun _ x n => sphJ n x / √(Real.pi / 2 / x)

noncomputable def exactY : Table := fun _ x n => sphY x n / √(Real.pi / 2 / x)

theorem exact_near (p : ℕ) (x scale : ℝ) (hx : 10⁻¹ ^ 4 ≤ x) (hs : 0 < scale) :
    Helm.NearH p x scale (fun n => 2 * (scale ^ n * 0)) (Helm.hn exactJ exactY p x scale) := by
  have hx0 : 0 < x := lt_of_lt_of_le (by positivity) hx
  have hq : 0 < √(Real.pi / 2 / x) := Real.sqrt_pos.2 (by have := Real.pi_pos; positivity)
  refine hn_near exactJ exactY 0 p x scale hx hs (fun n _ => ?_) (fun n _ => ?_)
  · rw [exactJ, div_mul_cancel₀ _ hq.ne', sub_self, abs_zero]
  · rw [exactY, div_mul_cancel₀ _ hq.ne', sub_self, abs_zero]

theorem small_near (J : Table) (x scale : ℝ) (hx : 0 < x) (hx4 : x ≤ 10⁻¹ ^ 4) (hs : 0 < scale) (hq : 1 / 4 ≤ x / scale) :
    Helm.NearJ 9 x scale (fun n => 10⁻¹ ^ 16 * ((x / scale) ^ n / ((2 * n + 1)‼ : ℕ))) (jnScaled J 9 x scale) := by
  intro n hn
  refine (C85_jn_small J 9 x scale hs hx.le hx4 n).trans ?_
  beta_reduce
  generalize x / scale = q at *
  have hd := dfact_pos (2 * n + 1)
  have hm : (((2 * n + 1)‼ : ℕ) : ℝ) ≤ 10 ^ 9 := by
    have h := dfact_mono n 9 hn
    have h' : (((2 * 9 + 1)‼ : ℕ) : ℝ) ≤ 10 ^ 9 := by exact_mod_cast (by decide : (2 * 9 + 1)‼ ≤ 10 ^ 9)
    exact h.trans h'
  have hq0 : 0 ≤ q := by linarith
  have h1 : max 1 q ^ n ≤ 10 ^ 9 * q ^ n := by
    have : max 1 q ≤ 4 * q := max_le (by linarith) (by linarith)
    have h4 : (4 : ℝ) ^ n ≤ 4 ^ 9 := pow_le_pow_right₀ (by norm_num) hn
    calc max 1 q ^ n ≤ (4 * q) ^ n := pow_le_pow_left₀ (by positivity) this n
      _ = 4 ^ n * q ^ n := mul_pow _ _ _
      _ ≤ 10 ^ 9 * q ^ n := mul_le_mul_of_nonneg_right (h4.trans (by norm_num)) (by positivity)
  have h2 : q ^ n ≤ 10 ^ 9 * (q ^ n / ((2 * n + 1)‼ : ℕ)) := by
    rw [← mul_div_assoc, le_div_iff₀ hd, mul_comm]
    exact mul_le_mul_of_nonneg_right hm (by positivity)
  have h3 : (10⁻¹ : ℝ) ^ 300 ≤ 10⁻¹ ^ 36 := pow_le_pow_of_le_one (by norm_num) (by norm_num) (by norm_num)
  have h0 : (0 : ℝ) ≤ 10⁻¹ ^ 300 := by positivity
  generalize (10⁻¹ : ℝ) ^ 300 = τ at *
  have hA : 0 ≤ q ^ n / ((2 * n + 1)‼ : ℕ) := by positivity
  generalize q ^ n / ((2 * n + 1)‼ : ℕ) = A at *
  have h5 : max 1 q ^ n ≤ 10 ^ 18 * A := h1.trans (by linarith)
  calc 10⁻¹ ^ 17 * A + 2 * τ * max 1 q ^ n ≤ 10⁻¹ ^ 17 * A + 2 * 10⁻¹ ^ 36 * (10 ^ 18 * A) := by gcongr
    _ = (10⁻¹ ^ 17 + 2 * 10⁻¹ ^ 36 * 10 ^ 18) * A := by ring
    _ ≤ 10⁻¹ ^ 16 * A := mul_le_mul_of_nonneg_right (by norm_num) hA

/-- The first child of `lapA`. -/
def lapK : Index := ⟨0, 0, 0, 3⟩

theorem lapA_child : lapA.child ((0 : Fin 8) : ℕ) = lapK := by decide

theorem lapK_center : lapDom.centerFromIndex lapK = ⟨1 / 16, 1 / 16, 1 / 16⟩ := by
  simp only [Domain.centerFromIndex, Domain.sizeFromLevel, lapDom, lapK, Point.mk.injEq]; norm_num

theorem lapA_shift : Yukawa.childShift lapDom.size (lapA.level + 1) ≤ 11 / 100 ∧ 1 / 10 ≤ Yukawa.childShift lapDom.size (lapA.level + 1) := by
  have h3 : √3 ≤ 7 / 4 := Real.sqrt_le_iff.2 ⟨by norm_num, by norm_num⟩
  have h4 : 1.7 ≤ √3 := Real.le_sqrt_of_sq_le (by norm_num)
  simp only [Yukawa.childShift, lapDom, lapA]
  norm_num
  constructor <;> linarith

/-- Charges in `lapK`. -/
noncomputable def lapSmall : List Src := [⟨⟨1 / 10, 1 / 20, 1 / 20⟩, 1⟩, ⟨⟨1 / 40, 1 / 20, 1 / 10⟩, -2⟩]

/-- Two charges in `lapK`, a target in another box, 3 digits: `S_to_M`, `M_to_M` and `M_to_T` return, and the error is bounded. -/
example : let om : ℝ := 2 * 10⁻¹ ^ 4
    let t : Point ℝ := ⟨4 / 5, 1 / 10, 1 / 10⟩
    let c := lapDom.centerFromIndex lapK
    let ε : ℝ := 10⁻¹ ^ 17 + 2 * 10⁻¹ ^ 300 * ((4 * 9 + 1)‼ : ℕ)
    ∃ M N y, Helm.sToM exactJ om 9 c (Helm.scaleOf 1 om 3) lapSmall = some M ∧
      Helm.mToM exactJ 1 om 9 0 (Helm.scaleOf 1 om 3) M = some N ∧
      Helm.mToT exactJ exactY om 9 (lapDom.centerFromIndex lapA) (Helm.scaleOf 1 om 2) N t = some y ∧
      ‖y - Helm.field om lapSmall t‖ ≤
        (lapSmall.map fun s => |s.charge| * (Helm.truncation 9 om (s.pos.sub c).norm (t.sub c).norm +
          Helm.functionError 9 om (Helm.scaleOf 1 om 3) (s.pos.sub c).norm (t.sub c).norm
            (fun n => 10⁻¹ ^ 16 * ((om * (s.pos.sub c).norm / Helm.scaleOf 1 om 3) ^ n / ((2 * n + 1)‼ : ℕ)))
            (fun n => 2 * (Helm.scaleOf 1 om 3 ^ n * 0)))).sum +
        (Yukawa.totalCharge lapSmall * (Real.exp ((om * (1 / 16)) ^ 2 / 6) + 10⁻¹ ^ 16) *
          Helm.mToMBound 9 om ε (Yukawa.childShift 1 3) (1 / 16) (t.sub (lapDom.centerFromIndex lapA)).norm +
          Helm.evalCost 9 (fun n => 2 * (Helm.scaleOf 1 om 3 ^ n * 0)) (Yukawa.degreeSize M) +
          Helm.evalCost 9 (fun n => 2 * (Helm.scaleOf 1 om 2 ^ n * 0)) (Yukawa.degreeSize N)) := by
  intro om t c ε
  have hc : c = ⟨1 / 16, 1 / 16, 1 / 16⟩ := lapK_center
  have ho : 0 < om := by simp only [om]; positivity
  have hsc : ∀ l, 0 < Helm.scaleOf 1 om l := helm_scaleOf_pos 1 om one_pos ho
  have h1 : ∀ s ∈ lapSmall, 1 / 32 ≤ (s.pos.sub c).norm ∧ (s.pos.sub c).norm ≤ 1 / 16 := by
    intro s hs
    rw [hc]
    simp only [lapSmall, List.mem_cons, List.not_mem_nil, or_false] at hs
    rcases hs with rfl | rfl <;>
      exact ⟨Real.le_sqrt_of_sq_le (by simp only [Point.sub]; norm_num), norm_le_of (by norm_num) (by simp only [Point.sub]; norm_num)⟩
  have hr : AllRegular c lapSmall := by
    intro s hs
    rw [hc]
    simp only [lapSmall, List.mem_cons, List.not_mem_nil, or_false] at hs
    rcases hs with rfl | rfl <;> refine regular_of ?_ ?_ <;> simp only [Point.sub] <;> norm_num
  have hK : (1 / 2 : ℝ) ≤ (t.sub c).norm := by
    rw [hc]; exact Real.le_sqrt_of_sq_le (by simp only [t, Point.sub]; norm_num)
  have hA : (1 / 2 : ℝ) ≤ (t.sub (lapDom.centerFromIndex lapA)).norm := by
    rw [lapA_center]; exact Real.le_sqrt_of_sq_le (by simp only [t, Point.sub]; norm_num)
  have hs3 : Helm.scaleOf 1 om 3 = om / 8 := by
    rw [Helm.scaleOf, Helm.scale0]; rw [if_neg (by simp only [om]; norm_num)]; norm_num
  have key := C103_multipole_error exactJ exactY ε om ho lapDom (by norm_num [lapDom]) 9 lapA (by decide) (by decide) 0 lapSmall
    (by rw [lapA_child]; exact hr) (1 / 16) (by norm_num) (by rw [lapA_child]; exact fun s hs => (h1 s hs).2) t
    (by rw [lapA_child, lapK_center]; refine regular_of ?_ ?_ <;> simp only [t, Point.sub] <;> norm_num)
    (by rw [lapA_center]; refine regular_of ?_ ?_ <;> simp only [t, Point.sub] <;> norm_num)
    (by rw [lapA_child]; intro s hs; have := (h1 s hs).2; linarith)
    (by have := lapA_shift.1; linarith)
    (C103_small_box exactJ 9 _ (mul_pos ho (by linarith [lapA_shift.2])) (by have := lapA_shift.1; simp only [om]; nlinarith))
    (10⁻¹ ^ 16)
    (by
      rw [lapA_child]
      intro s hs
      obtain ⟨ha, hb⟩ := h1 s hs
      refine small_near exactJ _ _ (mul_pos ho (by linarith)) (by simp only [om]; nlinarith) (hsc 3) ?_
      show 1 / 4 ≤ om * (s.pos.sub c).norm / Helm.scaleOf 1 om 3
      rw [hs3, le_div_iff₀ (by positivity)]
      nlinarith)
    (fun n => 2 * (Helm.scaleOf 1 om 3 ^ n * 0)) (fun n => 2 * (Helm.scaleOf 1 om 2 ^ n * 0))
    (by rw [lapA_child]; exact exact_near 9 _ _ (by simp only [om]; nlinarith) (hsc 3))
    (exact_near 9 _ _ (by simp only [om]; nlinarith) (hsc 2))
  rw [lapA_child] at key
  exact key

/-- A charge far from `lapA`, a target in its child `lapK`. -/
example : let om : ℝ := 2 * 10⁻¹ ^ 4
    let s : List Src := [⟨⟨9 / 10, 9 / 10, 1 / 5⟩, 3⟩]
    let t : Point ℝ := ⟨1 / 40, 1 / 20, 1 / 20⟩
    let c := lapDom.centerFromIndex lapA
    ∃ L N y, Helm.sToL exactJ exactY om 9 c (Helm.scaleOf 1 om 2) s = some L ∧
      Helm.lToL exactJ 1 om 9 0 (Helm.scaleOf 1 om 2) L = some N ∧
      Helm.lToT exactJ om 9 (lapDom.centerFromIndex lapK) (Helm.scaleOf 1 om 3) N t = some y := by
  intro om s t c
  have hc : c = ⟨1 / 8, 1 / 8, 1 / 8⟩ := lapA_center
  have ho : 0 < om := by simp only [om]; positivity
  have hsc : ∀ l, 0 < Helm.scaleOf 1 om l := helm_scaleOf_pos 1 om one_pos ho
  have hs3 : ∀ l, Helm.scaleOf 1 om l = om / 2 ^ l := by
    intro l; rw [Helm.scaleOf, Helm.scale0]; rw [if_neg (by simp only [om]; norm_num)]; norm_num
  have hd : ∀ x ∈ s, (1 : ℝ) ≤ (x.pos.sub c).norm ∧ (x.pos.sub c).norm ≤ 2 := by
    intro x hx
    obtain rfl := List.mem_singleton.1 hx
    rw [hc]
    exact ⟨Real.le_sqrt_of_sq_le (by simp only [Point.sub]; norm_num), norm_le_of (by norm_num) (by simp only [Point.sub]; norm_num)⟩
  have hA : (t.sub c).norm ≤ 1 / 5 ∧ 1 / 16 ≤ (t.sub c).norm := by
    rw [hc]
    exact ⟨norm_le_of (by norm_num) (by simp only [t, Point.sub]; norm_num), Real.le_sqrt_of_sq_le (by simp only [t, Point.sub]; norm_num)⟩
  have hK : (t.sub (lapDom.centerFromIndex lapK)).norm ≤ 1 / 16 ∧ 1 / 32 ≤ (t.sub (lapDom.centerFromIndex lapK)).norm := by
    rw [lapK_center]
    exact ⟨norm_le_of (by norm_num) (by simp only [t, Point.sub]; norm_num), Real.le_sqrt_of_sq_le (by simp only [t, Point.sub]; norm_num)⟩
  have key := C103_local_error exactJ exactY _ om ho lapDom (by norm_num [lapDom]) 9 lapA (by decide) (by decide) 0 s
    (by
      show AllRegular c s
      rw [hc]; intro x hx; obtain rfl := List.mem_singleton.1 hx; refine regular_of ?_ ?_ <;> simp only [Point.sub] <;> norm_num)
    1 2 hd t
    (by rw [lapA_child, lapK_center]; refine regular_of ?_ ?_ <;> simp only [t, Point.sub] <;> norm_num)
    (by rw [lapA_center]; refine regular_of ?_ ?_ <;> simp only [t, Point.sub] <;> norm_num)
    (by show (t.sub c).norm < 1; linarith [hA.1]) (by rw [lapA_child]; linarith [lapA_shift.1, hK.1])
    (C103_small_box exactJ 9 _ (mul_pos ho (by linarith [lapA_shift.2])) (by have := lapA_shift.1; simp only [om]; nlinarith))
    0
    (fun x hx => by
      have := (hd x hx).1
      intro n hn
      refine (exact_near 9 _ _ (by simp only [om]; nlinarith) (hsc 2) n hn).trans (by simp))
    (fun n => 10⁻¹ ^ 16 * ((om * (t.sub (lapDom.centerFromIndex lapK)).norm / Helm.scaleOf 1 om 3) ^ n / ((2 * n + 1)‼ : ℕ)))
    (fun n => 10⁻¹ ^ 16 * ((om * (t.sub c).norm / Helm.scaleOf 1 om 2) ^ n / ((2 * n + 1)‼ : ℕ)))
    (by
      rw [lapA_child]
      refine small_near exactJ _ _ (mul_pos ho (by linarith [hK.2])) (by simp only [om]; nlinarith [hK.1]) (hsc 3) ?_
      show 1 / 4 ≤ om * (t.sub (lapDom.centerFromIndex lapK)).norm / Helm.scaleOf 1 om 3
      rw [hs3 3, le_div_iff₀ (by positivity)]; norm_num; nlinarith [hK.2])
    (by
      refine small_near exactJ _ _ (mul_pos ho (by linarith [hA.2])) (by simp only [om]; nlinarith [hA.1]) (hsc 2) ?_
      show 1 / 4 ≤ om * (t.sub c).norm / Helm.scaleOf 1 om 2
      rw [hs3 2, le_div_iff₀ (by positivity)]; norm_num; nlinarith [hA.2])
  rw [lapA_child] at key
  obtain ⟨L, N, y, h1, h2, h3, -⟩ := key
  exact ⟨L, N, y, h1, h2, h3⟩

end Dashmm
