import Verif.Proofs.HelmFmmRel

/-!
The edges of an evaluation with the Helmholtz kernel and FMM97.
-/

namespace Dashmm.Helm

open Finset Harm Lap Bessel Wave Waves
open scoped Nat
open YukFmm (arrays ofArrays ofMade)
open Yuk hiding boxVal levViews sixL iVal oneBox_eq box_spec RelM RelL RelS RelI FRelT FRel FAcc FmmEdge FGood sizeAt grow stepErr mToM_error mToM_bd lToL_error lToL_bd boxVal_lin boxVal_none levViews_lin sixL_lin sixL_congr iVal_spec multipole_error local_error toTargets_some radius_pos radius_double reach_pos downError_child sizeAt_child fmmError_child relL_down relL_waves fmm_edge_rel fmm_dst_not_start fmm_eval_rel fmm_eval_targets

noncomputable section

variable (D : HelmFmm) (ε : ℝ) (δ G : ℕ → ℝ) (T : Point ℝ → Prop) (edges : List Edge)

/-- The edges of FMM97. -/
inductive FmmEdge : Edge → Prop
  | StoM {a : Index} (hin : ∀ q ∈ D.srcs a, InCube D.dom a q.pos) (hr : AllRegular (D.center a) (D.srcs a))
      (hT : ∀ t, T t → Regular (t.sub (D.center a))) (h : D.InRange ε ⟨.StoM, ⟨.src, a, .parts⟩, ⟨.src, a, .normal⟩⟩) :
      FmmEdge ⟨.StoM, ⟨.src, a, .parts⟩, ⟨.src, a, .normal⟩⟩
  | MtoM {a : Index} (c : Fin 8) (h2 : 2 ≤ a.level) (h21 : a.level + 1 ≤ 21)
      (h : D.InRange ε ⟨.MtoM, ⟨.src, a.child c, .normal⟩, ⟨.src, a, .normal⟩⟩) : FmmEdge ⟨.MtoM, ⟨.src, a.child c, .normal⟩, ⟨.src, a, .normal⟩⟩
  | StoT {a b : Index} (hE : (⟨.StoT, ⟨.src, a, .parts⟩, ⟨.tgt, b, .parts⟩⟩ : Edge) ∈ edges) : FmmEdge ⟨.StoT, ⟨.src, a, .parts⟩, ⟨.tgt, b, .parts⟩⟩
  | MtoT {a b : Index} (hE : (⟨.MtoT, ⟨.src, a, .normal⟩, ⟨.tgt, b, .parts⟩⟩ : Edge) ∈ edges)
      (ht : ∀ t ∈ D.tgts b, T t ∧ Regular (t.sub (D.center a)) ∧ D.radius a.level < (t.sub (D.center a)).norm)
      (h : D.InRange ε ⟨.MtoT, ⟨.src, a, .normal⟩, ⟨.tgt, b, .parts⟩⟩) :
      FmmEdge ⟨.MtoT, ⟨.src, a, .normal⟩, ⟨.tgt, b, .parts⟩⟩
  | StoL {a b : Index} (hE : (⟨.StoL, ⟨.src, a, .parts⟩, ⟨.tgt, b, .normal⟩⟩ : Edge) ∈ edges) (hr : AllRegular (D.center b) (D.srcs a))
      (hd : ∀ q ∈ D.srcs a, D.reach b.level ≤ (q.pos.sub (D.center b)).norm)
      (h : D.InRange ε ⟨.StoL, ⟨.src, a, .parts⟩, ⟨.tgt, b, .normal⟩⟩) :
      FmmEdge ⟨.StoL, ⟨.src, a, .parts⟩, ⟨.tgt, b, .normal⟩⟩
  | LtoL {a : Index} (c : Fin 8) (h2 : 2 ≤ a.level) (h21 : a.level + 1 ≤ 21) (hT : ∀ t, T t → Regular (t.sub (D.center a)))
      (h : D.InRange ε ⟨.LtoL, ⟨.tgt, a, .normal⟩, ⟨.tgt, a.child c, .normal⟩⟩) : FmmEdge ⟨.LtoL, ⟨.tgt, a, .normal⟩, ⟨.tgt, a.child c, .normal⟩⟩
  | LtoT {a : Index} (ht : ∀ t ∈ D.tgts a, T t ∧ InCube D.dom a t ∧ Regular (t.sub (D.center a)))
      (h : D.InRange ε ⟨.LtoT, ⟨.tgt, a, .normal⟩, ⟨.tgt, a, .parts⟩⟩) :
      FmmEdge ⟨.LtoT, ⟨.tgt, a, .normal⟩, ⟨.tgt, a, .parts⟩⟩
  | MtoI {a : Index} (h21 : a.level ≤ 21) : FmmEdge ⟨.MtoI, ⟨.src, a, .normal⟩, ⟨.src, a, .interm⟩⟩
  | ItoI {k n : Index} (hE : (⟨.ItoI, ⟨.src, k, .interm⟩, ⟨.tgt, n, .interm⟩⟩ : Edge) ∈ edges) (h21 : n.level + 1 ≤ 21)
      (hw : WavesAccurate D.plane D.prop D.dom D.om D.p (n.level + 1) (δ (n.level + 1)) (G (n.level + 1)))
      (hn : Yukawa.NearParent n k) (hT : ∀ t, T t → Regular (t.sub (D.center k))) :
      FmmEdge ⟨.ItoI, ⟨.src, k, .interm⟩, ⟨.tgt, n, .interm⟩⟩
  | ItoL {a : Index} (c : Fin 8) (h21 : a.level + 1 ≤ 21) : FmmEdge ⟨.ItoL, ⟨.tgt, a, .interm⟩, ⟨.tgt, a.child c, .normal⟩⟩

/-- What a node holds, for a source leaf included. -/
def FGood (r : Ref) (x : HelmVal) (π : Prov) : Prop :=
  (r.side = .src → r.kind = .parts → π 0 = fun y => if y = r.ix then 1 else 0) ∧
  (¬ (r.side = .tgt ∧ r.kind = .parts) → FRel D ε δ G T edges r x π)

variable {D ε δ G T edges}

theorem radius_pos (hsz : 0 < D.dom.size) (lev : ℕ) : 0 < D.radius lev := by unfold HelmFmm.radius; positivity

theorem radius_double (D : HelmFmm) (lev : ℕ) : D.radius lev = D.radius (lev + 1) + D.radius (lev + 1) := by
  unfold HelmFmm.radius; rw [pow_succ]; field_simp; ring

theorem reach_pos (hsz : 0 < D.dom.size) (lev : ℕ) : 0 < D.reach lev := by unfold HelmFmm.reach Domain.sizeFromLevel; positivity

theorem toTargets_some (D : HelmFmm) {ix : Index} {f : Point ℝ → WithTop ℂ} {i : ℕ} {t : Point ℝ} (h : (D.tgts ix)[i]? = some t) :
    D.toTargets ix f i = f t := by
  simp only [HelmFmm.toTargets, h]

theorem valM_exact (hA : FAcc D ε) (ix : Index) (M : Coef) (hM : Proper M) (t : Point ℝ) (ht : Regular (t.sub (D.center ix))) :
    valM D ix M t = exactM D.om (D.scale ix) D.p M (t.sub (D.center ix)) := by
  rw [valM, exactM_eq D.om _ hA.om D.p M hM _ (clear_of_regular ht)]

/-- The growth of one translation. -/
def grow (D : HelmFmm) (ε : ℝ) (lev : ℕ) : ℝ := lToLGrowth D.om ε (D.radius (lev + 1)) (D.reach lev)

/-- The error of one translation. -/
def stepErr (D : HelmFmm) (ε : ℝ) (a : Index) (c : ℕ) (t : Point ℝ) : ℝ :=
  lToLBound D.p D.om ε (D.radius (a.level + 1))
    (t.sub (D.center (a.child c))).norm (t.sub (D.center a)).norm (D.reach a.level)

theorem downError_child {a b : Index} {c : ℕ} (hc : c < 8) (h : Ancestor b a) (μ : ℝ) (t : Point ℝ) :
    D.downError ε μ b (a.child c) t = D.downError ε μ b a t + D.sizeDown ε μ b (a.level - b.level) * stepErr D ε a c t := by
  have hl : (a.child c).level = a.level + 1 := rfl
  have h1 := h.1
  unfold HelmFmm.downError
  rw [hl, show a.level + 1 - b.level = a.level - b.level + 1 by omega, sum_range_succ]
  congr 1
  · refine sum_congr rfl fun j hj => ?_
    rw [mem_range] at hj
    rw [show a.level + 1 - (b.level + j + 1) = a.level - (b.level + j + 1) + 1 by omega, parent_child_succ a hc,
      show a.level + 1 - (b.level + j) = a.level - (b.level + j) + 1 by omega, parent_child_succ a hc]
  · have e : b.level + (a.level - b.level) = a.level := by omega
    rw [e, stepErr, Nat.sub_self, Index.parent_zero, show a.level + 1 - a.level = 0 + 1 by omega, parent_child_succ a hc, Index.parent_zero]

theorem sizeAt_child {a x : Index} {w : Way} {c : ℕ} (h : Way.Ok edges a x w) (hw : w.land ≠ none) :
    sizeAt D ε G (a.child c) (x, w) = sizeAt D ε G a (x, w) * grow D ε a.level := by
  obtain ⟨b, hb⟩ := Option.ne_none_iff_exists'.1 hw
  have h1 := (land_anc h hb).1
  have hl : (a.child c).level = a.level + 1 := rfl
  simp only [sizeAt, hb, hl]
  rw [show a.level + 1 - b.level = a.level - b.level + 1 by omega, HelmFmm.sizeDown, prod_range_succ, ← mul_assoc,
    show b.level + (a.level - b.level) = a.level by omega]
  rfl

theorem reachError_child {a x : Index} {w : Way} {c : ℕ} (hc : c < 8) (h : Way.Ok edges a x w) (hw : w.land ≠ none) (t : Point ℝ) :
    D.reachError ε δ G (a.child c) t (x, w) = D.reachError ε δ G a t (x, w) + sizeAt D ε G a (x, w) * stepErr D ε a c t := by
  cases w with
  | direct => exact absurd rfl hw
  | far a' => exact absurd rfl hw
  | near b =>
    simp only [HelmFmm.reachError, sizeAt, Way.land]
    rw [downError_child hc h.1]; ring
  | waves a' b =>
    simp only [HelmFmm.reachError, sizeAt, Way.land]
    rw [downError_child hc h.2.1]; ring

theorem evalError_land {ix x : Index} {w : Way} (hw : w.land ≠ none) (t : Point ℝ) :
    D.evalError ε G ix t (x, w) = sizeAt D ε G ix (x, w) * nearCost D.p ε (D.reach ix.level) (t.sub (D.center ix)).norm := by
  cases w with
  | direct => exact absurd rfl hw
  | far a' => exact absurd rfl hw
  | near b => rfl
  | waves a' b => rfl

theorem relM_leaf (hA : FAcc D ε) {a : Index} (hin : ∀ q ∈ D.srcs a, InCube D.dom a q.pos) (hr : AllRegular (D.center a) (D.srcs a))
    (hT : ∀ t, T t → Regular (t.sub (D.center a))) (h : D.InRange ε ⟨.StoM, ⟨.src, a, .parts⟩, ⟨.src, a, .normal⟩⟩) :
    RelM D ε T a (sToM D.J D.om D.p (D.center a) (D.scale a) (D.srcs a)) fun y => if y = a then 1 else 0 := by
  have hsc := scale_pos hA a
  obtain ⟨M, hM⟩ := helm_sToM_some D.J D.om D.p (D.scale a) (D.center a) (D.srcs a) hr
  have hin : ∀ q ∈ D.srcs a, (q.pos.sub (D.center a)).norm ≤ D.radius a.level := fun q hq =>
    inBox_norm hA.size (hin q hq)
  have hMp := helm_sToM_proper D.J D.om D.p (D.scale a) (D.center a) (D.srcs a) M hM
  refine ⟨M, [a], hM, hMp, count_single a, ?_, ?_, ?_⟩
  · intro y hy
    rw [List.mem_singleton.1 hy]
    exact anc_self a
  · have := (multipoleSize_iff _ _ _ hA.om hsc _ _ _).1
      (helm_sToM_size D.J D.om hA.om D.p (D.scale a) hsc (D.center a) ε _ (D.srcs a) hin (h.StoM rfl) M hM)
    simpa [HelmFmm.sizeUp] using this
  · intro t ht hr'
    have hreg := hT t ht
    have key := multipole_exact D.J D.om hA.om D.p (D.scale a) hsc (D.center a) (D.srcs a) hr t hreg
      (fun q hq => (hin q hq).trans_lt hr') _ (h.StoM rfl) M hM
    rw [← valM_exact hA a M hMp t hreg] at key
    simpa [HelmFmm.pathError] using key

theorem relM_up (hA : FAcc D ε) {a : Index} (c : Fin 8) (h2 : 2 ≤ a.level) (h21 : a.level + 1 ≤ 21)
    (hJ : GoodTab D.J D.p ε (D.om * D.radius (a.level + 1))) {v : WithTop Coef} {π : Index → ℕ} (h : RelM D ε T (a.child c) v π) :
    RelM D ε T a (Option.bind v (mToM D.J D.dom.size D.om D.p (a.child c).whichChild (D.scale (a.child c)))) π := by
  have hsz := hA.size
  have hl := hA.om
  have hs0 := helm_scale0_pos D.dom.size D.om hsz hl
  obtain ⟨M, X, e1, p1, c1, a1, b1, v1⟩ := h
  have hlv : (a.child c).level = a.level + 1 := rfl
  have e2 : 2 * D.scale (a.child c) = D.scale a := by
    simp only [HelmFmm.scale, hlv, helm_scaleOf_half]; ring
  have hanc : ∀ y ∈ X, Ancestor a y ∧ y.level - a.level = y.level - (a.child c).level + 1 := fun y hy => anc_child c.2 (a1 y hy)
  have hlev : ∀ y ∈ X, y.level - (y.level - (a.child c).level) = a.level + 1 := fun y hy => by
    have := (a1 y hy).1; omega
  refine ⟨tr D.p (m2m D.J D.dom.size D.om D.p (a.level + 1)) (tabAlpha c * (Real.pi / 4)) (childCos c) M, X, ?_,
    helm_mToM_proper D.J D.dom.size D.om hl hs0 D.p _ _ _ M p1, c1, fun y hy => (hanc y hy).1, ?_, ?_⟩
  · rw [e1, Index.whichChild_child a c c.2]
    exact helm_mToM_eq D.J D.dom.size D.om hs0 D.p (a.level + 1) c (by omega) h21 M
  · intro n hn
    have key := mToM_bd D.J ε D.dom.size D.om hsz hl hs0 D.p (a.level + 1) (tabAlpha c * (Real.pi / 4)) (childCos c) M p1
      _ _ (radius_pos hsz (a.level + 1)).le b1 (D.radius (a.level + 1)) rfl hJ n hn
    have e3 : 2 * scaleOf D.dom.size D.om (a.level + 1) = D.scale a := e2
    have e4 : (X.map fun y => D.sizeUp ε y (y.level - a.level)).sum =
        (X.map fun y => D.sizeUp ε y (y.level - (a.child c).level)).sum *
          mToMGrowth D.om ε (D.radius (a.level + 1)) (D.radius (a.level + 1)) := by
      refine map_sum_mul _ _ _ _ fun y hy => ?_
      rw [(hanc y hy).2, HelmFmm.sizeUp, prod_range_succ, ← mul_assoc, hlev y hy]; rfl
    rw [e3] at key
    rw [e4, radius_double D a.level]
    exact key
  · intro t ht hr
    have hc : (D.radius (a.level + 1) : ℝ) = ((D.center (a.child c)).sub (D.center a)).norm := C98_shift_distance D.dom hsz a c
    have hr' : D.radius (a.child c).level < (t.sub (D.center (a.child c))).norm := by
      have h1 := sub_norm_le t (D.center (a.child c)) (D.center a)
      rw [← hc] at h1
      rw [radius_double] at hr
      rw [hlv]; linarith
    have hv := v1 t ht hr'
    have key := mToM_error D.J ε D.dom.size D.om hsz hl hs0 D.p (a.level + 1) c c.2 M p1
      _ _ (radius_pos hsz (a.level + 1)).le b1 (D.radius (a.level + 1)) rfl hJ (t.sub (D.center a)) (by rw [radius_double] at hr; exact hr)
    have e3 : 2 * scaleOf D.dom.size D.om (a.level + 1) = D.scale a := e2
    have e5 : padd (t.sub (D.center a)) (psmul (-(D.dom.size / 2 ^ (a.level + 1))) (off c)) = t.sub (D.center (a.child c)) := by
      simp only [HelmFmm.center]
      rw [child_at D.dom hsz a c c.2]
      simp only [padd, psmul, Point.sub]
      congr 1 <;> ring
    rw [e5, e3] at key
    set N := tr D.p (m2m D.J D.dom.size D.om D.p (a.level + 1)) (tabAlpha c * (Real.pi / 4)) (childCos c) M with hN
    have hd : ‖valM D a N t - valM D (a.child c) M t‖ ≤
        (X.map fun y => D.sizeUp ε y (y.level - (a.child c).level)).sum *
          mToMBound D.p D.om ε (D.radius (a.level + 1)) (D.radius (a.level + 1)) (t.sub (D.center a)).norm := by
      rw [valM, valM, ← sub_div, norm_div, norm_mul, Complex.norm_I, one_mul, Complex.norm_real, Real.norm_of_nonneg hl.le]
      refine (div_le_div_of_nonneg_right key hl.le).trans_eq ?_
      rw [mToMBound, hlv]; ring
    have e4 : (X.map fun y => D.pathError ε y t (y.level - a.level)).sum =
        (X.map fun y => D.pathError ε y t (y.level - (a.child c).level)).sum +
        (X.map fun y => D.sizeUp ε y (y.level - (a.child c).level)).sum *
          mToMBound D.p D.om ε (D.radius (a.level + 1)) (D.radius (a.level + 1)) (t.sub (D.center a)).norm := by
      refine map_sum_add_mul _ _ _ _ _ fun y hy => ?_
      have hp := (hanc y hy).1.2
      rw [(hanc y hy).2] at hp ⊢
      rw [HelmFmm.pathError, sum_range_succ, ← add_assoc, hlev y hy, hp]; rfl
    rw [e4]
    have : valM D a N t - (X.map fun y => field D.om (D.srcs y) t).sum =
      (valM D (a.child c) M t - (X.map fun y => field D.om (D.srcs y) t).sum) + (valM D a N t - valM D (a.child c) M t) := by ring
    rw [this]
    exact (norm_add_le _ _).trans (add_le_add hv hd)

theorem localSize_mono {p : ℕ} {om scale : ℝ} (ho : 0 ≤ om) (hs : 0 < scale) {C : LCoef} {μ d d' : ℝ} (h : LocalSize p om scale C μ d)
    (hd : 0 < d') (hdd : d' ≤ d) : LocalSize p om scale C μ d' := by
  have h0 : 0 ≤ μ := by
    have h1 := h 0 (Nat.zero_le _)
    rw [pow_zero, pow_zero, div_one] at h1
    exact le_trans (by unfold localDegreeSize; positivity) h1
  exact fun n hn => (h n hn).trans (div_le_div_of_nonneg_left h0 (pow_pos hd n) (pow_le_pow_left₀ hd.le hdd n))

theorem relL_down (hA : FAcc D ε) {a : Index} (c : Fin 8) (h2 : 2 ≤ a.level) (h21 : a.level + 1 ≤ 21) (hT : ∀ t, T t → Regular (t.sub (D.center a)))
    (hJ : GoodTab D.J D.p ε (D.om * D.radius (a.level + 1))) {v : WithTop LCoef}
    {π : Index → ℕ} (h : RelL D ε δ G T edges a v π) :
    RelL D ε δ G T edges (a.child c)
      (Option.bind v (lToL D.J D.dom.size D.om D.p (a.child c).whichChild (D.scale a))) π := by
  have hsz := hA.size
  have hl := hA.om
  have hs0 := helm_scale0_pos D.dom.size D.om hsz hl
  obtain ⟨C, W, e1, c1, a1, b1, v1⟩ := h
  set S := D.dom.size / 2 ^ a.level with hS
  have hSp : 0 < S := by positivity
  have hρ : D.radius (a.level + 1) = √3 / 4 * S := by rw [HelmFmm.radius, hS, pow_succ]; field_simp; ring
  have hd : D.reach a.level = 3 / 2 * S := rfl
  have hd' : D.reach (a.level + 1) = 3 / 4 * S := by rw [HelmFmm.reach, Domain.sizeFromLevel, hS, pow_succ]; field_simp; ring
  have h3 := sqrt3_hi
  have hsc : D.scale (a.child c) = scaleOf D.dom.size D.om a.level / 2 := helm_scaleOf_half _ _ _
  have hlv : (a.child c).level = a.level + 1 := rfl
  have hgrow : (W.map (sizeAt D ε G (a.child c))).sum = (W.map (sizeAt D ε G a)).sum * grow D ε a.level :=
    map_sum_mul _ _ _ _ fun y hy => sizeAt_child (a1 y hy).1 (a1 y hy).2
  have hρd : D.radius (a.level + 1) < D.reach a.level := by rw [hρ, hd]; nlinarith
  refine ⟨trL D.p (l2l D.J D.dom.size D.om D.p a.level) ((([5, 7, 3, 1, 5, 7, 3, 1].getD c 0 : ℕ) : ℝ) * (Real.pi / 4)) (-childCos c) C, W, ?_,
    c1, fun y hy => ⟨ok_down c.2 (a1 y hy).1 (a1 y hy).2, (a1 y hy).2⟩, ?_, ?_⟩
  · rw [e1, Index.whichChild_child a c c.2]
    exact helm_lToL_eq D.J D.dom.size D.om hs0 D.p a.level c h2 (by omega) C
  · have key := lToL_bd D.J ε D.dom.size D.om hsz hl hs0 D.p a.level
      ((([5, 7, 3, 1, 5, 7, 3, 1].getD c 0 : ℕ) : ℝ) * (Real.pi / 4)) (-childCos c) C _ _ b1 (D.radius (a.level + 1)) hρ hρd hJ
    rw [← hsc] at key
    rw [hgrow, hlv]
    refine localSize_mono hl.le (scale_pos hA _) key (reach_pos hsz _) ?_
    rw [hd', hd, hρ]; nlinarith
  · intro t ht hr hin
    have hreg := hT t ht
    have hin' := inBox_child hsz c.2 hin
    have hv := v1 t ht hreg hin'
    have hn1 : (t.sub (D.center (a.child c))).norm ≤ √3 / 4 * S := by
      have := inBox_norm hsz hin
      rw [hlv] at this
      refine this.trans_eq ?_
      rw [← hρ]; rfl
    have key := lToL_error D.J ε D.dom.size D.om hsz hl hs0 D.p a.level c c.2 C _ _ (reach_pos hsz a.level) b1
      (D.radius (a.level + 1)) hρ hJ (t.sub (D.center (a.child c))) (t.sub (D.center a)) (by
        simp only [HelmFmm.center]
        rw [child_at D.dom hsz a c c.2]
        simp only [padd, psmul, Point.sub]
        rw [pow_succ]
        congr 1 <;> ring) (clear_of_regular hr) (clear_of_regular hreg) (by rw [hρ, hd]; nlinarith)
    rw [← hsc] at key
    rw [map_sum_add_mul W (sizeAt D ε G a) (D.reachError ε δ G a t) (D.reachError ε δ G (a.child c) t) _
      fun y hy => reachError_child c.2 (a1 y hy).1 (a1 y hy).2 t]
    set N := valL D (a.child c) (trL D.p (l2l D.J D.dom.size D.om D.p a.level) ((([5, 7, 3, 1, 5, 7, 3, 1].getD c 0 : ℕ) : ℝ) * (Real.pi / 4)) (-childCos c) C) t
    rw [show N - (W.map fun y => field D.om (D.srcs y.1) t).sum =
      (valL D a C t - (W.map fun y => field D.om (D.srcs y.1) t).sum) + (N - valL D a C t) by ring]
    exact (norm_add_le _ _).trans (add_le_add hv key)

theorem relL_waves (hA : FAcc D ε) {k n : Index} (hE : (⟨.ItoI, ⟨.src, k, .interm⟩, ⟨.tgt, n, .interm⟩⟩ : Edge) ∈ edges) (h21 : n.level + 1 ≤ 21)
    (hw : WavesAccurate D.plane D.prop D.dom D.om D.p (n.level + 1) (δ (n.level + 1)) (G (n.level + 1)))
    (hn : Yukawa.NearParent n k) (hT : ∀ t, T t → Regular (t.sub (D.center k))) {M : Coef} {ρ : Index → ℕ}
    (h : RelM D ε T k (M : WithTop Coef) ρ) {c : ℕ} (hc : c < 8) (hs : Separated k (n.child c)) :
    RelL D ε δ G T edges (n.child c) ((oneVal D.plane D.prop D.dom.size D.om D.p n c k M : LCoef) : WithTop LCoef) ρ := by
  have hA0 := hA
  obtain ⟨hsz, hl, hom, ⟨dg, hT0⟩, hQ, hε⟩ := hA0
  obtain ⟨M', X, e1, p1, c1, a1, b1, v1⟩ := h
  obtain rfl := WithTop.coe_inj.1 e1
  have hkl : k.level = n.level + 1 := hn.1
  have hlv : (n.child c).level = n.level + 1 := rfl
  have hsc : D.scale k = scaleOf D.dom.size D.om (n.level + 1) := by rw [HelmFmm.scale, hkl]
  have hscp : 0 < scaleOf D.dom.size D.om (n.level + 1) := helm_scaleOf_pos D.dom.size D.om hsz hl _
  set μ := (X.map fun x => D.sizeUp ε x (x.level - k.level)).sum with hμ
  obtain ⟨C, hC, hL, hV⟩ := hw n k c rfl hn hc hs M μ p1 ((multipoleSize_iff _ _ _ hl hscp _ _ _).2 (by
    intro j hj
    have := b1 j hj
    rw [hsc, hkl] at this
    exact this))
  rw [oneBox_eq hT0 D.prop hQ D.dom hsz hl hom D.p n h21 k hn c hc M] at hC
  rw [Option.some.inj hC]
  refine ⟨C, X.map fun x => (x, Way.waves k (n.child c)), rfl, fun y => ?_, fun y hy => ?_, ?_, fun t ht hr hin => ?_⟩
  · rw [List.map_map, ← c1 y]
    congr 1
    exact List.map_id _
  · obtain ⟨z, hz, rfl⟩ := List.mem_map.1 hy
    refine ⟨⟨a1 z hz, anc_self _, hkl, hs, ?_⟩, by simp [Way.land]⟩
    rw [show (n.child c).parent = n from Index.parent_child n c hc]
    exact hE
  · have e : ((X.map fun x => (x, Way.waves k (n.child c))).map (sizeAt D ε G (n.child c))).sum = G (n.level + 1) * μ := by
      rw [List.map_map, mul_comm]
      refine map_sum_mul _ _ _ _ fun y _ => ?_
      simp only [Function.comp, sizeAt, Way.land, Nat.sub_self, HelmFmm.sizeDown, HelmFmm.landSize, range_zero, prod_empty, mul_one]
      rw [hlv, mul_comm]
    rw [e]
    exact hL
  · have hrk := hT t ht
    have hve := hV t hin hr hrk
    rw [localValue_clear D.p D.om _ C (t.sub (D.dom.centerFromIndex (n.child c))) hr,
      multipoleValue_clear D.p D.om _ M (t.sub (D.dom.centerFromIndex k)) hrk] at hve
    have hm := valM_exact hA k M p1 t hrk
    rw [hsc] at hm
    rw [show D.dom.centerFromIndex k = D.center k from rfl, ← hm] at hve
    have hve : ‖valL D (n.child c) C t - valM D k M t‖ ≤ δ (n.level + 1) * μ := hve
    have hfar : D.radius k.level < (t.sub (D.center k)).norm := by
      have h1 := sep_point hsz (by rw [hlv, hkl]) hs hin
      have h2 : D.radius k.level = √3 / 2 * D.dom.sizeFromLevel k.level := rfl
      have h3 := sqrt3_hi
      have h4 : 0 < D.dom.sizeFromLevel k.level := by unfold Domain.sizeFromLevel; positivity
      rw [h2]
      exact lt_of_lt_of_le (by nlinarith) h1
    have hx := v1 t ht hfar
    have e2 : ((X.map fun x => (x, Way.waves k (n.child c))).map (D.reachError ε δ G (n.child c) t)).sum =
        (X.map fun x => D.pathError ε x t (x.level - k.level)).sum + μ * δ (n.level + 1) := by
      rw [List.map_map]
      refine map_sum_add_mul _ _ _ _ _ fun y _ => ?_
      simp only [Function.comp, HelmFmm.reachError, HelmFmm.downError, Nat.sub_self, range_zero, sum_empty, add_zero]
      rw [hlv, mul_comm]
    rw [e2, List.map_map]
    rw [show valL D (n.child c) C t - (X.map ((fun y : Index × Way => field D.om (D.srcs y.1) t) ∘ fun x => (x, Way.waves k (n.child c)))).sum =
      (valM D k M t - (X.map fun x => field D.om (D.srcs x) t).sum) + (valL D (n.child c) C t - valM D k M t) by
        simp only [Function.comp_def]; ring]
    exact (norm_add_le _ _).trans (add_le_add hx (hve.trans_eq (mul_comm _ _)))

theorem farthest_le (c : Point ℝ) : ∀ (srcs : List Src), ∀ s ∈ srcs, (s.pos.sub c).norm ≤ farthest c srcs
  | q :: l, s, hs => by
    rw [farthest, List.foldr_cons]
    rcases List.mem_cons.1 hs with rfl | h
    · exact le_max_left _ _
    · exact (farthest_le c l s h).trans (le_max_right _ _)

theorem relL_near (hA : FAcc D ε) {a b : Index} (hE : (⟨.StoL, ⟨.src, a, .parts⟩, ⟨.tgt, b, .normal⟩⟩ : Edge) ∈ edges) (hr : AllRegular (D.center b) (D.srcs a))
    (hd : ∀ q ∈ D.srcs a, D.reach b.level ≤ (q.pos.sub (D.center b)).norm) (h : D.InRange ε ⟨.StoL, ⟨.src, a, .parts⟩, ⟨.tgt, b, .normal⟩⟩) :
    RelL D ε δ G T edges b (sToL D.J D.Y D.om D.p (D.center b) (D.scale b) (D.srcs a)) fun y => if y = a then 1 else 0 := by
  have hsc := scale_pos hA b
  have hsz := hA.size
  obtain ⟨L, hL, hv⟩ := local_exact D.J D.Y D.om hA.om D.p (D.scale b) hsc (D.center b) (D.srcs a) hr _ (h.StoL rfl)
  refine ⟨L, [(a, .near b)], hL, count_single a, fun y hy => ?_, ?_, fun t ht hr' hin => ?_⟩
  · rw [List.mem_singleton.1 hy]; exact ⟨⟨anc_self b, hE⟩, by simp [Way.land]⟩
  · have := helm_sToL_size D.J D.Y D.om hA.om D.p (D.scale b) hsc (D.center b) ε _ _ (reach_pos hsz b.level) (D.srcs a) hr
      (fun q hq => ⟨hd q hq, farthest_le _ _ q hq⟩) (h.StoL rfl) L hL
    simpa [sizeAt, Way.land, HelmFmm.sizeDown, HelmFmm.landSize] using this
  · have hS : 0 < D.dom.sizeFromLevel b.level := by unfold Domain.sizeFromLevel; positivity
    have hn := inBox_norm hsz hin
    have h3 := sqrt3_hi
    have hlt : (t.sub (D.center b)).norm < D.reach b.level := lt_of_le_of_lt hn (by
      rw [HelmFmm.reach]; nlinarith)
    have hve := hv t hr' fun q hq => hlt.trans_le (hd q hq)
    simpa [HelmFmm.reachError, HelmFmm.downError, valL] using hve

end
end Dashmm.Helm
