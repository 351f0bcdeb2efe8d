import Verif.Proofs.HelmBox
import Verif.Proofs.HelmSrc
import Verif.Proofs.YukFmmEval
import Verif.Props.HelmShift
import Verif.Spec.HelmFmm

/-!
The numbers an evaluation with the Helmholtz kernel and FMM97 computes, node by node.
-/

namespace Dashmm.Helm

open Finset Harm Lap Bessel Wave Waves
open scoped Nat
open YukFmm (arrays ofArrays ofMade)
open Yuk hiding boxVal levViews sixL iVal oneBox_eq box_spec RelM RelL RelS RelI FRelT FRel FAcc FmmEdge FGood sizeAt grow stepErr mToM_error mToM_bd lToL_error lToL_bd boxVal_lin boxVal_none levViews_lin sixL_lin sixL_congr iVal_spec multipole_error local_error toTargets_some

noncomputable section

/-! ### One box -/

/-- The numbers of entries that are added to the tables of a level. -/
def ex (om size : ℝ) (lev : ℕ) : ℕ × ℕ := (extra om (unitsAt om size lev)).getD (0, 0)

theorem ex_some {om size : ℝ} (ho : 0 < om) (hs : 0 < size) (h : om ≤ 10 ∨ om * size ≤ 1 / 8) (lev : ℕ) :
    extra om (unitsAt om size lev) = some (ex om size lev) := by
  obtain ⟨C, hC⟩ := extra_some ho hs h lev
  rw [ex, hC]; rfl

/-- The plane waves of a level. -/
def lv (T : PlaneTable) (Q : PropRule) (size om : ℝ) (lev : ℕ) : Level × Level := lvl T Q (unitsAt om size lev) (ex om size lev)

theorem wavesAt_lv (T : PlaneTable) (Q : PropRule) {om size : ℝ} (ho : 0 < om) (hs : 0 < size) (h : om ≤ 10 ∨ om * size ≤ 1 / 8) (lev : ℕ) :
    wavesAt T Q size om lev = some (lv T Q size om lev) := by
  rw [wavesAt, ex_some ho hs h]; rfl

/-- What becomes of the multipole expansion of the box `k` at the child number `c` of `n`. -/
def oneVal (T : PlaneTable) (Q : PropRule) (size om : ℝ) (p : ℕ) (n : Index) (c : ℕ) (k : Index) (M : Coef) : LCoef :=
  boxVal T Q (lv T Q size om (n.level + 1)) size om (unitsAt om size (n.level + 1)) (scaleOf size om (n.level + 1)) p c
    ((k.x : ℤ) - 2 * n.x) ((k.y : ℤ) - 2 * n.y) ((k.z : ℤ) - 2 * n.z) M

/-- The views of a multipole expansion. -/
def views (T : PlaneTable) (Q : PropRule) (size om : ℝ) (p lev : ℕ) (M : Coef) : (ℕ → List ℂ) × (ℕ → List ℂ) :=
  levViews T Q (lv T Q size om lev) (unitsAt om size lev) (scaleOf size om lev) p M

/-- The local expansion of views. -/
def iv (T : PlaneTable) (Q : PropRule) (size om : ℝ) (lev c : ℕ) (E : WaveViews × WaveViews) : LCoef :=
  iVal T Q size om ((lv T Q size om lev).1.nexp, (lv T Q size om lev).2.nexp) lev c E

theorem mToI_views {dg : ℤ} {T : PlaneTable} (hT : waveBase dg = some T) (Q : PropRule) (hQ : ∀ k < Q.s, 0 ≤ Q.x k ∧ Q.x k ≤ Real.pi)
    {size om : ℝ} (hs : 0 < size) (ho : 0 < om) (hom : om ≤ 10 ∨ om * size ≤ 1 / 8) (lev : ℕ) (hlev : lev ≤ 21) (p : ℕ) (M : Coef) :
    mToI T Q size om p (scaleOf size om lev) M = some (views T Q size om p lev M) :=
  mToI_arr hT Q hQ hs ho hom lev hlev (ex_some ho hs hom lev) p M

theorem views_length (T : PlaneTable) (Q : PropRule) (size om : ℝ) (p lev : ℕ) (M : Coef) :
    (∀ v, ((views T Q size om p lev M).1 v).length = (lv T Q size om lev).1.nexp) ∧
    ∀ v, ((views T Q size om p lev M).2 v).length = (lv T Q size om lev).2.nexp :=
  ⟨fun _ => (arrayOf_at _ _ _).1, fun _ => (arrayOf_at _ _ _).1⟩

theorem iv_spec {dg : ℤ} {T : PlaneTable} (hT : waveBase dg = some T) (Q : PropRule)
    {size om : ℝ} (hs : 0 < size) (ho : 0 < om) (hom : om ≤ 10 ∨ om * size ≤ 1 / 8) (lev : ℕ) (hlev : lev + 1 ≤ 21) (c : ℕ) (hc : c < 8) :
    (∀ E : WaveViews × WaveViews, iToL T Q size om (scaleOf size om lev) c (arrays (lv T Q size om lev).1.nexp E.1)
      (arrays (lv T Q size om lev).2.nexp E.2) = some (iv T Q size om lev c E)) ∧
    ∀ (a : ℝ) (E E' : WaveViews × WaveViews), iv T Q size om lev c (a • E + E') = a • iv T Q size om lev c E + iv T Q size om lev c E' :=
  iVal_spec hT Q hs ho hom lev hlev (ex_some ho hs hom lev) (ex_some ho hs hom (lev + 1)) c hc

theorem box_spec {dg : ℤ} {T : PlaneTable} (hT : waveBase dg = some T) (Q : PropRule)
    {size om : ℝ} (hs : 0 < size) (ho : 0 < om) (hom : om ≤ 10 ∨ om * size ≤ 1 / 8) (n : Index) (hlev : n.level + 1 ≤ 21) (p : ℕ)
    (k : Index) (hk : Yukawa.NearParent n k) (M : Coef) :
    ∃ vs, iToI T Q size om (scaleOf size om (n.level + 1)) ((k.x : ℤ) - 2 * n.x) ((k.y : ℤ) - 2 * n.y) ((k.z : ℤ) - 2 * n.z)
        (views T Q size om p (n.level + 1) M) = some vs ∧
      ((∀ q ∈ vs.1, q.2.length ≤ (lv T Q size om n.level).1.nexp) ∧ ∀ q ∈ vs.2, q.2.length ≤ (lv T Q size om n.level).2.nexp) ∧
      ∀ c < 8, iv T Q size om n.level c (ofMade vs.1, ofMade vs.2) = oneVal T Q size om p n c k M :=
  made_spec hT Q hs ho hom n.level hlev (ex_some ho hs hom n.level) (ex_some ho hs hom (n.level + 1)) p _ _ _ hk.2.1 hk.2.2.1 hk.2.2.2 M

theorem oneBox_eq {dg : ℤ} {T : PlaneTable} (hT : waveBase dg = some T) (Q : PropRule) (hQ : ∀ k < Q.s, 0 ≤ Q.x k ∧ Q.x k ≤ Real.pi) (d : Domain ℝ)
    {om : ℝ} (hs : 0 < d.size) (ho : 0 < om) (hom : om ≤ 10 ∨ om * d.size ≤ 1 / 8) (p : ℕ) (n : Index) (hlev : n.level + 1 ≤ 21) (k : Index)
    (hk : Yukawa.NearParent n k) (c : ℕ) (hc : c < 8) (M : Coef) :
    oneBox T Q d om p n c k M = some (oneVal T Q d.size om p n c k M) := by
  obtain ⟨vs, h1, h2, h3⟩ := box_spec hT Q hs ho hom n hlev p k hk M
  have h4 := (iv_spec hT Q hs ho hom n.level hlev c hc).1 (ofMade vs.1, ofMade vs.2)
  rw [oneBox]
  show (mToI T Q d.size om p (scaleOf d.size om (n.level + 1)) M).bind _ = _
  rw [mToI_views hT Q hQ hs ho hom (n.level + 1) hlev, Option.bind_some]
  show (iToI _ _ _ _ _ _ _ _ _).bind _ = _
  rw [h1, Option.bind_some]
  show (wavesAt T Q d.size om n.level).bind _ = _
  rw [wavesAt_lv T Q ho hs hom, Option.bind_some]
  show (addViews _ _).bind _ = _
  rw [addViews_made vs.1 h2.1, Option.bind_some]
  show (addViews _ _).bind _ = _
  rw [addViews_made vs.2 h2.2, Option.bind_some, h4, h3 c hc]

/-! ### The expansions of charges, evaluated with exact functions -/

theorem multipole_exact (J : Table) (om : ℝ) (ho : 0 < om) (p : ℕ) (scale : ℝ) (hs : 0 < scale) (c : Point ℝ) (srcs : List Src)
    (hc : AllRegular c srcs) (t : Point ℝ) (ht : Regular (t.sub c)) (hfar : ∀ s ∈ srcs, (s.pos.sub c).norm < (t.sub c).norm)
    (α : Src → ℕ → ℝ)
    (hJ : ∀ s ∈ srcs, NearJ p (om * (s.pos.sub c).norm) scale (α s) (jnScaled J p (om * (s.pos.sub c).norm) scale))
    (M : Coef) (hM : sToM J om p c scale srcs = some M) :
    ‖exactM om scale p M (t.sub c) - field om srcs t‖ ≤ (srcs.map fun s => |s.charge| *
      (truncation p om (s.pos.sub c).norm (t.sub c).norm +
        functionError p om scale (s.pos.sub c).norm (t.sub c).norm (α s) 0)).sum := by
  have ht' := clear_of_regular ht
  rw [exactM, evalM_sources J om p c scale (t.sub c) _ srcs M hM]
  refine field_error _ _ _ _ _ fun s hs' => ?_
  have hd : (t.sub s.pos) = (t.sub c).sub (s.pos.sub c) := (psub_center _ _ _).symm
  refine ⟨by rw [hd]; exact dist_ne _ _ (hfar s hs').ne, ?_⟩
  have key := helm_radial_error om ho p scale _ _ (dot (dir (s.pos.sub c)) (dir (t.sub c))) hs (norm_nonneg' _) (hfar s hs')
    (dot_dir_le _ _) (α s) 0 _ (fun n => scale ^ n * sphH n (om * (t.sub c).norm)) (hJ s hs') fun n _ => by simp
  rw [← dist_clear _ _ (clear_of_regular (hc s hs')) ht', ← hd] at key
  exact key

theorem local_exact (J Y : Table) (om : ℝ) (ho : 0 < om) (p : ℕ) (scale : ℝ) (hs : 0 < scale) (c : Point ℝ) (srcs : List Src)
    (hc : AllRegular c srcs) (β : Src → ℕ → ℝ)
    (hH : ∀ s ∈ srcs, NearH p (om * (s.pos.sub c).norm) scale (β s) (hn J Y p (om * (s.pos.sub c).norm) scale)) :
    ∃ L, sToL J Y om p c scale srcs = some L ∧ ∀ t : Point ℝ, Regular (t.sub c) → (∀ s ∈ srcs, (t.sub c).norm < (s.pos.sub c).norm) →
      ‖exactL om scale p L (t.sub c) - field om srcs t‖ ≤ (srcs.map fun s => |s.charge| *
        (truncation p om (t.sub c).norm (s.pos.sub c).norm +
          functionError p om scale (t.sub c).norm (s.pos.sub c).norm 0 (β s))).sum := by
  obtain ⟨L, hL, -⟩ := evalL_sources J Y om p c scale c (fun _ => 0) srcs hc
  refine ⟨L, hL, fun t ht hfar => ?_⟩
  have ht' := clear_of_regular ht
  obtain ⟨L', hL', hv⟩ := evalL_sources J Y om p c scale (t.sub c) (fun n => sphJ n (om * (t.sub c).norm) / scale ^ n) srcs hc
  obtain rfl : L = L' := by rw [hL] at hL'; exact Option.some.inj hL'
  rw [exactL, hv]
  refine field_error _ _ _ _ _ fun s hs' => ?_
  have hd : (t.sub s.pos) = (t.sub c).sub (s.pos.sub c) := (psub_center _ _ _).symm
  refine ⟨by rw [hd]; exact dist_ne _ _ (hfar s hs').ne', ?_⟩
  have key := helm_radial_error om ho p scale _ _ (dot (dir (s.pos.sub c)) (dir (t.sub c))) hs (norm_nonneg' _) (hfar s hs')
    (dot_dir_le _ _) 0 (β s) (fun n => sphJ n (om * (t.sub c).norm) / scale ^ n) _ (fun n _ => by simp) (hH s hs')
  have hR : (t.sub s.pos).norm = √((s.pos.sub c).norm ^ 2 - 2 * ((s.pos.sub c).norm * (t.sub c).norm *
      dot (dir (s.pos.sub c)) (dir (t.sub c))) + (t.sub c).norm ^ 2) := by
    rw [hd, dist_clear _ _ (clear_of_regular (hc s hs')) ht']; ring_nf
  rw [← hR] at key
  refine le_of_eq_of_le ?_ key
  congr 2
  exact sum_congr rfl fun n _ => by ring

theorem multipoleValue_clear (p : ℕ) (om scale : ℝ) (M : Coef) (v : Point ℝ) (hv : Regular v) : multipoleValue p om scale M v = exactM om scale p M v := by
  rw [multipoleValue, ephi_eq _ (clear_of_regular hv).ne]; rfl

theorem localValue_clear (p : ℕ) (om scale : ℝ) (C : LCoef) (v : Point ℝ) (hv : Regular v) : localValue p om scale C v = exactL om scale p C v := by
  rw [localValue, ephi_eq _ (clear_of_regular hv).ne]; rfl

theorem exactL_add (om scale : ℝ) (p : ℕ) (A B : LCoef) (v : Point ℝ) : exactL om scale p (A + B) v = exactL om scale p A v + exactL om scale p B v :=
  evalL_add p A B _ _ _

theorem exactL_zero (om scale : ℝ) (p : ℕ) (v : Point ℝ) : exactL om scale p 0 v = 0 := by
  have := exactL_add om scale p 0 0 v
  rw [add_zero] at this
  exact left_eq_add.1 this

/-- The errors of the functions at a target. -/
theorem far_cost {p : ℕ} {om ε scale μ R r : ℝ} (ho : 0 < om) (hs : 0 < scale) (hr : 0 < r) (hε : 0 ≤ ε) (M : Coef)
    (hM : Yukawa.MultipoleSize p om scale M μ R) :
    ∑ n ∈ range (p + 1), errH ε scale (om * r) n * Yukawa.degreeSize M n ≤ μ * farCost p om ε R r := by
  rw [farCost, ← mul_assoc, mul_sum]
  refine sum_le_sum fun n hn => ?_
  have h := hM n (by have := mem_range.1 hn; omega)
  have e : errH ε scale (om * r) n * Yukawa.degreeSize M n =
      ε / (om * r ^ (n + 1)) * (((2 * n - 1)‼ : ℕ) * (scale / om) ^ n * Yukawa.degreeSize M n) := by
    rw [errH, mul_pow, div_pow]; field_simp; ring
  rw [e]
  refine (mul_le_mul_of_nonneg_left h (by positivity)).trans_eq ?_
  rw [div_pow, pow_succ]; field_simp

theorem near_cost {p : ℕ} {om ε scale μ d r : ℝ} (hs : 0 < scale) (hr : 0 ≤ r) (hε : 0 ≤ ε) (L : LCoef) (hL : LocalSize p om scale L μ d) :
    ∑ n ∈ range (p + 1), errJ ε scale (om * r) n * localDegreeSize L n ≤ μ * nearCost p ε d r := by
  rw [nearCost, mul_sum, mul_sum]
  refine sum_le_sum fun n hn => ?_
  have h := hL n (by have := mem_range.1 hn; omega)
  have e : errJ ε scale (om * r) n * localDegreeSize L n = ε * r ^ n * ((om / scale) ^ n / ((2 * n + 1)‼ : ℕ) * localDegreeSize L n) := by
    rw [errJ, mul_div_right_comm, mul_pow]; ring
  rw [e]
  refine (mul_le_mul_of_nonneg_left h (by positivity)).trans_eq ?_
  rw [div_pow]; ring

end
end Dashmm.Helm
