import Verif.Proofs.YukViews
import Verif.Proofs.YukPlane
import Verif.Spec.YukFmm

/-!
# Plane waves from one source box
-/

namespace Dashmm.Yuk

open Harm Lap Waves
open Complex (I)
open YukFmm (arrays ofArrays ofMade)

noncomputable section

/-! ### Adding views -/

theorem addView_getD : ∀ (rhs : List ℂ) (n : ℕ) (M : List ℂ), n + rhs.length ≤ M.length →
    ∃ M', (rhs.zipIdx n).foldlM (fun M (q : ℂ × ℕ) => addAt M q.2 q.1) M = some M' ∧ M'.length = M.length ∧
      ∀ i, M'.getD i 0 = M.getD i 0 + if n ≤ i then rhs.getD (i - n) 0 else 0
  | [], n, M, _ => ⟨M, rfl, rfl, fun i => by simp⟩
  | x :: rhs, n, M, h => by
    rw [List.length_cons] at h
    obtain ⟨M1, e1, l1, h1, h1'⟩ := addAt_some x (show n < M.length by omega)
    obtain ⟨M2, e2, l2, h2⟩ := addView_getD rhs (n + 1) M1 (by omega)
    refine ⟨M2, ?_, l2.trans l1, fun i => ?_⟩
    · rw [List.zipIdx_cons, List.foldlM_cons, e1]
      exact e2
    · rw [h2]
      rcases Nat.lt_trichotomy i n with hi | rfl | hi
      · rw [if_neg (by omega), if_neg (by omega), List.getD_eq_getElem?_getD, h1' i (by omega), List.getD_eq_getElem?_getD]
      · rw [if_neg (by omega), if_pos le_rfl, Nat.sub_self, List.getD_cons_zero, List.getD_eq_getElem?_getD, h1, List.getD_eq_getElem?_getD,
          List.getElem?_eq_getElem (by omega)]
        simp
      · rw [if_pos (by omega), if_pos (by omega), show i - n = i - (n + 1) + 1 by omega, List.getD_cons_succ, List.getD_eq_getElem?_getD,
          h1' i (by omega), ← List.getD_eq_getElem?_getD]

theorem addViews_getD {N : ℕ} : ∀ (vs : List (ℕ × List ℂ)) (E : ℕ → List ℂ), (∀ q ∈ vs, q.2.length ≤ N) → (∀ t, (E t).length = N) →
    ∃ E', addViews E vs = some E' ∧ (∀ t, (E' t).length = N) ∧ ∀ t i, (E' t).getD i 0 = (E t).getD i 0 + ofMade vs t i
  | [], E, _, hE => ⟨E, rfl, hE, fun t i => by simp [ofMade]⟩
  | (tag, a) :: vs, E, hv, hE => by
    obtain ⟨M, e, l, hM⟩ := addView_getD a 0 (E tag) (by have := hv (tag, a) List.mem_cons_self; simp only at this; rw [hE]; omega)
    obtain ⟨E', e', l', hE'⟩ := addViews_getD vs (Function.update E tag M) (fun q hq => hv q (List.mem_cons_of_mem _ hq)) (by
      intro t
      by_cases h : t = tag
      · subst h; rw [Function.update_self, l, hE]
      · rw [Function.update_of_ne h, hE])
    refine ⟨E', ?_, l', fun t i => ?_⟩
    · rw [addViews, List.foldlM_cons]
      show ((addView (E tag) a).bind fun a => some (Function.update E tag a)).bind _ = _
      rw [addView, e]
      exact e'
    · rw [hE']
      by_cases h : t = tag
      · subst h
        rw [Function.update_self, hM, if_pos (Nat.zero_le _), Nat.sub_zero]
        simp [ofMade, add_assoc]
      · rw [Function.update_of_ne h]
        have : ¬ tag = t := fun e => h e.symm
        simp [ofMade, this]

theorem addViews_made {N : ℕ} (vs : List (ℕ × List ℂ)) (hv : ∀ q ∈ vs, q.2.length ≤ N) : addViews (freshViews N) vs = some (arrays N (ofMade vs)) := by
  obtain ⟨E', e, l, h⟩ := addViews_getD vs (freshViews N) hv fun t => by simp [freshViews]
  rw [e]
  congr 1
  funext t
  refine List.ext_getElem (by rw [l]; simp [arrays]) fun i h1 h2 => ?_
  have := h t i
  rw [List.getD_eq_getElem _ _ h1] at this
  rw [this]
  simp [freshViews, arrays]

/-! ### The views of a multipole expansion -/

theorem ct_lin (a : ℝ) (C C' : Coef) (α : ℝ) (n : ℕ) (m : ℤ) : ct (a • C + C') α n m = a * ct C α n m + ct C' α n m := by
  unfold ct
  rw [ext_add, ext_smul]
  ring

theorem sig_lin (g : ℕ → ℕ → ℝ) (p f : ℕ) (a : ℝ) (C C' : Coef) (α : ℝ) : sig g p f (a • C + C') α = a * sig g p f C α + sig g p f C' α := by
  unfold sig
  rw [Finset.mul_sum, ← Finset.sum_add_distrib]
  refine Finset.sum_congr rfl fun n _ => ?_
  rw [Finset.mul_sum, ← Finset.sum_add_distrib]
  refine Finset.sum_congr rfl fun m _ => ?_
  rw [ct_lin]; ring

theorem conv_lin (a : ℝ) (C C' : Coef) : conv (a • C + C') = a • conv C + conv C' := by
  funext n m
  simp only [conv, Pi.add_apply, Pi.smul_apply, Complex.real_smul]
  ring

theorem frameC_lin (v : ℕ) (a : ℝ) (C C' : Coef) : frameC v (a • C + C') = a • frameC v C + frameC v C' := by
  have hy := fun d (A B : Coef) => (rotateY_lin d).map_add A B
  have hz := fun α (A B : Coef) => (rotateZ_lin α).map_add A B
  have hy' := fun d (A : Coef) => (rotateY_lin d).map_smul a A
  have hz' := fun α (A : Coef) => (rotateZ_lin α).map_smul a A
  have hn : ∀ A B : Coef, (fun n m => (((-1) ^ n : ℝ) : ℂ) * (a • A + B) n m) =
      a • (fun n m => (((-1) ^ n : ℝ) : ℂ) * A n m) + fun n m => (((-1) ^ n : ℝ) : ℂ) * B n m := by
    intro A B
    funext n m
    simp only [Pi.add_apply, Pi.smul_apply, Complex.real_smul]
    ring
  rcases v with _ | _ | _ | _ | _ | v <;> simp only [frameC, hy, hy', hz, hz'] <;> first | rfl | exact hn _ _

theorem mWave_lin (L : Level) (p : ℕ) (leg : ℕ → ℕ → ℕ → ℝ) (a : ℝ) (M M' : Coef) (v k j : ℕ) :
    mWave L p leg (conv (a • M + M')) v k j = a * mWave L p leg (conv M) v k j + mWave L p leg (conv M') v k j := by
  simp only [mWave, conv_lin, frameC_lin, sig_lin]

theorem arrayOf_entries (s : ℕ) (cnt : ℕ → ℕ) (W : Wave) : arrayOf s cnt W = (entries s cnt).map fun q => W q.1 (q.2 + 1) := by
  simp [arrayOf, entries, List.map_flatMap, List.map_map, Function.comp_def]

theorem arrayOf_getD (s : ℕ) (cnt : ℕ → ℕ) (a : ℝ) (W W' W'' : Wave) (h : ∀ k j, W'' k j = a * W k j + W' k j) (i : ℕ) :
    (arrayOf s cnt W'').getD i 0 = a * (arrayOf s cnt W).getD i 0 + (arrayOf s cnt W').getD i 0 := by
  simp only [arrayOf_entries, List.getD_eq_getElem?_getD, List.getElem?_map]
  cases (entries s cnt)[i]? with
  | none => simp
  | some q => simp [h]

/-- The source box at an offset with the waves of `M`. -/
def waveBox (L : Level) (p : ℕ) (leg : ℕ → ℕ → ℕ → ℝ) (dx dy dz : ℤ) (M : Coef) : SrcBox := ⟨dx, dy, dz, mWave L p leg (conv M)⟩

/-- What becomes of the multipole expansion `M` at the child number `c`. -/
def boxVal (T : PlaneTable) (size lam : ℝ) (p lev c : ℕ) (dx dy dz : ℤ) (M : Coef) : Coef :=
  sixL T (yukLevel T lam size (lev + 1)) size lam (Yukawa.scaleOf size lam (lev + 1)) fun i =>
    arrayOf (yukLevel T lam size (lev + 1)).s (yukLevel T lam size (lev + 1)).half fun k j =>
      if (waveBox (yukLevel T lam size (lev + 1)) p (Yukawa.legAt T size lam (Yukawa.scaleOf size lam (lev + 1))) dx dy dz M).direction c = some (5 - i) then
        movedWave T (yukLevel T lam size (lev + 1)) (unitsAt lam size (lev + 1))
          (waveBox (yukLevel T lam size (lev + 1)) p (Yukawa.legAt T size lam (Yukawa.scaleOf size lam (lev + 1))) dx dy dz M) c (5 - i) k j
      else 0

theorem sixL_congr (T : PlaneTable) (L : Level) (size lam scale : ℝ) (A A' : ℕ → List ℂ)
    (h : ∀ i < 6, ∀ k < L.s, ∀ j, 1 ≤ j → j ≤ L.m k / 2 → (A i).getD (L.sm k + j - 1) 0 = (A' i).getD (L.sm k + j - 1) 0) :
    sixL T L size lam scale A = sixL T L size lam scale A' := by
  have := sixL_lin T L size lam scale A A' A 0 fun i hi k hk j h1 h2 => by rw [h i hi k hk j h1 h2]; simp
  rw [this, zero_smul, zero_add]

theorem arrays_ofArrays {n : ℕ} (S : ℕ → List ℂ) (h : ∀ v, (S v).length = n) : arrays n (ofArrays S) = S := by
  funext v
  refine List.ext_getElem (by simp [arrays, h]) fun i h1 h2 => ?_
  simp only [arrays, ofArrays, List.getElem_map, List.getElem_range]
  exact List.getD_eq_getElem _ _ h2

/-- The views that `M_to_I` makes for a box of the level `lev`. -/
def levViews (T : PlaneTable) (size lam : ℝ) (p lev : ℕ) (M : Coef) : ℕ → List ℂ :=
  mViews (yukLevel T lam size lev) p (Yukawa.legAt T size lam (Yukawa.scaleOf size lam lev)) M

theorem levViews_arr {dg : ℤ} {T : PlaneTable} (hT : waveBase dg = some T) (size lam : ℝ) (p lev : ℕ) (M : Coef) (hM : Proper M) (v : ℕ) :
    levViews T size lam p lev M v = arrayOf (yukLevel T lam size lev).s (yukLevel T lam size lev).half
      (mWave (yukLevel T lam size lev) p (Yukawa.legAt T size lam (Yukawa.scaleOf size lam lev)) (conv M) v) :=
  mViews_arr _ (fun k hk j h1 h2 m h3 h4 => ealpha_angle hT lam size lev k j m hk h1 h2 h3 h4) p _ M hM v

theorem levViews_length {dg : ℤ} {T : PlaneTable} (hT : waveBase dg = some T) (size lam : ℝ) (p lev : ℕ) (M : Coef) (hM : Proper M) (v : ℕ) :
    (levViews T size lam p lev M v).length = (yukLevel T lam size lev).nexp := by
  rw [levViews_arr hT size lam p lev M hM]
  exact (arrayOf_at _ _ _).1

theorem levViews_lin {dg : ℤ} {T : PlaneTable} (hT : waveBase dg = some T) (size lam : ℝ) (p lev : ℕ) (a : ℝ) (M M' : Coef) (hM : Proper M) (hM' : Proper M')
    (h : Proper (a • M + M')) :
    ofArrays (levViews T size lam p lev (a • M + M')) = a • ofArrays (levViews T size lam p lev M) + ofArrays (levViews T size lam p lev M') := by
  funext v i
  show (levViews T size lam p lev (a • M + M') v).getD i 0 = a • (levViews T size lam p lev M v).getD i 0 + (levViews T size lam p lev M' v).getD i 0
  rw [levViews_arr hT _ _ _ _ _ h, levViews_arr hT _ _ _ _ _ hM, levViews_arr hT _ _ _ _ _ hM', Complex.real_smul]
  exact arrayOf_getD _ _ a _ _ _ (fun k j => mWave_lin _ _ _ _ _ _ _ _ _) i

theorem mToI_lev (T : PlaneTable) (size lam : ℝ) (hs : 0 < size) (hl : 0 < lam) (p lev : ℕ) (hlev : lev ≤ 21) (M : Coef) :
    Yukawa.mToI T size lam p (Yukawa.scaleOf size lam lev) M = some (levViews T size lam p lev M) := by
  have hlv : Yukawa.level size lam (Yukawa.scaleOf size lam lev) = lev := level_eq size lam (scale0_pos size lam hs hl) lev
  rw [Yukawa.mToI, hlv, if_pos (show lev ≤ Yukawa.maxlev from hlev), levViews]
  congr 1

theorem box_spec {dg : ℤ} {T : PlaneTable} (hT : waveBase dg = some T) (size lam : ℝ) (hs : 0 < size) (hl : 0 < lam) (p lev : ℕ)
    (hlev : lev + 1 ≤ 21) (dx dy dz : ℤ) (hx : -2 ≤ dx ∧ dx ≤ 3) (hy : -2 ≤ dy ∧ dy ≤ 3) (hz : -2 ≤ dz ∧ dz ≤ 3) (M : Coef) (hM : Proper M) :
    ∃ vs, Yukawa.iToI T size lam (Yukawa.scaleOf size lam (lev + 1)) dx dy dz (levViews T size lam p (lev + 1) M) = some vs ∧
      (∀ q ∈ vs, q.2.length ≤ (yukLevel T lam size lev).nexp) ∧
      ∀ c < 8, iVal T size lam lev c (ofMade vs) = boxVal T size lam p lev c dx dy dz M ∧ Proper (boxVal T size lam p lev c dx dy dz M) := by
  have hlv : Yukawa.level size lam (Yukawa.scaleOf size lam (lev + 1)) = lev + 1 := level_eq size lam (scale0_pos size lam hs hl) (lev + 1)
  obtain ⟨φ, hφ⟩ := yuk_shift T lam size (lev + 1)
  set b := waveBox (yukLevel T lam size (lev + 1)) p (Yukawa.legAt T size lam (Yukawa.scaleOf size lam (lev + 1))) dx dy dz M with hb
  have hbn : b.Near := ⟨hx, hy, hz⟩
  obtain ⟨vs, hvs, -, hlen⟩ := Waves.iToI_make hφ b hbn
  have hS : levViews T size lam p (lev + 1) M = fun v => arrayOf (yukLevel T lam size (lev + 1)).s (yukLevel T lam size (lev + 1)).half (b.S v) :=
    funext fun v => levViews_arr hT size lam p (lev + 1) M hM v
  have hN : (yukLevel T lam size (lev + 1)).nexp ≤ (yukLevel T lam size lev).nexp := C90_yukawa_shrinks hT (mul_pos hl hs).le lev
  have hle : ∀ q ∈ vs, q.2.length ≤ (yukLevel T lam size lev).nexp := fun q hq => ((hlen q hq).1.le.trans hN)
  refine ⟨vs, ?_, hle, fun c hc => ?_⟩
  · rw [Yukawa.iToI, hlv, if_pos (show lev + 1 ≤ Yukawa.maxlev from hlev), hS]
    exact hvs
  obtain ⟨E, hE, hA⟩ := gather_all hT (mul_pos hl hs).le lev [b] (by simpa using hbn) hc
  obtain ⟨E', C, hE', hC, hP, -⟩ := iToL_boxes hT size lam hs hl lev hlev [b] (by simpa using hbn) c hc p
  have hE1 : E = arrays (yukLevel T lam size lev).nexp (ofMade vs) := by
    have := addViews_made (N := (yukLevel T lam size lev).nexp) vs hle
    rw [List.foldlM_cons] at hE
    change ((Waves.iToI _ _ _ _ _ _).bind _).bind _ = _ at hE
    rw [show Waves.iToI (yukEToE (yukLevel T lam size (lev + 1))) (yukLevel T lam size (lev + 1)).nexp b.dx b.dy b.dz
      (fun w => arrayOf (yukLevel T lam size (lev + 1)).s (yukLevel T lam size (lev + 1)).half (b.S w)) = some vs from hvs, Option.bind_some, this] at hE
    exact (Option.some.inj hE).symm
  choose! A hA1 _ hA3 using hA
  have h6 := iToL_six T size lam hs hl lev hlev c E (fun i => A (5 - i)) fun i hi => by
    have := hA1 (5 - i) (by omega)
    rwa [show 5 - (5 - i) = i by omega] at this
  have hv : iVal T size lam lev c (ofMade vs) = boxVal T size lam p lev c dx dy dz M := by
    rw [iVal, ← hE1, h6, Option.getD_some, boxVal]
    refine sixL_congr _ _ _ _ _ _ _ fun i hi k hk j h1 h2 => ?_
    rw [getD_of_holds (cnt := (yukLevel T lam size (lev + 1)).half) rfl (fun _ => rfl) (arrayOf_at _ _ _).2 hk h1 h2, List.getD_eq_getElem?_getD,
      show (yukLevel T lam size (lev + 1)).sm k + j - 1 = (yukLevel T lam size (lev + 1)).sm k + (j - 1) by omega, hA3 (5 - i) (by omega) k hk j h1 h2]
    simp only [List.map_cons, List.map_nil, List.sum_cons, List.sum_nil, add_zero, Option.getD_some]
    rfl
  refine ⟨hv, ?_⟩
  rw [← hv, iVal, ← hE1]
  rw [hE] at hE'
  rw [← Option.some.inj hE'] at hC
  rw [hC, Option.getD_some]
  intro k
  have := hP k
  rw [conv, Nat.add_zero, Nat.sub_zero, div_self (lsqf_pos k).ne', Complex.ofReal_one, mul_one] at this
  exact this

theorem direction_offset (b b' : SrcBox) (h : b.dx = b'.dx) (h2 : b.dy = b'.dy) (h3 : b.dz = b'.dz) (c : ℕ) : b.direction c = b'.direction c := by
  unfold SrcBox.direction SrcBox.from
  rw [h, h2, h3]

theorem toChild_offset (b b' : SrcBox) (h : b.dx = b'.dx) (h2 : b.dy = b'.dy) (h3 : b.dz = b'.dz) (c v : ℕ) : b.toChild c v = b'.toChild c v := by
  unfold SrcBox.toChild SrcBox.from
  rw [h, h2, h3]

theorem movedWave_lin (T : PlaneTable) (L : Level) (ld : ℝ) (p : ℕ) (leg : ℕ → ℕ → ℕ → ℝ) (dx dy dz : ℤ) (c v : ℕ) (a : ℝ) (M M' : Coef) (k j : ℕ) :
    (if (waveBox L p leg dx dy dz (a • M + M')).direction c = some v then movedWave T L ld (waveBox L p leg dx dy dz (a • M + M')) c v k j else 0) =
    a * (if (waveBox L p leg dx dy dz M).direction c = some v then movedWave T L ld (waveBox L p leg dx dy dz M) c v k j else 0) +
      (if (waveBox L p leg dx dy dz M').direction c = some v then movedWave T L ld (waveBox L p leg dx dy dz M') c v k j else 0) := by
  rw [direction_offset (waveBox L p leg dx dy dz (a • M + M')) (waveBox L p leg dx dy dz M) rfl rfl rfl,
    direction_offset (waveBox L p leg dx dy dz M') (waveBox L p leg dx dy dz M) rfl rfl rfl]
  split_ifs
  · have h1 : (waveBox L p leg dx dy dz (a • M + M')).S v k j = a * (waveBox L p leg dx dy dz M).S v k j + (waveBox L p leg dx dy dz M').S v k j :=
      mWave_lin L p leg a M M' v k j
    have h2 := toChild_offset (waveBox L p leg dx dy dz (a • M + M')) (waveBox L p leg dx dy dz M) rfl rfl rfl c v
    have h3 := toChild_offset (waveBox L p leg dx dy dz M') (waveBox L p leg dx dy dz M) rfl rfl rfl c v
    unfold movedWave
    rw [h1, h2, h3]
    ring
  · simp

theorem boxVal_lin (T : PlaneTable) (size lam : ℝ) (p lev c : ℕ) (dx dy dz : ℤ) (a : ℝ) (M M' : Coef) :
    boxVal T size lam p lev c dx dy dz (a • M + M') = a • boxVal T size lam p lev c dx dy dz M + boxVal T size lam p lev c dx dy dz M' := by
  unfold boxVal
  refine sixL_lin _ _ _ _ _ _ _ _ a fun i _ k _ j _ _ => arrayOf_getD _ _ a _ _ _ (fun k j => ?_) _
  exact movedWave_lin T _ _ p _ dx dy dz c _ a M M' k j

theorem boxVal_none (T : PlaneTable) (size lam : ℝ) (p lev c : ℕ) (dx dy dz : ℤ) (hx : -2 ≤ dx ∧ dx ≤ 3) (hy : -2 ≤ dy ∧ dy ≤ 3) (hz : -2 ≤ dz ∧ dz ≤ 3)
    (hc : c < 8) (h : |dx - (c % 2 : ℕ)| ≤ 1 ∧ |dy - (c / 2 % 2 : ℕ)| ≤ 1 ∧ |dz - (c / 4 % 2 : ℕ)| ≤ 1) (M : Coef) :
    boxVal T size lam p lev c dx dy dz M = 0 := by
  have hd : (waveBox (yukLevel T lam size (lev + 1)) p (Yukawa.legAt T size lam (Yukawa.scaleOf size lam (lev + 1))) dx dy dz M).direction c = none :=
    (C90_direction _ ⟨hx, hy, hz⟩ hc).1.2 h
  have key : boxVal T size lam p lev c dx dy dz M = (1 : ℝ) • boxVal T size lam p lev c dx dy dz M + boxVal T size lam p lev c dx dy dz M := by
    unfold boxVal
    refine sixL_lin _ _ _ _ _ _ _ _ 1 fun i _ k _ j _ _ => arrayOf_getD _ _ 1 _ _ _ (fun k j => ?_) _
    rw [hd]
    simp
  rw [one_smul] at key
  have := congrArg (fun x => x - boxVal T size lam p lev c dx dy dz M) key
  simpa using this.symm

theorem oneBox_eq {dg : ℤ} {T : PlaneTable} (hT : waveBase dg = some T) (d : Domain ℝ) (lam : ℝ) (hs : 0 < d.size) (hl : 0 < lam) (p : ℕ) (n : Index)
    (hlev : n.level + 1 ≤ 21) (k : Index) (hk : Yukawa.NearParent n k) (c : ℕ) (hc : c < 8) (M : Coef) (hM : Proper M) :
    Yukawa.oneBox T d lam p n c k M =
      some (boxVal T d.size lam p n.level c ((k.x : ℤ) - 2 * n.x) ((k.y : ℤ) - 2 * n.y) ((k.z : ℤ) - 2 * n.z) M) := by
  obtain ⟨-, hx, hy, hz⟩ := hk
  obtain ⟨vs, h1, h2, h3⟩ := box_spec hT d.size lam hs hl p n.level hlev _ _ _ hx hy hz M hM
  have h4 := (iVal_spec hT d.size lam hs hl n.level hlev c hc).1 (ofMade vs)
  rw [Yukawa.oneBox]
  show (Yukawa.mToI T d.size lam p (Yukawa.scaleOf d.size lam (n.level + 1)) M).bind _ = _
  rw [mToI_lev T d.size lam hs hl p (n.level + 1) hlev M, Option.bind_some]
  show (Yukawa.iToI _ _ _ _ _ _ _ _).bind _ = _
  rw [h1, Option.bind_some]
  show (addViews _ _).bind _ = _
  rw [addViews_made vs h2, Option.bind_some, h4, (h3 c hc).1]

end
end Dashmm.Yuk
