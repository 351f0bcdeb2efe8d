import Verif.Proofs.HelmViews

/-!
# Plane waves of the Helmholtz kernel from one source box
-/

namespace Dashmm.Helm

open Harm Lap Waves
open Complex (I)
open YukFmm (arrays ofArrays ofMade)
open Yuk (conv frameC frameC_lin conv_lin arrayOf_getD arrays_ofArrays addViews_made direction_offset toChild_offset)

noncomputable section

theorem wav_lin (σ ζ : ℂ) (w : ℕ → ℂ) (p f : ℕ) (a : ℝ) (C D : Coef) (α : ℝ) : wav σ ζ w p f (a • C + D) α = a * wav σ ζ w p f C α + wav σ ζ w p f D α := by
  rw [wav_add]
  congr 1
  unfold wav
  rw [Finset.mul_sum]
  refine Finset.sum_congr rfl fun n _ => ?_
  rw [Finset.mul_sum, Finset.mul_sum, Finset.mul_sum]
  refine Finset.sum_congr rfl fun m _ => ?_
  rw [cwv, cwv, ext_smul]; ring

theorem eWave_lin (T : PlaneTable) (L : Level) (wd s : ℝ) (p : ℕ) (a : ℝ) (M M' : Coef) (v k j : ℕ) :
    eWave T L wd s p (conv (a • M + M')) v k j = a * eWave T L wd s p (conv M) v k j + eWave T L wd s p (conv M') v k j := by
  simp only [eWave, conv_lin, frameC_lin, wav_lin]

theorem pWave_lin (Q : PropRule) (L : Level) (s : ℝ) (p : ℕ) (a : ℝ) (M M' : Coef) (v k j : ℕ) :
    pWave Q L s p (conv (a • M + M')) v k j = a * pWave Q L s p (conv M) v k j + pWave Q L s p (conv M') v k j := by
  simp only [pWave, conv_lin, frameC_lin, wav_lin]

/-- A box at an offset. -/
def offBox (dx dy dz : ℤ) (S : ℕ → Wave) : SrcBox := ⟨dx, dy, dz, S⟩

/-- The evanescent waves that reach the slot `i` of the child number `c`. -/
def eSlot (T : PlaneTable) (L : Level × Level) (wd s : ℝ) (p c : ℕ) (dx dy dz : ℤ) (M : Coef) (i : ℕ) : List ℂ :=
  arrayOf L.1.s L.1.half fun k j => if (offBox dx dy dz 0).direction c = some (5 - i) then
    movedE T L.1 wd (eWave T L.1 wd s p (conv M)) ((offBox dx dy dz 0).toChild c (5 - i)) (5 - i) k j else 0

/-- The propagating waves that reach the slot `i` of the child number `c`. -/
def pSlot (Q : PropRule) (L : Level × Level) (wd s : ℝ) (p c : ℕ) (dx dy dz : ℤ) (M : Coef) (i : ℕ) : List ℂ :=
  arrayOf L.2.s L.2.m fun k j => if (offBox dx dy dz 0).direction c = some (5 - i) then
    movedP Q L.2 wd (pWave Q L.2 s p (conv M)) ((offBox dx dy dz 0).toChild c (5 - i)) (5 - i) k j else 0

/-- What becomes of the multipole expansion `M` at the child number `c`. -/
def boxVal (T : PlaneTable) (Q : PropRule) (L : Level × Level) (size om wd s : ℝ) (p c : ℕ) (dx dy dz : ℤ) (M : Coef) : LCoef :=
  sixL T Q L size om s (eSlot T L wd s p c dx dy dz M) (pSlot Q L wd s p c dx dy dz M)

/-- The views that `M_to_I` makes. -/
def levViews (T : PlaneTable) (Q : PropRule) (L : Level × Level) (wd s : ℝ) (p : ℕ) (M : Coef) : (ℕ → List ℂ) × (ℕ → List ℂ) :=
  (fun v => arrayOf L.1.s L.1.half (eWave T L.1 wd s p (conv M) v), fun w => arrayOf L.2.s L.2.m (pWave Q L.2 s p (conv M) w))

theorem levViews_lin (T : PlaneTable) (Q : PropRule) (L : Level × Level) (wd s : ℝ) (p : ℕ) (a : ℝ) (M M' : Coef) :
    ofArrays (levViews T Q L wd s p (a • M + M')).1 = a • ofArrays (levViews T Q L wd s p M).1 + ofArrays (levViews T Q L wd s p M').1 ∧
    ofArrays (levViews T Q L wd s p (a • M + M')).2 = a • ofArrays (levViews T Q L wd s p M).2 + ofArrays (levViews T Q L wd s p M').2 := by
  constructor
  · funext v i
    have := arrayOf_getD L.1.s L.1.half a (eWave T L.1 wd s p (conv M) v) (eWave T L.1 wd s p (conv M') v) (eWave T L.1 wd s p (conv (a • M + M')) v)
      (fun k j => eWave_lin T L.1 wd s p a M M' v k j) i
    rw [← Complex.real_smul] at this
    exact this
  · funext v i
    have := arrayOf_getD L.2.s L.2.m a (pWave Q L.2 s p (conv M) v) (pWave Q L.2 s p (conv M') v) (pWave Q L.2 s p (conv (a • M + M')) v)
      (fun k j => pWave_lin Q L.2 s p a M M' v k j) i
    rw [← Complex.real_smul] at this
    exact this

theorem fold_one {α β γ : Type} (f : α → Option β) (g : γ → β → Option γ) (a : α) (e : γ) (b : β) (h : f a = some b) :
    [a].foldlM (fun E x => do g E (← f x)) e = g e b := by
  simp [h]

theorem boxVal_lin (T : PlaneTable) (Q : PropRule) (L : Level × Level) (size om wd s : ℝ) (p c : ℕ) (dx dy dz : ℤ) (a : ℝ) (M M' : Coef) :
    boxVal T Q L size om wd s p c dx dy dz (a • M + M') = a • boxVal T Q L size om wd s p c dx dy dz M + boxVal T Q L size om wd s p c dx dy dz M' := by
  unfold boxVal
  refine sixL_lin _ _ _ _ _ _ _ _ _ _ _ _ a (fun i _ k _ j _ _ => ?_) fun i _ k _ j _ _ => ?_
  · refine arrayOf_getD _ _ a _ _ _ (fun k j => ?_) _
    simp only [movedE, eWave_lin]
    split_ifs
    · ring
    · ring
  · refine arrayOf_getD _ _ a _ _ _ (fun k j => ?_) _
    simp only [movedP, pWave_lin]
    by_cases h : (offBox dx dy dz 0).direction c = some (5 - i)
    · rw [if_pos h, if_pos h, if_pos h, map_add, map_mul, Complex.conj_ofReal]
      by_cases h' : (5 - i) % 2 = 1
      · rw [if_pos h', if_pos h', if_pos h']; ring
      · rw [if_neg h', if_neg h', if_neg h']; ring
    · rw [if_neg h, if_neg h, if_neg h]; ring

theorem boxVal_none (T : PlaneTable) (Q : PropRule) (L : Level × Level) (size om wd s : ℝ) (p c : ℕ) (dx dy dz : ℤ)
    (hx : -2 ≤ dx ∧ dx ≤ 3) (hy : -2 ≤ dy ∧ dy ≤ 3) (hz : -2 ≤ dz ∧ dz ≤ 3)
    (hc : c < 8) (h : |dx - (c % 2 : ℕ)| ≤ 1 ∧ |dy - (c / 2 % 2 : ℕ)| ≤ 1 ∧ |dz - (c / 4 % 2 : ℕ)| ≤ 1) (M : Coef) :
    boxVal T Q L size om wd s p c dx dy dz M = 0 := by
  have hd : (offBox dx dy dz 0).direction c = none := (C90_direction (offBox dx dy dz 0) ⟨hx, hy, hz⟩ hc).1.2 h
  have key : boxVal T Q L size om wd s p c dx dy dz M = (1 : ℝ) • boxVal T Q L size om wd s p c dx dy dz M + boxVal T Q L size om wd s p c dx dy dz M := by
    unfold boxVal
    refine sixL_lin _ _ _ _ _ _ _ _ _ _ _ _ 1 (fun i _ k _ j _ _ => ?_) fun i _ k _ j _ _ => ?_
    · refine arrayOf_getD _ _ 1 _ _ _ (fun k j => ?_) _
      rw [hd]; simp
    · refine arrayOf_getD _ _ 1 _ _ _ (fun k j => ?_) _
      rw [hd]; simp
  rw [one_smul] at key
  have := congrArg (fun x => x - boxVal T Q L size om wd s p c dx dy dz M) key
  simpa using this.symm

theorem made_spec {dg : ℤ} {T : PlaneTable} (hT : waveBase dg = some T) (Q : PropRule)
    {size om : ℝ} (hs : 0 < size) (ho : 0 < om) (hom : om ≤ 10 ∨ om * size ≤ 1 / 8) (lev : ℕ) (hlev : lev + 1 ≤ 21)
    {C C' : ℕ × ℕ} (hC : extra om (unitsAt om size lev) = some C) (hC' : extra om (unitsAt om size (lev + 1)) = some C') (p : ℕ)
    (dx dy dz : ℤ) (hx : -2 ≤ dx ∧ dx ≤ 3) (hy : -2 ≤ dy ∧ dy ≤ 3) (hz : -2 ≤ dz ∧ dz ≤ 3) (M : Coef) :
    let wd := unitsAt om size (lev + 1)
    let N := ((lvl T Q (unitsAt om size lev) C).1.nexp, (lvl T Q (unitsAt om size lev) C).2.nexp)
    let L := lvl T Q wd C'
    let s := scaleOf size om (lev + 1)
    ∃ vs, iToI T Q size om s dx dy dz (levViews T Q L wd s p M) = some vs ∧
      ((∀ q ∈ vs.1, q.2.length ≤ N.1) ∧ ∀ q ∈ vs.2, q.2.length ≤ N.2) ∧
      ∀ c < 8, iVal T Q size om N lev c (ofMade vs.1, ofMade vs.2) = boxVal T Q L size om wd s p c dx dy dz M := by
  intro wd N L s
  have hw := wavesOf_eq T Q hs ho hom (lev + 1) hlev hC'
  obtain ⟨φ, hφ⟩ := evan_shift T wd C'.1
  obtain ⟨hN1, hN2⟩ := C90_helmholtz_shrinks hT Q.s Q.f Q.x (mul_pos ho hs).le lev hC hC'
  let be := offBox dx dy dz (eWave T L.1 wd s p (conv M))
  let bp := offBox dx dy dz (pWave Q L.2 s p (conv M))
  have hbe : be.Near := ⟨hx, hy, hz⟩
  have hbp : bp.Near := ⟨hx, hy, hz⟩
  obtain ⟨ve, hve, -, hle⟩ := Waves.iToI_make hφ be hbe
  obtain ⟨vp, hvp, -, hlp⟩ := Waves.propIToI_make Q.s Q.f Q.x wd C'.2 bp hbp
  have h1 : ∀ q ∈ ve, q.2.length ≤ N.1 := fun q hq => (hle q hq).1.le.trans hN1
  have h2 : ∀ q ∈ vp, q.2.length ≤ N.2 := fun q hq => (hlp q hq).1.le.trans hN2
  refine ⟨(ve, vp), ?_, ⟨h1, h2⟩, fun c hc => ?_⟩
  · rw [iToI, hw, Option.bind_eq_bind, Option.bind_some]
    show (Waves.iToI (evanEToE L.1) L.1.nexp dx dy dz fun v => arrayOf L.1.s L.1.half (eWave T L.1 wd s p (conv M) v)).bind _ = _
    have e1 : (Waves.iToI (evanEToE L.1) L.1.nexp dx dy dz fun v => arrayOf L.1.s L.1.half (eWave T L.1 wd s p (conv M) v)) = some ve := hve
    rw [e1, Option.bind_some]
    show (propIToI L.2 dx dy dz fun v => arrayOf L.2.s L.2.m (pWave Q L.2 s p (conv M) v)).bind _ = _
    have e2 : (propIToI L.2 dx dy dz fun v => arrayOf L.2.s L.2.m (pWave Q L.2 s p (conv M) v)) = some vp := hvp
    rw [e2, Option.bind_some]
  · obtain ⟨E, hE, hA⟩ := gather_evan hT (mul_pos ho hs).le lev hC hC' [be] (by simpa using hbe) hc
    obtain ⟨P, hP, hB⟩ := gather_prop hT Q (mul_pos ho hs).le lev hC hC' [bp] (by simpa using hbp) hc
    have hE1 : E = arrays N.1 (ofMade ve) := by
      have h := fold_one (fun b : SrcBox => Waves.iToI (evanEToE L.1) L.1.nexp b.dx b.dy b.dz fun w => arrayOf L.1.s L.1.half (b.S w)) addViews be
        (freshViews N.1) ve hve
      exact Option.some.inj (hE.symm.trans (h.trans (addViews_made (N := N.1) ve h1)))
    have hP1 : P = arrays N.2 (ofMade vp) := by
      have h := fold_one (fun b : SrcBox => propIToI L.2 b.dx b.dy b.dz fun w => arrayOf L.2.s L.2.m (b.S w)) addViews bp
        (freshViews N.2) vp hvp
      exact Option.some.inj (hP.symm.trans (h.trans (addViews_made (N := N.2) vp h2)))
    choose! A hA1 hA2 using hA
    choose! B hB1 hB2 using hB
    have h6 := iToL_six T Q hs ho hom lev hlev hC' c E P (fun i => A (5 - i)) (fun i => B (5 - i)) (fun i hi => by
      have := hA1 (5 - i) (by omega)
      rwa [show 5 - (5 - i) = i by omega] at this) fun i hi => by
      have := hB1 (5 - i) (by omega)
      rwa [show 5 - (5 - i) = i by omega] at this
    rw [iVal, ← hE1, ← hP1, h6, Option.getD_some, boxVal]
    refine sixL_congr _ _ _ _ _ _ _ _ _ _ (fun i hi k hk j h1 h2 => ?_) fun i hi k hk j h1 h2 => ?_
    · refine Eq.trans ?_ (getD_of_wave (s := L.1.s) (sm := L.1.sm) (cnt := L.1.half) (fun _ => rfl) (arrayOf_at _ _ _).2 hk h1 h2).symm
      rw [List.getD_eq_getElem?_getD, Nat.add_sub_assoc h1]
      refine (congrArg (fun o : Option ℂ => o.getD 0) (hA2 (5 - i) (by omega) k hk j h1 h2)).trans ?_
      simp only [List.map_cons, List.map_nil, List.sum_cons, List.sum_nil, add_zero, Option.getD_some]
      rw [direction_offset be (offBox dx dy dz 0) rfl rfl rfl, toChild_offset be (offBox dx dy dz 0) rfl rfl rfl]
      rfl
    · refine Eq.trans ?_ (getD_of_wave (s := L.2.s) (sm := L.2.sm) (cnt := L.2.m) (fun _ => rfl) (arrayOf_at _ _ _).2 hk h1 h2).symm
      rw [List.getD_eq_getElem?_getD, Nat.add_sub_assoc h1]
      refine (congrArg (fun o : Option ℂ => o.getD 0) (hB2 (5 - i) (by omega) k hk j h1 h2)).trans ?_
      simp only [List.map_cons, List.map_nil, List.sum_cons, List.sum_nil, add_zero, Option.getD_some]
      rw [direction_offset bp (offBox dx dy dz 0) rfl rfl rfl, toChild_offset bp (offBox dx dy dz 0) rfl rfl rfl]
      rfl

end
end Dashmm.Helm
