import Verif.Proofs.HelmRule

/-!
# The plane waves of the Helmholtz kernel: the waves of the sources, and all steps
-/

namespace Dashmm.Helm

open Harm Lap Waves
open Complex (I)
open Yukawa (WaveSrc)
open Yuk (conv frameC)

noncomputable section

/-- The directions of the evanescent waves. -/
def eσ (T : PlaneTable) (wd : ℝ) (k : ℕ) : ℂ := -I * √(1 + T.rule.lam k / wd * (T.rule.lam k / wd))
def eζ (T : PlaneTable) (wd : ℝ) (k : ℕ) : ℂ := ((T.rule.lam k / wd : ℝ) : ℂ)

/-- The directions of the propagating waves. -/
def pσ (Q : PropRule) (k : ℕ) : ℂ := -I * Real.sin (Q.x k)
def pζ (Q : PropRule) (k : ℕ) : ℂ := -I * Real.cos (Q.x k)

/-- The waves of a multipole expansion. -/
def eWave (T : PlaneTable) (L : Level) (wd s : ℝ) (p : ℕ) (C : Coef) (v : ℕ) : Wave := fun k j =>
  wav (eσ T wd k) (eζ T wd k) (fun n => ((s ^ n : ℝ) : ℂ)) p (L.f k) (frameC v C) (L.angle k j)

def pWave (Q : PropRule) (L : Level) (s : ℝ) (p : ℕ) (C : Coef) (w : ℕ) : Wave := fun k j =>
  wav (pσ Q k) (pζ Q k) (fun n => ((s ^ n : ℝ) : ℂ)) p (L.f k) (frameC (2 * min w 2) C) (L.angle k j)

theorem evanArr_wave (T : PlaneTable) (L : Level) (he : Phases L L.half) (wd s : ℝ) (hs : 0 ≤ s) (p : ℕ) (leg : ℕ → ℕ → ℕ → ℝ)
    (hleg : ∀ k n m, leg k n m = evanP (T.rule.lam k / wd) s n m) (SH C : Coef) (hC : conv SH = C) :
    evanArr L p leg SH 1 = arrayOf L.s L.half (fun k j => wav (eσ T wd k) (eζ T wd k) (fun n => ((s ^ n : ℝ) : ℂ)) p (L.f k) C (L.angle k j)) ∧
    evanArr L p leg SH (-1) = arrayOf L.s L.half (fun k j => wav (eσ T wd k) (eζ T wd k) (fun n => ((s ^ n : ℝ) : ℂ)) p (L.f k)
      (fun n m => (((-1) ^ n : ℝ) : ℂ) * C n m) (L.angle k j)) := by
  subst hC
  have hd : ∀ k, IsDir (eσ T wd k) (eζ T wd k) s (fun n m => I ^ m * (leg k n m : ℂ)) := by
    intro k
    simp only [hleg]
    exact evanP_dir _ s hs
  constructor
  · refine Yuk.arrayOf_congr _ _ (fun k j => evanAt L p leg SH 1 k j) _ fun k hk j hj => ?_
    rw [(evanAt_wav L p leg SH k (j + 1) (hd k) (L.angle k (j + 1)) fun m h3 h4 => he k hk (j + 1) (by omega) hj m h3 h4).1]
    push_cast; rfl
  · refine Yuk.arrayOf_congr _ _ (fun k j => evanAt L p leg SH (-1) k j) _ fun k hk j hj => ?_
    rw [(evanAt_wav L p leg SH k (j + 1) (hd k) (L.angle k (j + 1)) fun m h3 h4 => he k hk (j + 1) (by omega) hj m h3 h4).2, wav_cmul]
    congr 1
    funext n
    push_cast; ring

theorem propArr_wave (Q : PropRule) (hQ : ∀ k < Q.s, 0 ≤ Q.x k ∧ Q.x k ≤ Real.pi) (L : Level) (hL : L.s = Q.s) (he : Phases L L.m) (s : ℝ) (p : ℕ)
    (SH C : Coef) (hC : conv SH = C) :
    propArr L p (legP Q s) SH = arrayOf L.s L.m (fun k j => wav (pσ Q k) (pζ Q k) (fun n => ((s ^ n : ℝ) : ℂ)) p (L.f k) C (L.angle k j)) := by
  subst hC
  refine Yuk.arrayOf_congr _ _ (fun k j => propAt L p (legP Q s) SH k j) _ fun k hk j hj => ?_
  have hk' : k < Q.s := hL ▸ hk
  have hd := propP_dir (Q.x k) s (Real.sin_nonneg_of_nonneg_of_le_pi (hQ k hk').1 (hQ k hk').2)
  rw [propAt_wav L p hd (fun _ => 1) (legP Q s) SH k (j + 1) (by funext n m; rw [one_mul]; rfl) (L.angle k (j + 1))
    fun m h3 h4 => he k hk (j + 1) (by omega) hj m h3 h4]
  simp only [one_mul, Complex.ofReal_pow]
  rfl

theorem mToI_arr {dg : ℤ} {T : PlaneTable} (hT : waveBase dg = some T) (Q : PropRule) (hQ : ∀ k < Q.s, 0 ≤ Q.x k ∧ Q.x k ≤ Real.pi)
    {size om : ℝ} (hs : 0 < size) (ho : 0 < om) (hom : om ≤ 10 ∨ om * size ≤ 1 / 8) (lev : ℕ) (hlev : lev ≤ 21) {C : ℕ × ℕ}
    (hC : extra om (unitsAt om size lev) = some C) (p : ℕ) (M : Coef) :
    let wd := unitsAt om size lev
    let L := lvl T Q wd C
    mToI T Q size om p (scaleOf size om lev) M = some (fun v => arrayOf L.1.s L.1.half (eWave T L.1 wd (scaleOf size om lev) p (conv M) v),
      fun w => arrayOf L.2.s L.2.m (pWave Q L.2 (scaleOf size om lev) p (conv M) w)) := by
  intro wd L
  have hwd : wdOf size om (scaleOf size om lev) = wd := wdOf_scale size om hs ho lev
  have hsc := helm_scaleOf_pos size om hs ho lev
  have cx : conv (rotateY M (fun n mp m => hdmatPlus 0 n mp m)) = rotateY (conv M) (dmatPlus 0) := by rw [plus_eq]; exact Yuk.conv_plus M 0
  have cy : conv (rotateY (rotateZ M (-Real.pi / 2)) (fun n mp m => hdmatMinus 0 n mp m)) = rotateY (rotateZ (conv M) (-Real.pi / 2)) (dmatMinus 0) := by
    rw [minus_eq, Yuk.conv_minus, Yuk.conv_rotateZ]
  have kE := fun SH C h => evanArr_wave T L.1 (evan_phases hT hC) wd (scaleOf size om lev) hsc.le p (legE T size om (scaleOf size om lev))
    (fun k n m => by rw [legE, hwd]) SH C h
  have kP := fun SH C h => propArr_wave Q hQ L.2 rfl (prop_phases Q.s Q.f Q.x _ _) (scaleOf size om lev) p SH C h
  rw [mToI, wavesOf_eq T Q hs ho hom lev hlev hC, Option.map_some]
  refine congrArg some (Prod.ext (funext fun v => ?_) (funext fun w => ?_))
  · rcases v with _ | _ | _ | _ | _ | v
    · exact (kE _ _ cx).1
    · exact (kE _ _ cx).2
    · exact (kE _ _ cy).1
    · exact (kE _ _ cy).2
    · exact (kE _ _ rfl).1
    · exact (kE _ _ rfl).2
  · rcases w with _ | _ | w
    · exact kP _ _ cx
    · exact kP _ _ cy
    · refine (kP M _ rfl).trans (congrArg (arrayOf _ _) ?_)
      funext k j
      unfold pWave
      rw [show 2 * min (w + 1 + 1) 2 = 4 by omega]
      rfl

/-- One charge through the waves. -/
theorem rule_pair (T : PlaneTable) (Q : PropRule) (L : Level × Level) (wd : ℝ) (p : ℕ) (ra : ℕ → ℝ) (a : Point ℝ) (d : ℤ × ℤ × ℤ) (rb : ℕ → ℝ) (b : Point ℝ) :
    planeRule T Q L wd p ra a d rb b =
      pairW L.1 (wtE T L.1 wd) (fun k => decayCos wd (T.rule.lam k)) p rb (fun k j => cutSeries p (L.1.f k) ra (decayCos wd (T.rule.lam k) a) (L.1.angle k j) *
        planeWave (helmKappa T wd k) (T.rule.lam k) (L.1.angle k j) d.1 d.2.1 d.2.2) b +
      pairW L.2 (wtP Q L.2) (fun k => travelCos (Q.x k)) p rb (fun k j => cutSeries p (L.2.f k) ra (travelCos (Q.x k) a) (L.2.angle k j) *
        travelWave (wd * Real.sin (Q.x k)) (wd * Real.cos (Q.x k)) (L.2.angle k j) d.1 d.2.1 d.2.2) b := by
  have ea : ∀ (l : Level) (k j : ℕ), 2 * Real.pi * j / l.m k = l.angle k j := by intro l k j; unfold Level.angle; ring
  rw [planeRule, add_comm]
  simp only [ea]
  congr 1
  rw [pairW, Finset.mul_sum]
  refine Finset.sum_congr rfl fun k _ => ?_
  rw [wtE, mul_assoc]
  rfl

theorem eσ_conj (T : PlaneTable) (wd : ℝ) (k : ℕ) : starRingEnd ℂ (eσ T wd k) = -eσ T wd k := by
  unfold eσ
  rw [map_mul, map_neg, Complex.conj_I, Complex.conj_ofReal]; ring

theorem eζ_conj (T : PlaneTable) (wd : ℝ) (k : ℕ) : starRingEnd ℂ (eζ T wd k) = eζ T wd k := Complex.conj_ofReal _

theorem pσ_conj (Q : PropRule) (k : ℕ) : starRingEnd ℂ (pσ Q k) = -pσ Q k := by
  unfold pσ
  rw [map_mul, map_neg, Complex.conj_I, Complex.conj_ofReal]; ring

theorem pζ_conj (Q : PropRule) (k : ℕ) : starRingEnd ℂ (pζ Q k) = -pζ Q k := by
  unfold pζ
  rw [map_mul, map_neg, Complex.conj_I, Complex.conj_ofReal]; ring

theorem full_moved (T : PlaneTable) (L : Level) (hL : ∀ k < L.s, 0 < L.m k ∧ L.m k % 2 = 0) (wd s : ℝ) (p : ℕ) (C : Coef) (hC : Proper C) (d : ℤ × ℤ × ℤ)
    (v k : ℕ) (hk : k < L.s) (j : ℕ) (h1 : 1 ≤ j) (h2 : j ≤ L.m k) :
    fullW L (movedE T L wd (eWave T L wd s p C) d v) k j =
      wav (eσ T wd k) (eζ T wd k) (fun n => ((s ^ n : ℝ) : ℂ)) p (L.f k) (frameC v C) (L.angle k j) *
        planeWave (helmKappa T wd k) (T.rule.lam k) (L.angle k j) d.1 d.2.1 d.2.2 := by
  obtain ⟨hm, he⟩ := hL k hk
  unfold fullW
  split_ifs with h
  · rfl
  · obtain ⟨i, rfl⟩ : ∃ i, j = i + L.m k / 2 := ⟨j - L.m k / 2, by omega⟩
    rw [Nat.add_sub_cancel, angle_half L k hm he, movedE, eWave, Yuk.planeWave_pi,
      wav_conj_evan _ _ (eσ_conj T wd k) (eζ_conj T wd k) _ p _ _ (Yuk.frameC_proper v C hC), map_mul]

theorem moved_prop (Q : PropRule) (L : Level) (wd s : ℝ) (p : ℕ) (C : Coef) (hC : Proper C) (d : ℤ × ℤ × ℤ)
    (v : ℕ) (hv : v < 6) (k j : ℕ) :
    movedP Q L wd (pWave Q L s p C) d v k j =
      wav (pσ Q k) (pζ Q k) (fun n => ((s ^ n : ℝ) : ℂ)) p (L.f k) (frameC v C) (L.angle k j) *
        travelWave (wd * Real.sin (Q.x k)) (wd * Real.cos (Q.x k)) (L.angle k j) d.1 d.2.1 d.2.2 := by
  unfold movedP pWave
  refine congrArg (· * _) ?_
  have h := fun w => wav_conj_prop _ _ (pσ_conj Q k) (pζ_conj Q k) (fun n => s ^ n) p (L.f k) _ (Yuk.frameC_proper w C hC) (L.angle k j)
  interval_cases v
  · rfl
  · exact h 0
  · rfl
  · exact h 2
  · rfl
  · exact h 4

/-- The charges of a box through the waves. -/
theorem box_pair (J : Bessel.Table) (T : PlaneTable) (Q : PropRule) (L : Level × Level) (hL : ∀ k < L.1.s, 0 < L.1.m k ∧ L.1.m k % 2 = 0) (wd : ℝ) (hw : 0 < wd)
    (om s : ℝ) (p : ℕ) (c : Point ℝ) (srcs : List Src) (M : Coef) (hM : sToM J om p c s srcs = some M) (d : ℤ × ℤ × ℤ) (v : ℕ) (hv : v < 6)
    (rb : ℕ → ℝ) (b : Point ℝ) :
    pairL T Q L wd p rb (movedE T L.1 wd (eWave T L.1 wd s p (conv M)) d v) (movedP Q L.2 wd (pWave Q L.2 s p (conv M)) d v) b =
      (srcs.map fun x => (x.charge : ℂ) * planeRule T Q L wd p (radial J om s p (x.pos.sub c)) (Lap.turn v (Yuk.dir (x.pos.sub c))) d rb b).sum := by
  have hP : Proper (conv M) := Yuk.conv_proper M (helm_sToM_proper J om p s c srcs M hM)
  have hsrc := fun σ ζ a fr α => sources_wav (sToM1 J om p) (fun v n => Bessel.jnScaled J p (om * v.norm) s n) c s
    (fun v q C hC n m hm => helm_sToM_conv J om p s v q C hC n m hm) σ ζ a p fr v α srcs M hM
  have hwt : ∀ w : Point ℝ, (fun n : ℕ => ((s ^ n : ℝ) : ℂ) * (((2 * n + 1) * Bessel.jnScaled J p (om * w.norm) s n : ℝ) : ℂ)) =
      fun n : ℕ => (((2 * n + 1) * radial J om s p w n : ℝ) : ℂ) := by
    intro w; funext n; rw [radial]; push_cast; ring
  have hu : ∀ w : Point ℝ, (Lap.turn v (Yuk.dir w)).norm = 1 := fun w => (Yuk.ltu_norm v _).trans (Yuk.dir_norm _)
  have e1 : pairW L.1 (wtE T L.1 wd) (fun k => decayCos wd (T.rule.lam k)) p rb (fullW L.1 (movedE T L.1 wd (eWave T L.1 wd s p (conv M)) d v)) b =
      (srcs.map fun x => (x.charge : ℂ) * pairW L.1 (wtE T L.1 wd) (fun k => decayCos wd (T.rule.lam k)) p rb
        (fun k j => cutSeries p (L.1.f k) (radial J om s p (x.pos.sub c)) (decayCos wd (T.rule.lam k) (Lap.turn v (Yuk.dir (x.pos.sub c)))) (L.1.angle k j) *
        planeWave (helmKappa T wd k) (T.rule.lam k) (L.1.angle k j) d.1 d.2.1 d.2.2) b).sum := by
    rw [pairW_congr _ _ _ _ _ _ (fun k j => (srcs.map fun x => (x.charge : ℂ) * (cutSeries p (L.1.f k) (radial J om s p (x.pos.sub c))
        (decayCos wd (T.rule.lam k) (Lap.turn v (Yuk.dir (x.pos.sub c)))) (L.1.angle k j) *
        planeWave (helmKappa T wd k) (T.rule.lam k) (L.1.angle k j) d.1 d.2.1 d.2.2)).sum), pairW_sum]
    · congr 1
      exact List.map_congr_left fun x _ => pairW_smul _ _ _ _ _ _ _ _
    · intro k hk j h1 h2
      rw [full_moved T L.1 hL wd s p _ hP d v k hk j h1 h2, hsrc, ← List.sum_map_mul_right]
      congr 1
      refine List.map_congr_left fun x _ => ?_
      rw [hwt, mul_assoc, cutSeries_wav p _ _ (decay_dir wd (T.rule.lam k) hw _ (hu _))]
      rfl
  have e2 : pairW L.2 (wtP Q L.2) (fun k => travelCos (Q.x k)) p rb (movedP Q L.2 wd (pWave Q L.2 s p (conv M)) d v) b =
      (srcs.map fun x => (x.charge : ℂ) * pairW L.2 (wtP Q L.2) (fun k => travelCos (Q.x k)) p rb
        (fun k j => cutSeries p (L.2.f k) (radial J om s p (x.pos.sub c)) (travelCos (Q.x k) (Lap.turn v (Yuk.dir (x.pos.sub c)))) (L.2.angle k j) *
        travelWave (wd * Real.sin (Q.x k)) (wd * Real.cos (Q.x k)) (L.2.angle k j) d.1 d.2.1 d.2.2) b).sum := by
    rw [pairW_congr _ _ _ _ _ _ (fun k j => (srcs.map fun x => (x.charge : ℂ) * (cutSeries p (L.2.f k) (radial J om s p (x.pos.sub c))
        (travelCos (Q.x k) (Lap.turn v (Yuk.dir (x.pos.sub c)))) (L.2.angle k j) *
        travelWave (wd * Real.sin (Q.x k)) (wd * Real.cos (Q.x k)) (L.2.angle k j) d.1 d.2.1 d.2.2)).sum), pairW_sum]
    · congr 1
      exact List.map_congr_left fun x _ => pairW_smul _ _ _ _ _ _ _ _
    · intro k hk j h1 h2
      rw [moved_prop Q L.2 wd s p _ hP d v hv k j, hsrc, ← List.sum_map_mul_right]
      congr 1
      refine List.map_congr_left fun x _ => ?_
      rw [hwt, mul_assoc, cutSeries_wav p _ _ (travel_dir (Q.x k) _ (hu _))]
      rfl
  rw [pairL, e1, e2, ← List.sum_map_add]
  congr 1
  refine List.map_congr_left fun x _ => ?_
  rw [rule_pair, mul_add]

theorem opt_comm {α β γ δ : Type} (a : Option α) (q : Option β) (f : α → Option γ) (g : β → Option δ) :
    ((a.bind fun e => q.bind fun r => some (e, r)).bind fun vs => (f vs.1).bind fun e => (g vs.2).bind fun r => some (e, r)) =
      (a.bind f).bind fun u => (q.bind g).bind fun w => some (u, w) := by
  cases a with
  | none => rfl
  | some x =>
    cases q with
    | none =>
      show none = (f x).bind fun _ => none
      cases f x <;> rfl
    | some y => rfl

theorem helm_sToM_some (J : Bessel.Table) (om : ℝ) (p : ℕ) (scale : ℝ) (c : Point ℝ) (srcs : List Src) (hc : AllRegular c srcs) :
    ∃ M, sToM J om p c scale srcs = some M := by
  induction srcs with
  | nil => exact ⟨_, rfl⟩
  | cons s l ih =>
    obtain ⟨R, hR⟩ := ih fun x hx => hc x (List.mem_cons_of_mem _ hx)
    rw [sToM] at hR
    have hn := (clear_of_regular (hc s List.mem_cons_self)).ne
    exact ⟨_, by rw [sToM, Lap.sumSources, hR, sToM1, ephiNeg_eq _ hn]; rfl⟩

/-- What the code computes of the charges of some boxes through plane waves. -/
theorem plane_all (J : Bessel.Table) {dg : ℤ} {T : PlaneTable} (hT : waveBase dg = some T) (Q : PropRule) (hQ : ∀ k < Q.s, 0 ≤ Q.x k ∧ Q.x k ≤ Real.pi)
    (d : Domain ℝ) (om : ℝ) (hs : 0 < d.size) (ho : 0 < om) (hom : om ≤ 10 ∨ om * d.size ≤ 1 / 8)
    (p : ℕ) (n : Index) (hlev : n.level + 1 ≤ 21) (c : ℕ) (hc : c < 8) (boxes : List WaveSrc)
    (hb : ∀ b ∈ boxes, (b.box n).Near) (hr : ∀ b ∈ boxes, AllRegular (d.centerFromIndex b.ix) b.srcs) :
    let scale := scaleOf d.size om (n.level + 1)
    let wd := unitsAt om d.size (n.level + 1)
    ∃ L G, wavesAt T Q d.size om (n.level + 1) = some L ∧ throughWaves J T Q d om p n c boxes = some G ∧
      ∀ t, Regular (t.sub (d.centerFromIndex (n.child c))) →
        lToT J om p (d.centerFromIndex (n.child c)) scale G t = some ((boxes.map fun b => match (b.box n).direction c with
          | none => 0
          | some v => (b.srcs.map fun s => (s.charge : ℂ) * planeRule T Q L wd p
              (radial J om scale p (s.pos.sub (d.centerFromIndex b.ix))) (Lap.turn v (Yukawa.unit (s.pos.sub (d.centerFromIndex b.ix))))
              ((b.box n).toChild c v)
              (radial J om scale p (t.sub (d.centerFromIndex (n.child c)))) (Lap.turn v (Yukawa.unit (t.sub (d.centerFromIndex (n.child c)))))).sum).sum) := by
  intro scale wd
  obtain ⟨C, hC⟩ := extra_some ho hs hom n.level
  obtain ⟨C', hC'⟩ := extra_some ho hs hom (n.level + 1)
  have hw0 : 0 < wd := div_pos (mul_pos ho hs) (by positivity)
  let Mb : WaveSrc → Coef := fun b => (sToM J om p (d.centerFromIndex b.ix) scale b.srcs).getD 0
  have hM : ∀ b ∈ boxes, sToM J om p (d.centerFromIndex b.ix) scale b.srcs = some (Mb b) := by
    intro b hb'
    obtain ⟨M, hM⟩ := helm_sToM_some J om p scale (d.centerFromIndex b.ix) b.srcs (hr b hb')
    show _ = some ((sToM J om p (d.centerFromIndex b.ix) scale b.srcs).getD 0)
    rw [hM]; rfl
  let L := lvl T Q wd C'
  obtain ⟨E, P, G, hE, hP, hG, hV⟩ := iToL_boxes hT Q hQ hs ho hom n hlev hC hC' boxes hb c hc p
    (fun b => eWave T L.1 wd scale p (conv (Mb b))) (fun b => pWave Q L.2 scale p (conv (Mb b)))
  have hat : wavesAt T Q d.size om (n.level + 1) = some L := by rw [wavesAt, hC']; rfl
  refine ⟨L, G, hat, ?_, fun t ht => ?_⟩
  · have hfold := foldlM_pair _ _ boxes _ E _ P hE hP
    rw [throughWaves, wavesOf_eq T Q hs ho hom n.level (by omega) hC, Option.bind_eq_bind, Option.bind_some]
    refine (congrArg (fun o : Option _ => o.bind _) (Eq.trans (Yuk.foldlM_congr _ _ _ _ fun X b hb' => ?_) hfold)).trans hG
    rw [hM b hb']
    show (mToI T Q d.size om p (scaleOf d.size om (n.level + 1)) (Mb b)).bind _ = _
    rw [mToI_arr hT Q hQ hs ho hom (n.level + 1) hlev hC' p (Mb b), Option.bind_some]
    show (iToI T Q d.size om (scaleOf d.size om (n.level + 1)) (b.box n).dx (b.box n).dy (b.box n).dz _).bind _ = _
    rw [iToI, wavesOf_eq T Q hs ho hom (n.level + 1) hlev hC']
    exact opt_comm _ _ _ _
  · have hct := clear_of_regular ht
    set u := t.sub (d.centerFromIndex (n.child c)) with hu
    rw [lToT, ← hu, ephi_eq _ hct.ne, Option.map_some, evalL_val p G u hct.ne _ _ (ephi_eq _ hct.ne), hV _ (Yuk.dir u) (Yuk.dir_norm u)]
    congr 2
    refine List.map_congr_left fun b hb' => ?_
    have hd := (C90_direction (b.box n) (hb b hb') hc).2
    cases hx : (b.box n).direction c with
    | none => rfl
    | some v =>
      simp only
      have h := box_pair J T Q L (C90_helmholtz_layout hT hC').1 wd hw0 om scale p (d.centerFromIndex b.ix) b.srcs (Mb b) (hM b hb') ((b.box n).toChild c v) v (hd v hx).1
        (radial J om scale p u) (Lap.turn v (Yuk.dir u))
      refine Eq.trans ?_ (h.trans ?_)
      · rfl
      refine congrArg List.sum (List.map_congr_left fun s hs' => ?_)
      rw [Yuk.unit_dir _ hct, Yuk.unit_dir _ (clear_of_regular (hr b hb' s hs'))]

end
end Dashmm.Helm
