import Verif.Proofs.HelmPlane

/-!
# The plane waves of the Helmholtz kernel: the local expansion of a child
-/

namespace Dashmm.Helm

open Harm Lap Waves
open Complex (I)
open Yukawa (WaveSrc)

noncomputable section

/-- The waves of a level. -/
def lvl (T : PlaneTable) (Q : PropRule) (wd : ℝ) (C : ℕ × ℕ) : Level × Level := (evanLevel T wd C.1, propLevel Q.s Q.f Q.x wd C.2)

theorem wdOf_scale (size om : ℝ) (hs : 0 < size) (ho : 0 < om) (lev : ℕ) : wdOf size om (scaleOf size om lev) = unitsAt om size lev := by
  have h0 := helm_scale0_pos size om hs ho
  unfold wdOf scaleOf unitsAt
  field_simp

/-- The value of the waves of the two families. -/
def pairL (T : PlaneTable) (Q : PropRule) (L : Level × Level) (wd : ℝ) (p : ℕ) (B : ℕ → ℝ) (We Wp : Wave) (b : Point ℝ) : ℂ :=
  pairW L.1 (wtE T L.1 wd) (fun k => decayCos wd (T.rule.lam k)) p B (fullW L.1 We) b + pairW L.2 (wtP Q L.2) (fun k => travelCos (Q.x k)) p B Wp b

theorem back_value {dg : ℤ} {T : PlaneTable} (hT : waveBase dg = some T) (Q : PropRule) (hQ : ∀ k < Q.s, 0 ≤ Q.x k ∧ Q.x k ≤ Real.pi)
    {size om : ℝ} (hs : 0 < size) (ho : 0 < om) (lev : ℕ) {C : ℕ × ℕ} (hC : extra om (unitsAt om size lev) = some C)
    (P E : List ℂ) (We Wp : Wave) (p : ℕ) (B : ℕ → ℝ) (b : Point ℝ) (hb : b.norm = 1)
    (hE : ∀ k < (lvl T Q (unitsAt om size lev) C).1.s, ∀ j, 1 ≤ j → j ≤ (lvl T Q (unitsAt om size lev) C).1.m k / 2 →
      E[(lvl T Q (unitsAt om size lev) C).1.sm k + (j - 1)]? = some (We k j))
    (hP : ∀ k < (lvl T Q (unitsAt om size lev) C).2.s, ∀ j, 1 ≤ j → j ≤ (lvl T Q (unitsAt om size lev) C).2.m k →
      P[(lvl T Q (unitsAt om size lev) C).2.sm k + (j - 1)]? = some (Wp k j)) :
    ∑ n ∈ Finset.range (p + 1), (B n : ℂ) * val (backL T Q (lvl T Q (unitsAt om size lev) C) size om (scaleOf size om lev) P E true) b n =
      pairL T Q (lvl T Q (unitsAt om size lev) C) (unitsAt om size lev) p (fun n => B n * scaleOf size om lev ^ n) We Wp b := by
  have hwd : wdOf size om (scaleOf size om lev) = unitsAt om size lev := wdOf_scale size om hs ho lev
  have hw0 : 0 < unitsAt om size lev := div_pos (mul_pos ho hs) (by positivity)
  have hsc := helm_scaleOf_pos size om hs ho lev
  have hev := (C90_helmholtz_layout hT hC)
  have hm : ∀ k < (lvl T Q (unitsAt om size lev) C).1.s, 0 < (lvl T Q (unitsAt om size lev) C).1.m k ∧ (lvl T Q (unitsAt om size lev) C).1.m k % 2 = 0 := hev.1
  have hb1 := backL_sum T Q (lvl T Q (unitsAt om size lev) C) size om (scaleOf size om lev) hm (evan_phases hT hC) (prop_phases Q.s Q.f Q.x _ C.2) P E We Wp hE hP
  have h1 : ∀ n, val (backL T Q (lvl T Q (unitsAt om size lev) C) size om (scaleOf size om lev) P E true) b n = _ :=
    fun n => (val_congr _ _ b n (hb1 n)).trans (val_add _ _ b n)
  simp only [h1, mul_add, Finset.sum_add_distrib]
  rw [pairL, hwd]
  congr 1
  · refine back_pair _ _ _ _ (fun k => -I * √(1 + T.rule.lam k / unitsAt om size lev * (T.rule.lam k / unitsAt om size lev)))
      (fun k => ((T.rule.lam k / unitsAt om size lev : ℝ) : ℂ)) _ (fun k _ => ?_) _ (fun k _ u hu => decay_dir _ _ hw0 u hu) b hb p B
    have := evanP_dir (T.rule.lam k / unitsAt om size lev) (scaleOf size om lev) hsc.le
    unfold legE
    rw [hwd]
    exact this
  · refine back_pair _ _ _ _ (fun k => -I * Real.sin (Q.x k)) (fun k => -I * Real.cos (Q.x k)) _ (fun k hk => ?_) _ (fun k _ u hu => travel_dir _ u hu) b hb p B
    have hk : k < Q.s := hk
    exact propP_dir (Q.x k) _ (Real.sin_nonneg_of_nonneg_of_le_pi (hQ k hk).1 (hQ k hk).2)

/-- A source box with its waves. -/
def withW (n : Index) (b : WaveSrc) (S : ℕ → Wave) : SrcBox := ⟨(b.box n).dx, (b.box n).dy, (b.box n).dz, S⟩

/-- An evanescent wave moved from a source box to a child. -/
def movedE (T : PlaneTable) (L : Level) (wd : ℝ) (S : ℕ → Wave) (d : ℤ × ℤ × ℤ) (v : ℕ) : Wave := fun k j =>
  S v k j * planeWave (helmKappa T wd k) (T.rule.lam k) (L.angle k j) d.1 d.2.1 d.2.2

/-- A propagating wave moved from a source box to a child. -/
def movedP (Q : PropRule) (L : Level) (wd : ℝ) (S : ℕ → Wave) (d : ℤ × ℤ × ℤ) (v : ℕ) : Wave := fun k j =>
  (if v % 2 = 1 then starRingEnd ℂ (S (v / 2) k j) else S (v / 2) k j) *
    travelWave (wd * Real.sin (Q.x k)) (wd * Real.cos (Q.x k)) (L.angle k j) d.1 d.2.1 d.2.2

theorem pairL_sum {ι : Type} (T : PlaneTable) (Q : PropRule) (L : Level × Level) (wd : ℝ) (p : ℕ) (B : ℕ → ℝ) (b : Point ℝ) (f g : ι → Wave) (l : List ι) :
    pairL T Q L wd p B (fun k j => (l.map fun i => f i k j).sum) (fun k j => (l.map fun i => g i k j).sum) b =
      (l.map fun i => pairL T Q L wd p B (f i) (g i) b).sum := by
  unfold pairL
  rw [fullW_sum, pairW_sum, pairW_sum, ← List.sum_map_add]

theorem pairL_if (T : PlaneTable) (Q : PropRule) (L : Level × Level) (wd : ℝ) (p : ℕ) (B : ℕ → ℝ) (b : Point ℝ) (P : Prop) [Decidable P] (f g : Wave) :
    pairL T Q L wd p B (fun k j => if P then f k j else 0) (fun k j => if P then g k j else 0) b =
      if P then pairL T Q L wd p B f g b else 0 := by
  unfold pairL
  rw [fullW_if, pairW_if, pairW_if]
  split_ifs
  · rfl
  · rw [add_zero]

/-- What `I_to_L` makes of the waves of some source boxes. -/
theorem iToL_boxes {dg : ℤ} {T : PlaneTable} (hT : waveBase dg = some T) (Q : PropRule) (hQ : ∀ k < Q.s, 0 ≤ Q.x k ∧ Q.x k ≤ Real.pi)
    {size om : ℝ} (hs : 0 < size) (ho : 0 < om) (hom : om ≤ 10 ∨ om * size ≤ 1 / 8) (n : Index) (hlev : n.level + 1 ≤ 21) {C C' : ℕ × ℕ}
    (hC : extra om (unitsAt om size n.level) = some C) (hC' : extra om (unitsAt om size (n.level + 1)) = some C')
    (boxes : List WaveSrc) (hb : ∀ b ∈ boxes, (b.box n).Near) (c : ℕ) (hc : c < 8) (p : ℕ) (Se Sp : WaveSrc → ℕ → Wave) :
    let wd := unitsAt om size (n.level + 1)
    let N := lvl T Q (unitsAt om size n.level) C
    let L := lvl T Q wd C'
    ∃ E P G, boxes.foldlM (fun E b => do addViews E (← Waves.iToI (evanEToE L.1) L.1.nexp (b.box n).dx (b.box n).dy (b.box n).dz
          fun w => arrayOf L.1.s L.1.half (Se b w))) (freshViews N.1.nexp) = some E ∧
      boxes.foldlM (fun E b => do addViews E (← propIToI L.2 (b.box n).dx (b.box n).dy (b.box n).dz
          fun w => arrayOf L.2.s L.2.m (Sp b w))) (freshViews N.2.nexp) = some P ∧
      iToL T Q size om (scaleOf size om n.level) c E P = some G ∧
      ∀ (B : ℕ → ℝ) (b : Point ℝ), b.norm = 1 → ∑ i ∈ Finset.range (p + 1), (B i : ℂ) * val G b i =
        (boxes.map fun x => match (x.box n).direction c with
          | none => 0
          | some v => pairL T Q L wd p (fun i => B i * scaleOf size om (n.level + 1) ^ i) (movedE T L.1 wd (Se x) ((x.box n).toChild c v) v)
              (movedP Q L.2 wd (Sp x) ((x.box n).toChild c v) v) (Lap.turn v b)).sum := by
  intro wd N L
  have hnear : ∀ S : WaveSrc → ℕ → Wave, ∀ x ∈ boxes.map fun b => withW n b (S b), x.Near := by
    intro S x hx
    obtain ⟨b, hb', rfl⟩ := List.mem_map.1 hx
    exact hb b hb'
  obtain ⟨E, hE, hA⟩ := gather_evan hT (mul_pos ho hs).le n.level hC hC' (boxes.map fun b => withW n b (Se b)) (hnear Se) hc
  obtain ⟨P, hP, hB⟩ := gather_prop hT Q (mul_pos ho hs).le n.level hC hC' (boxes.map fun b => withW n b (Sp b)) (hnear Sp) hc
  rw [List.foldlM_map] at hE hP
  simp only [List.map_map] at hA hB
  have hsc : scaleOf size om n.level / 2 = scaleOf size om (n.level + 1) := by
    rw [helm_scaleOf_half]
  obtain ⟨A0, e0, h0⟩ := hA 0 (by norm_num)
  obtain ⟨A1, e1, h1⟩ := hA 1 (by norm_num)
  obtain ⟨A2, e2, h2⟩ := hA 2 (by norm_num)
  obtain ⟨A3, e3, h3⟩ := hA 3 (by norm_num)
  obtain ⟨A4, e4, h4⟩ := hA 4 (by norm_num)
  obtain ⟨A5, e5, h5⟩ := hA 5 (by norm_num)
  obtain ⟨B0, f0, g0⟩ := hB 0 (by norm_num)
  obtain ⟨B1, f1, g1⟩ := hB 1 (by norm_num)
  obtain ⟨B2, f2, g2⟩ := hB 2 (by norm_num)
  obtain ⟨B3, f3, g3⟩ := hB 3 (by norm_num)
  obtain ⟨B4, f4, g4⟩ := hB 4 (by norm_num)
  obtain ⟨B5, f5, g5⟩ := hB 5 (by norm_num)
  clear hA hB
  simp only [Nat.reduceSub] at e0 e1 e2 e3 e4 e5 f0 f1 f2 f3 f4 f5
  let W := fun A B dir sgn => eToL T Q L size om (scaleOf size om (n.level + 1)) B A dir sgn
  refine ⟨E, P, W A5 B5 'z' false + W A4 B4 'z' true + W A3 B3 'y' false + W A2 B2 'y' true + W A1 B1 'x' false + W A0 B0 'x' true, hE, hP, ?_, ?_⟩
  · rw [iToL, hsc, wavesOf_eq T Q hs ho hom (n.level + 1) hlev hC', Option.bind_eq_bind, Option.bind_some]
    have one : ∀ (slot : ℕ) (dir : Char) (sgn : Bool) (a q : List ℂ), slotArr (evanEToE L.1) L.1.nexp c E slot = some a → slotArr (propEToE L.2 false) L.2.nexp c P slot = some q →
        (do
          let e ← slotArr (evanEToE L.1) L.1.nexp c E slot
          let q ← slotArr (propEToE L.2 false) L.2.nexp c P slot
          some (eToL T Q L size om (scaleOf size om (n.level + 1)) q e dir sgn)) = some (W a q dir sgn) := by
      intro slot dir sgn a q h1 h2
      rw [h1, h2]; rfl
    show (Option.bind _ _) = _
    refine (congrArg (fun o : Option LCoef => o.bind _) (one 0 'z' false A5 B5 e5 f5)).trans ?_
    refine (congrArg (fun o : Option LCoef => o.bind _) (one 1 'z' true A4 B4 e4 f4)).trans ?_
    refine (congrArg (fun o : Option LCoef => o.bind _) (one 2 'y' false A3 B3 e3 f3)).trans ?_
    refine (congrArg (fun o : Option LCoef => o.bind _) (one 3 'y' true A2 B2 e2 f2)).trans ?_
    refine (congrArg (fun o : Option LCoef => o.bind _) (one 4 'x' false A1 B1 e1 f1)).trans ?_
    exact congrArg (fun o : Option LCoef => o.bind _) (one 5 'x' true A0 B0 e0 f0)
  · intro B b hbn
    have hD : ∀ v A Bp, (∀ k < L.1.s, ∀ j, 1 ≤ j → j ≤ L.1.m k / 2 → A[L.1.sm k + (j - 1)]? = some ((boxes.map fun x =>
          if (x.box n).direction c = some v then movedE T L.1 wd (Se x) ((x.box n).toChild c v) v k j else 0).sum)) →
        (∀ k < L.2.s, ∀ j, 1 ≤ j → j ≤ L.2.m k → Bp[L.2.sm k + (j - 1)]? = some ((boxes.map fun x =>
          if (x.box n).direction c = some v then movedP Q L.2 wd (Sp x) ((x.box n).toChild c v) v k j else 0).sum)) →
        ∑ i ∈ Finset.range (p + 1), (B i : ℂ) * val (backL T Q L size om (scaleOf size om (n.level + 1)) Bp A true) (Lap.turn v b) i =
          (boxes.map fun x => if (x.box n).direction c = some v then
            pairL T Q L wd p (fun i => B i * scaleOf size om (n.level + 1) ^ i) (movedE T L.1 wd (Se x) ((x.box n).toChild c v) v)
              (movedP Q L.2 wd (Sp x) ((x.box n).toChild c v) v) (Lap.turn v b) else 0).sum := by
      intro v A Bp hA hB
      rw [back_value hT Q hQ hs ho (n.level + 1) hC' Bp A _ _ p B (Lap.turn v b) ((Yuk.ltu_norm v b).trans hbn) hA hB]
      rw [pairL_sum]
      congr 1
      exact List.map_congr_left fun x _ => pairL_if _ _ _ _ _ _ _ _ _ _
    have v0 := hD 0 A0 B0 h0 g0
    have v1 := hD 1 A1 B1 h1 g1
    have v2 := hD 2 A2 B2 h2 g2
    have v3 := hD 3 A3 B3 h3 g3
    have v4 := hD 4 A4 B4 h4 g4
    have v5 := hD 5 A5 B5 h5 g5
    have w0 := fun i => (eToL_val T Q L size om (scaleOf size om (n.level + 1)) B0 A0 b i).2.2.2.2.1
    have w1 := fun i => (eToL_val T Q L size om (scaleOf size om (n.level + 1)) B1 A1 b i).2.2.2.2.2
    have w2 := fun i => (eToL_val T Q L size om (scaleOf size om (n.level + 1)) B2 A2 b i).2.2.1
    have w3 := fun i => (eToL_val T Q L size om (scaleOf size om (n.level + 1)) B3 A3 b i).2.2.2.1
    have w4 := fun i => (eToL_val T Q L size om (scaleOf size om (n.level + 1)) B4 A4 b i).1
    have w5 := fun i => (eToL_val T Q L size om (scaleOf size om (n.level + 1)) B5 A5 b i).2.1
    simp only at w0 w1 w2 w3 w4 w5
    simp only [W, val_add, mul_add, Finset.sum_add_distrib, w0, w1, w2, w3, w4, w5]
    rw [v0, v1, v2, v3, v4, v5]
    rw [← List.sum_map_add, ← List.sum_map_add, ← List.sum_map_add, ← List.sum_map_add, ← List.sum_map_add]
    congr 1
    refine List.map_congr_left fun x hx => ?_
    have hd := (C90_direction (x.box n) (hb x hx) hc).2
    cases hx : (x.box n).direction c with
    | none => simp
    | some v =>
      obtain ⟨hv, -⟩ := hd v hx
      interval_cases v <;> simp

end
end Dashmm.Helm
