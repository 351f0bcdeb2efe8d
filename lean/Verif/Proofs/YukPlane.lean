import Verif.Proofs.YukGather
import Verif.Proofs.PlaneErr
import Verif.Spec.YukPlane
import Verif.Proofs.YukEval
import Verif.Props.YukShift

/-!
# The plane waves of the Yukawa kernel: from sources to targets
-/

namespace Dashmm.Yuk

open Harm Lap Waves
open Complex (I)

noncomputable section

/-! ### Gathering -/

theorem pairG_sum {ι : Type} (R : Rule) (p : ℕ) (g : ℕ → ℕ → ℕ → ℝ) (b : Point ℝ) (f : ι → Wave) : ∀ l : List ι,
    pairG R p g (fun k j => (l.map fun i => f i k j).sum) b = (l.map fun i => pairG R p g (f i) b).sum
  | [] => by simp [pairG]
  | i :: l => by
    simp only [List.map_cons, List.sum_cons]
    rw [← pairG_sum R p g b f l]
    unfold pairG
    rw [← Finset.sum_add_distrib]
    refine Finset.sum_congr rfl fun k _ => ?_
    rw [← Finset.sum_add_distrib]
    refine Finset.sum_congr rfl fun j _ => ?_
    rw [add_mul, Complex.add_re]; ring

theorem pairG_congr (R : Rule) (p : ℕ) (g : ℕ → ℕ → ℕ → ℝ) (W W' : Wave) (b : Point ℝ)
    (h : ∀ k < R.s, ∀ j, 1 ≤ j → j ≤ R.m k / 2 → W k j = W' k j) : pairG R p g W b = pairG R p g W' b := by
  refine Finset.sum_congr rfl fun k hk => Finset.sum_congr rfl fun j hj => ?_
  rw [Finset.mem_range] at hk
  rw [Finset.mem_Icc] at hj
  rw [h k hk j hj.1 hj.2]

/-- The fold of `throughWaves`. -/
theorem gather_all {d : ℤ} {T : PlaneTable} (hT : waveBase d = some T) {lam size : ℝ} (h0 : 0 ≤ lam * size) (lev : ℕ)
    (boxes : List SrcBox) (hb : ∀ b ∈ boxes, b.Near) {c : ℕ} (hc : c < 8) :
    let N := (yukLevel T lam size lev).nexp
    let L := yukLevel T lam size (lev + 1)
    let ld := unitsAt lam size (lev + 1)
    ∃ E, boxes.foldlM (fun E b => do addViews E (← Waves.iToI (yukEToE L) L.nexp b.dx b.dy b.dz fun w => arrayOf L.s L.half (b.S w))) (freshViews N) = some E ∧
      ∀ v < 6, ∃ A, slotArr (yukEToE L) L.nexp c E (5 - v) = some A ∧ A.length = L.nexp ∧
        ∀ k < L.s, ∀ j, 1 ≤ j → j ≤ L.m k / 2 → A[L.sm k + (j - 1)]? = some ((boxes.map fun b =>
          if b.direction c = some v then b.S v k j * planeWave (yukKappa T ld k) (T.rule.lam k + ld) (L.angle k j)
            (b.toChild c v).1 (b.toChild c v).2.1 (b.toChild c v).2.2 else 0).sum) := by
  intro N L ld
  have h := fun v hv => C90_yukawa_gather hT h0 lev boxes hb (v := v) hc hv
  simp only [Waves.gather] at h
  cases hE : boxes.foldlM (fun E b => do addViews E (← Waves.iToI (yukEToE L) L.nexp b.dx b.dy b.dz fun w => arrayOf L.s L.half (b.S w))) (freshViews N) with
  | none =>
    obtain ⟨A, hA, -⟩ := h 0 (by norm_num)
    rw [hE] at hA
    cases hA
  | some E =>
    refine ⟨E, rfl, fun v hv => ?_⟩
    obtain ⟨A, hA, hl, hs⟩ := h v hv
    rw [hE] at hA
    exact ⟨A, hA, hl, hs⟩

/-! ### The rule -/

theorem cutSeries_pi (p f : ℕ) (a : ℕ → ℝ) (ld x scale : ℝ) (hld : 0 < ld) (hx : 0 ≤ x) (u : Point ℝ) (hu : u.norm = 1) (α : ℝ) :
    Yukawa.cutSeries p f (fun n => a n * scale ^ n) ld x u (α + Real.pi) =
      starRingEnd ℂ (Yukawa.cutSeries p f (fun n => a n * scale ^ n) ld x u α) := by
  rw [cutSeries_sig p f a ld x scale hld hx u hu, cutSeries_sig p f a ld x scale hld hx u hu, sig_pi]

theorem planeWave_pi (κ δ α x y z : ℝ) : planeWave κ δ (α + Real.pi) x y z = starRingEnd ℂ (planeWave κ δ α x y z) := by
  unfold planeWave
  rw [← Complex.exp_conj, Real.cos_add_pi, Real.sin_add_pi]
  congr 1
  simp only [map_add, map_mul, map_neg, Complex.conj_ofReal, Complex.conj_I]
  push_cast; ring

theorem neg_norm (b : Point ℝ) : (⟨-b.x, -b.y, -b.z⟩ : Point ℝ).norm = b.norm := by
  unfold Point.norm; simp only; congr 1; ring

/-- Half of the angles. -/
theorem planeRule_half (T : PlaneTable) (L : Level) (hm : ∀ k < L.s, 0 < L.m k ∧ L.m k % 2 = 0) (hlam : ∀ k, 0 ≤ T.rule.lam k) (ld : ℝ) (hld : 0 < ld)
    (p : ℕ) (ra rb : ℕ → ℝ) (scale : ℝ) (a b : Point ℝ) (ha : a.norm = 1) (hb : b.norm = 1) (d : ℤ × ℤ × ℤ) :
    Yukawa.planeRule T L ld p (fun n => ra n * scale ^ n) a d (fun n => rb n * scale ^ n) b =
      Real.pi / (2 * ld) * ∑ k ∈ Finset.range L.s, ∑ j ∈ Finset.Icc 1 (L.m k / 2), T.rule.wt k / L.m k * (2 *
        (Yukawa.cutSeries p (L.f k) (fun n => ra n * scale ^ n) ld (T.rule.lam k) a (L.angle k j) *
          planeWave √(T.rule.lam k * T.rule.lam k + 2 * T.rule.lam k * ld) (T.rule.lam k + ld) (L.angle k j) d.1 d.2.1 d.2.2 *
          Yukawa.cutSeries p (L.f k) (fun n => rb n * scale ^ n) ld (T.rule.lam k) ⟨-b.x, -b.y, -b.z⟩ (L.angle k j)).re) := by
  unfold Yukawa.planeRule
  congr 1
  rw [Complex.re_sum]
  refine Finset.sum_congr rfl fun k hk => ?_
  obtain ⟨h1, h2⟩ := hm k (Finset.mem_range.1 hk)
  have hα : ∀ j : ℕ, 2 * Real.pi * j / L.m k = L.angle k j := by intro j; unfold Level.angle; ring
  have hα' : ∀ j : ℕ, L.angle k (j + L.m k / 2) = L.angle k j + Real.pi := by
    intro j
    unfold Level.angle
    have e : ((L.m k / 2 : ℕ) : ℝ) = L.m k / 2 := by
      have : (L.m k : ℝ) = ((2 * (L.m k / 2) : ℕ) : ℝ) := by congr 1; omega
      rw [this]; push_cast; ring
    have h0 : (L.m k : ℝ) ≠ 0 := by exact_mod_cast h1.ne'
    push_cast [e]; field_simp
  simp only [hα]
  have hmm : Finset.Icc 1 (L.m k) = Finset.Icc 1 (L.m k / 2 + L.m k / 2) := by congr 1; omega
  rw [hmm, sum_Icc_shift, ← Finset.sum_add_distrib, Complex.re_ofReal_mul, Complex.re_sum, Finset.mul_sum]
  refine Finset.sum_congr rfl fun j _ => ?_
  rw [hα', cutSeries_pi p _ _ ld _ scale hld (hlam k) a ha, cutSeries_pi p _ _ ld _ scale hld (hlam k) _ ((neg_norm b).trans hb), planeWave_pi,
    ← map_mul, ← map_mul, Complex.add_conj, Complex.ofReal_re]

/-- What the waves of a unit charge yield. -/
theorem pairG_rule (T : PlaneTable) (L : Level) (hm : ∀ k < L.s, 0 < L.m k ∧ L.m k % 2 = 0) (hlam : ∀ k, 0 ≤ T.rule.lam k) (ld : ℝ) (hld : 0 < ld)
    (p : ℕ) (ra rb : ℕ → ℝ) (scale : ℝ) (a b : Point ℝ) (ha : a.norm = 1) (hb : b.norm = 1) (d : ℤ × ℤ × ℤ)
    (leg : ℕ → ℕ → ℕ → ℝ) (hleg : ∀ k, leg k = Yukawa.gt1 (1 + T.rule.lam k / ld) scale) :
    pairG (ruleOf T L) p (fun k n m => rb n * gBack T L ld leg k n m) (fun k j =>
      sig (fun n m => (2 * n + 1) * ra n * gw (leg k) n m) p (L.f k) (reg a) (L.angle k j) *
        planeWave √(T.rule.lam k * T.rule.lam k + 2 * T.rule.lam k * ld) (T.rule.lam k + ld) (L.angle k j) d.1 d.2.1 d.2.2) b =
      Yukawa.planeRule T L ld p (fun n => ra n * scale ^ n) a d (fun n => rb n * scale ^ n) b := by
  rw [planeRule_half T L hm hlam ld hld p ra rb scale a b ha hb d, pairG, Finset.mul_sum]
  refine Finset.sum_congr rfl fun k _ => ?_
  rw [Finset.mul_sum]
  refine Finset.sum_congr rfl fun j _ => ?_
  rw [cutSeries_sig p _ ra ld _ scale hld (hlam k) a ha, cutSeries_sig p _ rb ld _ scale hld (hlam k) _ ((neg_norm b).trans hb), ← hleg]
  have e : sig (fun n m => rb n * gBack T L ld leg k n m) p ((ruleOf T L).f k) (reg b) ((ruleOf T L).alpha k j) =
      ((Real.pi / (2 * ld) * (T.rule.wt k / L.m k) : ℝ) : ℂ) *
        sig (fun n m => (2 * n + 1) * rb n * gw (leg k) n m) p (L.f k) (reg ⟨-b.x, -b.y, -b.z⟩) (L.angle k j) := by
    rw [sig_congr _ p _ _ _ (fun n m _ => reg_neg b n m), sig_cmul (fun n => (-1) ^ n)]
    unfold sig
    rw [Finset.mul_sum]
    refine Finset.sum_congr rfl fun n _ => ?_
    rw [Finset.mul_sum]
    refine Finset.sum_congr rfl fun m _ => ?_
    have ea : (ruleOf T L).alpha k j = L.angle k j := rfl
    simp only [gBack, ea]
    push_cast
    field_simp
  rw [e, mul_left_comm, Complex.re_ofReal_mul]
  ring

/-! ### The local expansion of a child -/

theorem pairG_if (R : Rule) (p : ℕ) (g : ℕ → ℕ → ℕ → ℝ) (b : Point ℝ) (P : Prop) [Decidable P] (W : Wave) :
    pairG R p g (fun k j => if P then W k j else 0) b = if P then pairG R p g W b else 0 := by
  split_ifs
  · rfl
  · simp [pairG]

theorem pairG_smul (R : Rule) (p : ℕ) (g : ℕ → ℕ → ℕ → ℝ) (b : Point ℝ) (q : ℝ) (W : Wave) :
    pairG R p g (fun k j => (q : ℂ) * W k j) b = q * pairG R p g W b := by
  unfold pairG
  rw [Finset.mul_sum]
  refine Finset.sum_congr rfl fun k _ => ?_
  rw [Finset.mul_sum]
  refine Finset.sum_congr rfl fun j _ => ?_
  rw [mul_assoc, Complex.re_ofReal_mul]; ring

/-- A wave moved from a source box to a child. -/
def movedWave (T : PlaneTable) (L : Level) (ld : ℝ) (b : SrcBox) (c v : ℕ) : Wave := fun k j =>
  b.S v k j * planeWave (yukKappa T ld k) (T.rule.lam k + ld) (L.angle k j) (b.toChild c v).1 (b.toChild c v).2.1 (b.toChild c v).2.2

/-- What `I_to_L` makes of the waves of some source boxes. -/
theorem iToL_boxes {dg : ℤ} {T : PlaneTable} (hT : waveBase dg = some T) (size lam : ℝ) (hs : 0 < size) (hl : 0 < lam) (lev : ℕ)
    (hlev : lev + 1 ≤ 21) (boxes : List SrcBox) (hb : ∀ b ∈ boxes, b.Near) (c : ℕ) (hc : c < 8) (p : ℕ) :
    let scale := Yukawa.scaleOf size lam (lev + 1)
    let L := yukLevel T lam size (lev + 1)
    ∃ E C, boxes.foldlM (fun E b => do addViews E (← Waves.iToI (yukEToE L) L.nexp b.dx b.dy b.dz fun w => arrayOf L.s L.half (b.S w)))
        (freshViews (yukLevel T lam size lev).nexp) = some E ∧
      Yukawa.iToL T size lam (Yukawa.scaleOf size lam lev) c E = some C ∧ Proper (conv C) ∧
      ∀ (B : ℕ → ℝ) (b : Point ℝ), ∑ n ∈ Finset.range (p + 1), B n * (form (conv C) b n).re =
        (boxes.map fun x => match x.direction c with
          | none => 0
          | some v => pairG (ruleOf T L) p (fun k n m => B n * gBack T L (Yukawa.ldOf size lam scale) (Yukawa.legAt T size lam scale) k n m)
              (movedWave T L (unitsAt lam size (lev + 1)) x c v) (Lap.turn v b)).sum := by
  intro scale L
  obtain ⟨E, hE, hA⟩ := gather_all hT (mul_pos hl hs).le lev boxes hb hc
  have hs0 := scale0_pos size lam hs hl
  have hsc : Yukawa.scaleOf size lam lev / 2.0 = scale := by
    show _ = Yukawa.scaleOf size lam (lev + 1)
    rw [scaleOf_half]; norm_num
  obtain ⟨A0, e0, -, h0⟩ := hA 0 (by norm_num)
  obtain ⟨A1, e1, -, h1⟩ := hA 1 (by norm_num)
  obtain ⟨A2, e2, -, h2⟩ := hA 2 (by norm_num)
  obtain ⟨A3, e3, -, h3⟩ := hA 3 (by norm_num)
  obtain ⟨A4, e4, -, h4⟩ := hA 4 (by norm_num)
  obtain ⟨A5, e5, -, h5⟩ := hA 5 (by norm_num)
  simp only [Nat.reduceSub] at e0 e1 e2 e3 e4 e5
  have hlv : Yukawa.level size lam scale = lev + 1 := level_eq size lam hs0 (lev + 1)
  refine ⟨E, Yukawa.eToL T L size lam scale A5 'z' false + Yukawa.eToL T L size lam scale A4 'z' true + Yukawa.eToL T L size lam scale A3 'y' false +
      Yukawa.eToL T L size lam scale A2 'y' true + Yukawa.eToL T L size lam scale A1 'x' false + Yukawa.eToL T L size lam scale A0 'x' true, hE, ?_, ?_⟩
  · rw [Yukawa.iToL, hsc, Yukawa.iToL1, hlv, if_pos (show lev + 1 ≤ Yukawa.maxlev from hlev)]
    show (slotArr (yukEToE L) L.nexp c E 0).bind _ = _
    rw [e5, Option.bind_some]
    show (slotArr (yukEToE L) L.nexp c E 1).bind _ = _
    rw [e4, Option.bind_some]
    show (slotArr (yukEToE L) L.nexp c E 2).bind _ = _
    rw [e3, Option.bind_some]
    show (slotArr (yukEToE L) L.nexp c E 3).bind _ = _
    rw [e2, Option.bind_some]
    show (slotArr (yukEToE L) L.nexp c E 4).bind _ = _
    rw [e1, Option.bind_some]
    show (slotArr (yukEToE L) L.nexp c E 5).bind _ = _
    rw [e0, Option.bind_some]
  have hD : ∀ v A, (∀ k < L.s, ∀ j, 1 ≤ j → j ≤ L.m k / 2 → A[L.sm k + (j - 1)]? = some ((boxes.map fun b =>
          if b.direction c = some v then b.S v k j * planeWave (yukKappa T (unitsAt lam size (lev + 1)) k) (T.rule.lam k + unitsAt lam size (lev + 1)) (L.angle k j)
            (b.toChild c v).1 (b.toChild c v).2.1 (b.toChild c v).2.2 else 0).sum)) → _ :=
    fun v A hA => conv_back hT lam size scale (lev + 1) A
      (fun k j => (boxes.map fun b => if b.direction c = some v then movedWave T L (unitsAt lam size (lev + 1)) b c v k j else 0).sum) hA
  have hP : ∀ (v : ℕ) (B : ℕ → ℝ) (b : Point ℝ), pairG (ruleOf T L) p (fun k n m => B n * gBack T L (Yukawa.ldOf size lam scale) (Yukawa.legAt T size lam scale) k n m)
      (fun k j => (boxes.map fun b => if b.direction c = some v then movedWave T L (unitsAt lam size (lev + 1)) b c v k j else 0).sum) b =
      (boxes.map fun x => if x.direction c = some v then pairG (ruleOf T L) p (fun k n m => B n * gBack T L (Yukawa.ldOf size lam scale) (Yukawa.legAt T size lam scale) k n m)
        (movedWave T L (unitsAt lam size (lev + 1)) x c v) b else 0).sum := by
    intro v B b
    rw [pairG_sum]
    congr 1
    exact List.map_congr_left fun x _ => pairG_if _ _ _ _ _ _
  have hpr : ∀ v A dir sgn, (∀ n m, m ≤ n → conv (Yukawa.backCoef T L size lam scale A true) n m =
      (∑ k ∈ Finset.range (ruleOf T L).s, if m ≤ (ruleOf T L).f k then
        (gBack T L (Yukawa.ldOf size lam scale) (Yukawa.legAt T size lam scale) k n m : ℂ) * Lap.zBack (ruleOf T L)
          (fun k j => (boxes.map fun b => if b.direction c = some v then movedWave T L (unitsAt lam size (lev + 1)) b c v k j else 0).sum) k m else 0) *
      (I ^ m / (Lap.sqf (n - m) : ℂ) / (Lap.sqf (n + m) : ℂ))) → Proper (conv (Yukawa.eToL T L size lam scale A dir sgn)) := by
    intro v A dir sgn h
    exact eToL_proper' T L lam size scale A _ h dir sgn
  constructor
  · simp only [conv_add]
    exact proper_add (proper_add (proper_add (proper_add (proper_add (hpr 5 _ _ _ (hD 5 _ h5)) (hpr 4 _ _ _ (hD 4 _ h4))) (hpr 3 _ _ _ (hD 3 _ h3)))
      (hpr 2 _ _ _ (hD 2 _ h2))) (hpr 1 _ _ _ (hD 1 _ h1))) (hpr 0 _ _ _ (hD 0 _ h0))
  · intro B b
    have v0 := (eToL_pair T L lam size scale p B b A0 _ (hD 0 _ h0)).2.2.2.2.1
    have v1 := (eToL_pair T L lam size scale p B b A1 _ (hD 1 _ h1)).2.2.2.2.2
    have v2 := (eToL_pair T L lam size scale p B b A2 _ (hD 2 _ h2)).2.2.1
    have v3 := (eToL_pair T L lam size scale p B b A3 _ (hD 3 _ h3)).2.2.2.1
    have v4 := (eToL_pair T L lam size scale p B b A4 _ (hD 4 _ h4)).1
    have v5 := (eToL_pair T L lam size scale p B b A5 _ (hD 5 _ h5)).2.1
    simp only at v0 v1 v2 v3 v4 v5
    simp only [conv_add, form_add, Complex.add_re, mul_add, Finset.sum_add_distrib]
    refine (congrArg₂ (· + ·) (congrArg₂ (· + ·) (congrArg₂ (· + ·) (congrArg₂ (· + ·) (congrArg₂ (· + ·) v5 v4) v3) v2) v1) v0).trans ?_
    simp only [hP]
    rw [← List.sum_map_add, ← List.sum_map_add, ← List.sum_map_add, ← List.sum_map_add, ← List.sum_map_add]
    congr 1
    refine List.map_congr_left fun x hx => ?_
    have hd := (C90_direction x (hb x hx) hc).2
    cases hx : x.direction c with
    | none => simp
    | some v =>
      obtain ⟨hv, -⟩ := hd v hx
      interval_cases v <;> simp

/-! ### All steps -/

theorem foldlM_congr {α β : Type} (f g : α → β → Option α) : ∀ (l : List β) (a : α), (∀ a, ∀ b ∈ l, f a b = g a b) → l.foldlM f a = l.foldlM g a
  | [], _, _ => rfl
  | b :: l, a, h => by
    rw [List.foldlM_cons, List.foldlM_cons, h a b List.mem_cons_self]
    congr 1
    funext a'
    exact foldlM_congr f g l a' fun x y hy => h x y (List.mem_cons_of_mem _ hy)

theorem ldOf_scale (size lam : ℝ) (hs : 0 < size) (hl : 0 < lam) (lev : ℕ) : Yukawa.ldOf size lam (Yukawa.scaleOf size lam lev) = unitsAt lam size lev := by
  have h0 := scale0_pos size lam hs hl
  unfold Yukawa.ldOf Yukawa.scaleOf unitsAt
  field_simp

theorem unit_dir (v : Point ℝ) (h : Clear v) : Yukawa.unit v = dir v := by
  have hn := h.ne
  have e : ∀ f : Point ℝ → ℝ, f v = f (psmul v.norm (dir v)) := fun f => congrArg f (dir_clear v h).symm
  have hx := e Point.x
  have hy := e Point.y
  have hz := e Point.z
  simp only [psmul] at hx hy hz
  show (⟨v.x / v.norm, v.y / v.norm, v.z / v.norm⟩ : Point ℝ) = ⟨(dir v).x, (dir v).y, (dir v).z⟩
  congr 1
  · rw [div_eq_iff hn, mul_comm]; exact hx
  · rw [div_eq_iff hn, mul_comm]; exact hy
  · rw [div_eq_iff hn, mul_comm]; exact hz

theorem yukLevel_even {dg : ℤ} {T : PlaneTable} (hT : waveBase dg = some T) (lam size : ℝ) (lev : ℕ) :
    ∀ k < (yukLevel T lam size lev).s, 0 < (yukLevel T lam size lev).m k ∧ (yukLevel T lam size lev).m k % 2 = 0 := by
  intro k hk
  exact angles_pos hT (yukKappa T (unitsAt lam size lev) k) hk

/-- What the code computes of the charges of some boxes through plane waves. -/
theorem plane_all (F : Bessel.Table) {dg : ℤ} {T : PlaneTable} (hT : waveBase dg = some T) (d : Domain ℝ) (lam : ℝ) (hs : 0 < d.size) (hl : 0 < lam)
    (p : ℕ) (n : Index) (hlev : n.level + 1 ≤ 21) (c : ℕ) (hc : c < 8) (boxes : List Yukawa.WaveSrc)
    (hb : ∀ b ∈ boxes, (b.box n).Near) (hr : ∀ b ∈ boxes, AllRegular (d.centerFromIndex b.ix) b.srcs) :
    let scale := Yukawa.scaleOf d.size lam (n.level + 1)
    let L := yukLevel T lam d.size (n.level + 1)
    let ld := unitsAt lam d.size (n.level + 1)
    ∃ C, Yukawa.throughWaves F T d lam p n c boxes = some C ∧ RealZonal C ∧
      ∀ t, Regular (t.sub (d.centerFromIndex (n.child c))) →
        Yukawa.lToT F lam p (d.centerFromIndex (n.child c)) scale C t = some ((boxes.map fun b => match (b.box n).direction c with
          | none => 0
          | some v => (b.srcs.map fun s => s.charge * Yukawa.planeRule T L ld p
              (Yukawa.radial F lam scale p (s.pos.sub (d.centerFromIndex b.ix))) (Lap.turn v (Yukawa.unit (s.pos.sub (d.centerFromIndex b.ix))))
              ((b.box n).toChild c v)
              (Yukawa.radial F lam scale (p + 1) (t.sub (d.centerFromIndex (n.child c)))) (Lap.turn v (Yukawa.unit (t.sub (d.centerFromIndex (n.child c)))))).sum).sum) := by
  intro scale L ld
  have hs0 := scale0_pos d.size lam hs hl
  have hlv : Yukawa.level d.size lam scale = n.level + 1 := level_eq d.size lam hs0 (n.level + 1)
  have hld0 : 0 < ld := by show 0 < lam * d.size / 2 ^ (n.level + 1); positivity
  have hldOf : Yukawa.ldOf d.size lam scale = ld := ldOf_scale d.size lam hs hl (n.level + 1)
  let Mb : Yukawa.WaveSrc → Coef := fun b => (Yukawa.sToM F lam p (d.centerFromIndex b.ix) scale b.srcs).getD 0
  let toBox : Yukawa.WaveSrc → SrcBox := fun b => ⟨(b.box n).dx, (b.box n).dy, (b.box n).dz, mWave L p (Yukawa.legAt T d.size lam scale) (conv (Mb b))⟩
  have hM : ∀ b ∈ boxes, Yukawa.sToM F lam p (d.centerFromIndex b.ix) scale b.srcs = some (Mb b) := by
    intro b hb'
    obtain ⟨M, hM⟩ := sToM_some F lam p scale (d.centerFromIndex b.ix) b.srcs (hr b hb')
    show _ = some ((Yukawa.sToM F lam p (d.centerFromIndex b.ix) scale b.srcs).getD 0)
    rw [hM]; rfl
  obtain ⟨E, C, hE, hC, hP, hV⟩ := iToL_boxes hT d.size lam hs hl n.level hlev (boxes.map toBox)
    (by intro x hx; obtain ⟨b, hb', rfl⟩ := List.mem_map.1 hx; exact hb b hb') c hc p
  rw [List.foldlM_map] at hE
  have hfold : boxes.foldlM (fun E b => do
      let M ← Yukawa.sToM F lam p (d.centerFromIndex b.ix) scale b.srcs
      let S ← Yukawa.mToI T d.size lam p scale M
      let vs ← Yukawa.iToI T d.size lam scale (b.box n).dx (b.box n).dy (b.box n).dz S
      Waves.addViews E vs) (freshViews (yukLevel T lam d.size n.level).nexp) = some E := by
    rw [← hE]
    refine foldlM_congr _ _ _ _ fun X b hb' => ?_
    obtain ⟨S, hS, hS2⟩ := mToI_arr hT d.size lam p scale (Mb b) (sToM_proper F lam p scale _ _ _ (hM b hb')) (hlv.le.trans hlev)
    rw [hM b hb']
    show (Yukawa.mToI T d.size lam p scale (Mb b)).bind _ = _
    rw [hS]
    show (Yukawa.iToI T d.size lam scale (b.box n).dx (b.box n).dy (b.box n).dz S).bind _ = _
    rw [Yukawa.iToI, if_pos (show _ ≤ Yukawa.maxlev from hlv.le.trans hlev)]
    rw [hlv] at hS2 ⊢
    rw [show S = fun w => arrayOf L.s L.half ((toBox b).S w) from funext hS2]
    rfl
  refine ⟨C, ?_, ?_, fun t ht => ?_⟩
  · rw [Yukawa.throughWaves]
    refine (congrArg (fun o : Option _ => o.bind _) hfold).trans ?_
    exact hC
  · intro k
    have := hP k
    rw [conv, Nat.add_zero, Nat.sub_zero, div_self (lsqf_pos k).ne', Complex.ofReal_one, mul_one] at this
    exact this
  · have hct := clear_of_regular ht
    set u := t.sub (d.centerFromIndex (n.child c)) with hu
    rw [Yukawa.lToT, ← hu, Yukawa.lToT1, ephi_eq _ hct.ne, Option.map_some, evalAt_conv, evalAt_form _ _ _ _ (ctheta_sq u) (azi_unit u)]
    congr 1
    have := hV (Bessel.inScaled F (p + 1) (lam * u.norm) scale) (dir u)
    refine Eq.trans ?_ (this.trans ?_)
    · exact Finset.sum_congr rfl fun n _ => rfl
    rw [List.map_map]
    congr 1
    refine List.map_congr_left fun b hb' => ?_
    show (match (b.box n).direction c with
          | none => 0
          | some v => pairG (ruleOf T L) p (fun k n m => Bessel.inScaled F (p + 1) (lam * u.norm) scale n * gBack T L (Yukawa.ldOf d.size lam scale) (Yukawa.legAt T d.size lam scale) k n m)
              (movedWave T L ld (toBox b) c v) (Lap.turn v (dir u))) = _
    cases hdir : (b.box n).direction c with
    | none => rfl
    | some v =>
      simp only
      have hw : movedWave T L ld (toBox b) c v = fun k j => (b.srcs.map fun s => (s.charge : ℂ) * (
          sig (fun n m => (2 * n + 1) * Bessel.inScaled F p (lam * (s.pos.sub (d.centerFromIndex b.ix)).norm) scale n * gw (Yukawa.legAt T d.size lam scale k) n m) p (L.f k)
            (reg (Lap.turn v (dir (s.pos.sub (d.centerFromIndex b.ix))))) (L.angle k j) *
          planeWave √(T.rule.lam k * T.rule.lam k + 2 * T.rule.lam k * ld) (T.rule.lam k + ld) (L.angle k j)
            ((b.box n).toChild c v).1 ((b.box n).toChild c v).2.1 ((b.box n).toChild c v).2.2)).sum := by
        funext k j
        show sig (gw (Yukawa.legAt T d.size lam scale k)) p (L.f k) (frameC v (conv (Mb b))) (L.angle k j) * _ = _
        rw [sources_sig (Yukawa.sToM1 F lam p) (fun v n => Bessel.inScaled F p (lam * v.norm) scale n) (d.centerFromIndex b.ix) scale
          (fun v q C hC n m hm => sToM_conv F lam p scale v q C hC n m hm) _ p (L.f k) v (L.angle k j) b.srcs (Mb b) (hM b hb'),
          ← List.sum_map_mul_right]
        congr 1
        refine List.map_congr_left fun s _ => ?_
        rw [mul_assoc]; rfl
      rw [hw, pairG_sum]
      congr 1
      refine List.map_congr_left fun s hs' => ?_
      have hcs := clear_of_regular (hr b hb' s hs')
      rw [pairG_smul, hldOf, pairG_rule T L (yukLevel_even hT lam d.size (n.level + 1)) (waveBase_nonneg hT) ld hld0 p _ _ scale _ _
        ((ltu_norm v _).trans (dir_norm _)) ((ltu_norm v _).trans (dir_norm _)) ((b.box n).toChild c v) (Yukawa.legAt T d.size lam scale)
        (fun k => by funext a b; unfold Yukawa.legAt; rw [hldOf]), unit_dir _ hcs, unit_dir _ hct]
      rfl

end
end Dashmm.Yuk
