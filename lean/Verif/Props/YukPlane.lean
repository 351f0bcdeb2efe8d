import Verif.Proofs.YukPlane
import Verif.Proofs.YukAcc
import Verif.Spec.DagBuild
import Verif.Spec.LapExec

/-!
# C101: the plane waves of the Yukawa kernel
-/

namespace Dashmm

open Harm Lap Waves Yuk

noncomputable section

/-- **C101** What a target gets through the plane waves: with the tables of the kernel, when all charges are where the code can take
angles, the program carries the charges of the source boxes to the local expansion of a child of the target parent, and
the value of that expansion is the quadrature rule applied to every charge that is in a box of a direction of that child. -/
theorem C101_plane_rule (F : Bessel.Table) {dg : ℤ} {T : PlaneTable} (hT : waveBase dg = some T) (d : Domain ℝ) (hs : 0 < d.size)
    (lam : ℝ) (hl : 0 < lam) (p : ℕ) (n : Index) (hlev : n.level + 1 ≤ 21) (c : ℕ) (hc : c < 8) (boxes : List Yukawa.WaveSrc)
    (hb : ∀ b ∈ boxes, (b.box n).Near) (hr : ∀ b ∈ boxes, AllRegular (d.centerFromIndex b.ix) b.srcs) :
    let scale := Yukawa.scaleOf d.size lam (n.level + 1)
    let L := yukLevel T lam d.size (n.level + 1)
    let ct := d.centerFromIndex (n.child c)
    ∃ C, Yukawa.throughWaves F T d lam p n c boxes = some C ∧ RealZonal C ∧
      ∀ t, Regular (t.sub ct) → Yukawa.lToT F lam p ct scale C t = some ((boxes.map fun b => match (b.box n).direction c with
        | none => 0
        | some v => (b.srcs.map fun s =>
            let a := s.pos.sub (d.centerFromIndex b.ix)
            s.charge * Yukawa.planeRule T L (lam * d.sizeFromLevel (n.level + 1)) p (Yukawa.radial F lam scale p a) (Lap.turn v (Yukawa.unit a))
              ((b.box n).toChild c v) (Yukawa.radial F lam scale (p + 1) (t.sub ct)) (Lap.turn v (Yukawa.unit (t.sub ct)))).sum).sum) := by
  intro scale L ct
  have e : lam * d.sizeFromLevel (n.level + 1) = unitsAt lam d.size (n.level + 1) := (mul_div_assoc _ _ _).symm
  rw [e]
  exact plane_all F hT d lam hs hl p n hlev c hc boxes hb hr

theorem Yuk.unit_turn (v : ℕ) (w : Point ℝ) : Yukawa.unit (Lap.turn v w) = Lap.turn v (Yukawa.unit w) := by
  unfold Yukawa.unit
  rw [ltu_norm]
  rcases v with _ | _ | _ | _ | _ | v <;> simp only [Lap.turn, neg_div]

theorem Yuk.radial_turn (F : Bessel.Table) (lam scale : ℝ) (nb v : ℕ) (w : Point ℝ) :
    Yukawa.radial F lam scale nb (Lap.turn v w) = Yukawa.radial F lam scale nb w := by
  funext k; unfold Yukawa.radial; rw [ltu_norm]

theorem Yuk.direction_separated {b : Yukawa.WaveSrc} {n : Index} {c : ℕ} (hc : c < 8) (hl : b.ix.level = n.level + 1) (hb : (b.box n).Near) :
    (b.box n).direction c = none ↔ ¬ Separated b.ix (n.child c) := by
  rw [(C90_direction _ hb hc).1, ← farOct_separated hl hc]
  simp only [farOct, octX, octY, octZ, Bool.or_eq_true, decide_eq_true_iff, not_or, Yukawa.WaveSrc.box, SrcBox.from, Int.natAbs_lt_natAbs_of_nonneg_of_lt, not_lt, gt_iff_lt]
  rw [Int.abs_eq_natAbs, Int.abs_eq_natAbs, Int.abs_eq_natAbs]
  generalize c % 2 = c0
  generalize c / 2 % 2 = c1
  generalize c / 4 % 2 = c2
  omega

/-- One charge of a box apart. -/
theorem Yuk.rule_error (F : Bessel.Table) (T : PlaneTable) (d : Domain ℝ) (hs : 0 < d.size) (lam : ℝ) (p : ℕ) (n : Index) (ε : ℝ)
    (hA : Yukawa.RuleAccurate F T d lam p (n.level + 1) ε) (c : ℕ) (hc : c < 8) (b : Yukawa.WaveSrc) (hl : b.ix.level = n.level + 1)
    (hb : (b.box n).Near) (s t : Point ℝ) (hs1 : InCube d b.ix s) (ht1 : InCube d (n.child c) t) (hs2 : (s.sub (d.centerFromIndex b.ix)).norm ≠ 0)
    (ht2 : (t.sub (d.centerFromIndex (n.child c))).norm ≠ 0) (v : ℕ) (hv : (b.box n).direction c = some v) :
    |Yukawa.planeRule T (yukLevel T lam d.size (n.level + 1)) (lam * d.sizeFromLevel (n.level + 1)) p
        (Yukawa.radial F lam (Yukawa.scaleOf d.size lam (n.level + 1)) p (s.sub (d.centerFromIndex b.ix))) (Lap.turn v (Yukawa.unit (s.sub (d.centerFromIndex b.ix))))
        ((b.box n).toChild c v) (Yukawa.radial F lam (Yukawa.scaleOf d.size lam (n.level + 1)) (p + 1) (t.sub (d.centerFromIndex (n.child c))))
        (Lap.turn v (Yukawa.unit (t.sub (d.centerFromIndex (n.child c))))) - Real.pi / (2 * lam) * (Real.exp (-(lam * (t.sub s).norm)) / (t.sub s).norm)| ≤
      ε * (Real.pi / (2 * lam) * (Real.exp (-(lam * (t.sub s).norm)) / (t.sub s).norm)) := by
  obtain ⟨-, h1, h2, h3, h4⟩ := (C90_direction _ hb hc).2 v hv
  set D := d.sizeFromLevel (n.level + 1) with hD
  have hD0 : 0 < D := by rw [hD, Domain.sizeFromLevel]; positivity
  set a := s.sub (d.centerFromIndex b.ix) with ha
  set u := t.sub (d.centerFromIndex (n.child c)) with hu
  have hsc : Lap.scaleOf d.size (n.level + 1) = 1 / D := by
    have := scaleOf_size d hs (n.level + 1)
    rw [eq_div_iff hD0.ne']; exact this
  have hdiv : ∀ w : Point ℝ, (⟨(Lap.turn v w).x / D, (Lap.turn v w).y / D, (Lap.turn v w).z / D⟩ : Point ℝ) = Lap.turn v (psmul (1 / D) w) := by
    intro w
    rcases v with _ | _ | _ | _ | _ | v <;> simp only [Lap.turn, psmul] <;> congr 1 <;> ring
  have ia : InUnit ⟨(Lap.turn v a).x / D, (Lap.turn v a).y / D, (Lap.turn v a).z / D⟩ := by
    rw [hdiv]
    have := cube_unit d hs b.ix s hs1
    rw [hl, hsc] at this
    exact turn_unit v _ this
  have iu : InUnit ⟨(Lap.turn v u).x / D, (Lap.turn v u).y / D, (Lap.turn v u).z / D⟩ := by
    rw [hdiv]
    have := cube_unit d hs (n.child c) t ht1
    rw [show (n.child c).level = n.level + 1 from rfl, hsc] at this
    exact turn_unit v _ this
  have key := hA (Lap.turn v a) (Lap.turn v u) ((b.box n).toChild c v).1 ((b.box n).toChild c v).2.1 ((b.box n).toChild c v).2.2 ia iu
    (by rw [ltu_norm]; exact hs2) (by rw [ltu_norm]; exact ht2) h1 h2 h3 h4
  simp only [radial_turn, unit_turn] at key
  have hR : Point.norm ⟨(((b.box n).toChild c v).1 : ℝ) * D + (Lap.turn v u).x - (Lap.turn v a).x, (((b.box n).toChild c v).2.1 : ℝ) * D + (Lap.turn v u).y - (Lap.turn v a).y,
      (((b.box n).toChild c v).2.2 : ℝ) * D + (Lap.turn v u).z - (Lap.turn v a).z⟩ = (t.sub s).norm := by
    have hd := disp_eq d hs b.ix n c hc hl
    rw [hl, hsc] at hd
    have e1 := scaled_dist (one_div_pos.2 hD0) _ _ _ hd t s
    have e2 := Harm.turn_norm v (psmul (1 / D) a) (disp ((b.ix.x : ℤ) - 2 * n.x) ((b.ix.y : ℤ) - 2 * n.y) ((b.ix.z : ℤ) - 2 * n.z) c) (psmul (1 / D) u)
    have e3 := frame_turn v ((b.ix.x : ℤ) - 2 * n.x) ((b.ix.y : ℤ) - 2 * n.y) ((b.ix.z : ℤ) - 2 * n.z) c
    simp only at e3
    rw [e3] at e2
    have e4 := e2.trans e1
    rw [← hdiv, ← hdiv] at e4
    have e5 : (t.sub s).norm = D * (1 / D * (t.sub s).norm) := by field_simp
    rw [e5, ← e4, ← psmul_norm D hD0.le]
    congr 1
    have ef : (b.box n).toChild c v = frame v ((b.ix.x : ℤ) - 2 * n.x - (c % 2 : ℕ), (b.ix.y : ℤ) - 2 * n.y - (c / 2 % 2 : ℕ), (b.ix.z : ℤ) - 2 * n.z - (c / 4 % 2 : ℕ)) := rfl
    rw [ef]
    simp only [psmul]
    congr 1 <;> field_simp
  rw [hR] at key
  exact key

/-- **C101** The error: when the relative error of the rule is at most `ε`, the potential of all charges in boxes apart from the child is
in its local expansion up to `ε` times the potential of the absolute charges; the charges of adjacent boxes are not in it. -/
theorem C101_accuracy (F : Bessel.Table) {dg : ℤ} {T : PlaneTable} (hT : waveBase dg = some T) (d : Domain ℝ) (hs : 0 < d.size)
    (lam : ℝ) (hl : 0 < lam) (p : ℕ) (n : Index) (hlev : n.level + 1 ≤ 21) (c : ℕ) (hc : c < 8) (ε : ℝ)
    (hA : Yukawa.RuleAccurate F T d lam p (n.level + 1) ε) (boxes : List Yukawa.WaveSrc)
    (hb : ∀ b ∈ boxes, b.ix.level = n.level + 1 ∧ (b.box n).Near) (hr : ∀ b ∈ boxes, AllRegular (d.centerFromIndex b.ix) b.srcs)
    (hp : ∀ b ∈ boxes, ∀ s ∈ b.srcs, InCube d b.ix s.pos) (t : Point ℝ) (ht : InCube d (n.child c) t)
    (hrt : Regular (t.sub (d.centerFromIndex (n.child c)))) (far : List Lap.Src)
    (hfar : ∀ [DecidablePred fun b : Yukawa.WaveSrc => Separated b.ix (n.child c)],
      far = (boxes.filter fun b => Separated b.ix (n.child c)).flatMap (·.srcs)) :
    ∃ C x, Yukawa.throughWaves F T d lam p n c boxes = some C ∧
      Yukawa.lToT F lam p (d.centerFromIndex (n.child c)) (Yukawa.scaleOf d.size lam (n.level + 1)) C t = some x ∧
      |x - Yukawa.potential lam far t| ≤ ε * Yukawa.potential lam (far.map fun s => ⟨s.pos, |s.charge|⟩) t := by
  classical
  obtain ⟨C, hC, -, hV⟩ := C101_plane_rule F hT d hs lam hl p n hlev c hc boxes (fun b h => (hb b h).2) hr
  refine ⟨C, _, hC, hV t hrt, ?_⟩
  rw [hfar]
  clear hfar hV hC
  have hct := (clear_of_regular hrt).ne
  induction boxes with
  | nil => simp [Yukawa.potential]
  | cons b l ih =>
    have ih := ih (fun x h => hb x (List.mem_cons_of_mem _ h)) (fun x h => hr x (List.mem_cons_of_mem _ h)) (fun x h => hp x (List.mem_cons_of_mem _ h))
    obtain ⟨hbl, hbn⟩ := hb b List.mem_cons_self
    have hdir := direction_separated (b := b) (n := n) hc hbl hbn
    have papp : ∀ A B : List Lap.Src, Yukawa.potential lam (A ++ B) t = Yukawa.potential lam A t + Yukawa.potential lam B t := by
      intro A B; simp [Yukawa.potential]
    rw [List.map_cons, List.sum_cons]
    cases hv : (b.box n).direction c with
    | none =>
      rw [List.filter_cons_of_neg (by simpa using hdir.1 hv), zero_add]
      exact ih
    | some v =>
      have hsep : Separated b.ix (n.child c) := by
        by_contra h
        rw [hdir.2 h] at hv; cases hv
      rw [List.filter_cons_of_pos (by simpa using hsep), List.flatMap_cons, List.map_append, papp, papp, mul_add]
      refine abs_add_two ?_ ih
      dsimp only
      have hrb := hr b List.mem_cons_self
      have hpb := hp b List.mem_cons_self
      clear ih
      generalize b.srcs = S at hrb hpb
      induction S with
      | nil => simp [Yukawa.potential]
      | cons s S ihS =>
        have ihS := ihS (fun x h => hrb x (List.mem_cons_of_mem _ h)) (fun x h => hpb x (List.mem_cons_of_mem _ h))
        have pc : ∀ (x : Lap.Src) (A : List Lap.Src), Yukawa.potential lam (x :: A) t = (if (t.sub x.pos).norm = 0 then 0 else
            Real.pi / (2 * lam) * (x.charge * Real.exp (-(lam * (t.sub x.pos).norm)) / (t.sub x.pos).norm)) + Yukawa.potential lam A t := by
          intro x A; simp [Yukawa.potential]
        rw [List.map_cons, List.sum_cons, List.map_cons, pc, pc, mul_add]
        refine abs_add_two ?_ ihS
        have e := rule_error F T d hs lam p n ε hA c hc b hbl hbn s.pos t (hpb s List.mem_cons_self) ht
          (clear_of_regular (hrb s List.mem_cons_self)).ne hct v hv
        simp only
        have hif : ∀ q : ℝ, (if (t.sub s.pos).norm = 0 then 0 else
            Real.pi / (2 * lam) * (q * Real.exp (-(lam * (t.sub s.pos).norm)) / (t.sub s.pos).norm)) =
            q * (Real.pi / (2 * lam) * (Real.exp (-(lam * (t.sub s.pos).norm)) / (t.sub s.pos).norm)) := by
          intro q
          split_ifs with h0
          · rw [h0]; simp
          · ring
        rw [hif, hif, ← mul_sub, abs_mul]
        calc _ ≤ |s.charge| * _ := mul_le_mul_of_nonneg_left e (abs_nonneg _)
          _ = _ := by ring

/-- **C101** The accesses: an expansion into waves has as many entries as the level prescribes, in each of the six directions, and
the indices that `M_to_I` and `I_to_L` read the phases and the waves at are in range. -/
theorem C101_reads {dg : ℤ} {T : PlaneTable} (hT : waveBase dg = some T) (size lam : ℝ) (hs : 0 < size) (hl : 0 < lam) (p lev : ℕ) (hlev : lev ≤ 21) (M : Coef) :
    let L := yukLevel T lam size lev
    (∃ S, Yukawa.mToI T size lam p (Yukawa.scaleOf size lam lev) M = some S ∧ ∀ v, (S v).length = L.nexp) ∧
    ∀ k < L.s, ∀ j, 1 ≤ j → j ≤ L.m k / 2 → L.sm k + j - 1 < L.nexp ∧
      ∀ m, 1 ≤ m → m ≤ L.f k → L.smf k + (j - 1) * L.f k + m - 1 < L.ealphaj.length := by
  intro L
  have hlv : Yukawa.level size lam (Yukawa.scaleOf size lam lev) = lev := level_eq size lam (scale0_pos size lam hs hl) lev
  have hlay := C90_yukawa_layout hT lam size lev
  have hn : L.nexp = running L.half L.s := hlay.2.1
  have hlen : ∀ leg SH sgn, (Yukawa.waveArr L p leg SH sgn).length = L.nexp := fun leg SH sgn =>
    (arrayOf_at L.s L.half (fun k j => Yukawa.waveAt L p leg SH sgn k j)).1.trans hn.symm
  refine ⟨⟨_, by rw [Yukawa.mToI, hlv, if_pos (show lev ≤ Yukawa.maxlev from hlev)], fun v => ?_⟩, fun k hk j h1 h2 => ⟨?_, fun m h3 h4 => ?_⟩⟩
  · rcases v with _ | _ | _ | _ | _ | v <;> exact hlen _ _ _
  · have h := (arrayOf_at L.s L.half fun _ _ => 0).2 k hk (j - 1) (by show j - 1 < L.m k / 2; omega)
    have := (List.getElem?_eq_some_iff.1 h).1
    rw [(arrayOf_at L.s L.half fun _ _ => 0).1, ← hn] at this
    have e : L.sm k = running L.half k := rfl
    omega
  · have h := (hlay.2.2.2.2.2.2.2 k hk j h1 h2).1 m h3 h4
    exact (List.getElem?_eq_some_iff.1 h).1

/-- **C101** With functions `i_n` that are accurate, every table has some accuracy at every level: the hypothesis of `C101_accuracy` can be met. -/
theorem C101_rule_has_accuracy (F : Bessel.Table) (δ : ℝ) (hδ0 : 10⁻¹ ^ 17 ≤ δ) (hδ : δ ≤ 1 / 2) (hF : Bessel.AccurateI F δ) {dg : ℤ} {T : PlaneTable}
    (hT : waveBase dg = some T) (d : Domain ℝ) (hs : 0 < d.size) (lam : ℝ) (hl : 0 < lam) (p lev : ℕ) :
    ∃ ε : ℝ, 0 ≤ ε ∧ Yukawa.RuleAccurate F T d lam p lev ε := exists_rule_accurate F δ hδ0 hδ hF hT d hs lam hl p lev

/-! ### A case -/

/-- A box three to the right of the first child with two charges, and an adjacent one. -/
def exWaveBoxes : List Yukawa.WaveSrc :=
  [⟨⟨3, 0, 0, 2⟩, [⟨⟨95 / 100, 1 / 10, 1 / 10⟩, 2⟩, ⟨⟨8 / 10, 1 / 10, 1 / 5⟩, -1⟩]⟩, ⟨⟨1, 0, 0, 2⟩, [⟨⟨3 / 10, 1 / 10, 1 / 10⟩, 5⟩]⟩]

/-- With `λ = 1` and three digits: the child has the potential of the two charges, not of the third. -/
example : let t : Point ℝ := ⟨1 / 20, 1 / 10, 1 / 10⟩
    ∃ ε C x, Yukawa.RuleAccurate exactI table3 lapDom 1 9 2 ε ∧ Yukawa.throughWaves exactI table3 lapDom 1 9 lapP 0 exWaveBoxes = some C ∧
      Yukawa.lToT exactI 1 9 (lapDom.centerFromIndex lapA) (Yukawa.scaleOf 1 1 2) C t = some x ∧
      |x - Yukawa.potential 1 [⟨⟨95 / 100, 1 / 10, 1 / 10⟩, 2⟩, ⟨⟨8 / 10, 1 / 10, 1 / 5⟩, -1⟩] t| ≤
        ε * Yukawa.potential 1 [⟨⟨95 / 100, 1 / 10, 1 / 10⟩, |2|⟩, ⟨⟨8 / 10, 1 / 10, 1 / 5⟩, |-1|⟩] t := by
  intro t
  obtain ⟨ε, -, hε⟩ := C101_rule_has_accuracy exactI (10⁻¹ ^ 17) le_rfl (by norm_num) exactI_accurate (dg := 3) rfl lapDom (by norm_num [lapDom]) 1 one_pos 9 2
  have hc2 : lapDom.centerFromIndex ⟨1, 0, 0, 2⟩ = ⟨3 / 8, 1 / 8, 1 / 8⟩ := by
    simp only [Domain.centerFromIndex, Domain.sizeFromLevel, lapDom, Point.mk.injEq]; norm_num
  have hc1 : lapDom.centerFromIndex ⟨3, 0, 0, 2⟩ = ⟨7 / 8, 1 / 8, 1 / 8⟩ := by
    simp only [Domain.centerFromIndex, Domain.sizeFromLevel, lapDom, Point.mk.injEq]; norm_num
  obtain ⟨C, x, h1, h2, h3⟩ := C101_accuracy exactI (dg := 3) (T := table3) rfl lapDom (by norm_num [lapDom]) 1 one_pos 9 lapP (by decide) 0 (by norm_num) ε hε exWaveBoxes
    (by
      intro b hb
      simp only [exWaveBoxes, List.mem_cons, List.not_mem_nil, or_false] at hb
      unfold SrcBox.Near
      rcases hb with rfl | rfl <;> exact ⟨rfl, by simp [Yukawa.WaveSrc.box, lapP]⟩)
    (by
      intro b hb s hs
      simp only [exWaveBoxes, List.mem_cons, List.not_mem_nil, or_false] at hb
      rcases hb with rfl | rfl
      · rw [hc1]
        simp only [List.mem_cons, List.not_mem_nil, or_false] at hs
        rcases hs with rfl | rfl <;> refine regular_of ?_ ?_ <;> simp only [Point.sub] <;> norm_num
      · rw [hc2]
        simp only [List.mem_cons, List.not_mem_nil, or_false] at hs
        subst hs
        refine regular_of ?_ ?_ <;> simp only [Point.sub] <;> norm_num)
    (by
      intro b hb s hs
      simp only [exWaveBoxes, List.mem_cons, List.not_mem_nil, or_false] at hb
      rcases hb with rfl | rfl
      · simp only [List.mem_cons, List.not_mem_nil, or_false] at hs
        unfold InCube
        rw [hc1]
        rcases hs with rfl | rfl <;> simp only [Domain.sizeFromLevel, lapDom, abs_le] <;> norm_num
      · simp only [List.mem_cons, List.not_mem_nil, or_false] at hs
        subst hs
        unfold InCube
        rw [hc2]
        simp only [Domain.sizeFromLevel, lapDom, abs_le]
        norm_num)
    t (by
      unfold InCube
      rw [show lapP.child 0 = lapA from by decide, lapA_center]
      simp only [Domain.sizeFromLevel, lapDom, lapA, t, abs_le]
      norm_num)
    (by
      rw [show lapP.child 0 = lapA from by decide, lapA_center]
      refine regular_of ?_ ?_ <;> simp only [Point.sub, t] <;> norm_num)
    [⟨⟨95 / 100, 1 / 10, 1 / 10⟩, 2⟩, ⟨⟨8 / 10, 1 / 10, 1 / 5⟩, -1⟩]
    (by
      intro _
      have f1 : Separated ⟨3, 0, 0, 2⟩ (lapP.child 0) := by unfold Separated; decide
      have f2 : ¬ Separated ⟨1, 0, 0, 2⟩ (lapP.child 0) := by unfold Separated; decide
      simp [exWaveBoxes, f1, f2])
  exact ⟨ε, C, x, hε, h1, h2, h3⟩

end
end Dashmm
