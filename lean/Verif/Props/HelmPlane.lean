import Verif.Props.YukPlane
import Verif.Proofs.HelmAcc

/-!
# C105: the plane waves of the Helmholtz kernel
-/

namespace Dashmm

open Harm Lap Waves
open Complex (I)

noncomputable section

/-- **C105** What a target gets through the plane waves: with the tables of the kernel and any Gauss rule with angles between zero and `π`, when
all charges are where the code can take angles, the program carries the charges of the source boxes to the local
expansion of a child of the target parent, and the value of that expansion is the two quadrature rules applied to every charge that is in a box
of a direction of that child. -/
theorem C105_plane_rule (J : Bessel.Table) {dg : ℤ} {T : PlaneTable} (hT : waveBase dg = some T) (Q : Helm.PropRule)
    (hQ : ∀ k < Q.s, 0 ≤ Q.x k ∧ Q.x k ≤ Real.pi) (d : Domain ℝ) (hs : 0 < d.size)
    (om : ℝ) (ho : 0 < om) (hom : om ≤ 10 ∨ om * d.size ≤ 1 / 8) (p : ℕ) (n : Index) (hlev : n.level + 1 ≤ 21) (c : ℕ) (hc : c < 8)
    (boxes : List Yukawa.WaveSrc) (hb : ∀ b ∈ boxes, (b.box n).Near) (hr : ∀ b ∈ boxes, AllRegular (d.centerFromIndex b.ix) b.srcs) :
    let scale := Helm.scaleOf d.size om (n.level + 1)
    let ct := d.centerFromIndex (n.child c)
    ∃ L G, Helm.wavesAt T Q d.size om (n.level + 1) = some L ∧ Helm.throughWaves J T Q d om p n c boxes = some G ∧
      ∀ t, Regular (t.sub ct) → Helm.lToT J om p ct scale G t = some ((boxes.map fun b => match (b.box n).direction c with
        | none => 0
        | some v => (b.srcs.map fun s =>
            let a := s.pos.sub (d.centerFromIndex b.ix)
            (s.charge : ℂ) * Helm.planeRule T Q L (om * d.sizeFromLevel (n.level + 1)) p (Helm.radial J om scale p a) (Lap.turn v (Yukawa.unit a))
              ((b.box n).toChild c v) (Helm.radial J om scale p (t.sub ct)) (Lap.turn v (Yukawa.unit (t.sub ct)))).sum).sum) := by
  intro scale ct
  have e : om * d.sizeFromLevel (n.level + 1) = unitsAt om d.size (n.level + 1) := (mul_div_assoc _ _ _).symm
  rw [e]
  exact Helm.plane_all J hT Q hQ d om hs ho hom p n hlev c hc boxes hb hr

theorem Helm.radial_turn (J : Bessel.Table) (om scale : ℝ) (nb v : ℕ) (w : Point ℝ) :
    Helm.radial J om scale nb (Lap.turn v w) = Helm.radial J om scale nb w := by
  funext k; unfold Helm.radial; rw [Yuk.ltu_norm]

/-- One charge of a box apart. -/
theorem Helm.rule_error (J : Bessel.Table) (T : PlaneTable) (Q : Helm.PropRule) (d : Domain ℝ) (hs : 0 < d.size) (om : ℝ) (p : ℕ) (n : Index) (ε : ℝ)
    (hA : Helm.RuleAccurate J T Q d om p (n.level + 1) ε) (L : Level × Level) (hL : Helm.wavesAt T Q d.size om (n.level + 1) = some L)
    (c : ℕ) (hc : c < 8) (b : Yukawa.WaveSrc) (hl : b.ix.level = n.level + 1)
    (hb : (b.box n).Near) (s t : Point ℝ) (hs1 : InCube d b.ix s) (ht1 : InCube d (n.child c) t) (hs2 : (s.sub (d.centerFromIndex b.ix)).norm ≠ 0)
    (ht2 : (t.sub (d.centerFromIndex (n.child c))).norm ≠ 0) (v : ℕ) (hv : (b.box n).direction c = some v) :
    (t.sub s).norm ≠ 0 ∧
    ‖Helm.planeRule T Q L (om * d.sizeFromLevel (n.level + 1)) p
        (Helm.radial J om (Helm.scaleOf d.size om (n.level + 1)) p (s.sub (d.centerFromIndex b.ix))) (Lap.turn v (Yukawa.unit (s.sub (d.centerFromIndex b.ix))))
        ((b.box n).toChild c v) (Helm.radial J om (Helm.scaleOf d.size om (n.level + 1)) p (t.sub (d.centerFromIndex (n.child c))))
        (Lap.turn v (Yukawa.unit (t.sub (d.centerFromIndex (n.child c))))) -
        Complex.exp (I * (om * (t.sub s).norm : ℝ)) / (I * (om * (t.sub s).norm : ℝ))‖ ≤ ε / (om * (t.sub s).norm) := by
  obtain ⟨-, h1, h2, h3, h4⟩ := (C90_direction _ hb hc).2 v hv
  set D := d.sizeFromLevel (n.level + 1) with hD
  have hD0 : 0 < D := by rw [hD, Domain.sizeFromLevel]; positivity
  set a := s.sub (d.centerFromIndex b.ix) with ha
  set u := t.sub (d.centerFromIndex (n.child c)) with hu
  have hsc : Lap.scaleOf d.size (n.level + 1) = 1 / D := by
    have := scaleOf_size d hs (n.level + 1)
    rw [eq_div_iff hD0.ne']; exact this
  have hdiv : ∀ w : Point ℝ, (⟨(Lap.turn v w).x / D, (Lap.turn v w).y / D, (Lap.turn v w).z / D⟩ : Point ℝ) = Lap.turn v (psmul (1 / D) w) := by
    intro w
    rcases v with _ | _ | _ | _ | _ | v <;> simp only [Lap.turn, psmul] <;> congr 1 <;> ring
  have ia : InUnit ⟨(Lap.turn v a).x / D, (Lap.turn v a).y / D, (Lap.turn v a).z / D⟩ := by
    rw [hdiv]
    have := cube_unit d hs b.ix s hs1
    rw [hl, hsc] at this
    exact turn_unit v _ this
  have iu : InUnit ⟨(Lap.turn v u).x / D, (Lap.turn v u).y / D, (Lap.turn v u).z / D⟩ := by
    rw [hdiv]
    have := cube_unit d hs (n.child c) t ht1
    rw [show (n.child c).level = n.level + 1 from rfl, hsc] at this
    exact turn_unit v _ this
  have key := hA L hL (Lap.turn v a) (Lap.turn v u) ((b.box n).toChild c v).1 ((b.box n).toChild c v).2.1 ((b.box n).toChild c v).2.2 ia iu
    (by rw [Yuk.ltu_norm]; exact hs2) (by rw [Yuk.ltu_norm]; exact ht2) h1 h2 h3 h4
  simp only [Helm.radial_turn, Yuk.unit_turn] at key
  have hR : Point.norm ⟨(((b.box n).toChild c v).1 : ℝ) * D + (Lap.turn v u).x - (Lap.turn v a).x, (((b.box n).toChild c v).2.1 : ℝ) * D + (Lap.turn v u).y - (Lap.turn v a).y,
      (((b.box n).toChild c v).2.2 : ℝ) * D + (Lap.turn v u).z - (Lap.turn v a).z⟩ = (t.sub s).norm := by
    have hd := disp_eq d hs b.ix n c hc hl
    rw [hl, hsc] at hd
    have e1 := scaled_dist (one_div_pos.2 hD0) _ _ _ hd t s
    have e2 := Harm.turn_norm v (psmul (1 / D) a) (disp ((b.ix.x : ℤ) - 2 * n.x) ((b.ix.y : ℤ) - 2 * n.y) ((b.ix.z : ℤ) - 2 * n.z) c) (psmul (1 / D) u)
    have e3 := frame_turn v ((b.ix.x : ℤ) - 2 * n.x) ((b.ix.y : ℤ) - 2 * n.y) ((b.ix.z : ℤ) - 2 * n.z) c
    simp only at e3
    rw [e3] at e2
    have e4 := e2.trans e1
    rw [← hdiv, ← hdiv] at e4
    have e5 : (t.sub s).norm = D * (1 / D * (t.sub s).norm) := by field_simp
    rw [e5, ← e4, ← psmul_norm D hD0.le]
    congr 1
    have ef : (b.box n).toChild c v = frame v ((b.ix.x : ℤ) - 2 * n.x - (c % 2 : ℕ), (b.ix.y : ℤ) - 2 * n.y - (c / 2 % 2 : ℕ), (b.ix.z : ℤ) - 2 * n.z - (c / 4 % 2 : ℕ)) := rfl
    rw [ef]
    simp only [psmul]
    congr 1 <;> field_simp
  have hpos : (t.sub s).norm ≠ 0 := by
    have hz : ∀ w : Point ℝ, InUnit ⟨w.x / D, w.y / D, w.z / D⟩ → |w.z| ≤ D / 2 := by
      intro w hw
      have h3 := hw.2.2
      simp only [abs_div, abs_of_pos hD0] at h3
      rw [div_le_iff₀ hD0] at h3
      linarith
    have z1 := abs_le.1 (hz _ ia)
    have z2 := abs_le.1 (hz _ iu)
    have z3 : (2 : ℝ) ≤ (((b.box n).toChild c v).2.2 : ℝ) := by exact_mod_cast h3
    rw [← hR]
    have : 0 < (((b.box n).toChild c v).2.2 : ℝ) * D + (Lap.turn v u).z - (Lap.turn v a).z := by nlinarith [z1.2, z2.1]
    unfold Point.norm
    simp only
    refine (Real.sqrt_pos.2 ?_).ne'
    generalize (((b.box n).toChild c v).1 : ℝ) * D + (Lap.turn v u).x - (Lap.turn v a).x = X
    generalize (((b.box n).toChild c v).2.1 : ℝ) * D + (Lap.turn v u).y - (Lap.turn v a).y = Y
    generalize (((b.box n).toChild c v).2.2 : ℝ) * D + (Lap.turn v u).z - (Lap.turn v a).z = Z at this
    nlinarith [mul_pos this this, sq_nonneg X, sq_nonneg Y]
  rw [hR] at key
  exact ⟨hpos, key⟩

/-- **C105** The error: when the error of the rules is at most `ε` times the size of the kernel, the field of all charges in boxes apart from the child
is in its local expansion up to `ε` times the sum of the sizes of the fields of the charges; the charges of adjacent boxes are not in it. -/
theorem C105_accuracy (J : Bessel.Table) {dg : ℤ} {T : PlaneTable} (hT : waveBase dg = some T) (Q : Helm.PropRule)
    (hQ : ∀ k < Q.s, 0 ≤ Q.x k ∧ Q.x k ≤ Real.pi) (d : Domain ℝ) (hs : 0 < d.size)
    (om : ℝ) (ho : 0 < om) (hom : om ≤ 10 ∨ om * d.size ≤ 1 / 8) (p : ℕ) (n : Index) (hlev : n.level + 1 ≤ 21) (c : ℕ) (hc : c < 8) (ε : ℝ)
    (hA : Helm.RuleAccurate J T Q d om p (n.level + 1) ε) (boxes : List Yukawa.WaveSrc)
    (hb : ∀ b ∈ boxes, b.ix.level = n.level + 1 ∧ (b.box n).Near) (hr : ∀ b ∈ boxes, AllRegular (d.centerFromIndex b.ix) b.srcs)
    (hp : ∀ b ∈ boxes, ∀ s ∈ b.srcs, InCube d b.ix s.pos) (t : Point ℝ) (ht : InCube d (n.child c) t)
    (hrt : Regular (t.sub (d.centerFromIndex (n.child c)))) (far : List Lap.Src)
    (hfar : ∀ [DecidablePred fun b : Yukawa.WaveSrc => Separated b.ix (n.child c)],
      far = (boxes.filter fun b => Separated b.ix (n.child c)).flatMap (·.srcs)) :
    ∃ G x, Helm.throughWaves J T Q d om p n c boxes = some G ∧
      Helm.lToT J om p (d.centerFromIndex (n.child c)) (Helm.scaleOf d.size om (n.level + 1)) G t = some x ∧
      ‖x - Helm.field om far t‖ ≤ ε * (far.map fun s => |s.charge| / (om * (t.sub s.pos).norm)).sum := by
  classical
  obtain ⟨L, C, hL, hC, hV⟩ := C105_plane_rule J hT Q hQ d hs om ho hom p n hlev c hc boxes (fun b h => (hb b h).2) hr
  refine ⟨C, _, hC, hV t hrt, ?_⟩
  rw [hfar]
  clear hfar hV hC
  have hct := (clear_of_regular hrt).ne
  have two : ∀ {a b x y : ℂ} {P R : ℝ}, ‖a - x‖ ≤ P → ‖b - y‖ ≤ R → ‖a + b - (x + y)‖ ≤ P + R := by
    intro a b x y P R h1 h2
    rw [show a + b - (x + y) = (a - x) + (b - y) by ring]
    exact (norm_add_le _ _).trans (add_le_add h1 h2)
  induction boxes with
  | nil => simp [Helm.field]
  | cons b l ih =>
    have ih := ih (fun x h => hb x (List.mem_cons_of_mem _ h)) (fun x h => hr x (List.mem_cons_of_mem _ h)) (fun x h => hp x (List.mem_cons_of_mem _ h))
    obtain ⟨hbl, hbn⟩ := hb b List.mem_cons_self
    have hdir := Yuk.direction_separated (b := b) (n := n) hc hbl hbn
    have papp : ∀ A B : List Lap.Src, Helm.field om (A ++ B) t = Helm.field om A t + Helm.field om B t := by
      intro A B; simp [Helm.field]
    rw [List.map_cons, List.sum_cons]
    cases hv : (b.box n).direction c with
    | none =>
      rw [List.filter_cons_of_neg (by simpa using hdir.1 hv), zero_add]
      exact ih
    | some v =>
      have hsep : Separated b.ix (n.child c) := by
        by_contra h
        rw [hdir.2 h] at hv; cases hv
      rw [List.filter_cons_of_pos (by simpa using hsep), List.flatMap_cons, List.map_append, List.sum_append, papp, mul_add]
      refine two ?_ ih
      dsimp only
      have hrb := hr b List.mem_cons_self
      have hpb := hp b List.mem_cons_self
      clear ih
      generalize b.srcs = S at hrb hpb
      induction S with
      | nil => simp [Helm.field]
      | cons s S ihS =>
        have ihS := ihS (fun x h => hrb x (List.mem_cons_of_mem _ h)) (fun x h => hpb x (List.mem_cons_of_mem _ h))
        have pc : Helm.field om (s :: S) t = (if (t.sub s.pos).norm = 0 then 0 else
            s.charge * Complex.exp (I * (om * (t.sub s.pos).norm : ℝ)) / (I * (om * (t.sub s.pos).norm : ℝ))) + Helm.field om S t := by
          simp [Helm.field]
        rw [List.map_cons, List.sum_cons, List.map_cons, List.sum_cons, pc, mul_add]
        refine two ?_ ihS
        obtain ⟨e0, e⟩ := Helm.rule_error J T Q d hs om p n ε hA L hL c hc b hbl hbn s.pos t (hpb s List.mem_cons_self) ht
          (clear_of_regular (hrb s List.mem_cons_self)).ne hct v hv
        rw [if_neg e0, mul_div_assoc, ← mul_sub, norm_mul, Complex.norm_real, Real.norm_eq_abs]
        calc _ ≤ |s.charge| * _ := mul_le_mul_of_nonneg_left e (abs_nonneg _)
          _ = _ := by ring

/-- **C105** The accesses: the expansions into waves have as many entries as the level prescribes, in each of the directions, and
the indices that `M_to_I` and `I_to_L` read the phases and the waves at are in range. -/
theorem C105_reads {dg : ℤ} {T : PlaneTable} (hT : waveBase dg = some T) (Q : Helm.PropRule) (size om : ℝ) (hs : 0 < size) (ho : 0 < om)
    (hom : om ≤ 10 ∨ om * size ≤ 1 / 8) (p lev : ℕ) (hlev : lev ≤ 21) (M : Coef) :
    ∃ L S, Helm.wavesAt T Q size om lev = some L ∧ Helm.mToI T Q size om p (Helm.scaleOf size om lev) M = some S ∧
      (∀ v, (S.1 v).length = L.1.nexp) ∧ (∀ w, (S.2 w).length = L.2.nexp) ∧
      (∀ k < L.1.s, ∀ j, 1 ≤ j → j ≤ L.1.m k / 2 → L.1.sm k + j - 1 < L.1.nexp ∧
        ∀ m, 1 ≤ m → m ≤ L.1.f k → L.1.smf k + (j - 1) * L.1.f k + m - 1 < L.1.ealphaj.length) ∧
      ∀ k < L.2.s, ∀ j, 1 ≤ j → j ≤ L.2.m k → L.2.sm k + j - 1 < L.2.nexp ∧
        ∀ m, 1 ≤ m → m ≤ L.2.f k → L.2.smf k + (j - 1) * L.2.f k + m - 1 < L.2.ealphaj.length := by
  obtain ⟨C, hC⟩ := Helm.extra_some ho hs hom lev
  have hlay := C90_helmholtz_layout hT hC
  have hplay := C90_propagating_layout Q.s Q.f Q.x (unitsAt om size lev) C.2
  set L := Helm.lvl T Q (unitsAt om size lev) C with hL
  have hn : L.1.nexp = running L.1.half L.1.s := hlay.2.1
  have hn2 : L.2.nexp = running L.2.m L.2.s := rfl
  have hlen : ∀ leg SH sgn, (Helm.evanArr L.1 p leg SH sgn).length = L.1.nexp := fun leg SH sgn =>
    (arrayOf_at L.1.s L.1.half (fun k j => Helm.evanAt L.1 p leg SH sgn k j)).1.trans hn.symm
  have hlen2 : ∀ leg SH, (Helm.propArr L.2 p leg SH).length = L.2.nexp := fun leg SH =>
    (arrayOf_at L.2.s L.2.m (fun k j => Helm.propAt L.2 p leg SH k j)).1.trans hn2.symm
  refine ⟨L, _, by rw [Helm.wavesAt, hC]; rfl, by rw [Helm.mToI, Helm.wavesOf_eq T Q hs ho hom lev hlev hC, Option.map_some], fun v => ?_, fun v => ?_,
    fun k hk j h1 h2 => ⟨?_, fun m h3 h4 => ?_⟩, fun k hk j h1 h2 => ⟨?_, fun m h3 h4 => ?_⟩⟩
  · rcases v with _ | _ | _ | _ | _ | v <;> exact hlen _ _ _
  · rcases v with _ | _ | v <;> exact hlen2 _ _
  · have h := (arrayOf_at L.1.s L.1.half fun _ _ => 0).2 k hk (j - 1) (by show j - 1 < L.1.m k / 2; omega)
    have := (List.getElem?_eq_some_iff.1 h).1
    rw [(arrayOf_at L.1.s L.1.half fun _ _ => 0).1, ← hn] at this
    have e : L.1.sm k = running L.1.half k := rfl
    omega
  · have h := (hlay.2.2.2.2.2.2.2 k hk j h1 h2).1 m h3 h4
    exact (List.getElem?_eq_some_iff.1 h).1
  · have h := (arrayOf_at L.2.s L.2.m fun _ _ => 0).2 k hk (j - 1) (by omega)
    have := (List.getElem?_eq_some_iff.1 h).1
    rw [(arrayOf_at L.2.s L.2.m fun _ _ => 0).1, ← hn2] at this
    have e : L.2.sm k = running L.2.m k := rfl
    omega
  · have h := (hplay.2.2.2.2.2 k hk j h1 h2).1 m h3 h4
    exact (List.getElem?_eq_some_iff.1 h).1

/-- **C105** With a table of Bessel functions that has any accuracy, every Gauss rule has some accuracy at every level: the hypothesis of
`C105_accuracy` can be met. -/
theorem C105_rule_has_accuracy (J : Bessel.Table) (δ : ℝ) (hδ : 0 ≤ δ) {dg : ℤ} {T : PlaneTable} (hT : waveBase dg = some T) (Q : Helm.PropRule)
    (d : Domain ℝ) (hs : 0 < d.size) (om : ℝ) (ho : 0 < om) (p lev : ℕ)
    (hJ : ∀ n ≤ p, ∀ x, 10⁻¹ ^ 4 < x → x ≤ om * d.sizeFromLevel lev → |J p x n * √(Real.pi / 2 / x) - Bessel.sphJ n x| ≤ δ) :
    ∃ ε : ℝ, 0 ≤ ε ∧ Helm.RuleAccurate J T Q d om p lev ε := Helm.exists_rule_accurate J δ hδ hT Q d hs om ho p lev hJ

/-! ### A case -/

/-- A Gauss rule with two nodes. -/
def exGauss : Helm.PropRule := ⟨2, 3, fun k => if k = 0 then 1 / 3 else 5 / 4, fun _ => Real.pi / 4⟩

/-- With `ω = 1` and three digits: the child has the field of the two charges, not of the third. -/
example : let t : Point ℝ := ⟨1 / 20, 1 / 10, 1 / 10⟩
    ∃ ε G x, Helm.RuleAccurate exactJ table3 exGauss lapDom 1 9 2 ε ∧ Helm.throughWaves exactJ table3 exGauss lapDom 1 9 lapP 0 exWaveBoxes = some G ∧
      Helm.lToT exactJ 1 9 (lapDom.centerFromIndex lapA) (Helm.scaleOf 1 1 2) G t = some x ∧
      ‖x - Helm.field 1 [⟨⟨95 / 100, 1 / 10, 1 / 10⟩, 2⟩, ⟨⟨8 / 10, 1 / 10, 1 / 5⟩, -1⟩] t‖ ≤
        ε * (([⟨⟨95 / 100, 1 / 10, 1 / 10⟩, 2⟩, ⟨⟨8 / 10, 1 / 10, 1 / 5⟩, -1⟩] : List Src).map fun s => |s.charge| / (1 * (t.sub s.pos).norm)).sum := by
  intro t
  obtain ⟨ε, -, hε⟩ := C105_rule_has_accuracy exactJ 0 le_rfl (dg := 3) (T := table3) rfl exGauss lapDom (by norm_num [lapDom]) 1 one_pos 9 2 (by
    intro n _ x hx _
    have hx0 : 0 < x := lt_trans (by positivity) hx
    have hq : 0 < √(Real.pi / 2 / x) := Real.sqrt_pos.2 (by have := Real.pi_pos; positivity)
    rw [exactJ, div_mul_cancel₀ _ hq.ne', sub_self, abs_zero])
  have hc2 : lapDom.centerFromIndex ⟨1, 0, 0, 2⟩ = ⟨3 / 8, 1 / 8, 1 / 8⟩ := by
    simp only [Domain.centerFromIndex, Domain.sizeFromLevel, lapDom, Point.mk.injEq]; norm_num
  have hc1 : lapDom.centerFromIndex ⟨3, 0, 0, 2⟩ = ⟨7 / 8, 1 / 8, 1 / 8⟩ := by
    simp only [Domain.centerFromIndex, Domain.sizeFromLevel, lapDom, Point.mk.injEq]; norm_num
  obtain ⟨C, x, h1, h2, h3⟩ := C105_accuracy exactJ (dg := 3) (T := table3) rfl exGauss
    (by
      intro k _
      have := Real.pi_gt_three
      simp only [exGauss]
      split_ifs <;> constructor <;> linarith)
    lapDom (by norm_num [lapDom]) 1 one_pos (Or.inl (by norm_num)) 9 lapP (by decide) 0 (by norm_num) ε hε exWaveBoxes
    (by
      intro b hb
      simp only [exWaveBoxes, List.mem_cons, List.not_mem_nil, or_false] at hb
      unfold SrcBox.Near
      rcases hb with rfl | rfl <;> exact ⟨rfl, by simp [Yukawa.WaveSrc.box, lapP]⟩)
    (by
      intro b hb s hs
      simp only [exWaveBoxes, List.mem_cons, List.not_mem_nil, or_false] at hb
      rcases hb with rfl | rfl
      · rw [hc1]
        simp only [List.mem_cons, List.not_mem_nil, or_false] at hs
        rcases hs with rfl | rfl <;> refine regular_of ?_ ?_ <;> simp only [Point.sub] <;> norm_num
      · rw [hc2]
        simp only [List.mem_cons, List.not_mem_nil, or_false] at hs
        subst hs
        refine regular_of ?_ ?_ <;> simp only [Point.sub] <;> norm_num)
    (by
      intro b hb s hs
      simp only [exWaveBoxes, List.mem_cons, List.not_mem_nil, or_false] at hb
      rcases hb with rfl | rfl
      · simp only [List.mem_cons, List.not_mem_nil, or_false] at hs
        unfold InCube
        rw [hc1]
        rcases hs with rfl | rfl <;> simp only [Domain.sizeFromLevel, lapDom, abs_le] <;> norm_num
      · simp only [List.mem_cons, List.not_mem_nil, or_false] at hs
        subst hs
        unfold InCube
        rw [hc2]
        simp only [Domain.sizeFromLevel, lapDom, abs_le]
        norm_num)
    t (by
      unfold InCube
      rw [show lapP.child 0 = lapA from by decide, lapA_center]
      simp only [Domain.sizeFromLevel, lapDom, lapA, t, abs_le]
      norm_num)
    (by
      rw [show lapP.child 0 = lapA from by decide, lapA_center]
      refine regular_of ?_ ?_ <;> simp only [Point.sub, t] <;> norm_num)
    [⟨⟨95 / 100, 1 / 10, 1 / 10⟩, 2⟩, ⟨⟨8 / 10, 1 / 10, 1 / 5⟩, -1⟩]
    (by
      intro _
      have f1 : Separated ⟨3, 0, 0, 2⟩ (lapP.child 0) := by unfold Separated; decide
      have f2 : ¬ Separated ⟨1, 0, 0, 2⟩ (lapP.child 0) := by unfold Separated; decide
      simp [exWaveBoxes, f1, f2])
  exact ⟨ε, C, x, hε, h1, h2, h3⟩

end
end Dashmm
