import Verif.Proofs.HelmFmmEval

/-!
What the nodes of an evaluation with the Helmholtz kernel and FMM97 hold.
-/

namespace Dashmm.Helm

open Finset Harm Lap Bessel Wave Waves
open scoped Nat
open YukFmm (arrays ofArrays ofMade)
open Yuk hiding boxVal levViews sixL iVal oneBox_eq box_spec RelM RelL RelS RelI FRelT FRel FAcc FmmEdge FGood sizeAt grow stepErr mToM_error mToM_bd lToL_error lToL_bd boxVal_lin boxVal_none levViews_lin sixL_lin sixL_congr iVal_spec multipole_error local_error toTargets_some radius_pos radius_double reach_pos downError_child sizeAt_child fmmError_child relL_down relL_waves fmm_edge_rel fmm_dst_not_start fmm_eval_rel fmm_eval_targets

noncomputable section

variable (D : HelmFmm) (ε : ℝ) (δ G : ℕ → ℝ) (T : Point ℝ → Prop) (edges : List Edge)

/-- The value of a multipole expansion. -/
def valM (ix : Index) (M : Coef) (t : Point ℝ) : ℂ :=
  fieldM (kap D.om) D.p (hat (am D.om (D.scale ix)) M) (t.sub (D.center ix)) / (Complex.I * D.om)

/-- The value of a local expansion. -/
def valL (ix : Index) (C : LCoef) (t : Point ℝ) : ℂ := exactL D.om (D.scale ix) D.p C (t.sub (D.center ix))

/-- What a multipole node holds. -/
def RelM (ix : Index) (v : WithTop Coef) (π : Index → ℕ) : Prop :=
  ∃ (M : Coef) (X : List Index), v = (M : WithTop Coef) ∧ Proper M ∧ (∀ x, X.count x = π x) ∧ (∀ x ∈ X, Ancestor ix x) ∧
    (∀ n ≤ D.p, Bd (hat (am D.om (D.scale ix)) M) n
      ((X.map fun x => D.sizeUp ε x (x.level - ix.level)).sum * D.radius ix.level ^ n)) ∧
    ∀ t, T t → D.radius ix.level < (t.sub (D.center ix)).norm →
      ‖valM D ix M t - (X.map fun x => field D.om (D.srcs x) t).sum‖ ≤
        (X.map fun x => D.pathError ε x t (x.level - ix.level)).sum

/-- The size of what a leaf has added to the local expansion of a box. -/
def sizeAt (ix : Index) (y : Index × Way) : ℝ :=
  match y.2.land with
  | some b => D.sizeDown ε (D.landSize ε G y.1 y.2) b (ix.level - b.level)
  | none => 0

/-- What a local node holds. -/
def RelL (ix : Index) (v : WithTop LCoef) (π : Index → ℕ) : Prop :=
  ∃ (C : LCoef) (W : List (Index × Way)), v = (C : WithTop LCoef) ∧ (∀ x, (W.map Prod.fst).count x = π x) ∧
    (∀ y ∈ W, Way.Ok edges ix y.1 y.2 ∧ y.2.land ≠ none) ∧
    LocalSize D.p D.om (D.scale ix) C (W.map (sizeAt D ε G ix)).sum (D.reach ix.level) ∧
    ∀ t, T t → Regular (t.sub (D.center ix)) → InCube D.dom ix t →
      ‖valL D ix C t - (W.map fun y => field D.om (D.srcs y.1) t).sum‖ ≤ (W.map (D.reachError ε δ G ix t)).sum

/-- What has been added to targets. -/
def FRelT (ix : Index) (w : ℕ → WithTop ℂ) (π : Index → ℕ) : Prop :=
  ∃ W : List (Index × Way), (∀ x, (W.map Prod.fst).count x = π x) ∧ (∀ y ∈ W, Way.Ok edges ix y.1 y.2) ∧
    ∀ i t, (D.tgts ix)[i]? = some t → ∃ v : ℂ, w i = (v : WithTop ℂ) ∧
      ‖v - (W.map fun y => field D.om (D.srcs y.1) t).sum‖ ≤ (W.map (D.fmmError ε δ G ix t)).sum

/-- What a source intermediate node holds. -/
def RelS (ix : Index) (v : WithTop (WaveViews × WaveViews)) (π : Prov) : Prop :=
  ∃ (ρ : Index → ℕ) (M : Coef), (∀ i < 6, π i = ρ) ∧
    v = (((ofArrays (views D.plane D.prop D.dom.size D.om D.p ix.level M).1, ofArrays (views D.plane D.prop D.dom.size D.om D.p ix.level M).2) :
      WaveViews × WaveViews) : WithTop (WaveViews × WaveViews)) ∧
    RelM D ε T ix (M : WithTop Coef) ρ

/-- What a target intermediate node holds. -/
def RelI (ix : Index) (v : WithTop (WaveViews × WaveViews)) (π : Prov) : Prop :=
  ∃ E : WaveViews × WaveViews, v = (E : WithTop (WaveViews × WaveViews)) ∧ (ix.level + 1 ≤ 21 → ∀ c < 8,
    RelL D ε δ G T edges (ix.child c) ((iv D.plane D.prop D.dom.size D.om ix.level c E : LCoef) : WithTop LCoef) (taken c π))

/-- What has been added to a node. -/
def FRel (r : Ref) (x : HelmVal) (π : Prov) : Prop :=
  match r.side, r.kind with
  | .src, .normal => RelM D ε T r.ix x.1 (π 0)
  | .src, .interm => RelS D ε T r.ix x.2.2.1 π
  | .tgt, .interm => RelI D ε δ G T edges r.ix x.2.2.1 π
  | .tgt, .normal => RelL D ε δ G T edges r.ix x.2.1 (π 0)
  | .tgt, .parts => FRelT D ε δ G edges r.ix x.2.2.2 (π 0)
  | _, _ => True

/-- The parameters are such that the program has tables. -/
structure FAcc (D : HelmFmm) (ε : ℝ) : Prop where
  size : 0 < D.dom.size
  om : 0 < D.om
  low : D.om ≤ 10 ∨ D.om * D.dom.size ≤ 1 / 8
  base : ∃ dg, waveBase dg = some D.plane
  prop : ∀ k < D.prop.s, 0 ≤ D.prop.x k ∧ D.prop.x k ≤ Real.pi
  err : 0 ≤ ε

variable {D ε δ G T edges}

theorem norm_add_two {a b x y : ℂ} {P Q : ℝ} (h1 : ‖a - x‖ ≤ P) (h2 : ‖b - y‖ ≤ Q) : ‖a + b - (x + y)‖ ≤ P + Q := by
  rw [show a + b - (x + y) = (a - x) + (b - y) by ring]
  exact (norm_add_le _ _).trans (add_le_add h1 h2)

theorem localSize_add {p : ℕ} {om scale : ℝ} (ho : 0 ≤ om) (hs : 0 < scale) {A B : LCoef} {μ ν d : ℝ} (h1 : LocalSize p om scale A μ d)
    (h2 : LocalSize p om scale B ν d) : LocalSize p om scale (A + B) (μ + ν) d := by
  intro n hn
  rw [add_div]
  refine le_trans (mul_le_mul_of_nonneg_left (lsize_add A B n) (by positivity)) ?_
  rw [mul_add]
  exact add_le_add (h1 n hn) (h2 n hn)

theorem localSize_zero (p : ℕ) (om scale d : ℝ) : LocalSize p om scale 0 0 d := by
  intro n _
  rw [show localDegreeSize 0 n = 0 from lsize_zero n]; simp

theorem RelM.add {ix : Index} {v v' : WithTop Coef} {π π' : Index → ℕ} (h1 : RelM D ε T ix v π) (h2 : RelM D ε T ix v' π') :
    RelM D ε T ix (v + v') (π + π') := by
  obtain ⟨M, X, e1, p1, c1, a1, b1, v1⟩ := h1
  obtain ⟨N, Y, e2, p2, c2, a2, b2, v2⟩ := h2
  refine ⟨M + N, X ++ Y, by rw [e1, e2, WithTop.coe_add], proper_add p1 p2, fun z => ?_, fun z hz => ?_, fun n hn => ?_, fun t ht hr => ?_⟩
  · rw [List.count_append, c1, c2]; rfl
  · rcases List.mem_append.1 hz with hz | hz
    · exact a1 z hz
    · exact a2 z hz
  · rw [hat_add, List.map_append, List.sum_append, add_mul]
    exact (b1 n hn).add (b2 n hn)
  · have e : valM D ix (M + N) t = valM D ix M t + valM D ix N t := by
      rw [valM, valM, valM, hat_add, fieldM_add, add_div]
    rw [e, List.map_append, List.sum_append, List.map_append, List.sum_append]
    exact norm_add_two (v1 t ht hr) (v2 t ht hr)

theorem RelM.zero (ix : Index) : RelM D ε T ix ((0 : Coef) : WithTop Coef) 0 := by
  refine ⟨0, [], rfl, fun _ => rfl, fun _ => rfl, fun x hx => by simp at hx, fun n _ => ?_, fun t _ _ => ?_⟩
  · rw [hat_zero]; simpa using Bd_zero n
  · simp [valM, hat_zero, fieldM_zero]

theorem RelL.zero (ix : Index) : RelL D ε δ G T edges ix ((0 : LCoef) : WithTop LCoef) 0 := by
  refine ⟨0, [], rfl, fun _ => rfl, fun x hx => by simp at hx, ?_, fun t _ _ _ => ?_⟩
  · exact localSize_zero _ _ _ _
  · simp [valL, exactL_zero]

theorem scale_pos (hA : FAcc D ε) (ix : Index) : 0 < D.scale ix := helm_scaleOf_pos D.dom.size D.om hA.size hA.om ix.level

theorem RelL.add (hA : FAcc D ε) {ix : Index} {v v' : WithTop LCoef} {π π' : Index → ℕ} (h1 : RelL D ε δ G T edges ix v π)
    (h2 : RelL D ε δ G T edges ix v' π') : RelL D ε δ G T edges ix (v + v') (π + π') := by
  obtain ⟨M, X, e1, c1, a1, b1, v1⟩ := h1
  obtain ⟨N, Y, e2, c2, a2, b2, v2⟩ := h2
  refine ⟨M + N, X ++ Y, ?_, fun z => ?_, fun z hz => ?_, ?_, fun t ht hr hin => ?_⟩
  · rw [e1, e2, WithTop.coe_add]
  · rw [List.map_append, List.count_append, c1, c2]; rfl
  · rcases List.mem_append.1 hz with hz | hz
    · exact a1 z hz
    · exact a2 z hz
  · rw [List.map_append, List.sum_append]
    exact localSize_add hA.om.le (scale_pos hA ix) b1 b2
  · rw [valL, exactL_add, List.map_append, List.sum_append, List.map_append, List.sum_append]
    exact norm_add_two (v1 t ht hr hin) (v2 t ht hr hin)

theorem views_add (M N : Coef) (lev : ℕ) :
    ofArrays (views D.plane D.prop D.dom.size D.om D.p lev (M + N)).1 =
      ofArrays (views D.plane D.prop D.dom.size D.om D.p lev M).1 + ofArrays (views D.plane D.prop D.dom.size D.om D.p lev N).1 ∧
    ofArrays (views D.plane D.prop D.dom.size D.om D.p lev (M + N)).2 =
      ofArrays (views D.plane D.prop D.dom.size D.om D.p lev M).2 + ofArrays (views D.plane D.prop D.dom.size D.om D.p lev N).2 := by
  have := levViews_lin D.plane D.prop (lv D.plane D.prop D.dom.size D.om lev) (unitsAt D.om D.dom.size lev) (scaleOf D.dom.size D.om lev) D.p 1 M N
  rw [one_smul, one_smul, one_smul] at this
  exact this

theorem FRel.zero (hA : FAcc D ε) (r : Ref) : FRel D ε δ G T edges r 0 0 := by
  rcases r with ⟨_ | _, ix, _ | _ | _⟩ <;> simp only [FRel]
  · exact RelM.zero ix
  · refine ⟨0, 0, fun _ _ => rfl, ?_, RelM.zero ix⟩
    obtain ⟨h1, h2⟩ := views_add (D := D) 0 0 ix.level
    rw [add_zero] at h1 h2
    rw [left_eq_add.1 h1, left_eq_add.1 h2]; rfl
  · exact ⟨[], fun _ => rfl, fun y hy => by simp at hy, fun i t _ => ⟨0, rfl, by simp⟩⟩
  · exact RelL.zero ix
  · obtain ⟨hs, ho, hom, ⟨dg, hT⟩, hQ, hε⟩ := hA
    refine ⟨0, rfl, fun h c hc => ?_⟩
    have := (iv_spec hT D.prop hs ho hom ix.level h c hc).2 1 0 0
    rw [one_smul, one_smul, add_zero] at this
    have h0 : iv D.plane D.prop D.dom.size D.om ix.level c 0 = 0 := left_eq_add.1 this
    rw [h0, taken_zero]
    exact RelL.zero _

theorem FRel.add (hA : FAcc D ε) {r : Ref} {x y : HelmVal} {π π' : Prov} (h1 : FRel D ε δ G T edges r x π) (h2 : FRel D ε δ G T edges r y π') :
    FRel D ε δ G T edges r (x + y) (π + π') := by
  rcases r with ⟨_ | _, ix, _ | _ | _⟩ <;> simp only [FRel] at h1 h2 ⊢
  · exact RelM.add h1 h2
  · obtain ⟨ρ, M, r1, e1, m1⟩ := h1
    obtain ⟨ρ', N, r2, e2, m2⟩ := h2
    refine ⟨ρ + ρ', M + N, fun i hi => ?_, ?_, by rw [WithTop.coe_add]; exact m1.add m2⟩
    · rw [Pi.add_apply, r1 i hi, r2 i hi]
    · obtain ⟨h1, h2⟩ := views_add (D := D) M N ix.level
      rw [h1, h2, Prod.snd_add, Prod.snd_add, Prod.fst_add, e1, e2, ← WithTop.coe_add]; rfl
  · obtain ⟨W, c1, a1, v1⟩ := h1
    obtain ⟨W', c2, a2, v2⟩ := h2
    refine ⟨W ++ W', fun z => ?_, fun z hz => ?_, fun i t ht => ?_⟩
    · rw [List.map_append, List.count_append, c1, c2]; rfl
    · rcases List.mem_append.1 hz with hz | hz
      · exact a1 z hz
      · exact a2 z hz
    · obtain ⟨v, hv, ev⟩ := v1 i t ht
      obtain ⟨u, hu, eu⟩ := v2 i t ht
      refine ⟨v + u, ?_, ?_⟩
      · rw [Prod.snd_add, Prod.snd_add, Prod.snd_add, Pi.add_apply, hv, hu, WithTop.coe_add]
      · rw [List.map_append, List.sum_append, List.map_append, List.sum_append]
        exact norm_add_two ev eu
  · exact RelL.add hA h1 h2
  · obtain ⟨E, e1, r1⟩ := h1
    obtain ⟨E', e2, r2⟩ := h2
    refine ⟨E + E', ?_, fun h c hc => ?_⟩
    · rw [Prod.snd_add, Prod.snd_add, Prod.fst_add, e1, e2, WithTop.coe_add]
    · have hA' := hA
      obtain ⟨hs, ho, hom, ⟨dg, hT⟩, hQ, hε⟩ := hA'
      have := (iv_spec hT D.prop hs ho hom ix.level h c hc).2 1 E E'
      rw [one_smul, one_smul] at this
      rw [this, taken_add, WithTop.coe_add]
      exact (r1 h c hc).add hA (r2 h c hc)

theorem FRel.sum (hA : FAcc D ε) {α : Type} {r : Ref} {f : α → HelmVal} {g : α → Prov} : ∀ l : List α,
    (∀ e ∈ l, FRel D ε δ G T edges r (f e) (g e)) → FRel D ε δ G T edges r (l.map f).sum (l.map g).sum
  | [], _ => FRel.zero hA r
  | e :: l, h => by
    rw [List.map_cons, List.sum_cons, List.map_cons, List.sum_cons]
    exact (h e List.mem_cons_self).add hA (FRel.sum hA l fun e he => h e (List.mem_cons_of_mem _ he))

end
end Dashmm.Helm
