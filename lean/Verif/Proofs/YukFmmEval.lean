import Verif.Proofs.YukBox
import Verif.Proofs.YukDown

/-!
The numbers an evaluation with the Yukawa kernel and FMM97 computes, node by node.
-/

namespace Dashmm.Yuk

open Finset Harm Lap Bessel Wave Waves
open YukFmm (arrays ofArrays ofMade)

noncomputable section

theorem fieldA_add (a : ℕ → ℂ) (p : ℕ) (C C' : Coef) (v : Point ℝ) : fieldA a p (C + C') v = fieldA a p C v + fieldA a p C' v := by
  simp only [fieldA, form_add, mul_add, sum_add_distrib]

theorem fieldA_zero (a : ℕ → ℂ) (p : ℕ) (v : Point ℝ) : fieldA a p 0 v = 0 := by
  have := fieldA_add a p 0 0 v
  rw [add_zero] at this
  simpa using this

theorem scaleOf_le (size lam : ℝ) (hs : 0 < size) (hl : 0 < lam) (lev : ℕ) : Yukawa.scaleOf size lam lev / lam ≤ size / 2 ^ lev := by
  rw [div_le_iff₀ hl]
  have h : Yukawa.scale0 size lam ≤ lam * size := by
    rw [Yukawa.scale0]
    split_ifs with h
    · rw [one_div, inv_mul_cancel₀ hs.ne']; exact h.le
    · exact le_rfl
  unfold Yukawa.scaleOf
  rw [div_mul_eq_mul_div]
  exact div_le_div_of_nonneg_right (by linarith) (by positivity)

/-- The box where a leaf becomes a local expansion. -/
def _root_.Dashmm.Way.land : Way → Option Index
  | .near b => some b
  | .waves _ b => some b
  | _ => none

/-! ### What the nodes hold -/

variable (D : YukFmm) (δ : ℝ) (ε G : ℕ → ℝ) (T : Point ℝ → Prop) (edges : List Edge)

/-- The value of a local expansion. -/
def lval (ix : Index) (C : Coef) (t : Point ℝ) : ℝ :=
  (fieldA (fun n => (ev D.table D.p D.lam (D.scale ix) (t.sub (D.center ix)).norm n : ℂ)) D.p (hat (al D.lam (D.scale ix)) C) (t.sub (D.center ix))).re

/-- The size of what a leaf has added to the local expansion of a box. -/
def sizeAt (ix : Index) (y : Index × Way) : ℝ :=
  match y.2.land with
  | some b => D.sizeDown δ (D.landSize δ G y.1 y.2) b (ix.level - b.level)
  | none => 0

/-- What a local node holds. -/
def RelL (ix : Index) (v : WithTop Coef) (π : Index → ℕ) : Prop :=
  ∃ (C : Coef) (W : List (Index × Way)), v = (C : WithTop Coef) ∧ Proper C ∧ (∀ x, (W.map Prod.fst).count x = π x) ∧
    (∀ y ∈ W, Way.Ok edges ix y.1 y.2 ∧ y.2.land ≠ none) ∧
    (∀ n ≤ D.p, Bd (hat (al D.lam (D.scale ix)) C) n ((W.map (sizeAt D δ G ix)).sum / D.reach ix.level ^ n)) ∧
    ∀ t, T t → Regular (t.sub (D.center ix)) → InCube D.dom ix t →
      |lval D ix C t - (W.map fun y => Yukawa.potential D.lam (D.srcs y.1) t).sum| ≤ (W.map (D.fmmError δ ε G ix t)).sum

/-- What has been added to targets. -/
def FRelT (ix : Index) (w : ℕ → WithTop ℝ) (π : Index → ℕ) : Prop :=
  ∃ W : List (Index × Way), (∀ x, (W.map Prod.fst).count x = π x) ∧ (∀ y ∈ W, Way.Ok edges ix y.1 y.2) ∧
    ∀ i t, (D.tgts ix)[i]? = some t → ∃ v : ℝ, w i = (v : WithTop ℝ) ∧
      |v - (W.map fun y => Yukawa.potential D.lam (D.srcs y.1) t).sum| ≤ (W.map (D.fmmError δ ε G ix t)).sum

/-- What a source intermediate node holds. -/
def RelS (ix : Index) (v : WithTop WaveViews) (π : Prov) : Prop :=
  ∃ (ρ : Index → ℕ) (M : Coef), (∀ i < 6, π i = ρ) ∧ v = ((ofArrays (levViews D.plane D.dom.size D.lam D.p ix.level M) : WaveViews) : WithTop WaveViews) ∧
    RelM D.toYukData δ T ix (M : WithTop Coef) ρ

/-- What a target intermediate node holds. -/
def RelI (ix : Index) (v : WithTop WaveViews) (π : Prov) : Prop :=
  ∃ E : WaveViews, v = (E : WithTop WaveViews) ∧ (ix.level + 1 ≤ 21 → ∀ c < 8,
    RelL D δ ε G T edges (ix.child c) ((iVal D.plane D.dom.size D.lam ix.level c E : Coef) : WithTop Coef) (taken c π))

/-- What has been added to a node. -/
def FRel (r : Ref) (x : YukFmmVal) (π : Prov) : Prop :=
  match r.side, r.kind with
  | .src, .normal => RelM D.toYukData δ T r.ix x.1 (π 0)
  | .src, .interm => RelS D δ T r.ix x.2.1 π
  | .tgt, .interm => RelI D δ ε G T edges r.ix x.2.1 π
  | .tgt, .normal => RelL D δ ε G T edges r.ix x.1 (π 0)
  | .tgt, .parts => FRelT D δ ε G edges r.ix x.2.2 (π 0)
  | _, _ => True

/-- The tables are accurate. -/
structure FAcc (D : YukFmm) (δ : ℝ) : Prop where
  acc : Acc D.toYukData δ
  lam : 0 < D.lam
  base : ∃ dg, waveBase dg = some D.plane

variable {D δ ε G T edges}

theorem RelM.proper {ix : Index} {M : Coef} {π : Index → ℕ} (h : RelM D.toYukData δ T ix (M : WithTop Coef) π) : Proper M := by
  obtain ⟨M', X, e, p, -⟩ := h
  rw [WithTop.coe_inj.1 e]; exact p

theorem RelM.add {ix : Index} {M N : Coef} {π π' : Index → ℕ} (h1 : RelM D.toYukData δ T ix (M : WithTop Coef) π)
    (h2 : RelM D.toYukData δ T ix (N : WithTop Coef) π') : RelM D.toYukData δ T ix ((M + N : Coef) : WithTop Coef) (π + π') := by
  have := Rel.add (D := D.toYukData) (δ := δ) (T := T) (E := fun _ _ => True) (r := ⟨.src, ix, .normal⟩) (x := ((M : WithTop Coef), 0))
    (y := ((N : WithTop Coef), 0)) (π := fun _ => π) (π' := fun _ => π') h1 h2
  exact this

theorem RelM.zero (ix : Index) : RelM D.toYukData δ T ix ((0 : Coef) : WithTop Coef) 0 :=
  Rel.zero (D := D.toYukData) (δ := δ) (T := T) (E := fun _ _ => True) ⟨.src, ix, .normal⟩

theorem RelL.zero (ix : Index) : RelL D δ ε G T edges ix ((0 : Coef) : WithTop Coef) 0 := by
  refine ⟨0, [], rfl, fun _ => rfl, fun _ => rfl, fun x hx => by simp at hx, fun n _ => ?_, fun t _ _ _ => ?_⟩
  · rw [hat_zero]; simpa using Bd_zero n
  · simp [lval, hat_zero, fieldA_zero]

theorem RelL.add {ix : Index} {v v' : WithTop Coef} {π π' : Index → ℕ} (h1 : RelL D δ ε G T edges ix v π) (h2 : RelL D δ ε G T edges ix v' π') :
    RelL D δ ε G T edges ix (v + v') (π + π') := by
  obtain ⟨M, X, e1, p1, c1, a1, b1, v1⟩ := h1
  obtain ⟨N, Y, e2, p2, c2, a2, b2, v2⟩ := h2
  refine ⟨M + N, X ++ Y, ?_, proper_add p1 p2, fun z => ?_, fun z hz => ?_, fun n hn => ?_, fun t ht hr hin => ?_⟩
  · rw [e1, e2, WithTop.coe_add]
  · rw [List.map_append, List.count_append, c1, c2]; rfl
  · rcases List.mem_append.1 hz with hz | hz
    · exact a1 z hz
    · exact a2 z hz
  · rw [hat_add, List.map_append, List.sum_append, add_div]
    exact (b1 n hn).add (b2 n hn)
  · have e : lval D ix (M + N) t = lval D ix M t + lval D ix N t := by
      rw [lval, lval, lval, hat_add, fieldA_add, Complex.add_re]
    rw [e, List.map_append, List.sum_append, List.map_append, List.sum_append]
    exact abs_add_two (v1 t ht hr hin) (v2 t ht hr hin)

theorem taken_zero (c : ℕ) : taken c 0 = 0 := by funext x; simp [taken]

theorem FRel.zero (hA : FAcc D δ) (r : Ref) : FRel D δ ε G T edges r 0 0 := by
  obtain ⟨hA, hl, dg, hT⟩ := hA
  rcases r with ⟨_ | _, ix, _ | _ | _⟩ <;> simp only [FRel]
  · exact RelM.zero ix
  · refine ⟨0, 0, fun _ _ => rfl, ?_, RelM.zero ix⟩
    have := levViews_lin hT D.dom.size D.lam D.p ix.level 1 0 0 (fun _ => rfl) (fun _ => rfl) (by intro n; simp)
    rw [one_smul, one_smul, add_zero] at this
    have h0 : ofArrays (levViews D.plane D.dom.size D.lam D.p ix.level 0) = 0 := by simpa using this
    rw [h0]; rfl
  · exact ⟨[], fun _ => rfl, fun y hy => by simp at hy, fun i t _ => ⟨0, rfl, by simp⟩⟩
  · exact RelL.zero ix
  · refine ⟨0, rfl, fun h c hc => ?_⟩
    have := (iVal_spec hT D.dom.size D.lam hA.size hl ix.level h c hc).2 1 0 0
    rw [one_smul, one_smul, add_zero] at this
    have h0 : iVal D.plane D.dom.size D.lam ix.level c 0 = 0 := by simpa using this
    rw [h0, taken_zero]
    exact RelL.zero _

theorem FRel.add (hA : FAcc D δ) {r : Ref} {x y : YukFmmVal} {π π' : Prov} (h1 : FRel D δ ε G T edges r x π) (h2 : FRel D δ ε G T edges r y π') :
    FRel D δ ε G T edges r (x + y) (π + π') := by
  obtain ⟨hA, hl, dg, hT⟩ := hA
  rcases r with ⟨_ | _, ix, _ | _ | _⟩ <;> simp only [FRel] at h1 h2 ⊢
  · have := Rel.add (D := D.toYukData) (δ := δ) (T := T) (E := fun _ _ => True) (r := ⟨.src, ix, .normal⟩) (x := (x.1, 0))
      (y := (y.1, 0)) (π := π) (π' := π') h1 h2
    exact this
  · obtain ⟨ρ, M, r1, e1, m1⟩ := h1
    obtain ⟨ρ', N, r2, e2, m2⟩ := h2
    refine ⟨ρ + ρ', M + N, fun i hi => ?_, ?_, m1.add m2⟩
    · rw [Pi.add_apply, r1 i hi, r2 i hi]
    · have := levViews_lin hT D.dom.size D.lam D.p ix.level 1 M N m1.proper m2.proper (by rw [one_smul]; exact proper_add m1.proper m2.proper)
      rw [one_smul, one_smul] at this
      rw [this, Prod.snd_add, Prod.fst_add, e1, e2, WithTop.coe_add]
  · obtain ⟨W, c1, a1, v1⟩ := h1
    obtain ⟨W', c2, a2, v2⟩ := h2
    refine ⟨W ++ W', fun z => ?_, fun z hz => ?_, fun i t ht => ?_⟩
    · rw [List.map_append, List.count_append, c1, c2]; rfl
    · rcases List.mem_append.1 hz with hz | hz
      · exact a1 z hz
      · exact a2 z hz
    · obtain ⟨v, hv, ev⟩ := v1 i t ht
      obtain ⟨u, hu, eu⟩ := v2 i t ht
      refine ⟨v + u, ?_, ?_⟩
      · rw [Prod.snd_add, Prod.snd_add, Pi.add_apply, hv, hu, WithTop.coe_add]
      · rw [List.map_append, List.sum_append, List.map_append, List.sum_append]
        exact abs_add_two ev eu
  · exact RelL.add h1 h2
  · obtain ⟨E, e1, r1⟩ := h1
    obtain ⟨E', e2, r2⟩ := h2
    refine ⟨E + E', ?_, fun h c hc => ?_⟩
    · rw [Prod.snd_add, Prod.fst_add, e1, e2, WithTop.coe_add]
    · have := (iVal_spec hT D.dom.size D.lam hA.size hl ix.level h c hc).2 1 E E'
      rw [one_smul, one_smul] at this
      rw [this, taken_add, WithTop.coe_add]
      exact (r1 h c hc).add (r2 h c hc)

theorem FRel.sum (hA : FAcc D δ) {α : Type} {r : Ref} {f : α → YukFmmVal} {g : α → Prov} : ∀ l : List α,
    (∀ e ∈ l, FRel D δ ε G T edges r (f e) (g e)) → FRel D δ ε G T edges r (l.map f).sum (l.map g).sum
  | [], _ => FRel.zero hA r
  | e :: l, h => by
    rw [List.map_cons, List.sum_cons, List.map_cons, List.sum_cons]
    exact (h e List.mem_cons_self).add hA (FRel.sum hA l fun e he => h e (List.mem_cons_of_mem _ he))

/-! ### The edges -/

variable (D δ ε G T edges) in
/-- The edges of FMM97. -/
inductive FmmEdge : Edge → Prop
  | StoM {a : Index} (h : YukEdge D.toYukData δ T (fun _ _ => True) ⟨.StoM, ⟨.src, a, .parts⟩, ⟨.src, a, .normal⟩⟩) :
      FmmEdge ⟨.StoM, ⟨.src, a, .parts⟩, ⟨.src, a, .normal⟩⟩
  | MtoM {a : Index} (c : Fin 8) (h : YukEdge D.toYukData δ T (fun _ _ => True) ⟨.MtoM, ⟨.src, a.child c, .normal⟩, ⟨.src, a, .normal⟩⟩) :
      FmmEdge ⟨.MtoM, ⟨.src, a.child c, .normal⟩, ⟨.src, a, .normal⟩⟩
  | StoT {a b : Index} (hE : (⟨.StoT, ⟨.src, a, .parts⟩, ⟨.tgt, b, .parts⟩⟩ : Edge) ∈ edges) : FmmEdge ⟨.StoT, ⟨.src, a, .parts⟩, ⟨.tgt, b, .parts⟩⟩
  | MtoT {a b : Index} (hE : (⟨.MtoT, ⟨.src, a, .normal⟩, ⟨.tgt, b, .parts⟩⟩ : Edge) ∈ edges)
      (ht : ∀ t ∈ D.tgts b, T t ∧ Regular (t.sub (D.center a)) ∧ D.radius a.level < (t.sub (D.center a)).norm ∧
        ∀ M, ∃ v, Yukawa.mToT D.lam D.p (D.center a) (D.scale a) M t = some v) :
      FmmEdge ⟨.MtoT, ⟨.src, a, .normal⟩, ⟨.tgt, b, .parts⟩⟩
  | StoL {a b : Index} (hE : (⟨.StoL, ⟨.src, a, .parts⟩, ⟨.tgt, b, .normal⟩⟩ : Edge) ∈ edges) (hr : AllRegular (D.center b) (D.srcs a))
      (hd : ∀ q ∈ D.srcs a, D.reach b.level ≤ (q.pos.sub (D.center b)).norm)
      (hs : ∃ L, Yukawa.sToL D.lam D.p (D.center b) (D.scale b) (D.srcs a) = some L) :
      FmmEdge ⟨.StoL, ⟨.src, a, .parts⟩, ⟨.tgt, b, .normal⟩⟩
  | LtoL {a : Index} (c : Fin 8) (h21 : a.level + 1 ≤ 21) (hT : ∀ t, T t → Regular (t.sub (D.center a))) :
      FmmEdge ⟨.LtoL, ⟨.tgt, a, .normal⟩, ⟨.tgt, a.child c, .normal⟩⟩
  | LtoT {a : Index} (ht : ∀ t ∈ D.tgts a, T t ∧ InCube D.dom a t ∧ Regular (t.sub (D.center a))) :
      FmmEdge ⟨.LtoT, ⟨.tgt, a, .normal⟩, ⟨.tgt, a, .parts⟩⟩
  | MtoI {a : Index} (h21 : a.level ≤ 21) : FmmEdge ⟨.MtoI, ⟨.src, a, .normal⟩, ⟨.src, a, .interm⟩⟩
  | ItoI {k n : Index} (hE : (⟨.ItoI, ⟨.src, k, .interm⟩, ⟨.tgt, n, .interm⟩⟩ : Edge) ∈ edges) (h21 : n.level + 1 ≤ 21)
      (hw : Yukawa.WavesAccurate D.table D.plane D.dom D.lam D.p (n.level + 1) (ε (n.level + 1)) (G (n.level + 1)))
      (hn : Yukawa.NearParent n k) (hT : ∀ t, T t → Regular (t.sub (D.center k))) :
      FmmEdge ⟨.ItoI, ⟨.src, k, .interm⟩, ⟨.tgt, n, .interm⟩⟩
  | ItoL {a : Index} (c : Fin 8) (h21 : a.level + 1 ≤ 21) : FmmEdge ⟨.ItoL, ⟨.tgt, a, .interm⟩, ⟨.tgt, a.child c, .normal⟩⟩

/-- What a node holds, for a source leaf included. -/
def FGood (D : YukFmm) (δ : ℝ) (ε G : ℕ → ℝ) (T : Point ℝ → Prop) (edges : List Edge) (r : Ref) (x : YukFmmVal) (π : Prov) : Prop :=
  (r.side = .src → r.kind = .parts → π 0 = fun y => if y = r.ix then 1 else 0) ∧
  (¬ (r.side = .tgt ∧ r.kind = .parts) → FRel D δ ε G T edges r x π)

theorem anc_self (x : Index) : Ancestor x x := ⟨le_rfl, by rw [Nat.sub_self, Index.parent_zero]⟩

theorem parent_child_succ (a : Index) {c : ℕ} (hc : c < 8) (k : ℕ) : (a.child c).parent (k + 1) = a.parent k := by
  rw [add_comm, Index.parent_add, Index.parent_child a c hc]

theorem anc_down {b a : Index} {c : ℕ} (hc : c < 8) (h : Ancestor b a) : Ancestor b (a.child c) := by
  obtain ⟨h1, h2⟩ := h
  have hl : (a.child c).level = a.level + 1 := rfl
  refine ⟨by omega, ?_⟩
  rw [hl, show a.level + 1 - b.level = a.level - b.level + 1 by omega, parent_child_succ a hc, h2]

theorem ok_down {a x : Index} {w : Way} {c : ℕ} (hc : c < 8) (h : Way.Ok edges a x w) (hw : w.land ≠ none) : Way.Ok edges (a.child c) x w := by
  cases w with
  | direct => exact absurd rfl hw
  | far a' => exact absurd rfl hw
  | near b => exact ⟨anc_down hc h.1, h.2⟩
  | waves a' b => exact ⟨h.1, anc_down hc h.2.1, h.2.2⟩

theorem land_anc {a x b : Index} {w : Way} (h : Way.Ok edges a x w) (hb : w.land = some b) : Ancestor b a := by
  cases w with
  | direct => cases hb
  | far a' => cases hb
  | near b' => cases hb; exact h.1
  | waves a' b' => cases hb; exact h.2.1

theorem reach_pos (hsz : 0 < D.dom.size) (lev : ℕ) : 0 < D.reach lev := by unfold YukData.reach Domain.sizeFromLevel; positivity

/-- The growth of one translation. -/
def grow (D : YukFmm) (δ : ℝ) (lev : ℕ) : ℝ := Yukawa.lToLGrowth D.p D.lam δ (D.radius (lev + 1)) (D.reach lev)

/-- The error of one translation. -/
def stepErr (D : YukFmm) (δ : ℝ) (a : Index) (c : ℕ) (t : Point ℝ) : ℝ :=
  Yukawa.lToLBound D.p D.lam (Yukawa.scaleOf D.dom.size D.lam a.level) δ (D.radius (a.level + 1))
    (t.sub (D.center (a.child c))).norm (t.sub (D.center a)).norm (D.reach a.level)

theorem downError_child {a b : Index} {c : ℕ} (hc : c < 8) (h : Ancestor b a) (μ : ℝ) (t : Point ℝ) :
    D.downError δ μ b (a.child c) t = D.downError δ μ b a t + D.sizeDown δ μ b (a.level - b.level) * stepErr D δ a c t := by
  have hl : (a.child c).level = a.level + 1 := rfl
  have h1 := h.1
  unfold YukData.downError
  rw [hl, show a.level + 1 - b.level = a.level - b.level + 1 by omega, sum_range_succ]
  congr 1
  · refine sum_congr rfl fun j hj => ?_
    rw [mem_range] at hj
    rw [show a.level + 1 - (b.level + j + 1) = a.level - (b.level + j + 1) + 1 by omega, parent_child_succ a hc,
      show a.level + 1 - (b.level + j) = a.level - (b.level + j) + 1 by omega, parent_child_succ a hc]
  · have e : b.level + (a.level - b.level) = a.level := by omega
    rw [e, stepErr, Nat.sub_self, Index.parent_zero, show a.level + 1 - a.level = 0 + 1 by omega, parent_child_succ a hc, Index.parent_zero]

theorem sizeAt_child {a x : Index} {w : Way} {c : ℕ} (h : Way.Ok edges a x w) (hw : w.land ≠ none) :
    sizeAt D δ G (a.child c) (x, w) = sizeAt D δ G a (x, w) * grow D δ a.level := by
  obtain ⟨b, hb⟩ := Option.ne_none_iff_exists'.1 hw
  have h1 := (land_anc h hb).1
  have hl : (a.child c).level = a.level + 1 := rfl
  simp only [sizeAt, hb, hl]
  rw [show a.level + 1 - b.level = a.level - b.level + 1 by omega, YukData.sizeDown, prod_range_succ, ← mul_assoc,
    show b.level + (a.level - b.level) = a.level by omega]
  rfl

theorem fmmError_child {a x : Index} {w : Way} {c : ℕ} (hc : c < 8) (h : Way.Ok edges a x w) (hw : w.land ≠ none) (t : Point ℝ) :
    D.fmmError δ ε G (a.child c) t (x, w) = D.fmmError δ ε G a t (x, w) + sizeAt D δ G a (x, w) * stepErr D δ a c t := by
  cases w with
  | direct => exact absurd rfl hw
  | far a' => exact absurd rfl hw
  | near b =>
    simp only [YukData.fmmError, sizeAt, Way.land]
    rw [downError_child hc h.1]; ring
  | waves a' b =>
    simp only [YukData.fmmError, sizeAt, Way.land]
    rw [downError_child hc h.2.1]; ring

theorem map_sum_mul {α : Type} (l : List α) (f g : α → ℝ) (k : ℝ) (h : ∀ y ∈ l, g y = f y * k) : (l.map g).sum = (l.map f).sum * k := by
  rw [← List.sum_map_mul_right]
  congr 1
  exact List.map_congr_left h

theorem map_sum_add_mul {α : Type} (l : List α) (f e g : α → ℝ) (k : ℝ) (h : ∀ y ∈ l, g y = e y + f y * k) :
    (l.map g).sum = (l.map e).sum + (l.map f).sum * k := by
  rw [← List.sum_map_mul_right, ← List.sum_map_add]
  congr 1
  exact List.map_congr_left h

theorem relL_down (hA : FAcc D δ) {a : Index} (c : Fin 8) (h21 : a.level + 1 ≤ 21) (hT : ∀ t, T t → Regular (t.sub (D.center a))) {v : WithTop Coef}
    {π : Index → ℕ} (h : RelL D δ ε G T edges a v π) :
    RelL D δ ε G T edges (a.child c)
      (Option.bind v (Yukawa.lToL D.table D.dom.size D.lam D.p (a.child c).whichChild (D.scale a))) π := by
  obtain ⟨⟨hsz, hδ0, hδ, hF⟩, hl, -⟩ := hA
  have hs0 := scale0_pos D.dom.size D.lam hsz hl
  obtain ⟨C, W, e1, p1, c1, a1, b1, v1⟩ := h
  set S := D.dom.size / 2 ^ a.level with hS
  have hSp : 0 < S := by positivity
  have hρ : D.radius (a.level + 1) = √3 / 4 * S := by rw [YukData.radius, hS, pow_succ]; field_simp; ring
  have hd : D.reach a.level = 3 / 2 * S := rfl
  have hd' : D.reach (a.level + 1) = 3 / 4 * S := by rw [YukData.reach, Domain.sizeFromLevel, hS, pow_succ]; field_simp; ring
  have h3 := sqrt3_hi
  have hsc : D.scale (a.child c) = Yukawa.scaleOf D.dom.size D.lam a.level / 2 := scaleOf_half _ _ _
  have hlv : (a.child c).level = a.level + 1 := rfl
  have hgrow : (W.map (sizeAt D δ G (a.child c))).sum = (W.map (sizeAt D δ G a)).sum * grow D δ a.level :=
    map_sum_mul _ _ _ _ fun y hy => sizeAt_child (a1 y hy).1 (a1 y hy).2
  refine ⟨tr D.p (Yukawa.l2l D.table D.dom.size D.lam D.p a.level) (tabAlpha c * (Real.pi / 4)) (childCos c) C, W, ?_,
    lToL_proper D.table D.dom.size D.lam hl hs0 D.p _ _ _ C p1, c1, fun y hy => ⟨ok_down c.2 (a1 y hy).1 (a1 y hy).2, (a1 y hy).2⟩, ?_, ?_⟩
  · rw [e1, Index.whichChild_child a c c.2]
    exact yuk_lToL_eq D.table D.dom.size D.lam hs0 D.p a.level c (by omega) C
  · intro n hn
    have hρd : D.radius (a.level + 1) < D.reach a.level := by rw [hρ, hd]; nlinarith
    have key := lToL_bd D.table δ hδ0 hδ hF D.dom.size D.lam hsz hl hs0 D.p a.level (tabAlpha c * (Real.pi / 4)) (childCos c) C p1
      _ _ b1 (D.radius (a.level + 1)) hρ hρd n hn
    rw [hsc, hgrow, hlv]
    refine key.mono ?_
    have hg : (W.map (sizeAt D δ G a)).sum * ((Real.exp (D.lam ^ 2 * D.radius (a.level + 1) ^ 2 / 6) + tabErr D.p δ (D.lam * D.radius (a.level + 1))) *
        Real.exp (D.lam ^ 2 * D.radius (a.level + 1) ^ 2 / 3) * Real.exp (D.lam ^ 2 * D.radius (a.level + 1) * D.reach a.level / 3) *
        (D.reach a.level / (D.reach a.level - D.radius (a.level + 1)))) = (W.map (sizeAt D δ G a)).sum * grow D δ a.level := rfl
    rw [hg] at key ⊢
    have hdp : 0 < D.reach a.level - D.radius (a.level + 1) := by linarith
    have h0 : 0 ≤ (W.map (sizeAt D δ G a)).sum * grow D δ a.level := by
      by_contra hc
      exact absurd key.1 (not_le.2 (div_neg_of_neg_of_pos (not_le.1 hc) (pow_pos hdp n)))
    refine div_le_div_of_nonneg_left h0 (pow_pos (reach_pos hsz _) n) (pow_le_pow_left₀ (reach_pos hsz _).le ?_ n)
    rw [hd', hd, hρ]; nlinarith
  · intro t ht hr hin
    have hreg := hT t ht
    have hin' := inBox_child hsz c.2 hin
    have hv := v1 t ht hreg hin'
    have hn1 : (t.sub (D.center (a.child c))).norm ≤ √3 / 4 * S := by
      have := inBox_norm hsz hin
      rw [hlv] at this
      refine this.trans_eq ?_
      rw [← hρ]; rfl
    have hn2 : (t.sub (D.center a)).norm ≤ √3 / 2 * S := inBox_norm hsz hin'
    have hq : Yukawa.scaleOf D.dom.size D.lam a.level / D.lam ≤ S := scaleOf_le D.dom.size D.lam hsz hl a.level
    have hq2 : Yukawa.scaleOf D.dom.size D.lam a.level / 2 / D.lam ≤ S / 2 := by
      rw [div_right_comm]; linarith
    have key := lToL_error D.table δ hδ0 hδ hF D.dom.size D.lam hsz hl hs0 D.p a.level c c.2 C p1 _ _ (reach_pos hsz a.level) b1
      (D.radius (a.level + 1)) hρ (t.sub (D.center (a.child c))) (t.sub (D.center a)) (by
        simp only [YukData.center]
        rw [child_at D.dom hsz a c c.2]
        simp only [padd, psmul, Point.sub]
        rw [pow_succ]
        congr 1 <;> ring) (lt_of_le_of_ne (norm_nonneg' _) (clear_of_regular hr).ne.symm)
      (lt_of_le_of_ne (norm_nonneg' _) (clear_of_regular hreg).ne.symm)
      (by rw [hρ, hd]
          have : max (Yukawa.scaleOf D.dom.size D.lam a.level / 2 / D.lam) (t.sub (D.center (a.child c))).norm ≤ S / 2 :=
            max_le hq2 (hn1.trans (by nlinarith))
          nlinarith)
      (by rw [hd]
          refine max_lt (by linarith) (lt_of_le_of_lt hn2 (by nlinarith)))
    rw [← hsc] at key
    have hd : |lval D (a.child c) (tr D.p (Yukawa.l2l D.table D.dom.size D.lam D.p a.level) (tabAlpha c * (Real.pi / 4)) (childCos c) C) t -
        lval D a C t| ≤ (W.map (sizeAt D δ G a)).sum * stepErr D δ a c t := by
      rw [lval, lval, ← Complex.sub_re]
      exact (Complex.abs_re_le_norm _).trans key
    rw [map_sum_add_mul W (sizeAt D δ G a) (D.fmmError δ ε G a t) (D.fmmError δ ε G (a.child c) t) _
      fun y hy => fmmError_child c.2 (a1 y hy).1 (a1 y hy).2 t]
    set N := lval D (a.child c) (tr D.p (Yukawa.l2l D.table D.dom.size D.lam D.p a.level) (tabAlpha c * (Real.pi / 4)) (childCos c) C) t
    rw [show N - (W.map fun y => Yukawa.potential D.lam (D.srcs y.1) t).sum =
      (lval D a C t - (W.map fun y => Yukawa.potential D.lam (D.srcs y.1) t).sum) + (N - lval D a C t) by ring]
    exact (abs_add_le _ _).trans (add_le_add hv hd)

theorem multipoleValue_eq (hsz : 0 < D.dom.size) (hl : 0 < D.lam) (k : Index) (M : Coef) (t : Point ℝ) (hr : Regular (t.sub (D.center k))) :
    Yukawa.multipoleValue D.p D.lam (D.scale k) M (t.sub (D.center k)) = val D.toYukData k M t := by
  have hsc : 0 < D.scale k := scaleOf_pos D.dom.size D.lam (scale0_pos D.dom.size D.lam hsz hl) k.level
  rw [Yukawa.multipoleValue, ephi_eq _ (clear_of_regular hr).ne, Option.getD_some,
    evalAt_field D.lam hl D.p _ (clear_of_regular hr) _ hsc M _ fun _ => rfl]
  rfl

theorem relL_waves (hA : FAcc D δ) {k n : Index} (hE : (⟨.ItoI, ⟨.src, k, .interm⟩, ⟨.tgt, n, .interm⟩⟩ : Edge) ∈ edges) (h21 : n.level + 1 ≤ 21)
    (hw : Yukawa.WavesAccurate D.table D.plane D.dom D.lam D.p (n.level + 1) (ε (n.level + 1)) (G (n.level + 1)))
    (hn : Yukawa.NearParent n k) (hT : ∀ t, T t → Regular (t.sub (D.center k))) {M : Coef} {ρ : Index → ℕ}
    (h : RelM D.toYukData δ T k (M : WithTop Coef) ρ) {c : ℕ} (hc : c < 8) (hs : Separated k (n.child c)) :
    RelL D δ ε G T edges (n.child c)
      ((boxVal D.plane D.dom.size D.lam D.p n.level c ((k.x : ℤ) - 2 * n.x) ((k.y : ℤ) - 2 * n.y) ((k.z : ℤ) - 2 * n.z) M : Coef) : WithTop Coef) ρ := by
  obtain ⟨⟨hsz, hδ0, hδ, hF⟩, hl, dg, hT0⟩ := hA
  have hs0 := scale0_pos D.dom.size D.lam hsz hl
  obtain ⟨M', X, e1, p1, c1, a1, b1, v1⟩ := h
  obtain rfl := WithTop.coe_inj.1 e1
  have hkl : k.level = n.level + 1 := hn.1
  have hlv : (n.child c).level = n.level + 1 := rfl
  have hsc : D.scale k = Yukawa.scaleOf D.dom.size D.lam (n.level + 1) := by rw [YukData.scale, hkl]
  have hscp : 0 < Yukawa.scaleOf D.dom.size D.lam (n.level + 1) := scaleOf_pos D.dom.size D.lam hs0 _
  set μ := (X.map fun x => D.sizeUp δ x (x.level - k.level)).sum with hμ
  obtain ⟨C, hC, hP, hL, hV⟩ := hw n k c rfl hn hc hs M μ p1 ((multipoleSize_iff _ _ _ hl hscp _ _ _).2 (by
    intro j hj
    have := b1 j hj
    rw [hsc, hkl] at this
    exact this))
  rw [oneBox_eq hT0 D.dom D.lam hsz hl D.p n h21 k hn c hc M p1] at hC
  rw [Option.some.inj hC]
  refine ⟨C, X.map fun x => (x, Way.waves k (n.child c)), rfl, hP, fun y => ?_, fun y hy => ?_, fun j hj => ?_, fun t ht hr hin => ?_⟩
  · rw [List.map_map, ← c1 y]
    congr 1
    exact List.map_id _
  · obtain ⟨z, hz, rfl⟩ := List.mem_map.1 hy
    refine ⟨⟨a1 z hz, anc_self _, hkl, hs, ?_⟩, by simp [Way.land]⟩
    rw [show (n.child c).parent = n from Index.parent_child n c hc]
    exact hE
  · have e : ((X.map fun x => (x, Way.waves k (n.child c))).map (sizeAt D δ G (n.child c))).sum = G (n.level + 1) * μ := by
      rw [List.map_map, mul_comm]
      refine map_sum_mul _ _ _ _ fun y _ => ?_
      simp only [Function.comp, sizeAt, Way.land, Nat.sub_self, YukData.sizeDown, YukData.landSize, range_zero, prod_empty, mul_one]
      rw [hlv, mul_comm]
    rw [e]
    exact (localSize_iff _ _ _ hl hscp _ _ _).1 hL j hj
  · have hrk := hT t ht
    obtain ⟨v, hv, hve⟩ := hV t hin hr hrk
    have hv1 : v = lval D (n.child c) C t := by
      have := lToT_value D.table D.lam hl D.p _ (clear_of_regular hr) _ hscp C
      rw [Yukawa.lToT] at hv
      rw [show D.dom.centerFromIndex (n.child c) = D.center (n.child c) from rfl, this] at hv
      exact (Option.some.inj hv).symm
    have hm := multipoleValue_eq hsz hl k M t hrk
    rw [hsc] at hm
    rw [show D.dom.centerFromIndex k = D.center k from rfl, hm, hv1] at hve
    have hfar : D.radius k.level < (t.sub (D.center k)).norm := by
      have h1 := sep_point hsz (by rw [hlv, hkl]) hs hin
      have h2 : D.radius k.level = √3 / 2 * D.dom.sizeFromLevel k.level := rfl
      have h3 := sqrt3_hi
      have h4 : 0 < D.dom.sizeFromLevel k.level := by unfold Domain.sizeFromLevel; positivity
      rw [h2]
      exact lt_of_lt_of_le (by nlinarith) h1
    have hx := v1 t ht hfar
    have e2 : ((X.map fun x => (x, Way.waves k (n.child c))).map (D.fmmError δ ε G (n.child c) t)).sum =
        (X.map fun x => D.pathError δ x t (x.level - k.level)).sum + μ * ε (n.level + 1) := by
      rw [List.map_map]
      refine map_sum_add_mul _ _ _ _ _ fun y _ => ?_
      simp only [Function.comp, YukData.fmmError, YukData.downError, Nat.sub_self, range_zero, sum_empty, add_zero]
      rw [hlv, mul_comm]
    rw [e2, List.map_map]
    rw [show lval D (n.child c) C t - (X.map ((fun y : Index × Way => Yukawa.potential D.lam (D.srcs y.1) t) ∘ fun x => (x, Way.waves k (n.child c)))).sum =
      (val D.toYukData k M t - (X.map fun x => Yukawa.potential D.lam (D.srcs x) t).sum) + (lval D (n.child c) C t - val D.toYukData k M t) by
        simp only [Function.comp_def]; ring]
    refine (abs_add_le _ _).trans (add_le_add hx (hve.trans_eq (mul_comm _ _)))

theorem fmm_edge_rel (hA : FAcc D δ) {e : Edge} (he : FmmEdge D δ ε G T edges e) {x : YukFmmVal} {P : Prov} (hx : FGood D δ ε G T edges e.src x P) :
    FRel D δ ε G T edges e.dst (D.op e x) (contrib e P) := by
  have hπ : ∀ e : Edge, e.op ≠ .MtoI → e.op ≠ .ItoI → e.op ≠ .ItoL → contrib e P 0 = P 0 := by
    intro e h1 h2 h3
    funext y
    unfold contrib
    split <;> first | contradiction | simp
  have hA' := hA
  obtain ⟨⟨hsz, hδ0, hδ, hF⟩, hl, dg, hT0⟩ := hA'
  have hs0 := scale0_pos D.dom.size D.lam hsz hl
  have hsc : ∀ ix, 0 < D.scale ix := fun ix => scaleOf_pos D.dom.size D.lam hs0 ix.level
  cases he with
  | @StoM a h =>
    have := edge_rel (x := (x.1, x.2.2)) (P := P) hl h ⟨hx.1, fun _ => by simp only [Rel]⟩
    exact this
  | @MtoM a c h =>
    have hm : RelM D.toYukData δ T (a.child c) x.1 (P 0) := hx.2 (by simp)
    have := edge_rel (x := (x.1, x.2.2)) (P := P) hl h ⟨fun _ h => by simp at h, fun _ => hm⟩
    exact this
  | @StoT a b hE =>
    show FRelT D δ ε G edges b _ (contrib _ P 0)
    rw [hπ _ (by simp) (by simp) (by simp), hx.1 rfl rfl]
    refine ⟨[(a, .direct)], count_single a, fun y hy => ?_, fun i t ht => ?_⟩
    · rw [List.mem_singleton.1 hy]; exact hE
    · refine ⟨Yukawa.potential D.lam (D.srcs a) t, (toTargets_some D.toYukData ht).trans (C86_direct_exact D.lam hl _ t), ?_⟩
      simp [YukData.fmmError]
  | @MtoT a b hE ht =>
    obtain ⟨M, X, e1, p1, c1, a1, b1, v1⟩ : RelM D.toYukData δ T a x.1 (P 0) := hx.2 (by simp)
    show FRelT D δ ε G edges b _ (contrib _ P 0)
    rw [hπ _ (by simp) (by simp) (by simp)]
    refine ⟨X.map fun y => (y, .far a), fun y => ?_, fun y hy => ?_, fun i t hit => ?_⟩
    · rw [List.map_map, ← c1 y]
      congr 1
      exact List.map_id _
    · obtain ⟨z, hz, rfl⟩ := List.mem_map.1 hy
      exact ⟨a1 z hz, hE⟩
    · obtain ⟨h1, h2, h3, h4⟩ := ht t (List.mem_of_getElem? hit)
      obtain ⟨v, hv⟩ := h4 M
      refine ⟨v, ?_, ?_⟩
      · refine (toTargets_some D.toYukData hit).trans ?_
        show Option.bind x.1 _ = _
        rw [e1]
        exact hv
      · have e2 : v = val D.toYukData a M t := mToT_value D.lam hl D.p _ (clear_of_regular h2) _ (hsc a) M v hv
        rw [e2, List.map_map, List.map_map]
        exact v1 t h1 h3
  | @StoL a b hE hr hd hs =>
    show RelL D δ ε G T edges b _ (contrib _ P 0)
    rw [hπ _ (by simp) (by simp) (by simp), hx.1 rfl rfl]
    obtain ⟨L, hL⟩ := hs
    refine ⟨L, [(a, .near b)], hL, sToL_proper _ _ _ _ _ _ hL, count_single a, fun y hy => ?_, ?_, fun t ht hr' hin => ?_⟩
    · rw [List.mem_singleton.1 hy]; exact ⟨⟨anc_self b, hE⟩, by simp [Way.land]⟩
    · have := (localSize_iff _ _ _ hl (hsc b) _ _ _).1 (sToL_size D.lam hl D.p (D.scale b) (hsc b) (D.center b) _ (reach_pos hsz b.level) (D.srcs a) hd L hL)
      simpa [sizeAt, Way.land, YukData.sizeDown, YukData.landSize] using this
    · have hS : 0 < D.dom.sizeFromLevel b.level := by unfold Domain.sizeFromLevel; positivity
      have hn := inBox_norm hsz hin
      have h3 := sqrt3_hi
      have hlt : (t.sub (D.center b)).norm < D.reach b.level := lt_of_le_of_lt hn (by
        rw [YukData.reach]; nlinarith)
      obtain ⟨v, hv, hve⟩ := local_error D.table δ D.lam hl hδ0 hδ hF D.p (D.scale b) (hsc b) (D.center b) (D.srcs a) hr t hr'
        (fun q hq => hlt.trans_le (hd q hq)) L hL
      have hv1 : v = lval D b L t := by
        have := lToT_value D.table D.lam hl D.p _ (clear_of_regular hr') _ (hsc b) L
        rw [Yukawa.lToT, this] at hv
        exact (Option.some.inj hv).symm
      rw [← hv1]
      simpa [YukData.fmmError, YukData.downError] using hve
  | @LtoL a c h21 hT =>
    have hm : RelL D δ ε G T edges a x.1 (P 0) := hx.2 (by simp)
    show RelL D δ ε G T edges (a.child c) _ (contrib _ P 0)
    rw [hπ _ (by simp) (by simp) (by simp)]
    exact relL_down hA c h21 hT hm
  | @LtoT a ht =>
    obtain ⟨C, W, e1, p1, c1, a1, b1, v1⟩ : RelL D δ ε G T edges a x.1 (P 0) := hx.2 (by simp)
    show FRelT D δ ε G edges a _ (contrib _ P 0)
    rw [hπ _ (by simp) (by simp) (by simp)]
    refine ⟨W, c1, fun y hy => (a1 y hy).1, fun i t hit => ?_⟩
    obtain ⟨h1, h2, h3⟩ := ht t (List.mem_of_getElem? hit)
    refine ⟨lval D a C t, ?_, v1 t h1 h3 h2⟩
    refine (toTargets_some D.toYukData hit).trans ?_
    show Option.bind x.1 _ = _
    rw [e1]
    exact lToT_value D.table D.lam hl D.p _ (clear_of_regular h3) _ (hsc a) C
  | @MtoI a h21 =>
    have hm : RelM D.toYukData δ T a x.1 (P 0) := hx.2 (by simp)
    have hm' := hm
    obtain ⟨M, X, e1, -⟩ := hm'
    show RelS D δ T a (Option.bind x.1 _) (contrib _ P)
    rw [e1] at hm ⊢
    refine ⟨P 0, M, fun i hi => ?_, ?_, hm⟩
    · funext y; simp [contrib, hi]
    · show (Yukawa.mToI D.plane D.dom.size D.lam D.p (D.scale a) M).map ofArrays = _
      rw [show D.scale a = Yukawa.scaleOf D.dom.size D.lam a.level from rfl, mToI_lev D.plane D.dom.size D.lam hsz hl D.p a.level h21 M]
      rfl
  | @ItoI k n hE h21 hw hn hT =>
    obtain ⟨ρ, M, hρ, e1, hm⟩ : RelS D δ T k x.2.1 P := hx.2 (by simp)
    have hkl : k.level = n.level + 1 := hn.1
    obtain ⟨vs, h1, h2, h3⟩ := box_spec hT0 D.dom.size D.lam hsz hl D.p n.level h21 _ _ _ hn.2.1 hn.2.2.1 hn.2.2.2 M hm.proper
    show RelI D δ ε G T edges n (Option.bind x.2.1 _) (contrib _ P)
    refine ⟨ofMade vs, ?_, fun _ c hc => ?_⟩
    · rw [e1]
      show Option.bind (Yukawa.iToI D.plane D.dom.size D.lam (Yukawa.scaleOf D.dom.size D.lam k.level) _ _ _
        (arrays (yukLevel D.plane D.lam D.dom.size k.level).nexp (ofArrays (levViews D.plane D.dom.size D.lam D.p k.level M)))) _ = _
      rw [arrays_ofArrays _ (levViews_length hT0 D.dom.size D.lam D.p k.level M hm.proper), hkl, h1]
      show (if vs.all (fun q => q.2.length ≤ (yukLevel D.plane D.lam D.dom.size n.level).nexp) then some (ofMade vs) else none) = _
      rw [if_pos (List.all_eq_true.2 fun q hq => decide_eq_true (h2 q hq))]
      rfl
    · rw [taken_contrib hn.2.1 hn.2.2.1 hn.2.2.2 hρ hc, (h3 c hc).1]
      split_ifs with hf
      · exact relL_waves hA hE h21 hw hn hT hm hc ((farOct_separated hkl hc).1 hf)
      · rw [boxVal_none D.plane D.dom.size D.lam D.p n.level c _ _ _ hn.2.1 hn.2.2.1 hn.2.2.2 hc (by
          unfold farOct at hf
          rw [Bool.or_eq_true, Bool.or_eq_true, decide_eq_true_iff, decide_eq_true_iff, decide_eq_true_iff,
            not_or, not_or] at hf
          unfold octX octY octZ at hf
          refine ⟨?_, ?_, ?_⟩ <;> rw [abs_le] <;> omega) M]
        exact RelL.zero _
  | @ItoL a c h21 =>
    obtain ⟨E, e1, r1⟩ : RelI D δ ε G T edges a x.2.1 P := hx.2 (by simp)
    have e : contrib ⟨.ItoL, ⟨.tgt, a, .interm⟩, ⟨.tgt, a.child c, .normal⟩⟩ P 0 = taken c P := by
      funext y; simp [contrib, taken, toChild_child a c c.2]
    show RelL D δ ε G T edges (a.child c) (Option.bind x.2.1 _) (contrib _ P 0)
    rw [e, e1]
    have := r1 h21 c c.2
    rw [show ((iVal D.plane D.dom.size D.lam a.level c E : Coef) : WithTop Coef) = _ from
      ((iVal_spec hT0 D.dom.size D.lam hsz hl a.level h21 c c.2).1 E).symm] at this
    show RelL D δ ε G T edges (a.child c) (Yukawa.iToL D.plane D.dom.size D.lam (Yukawa.scaleOf D.dom.size D.lam a.level) (toChild (a.child c))
      (arrays (yukLevel D.plane D.lam D.dom.size a.level).nexp E)) _
    rw [toChild_child a c c.2]
    exact this

/-! ### The whole DAG -/

theorem fmm_dst_not_start {e : Edge} (h : FmmEdge D δ ε G T edges e) : ¬ (e.dst.side = .src ∧ e.dst.kind = .parts) := by
  cases h <;> simp

theorem fmm_eval_rel (hA : FAcc D δ)
    {acts : List Act} (hac : Acyclic (edgesOf acts)) (hed : ∀ e ∈ edgesOf acts, FmmEdge D δ ε G T edges e)
    {N : Ref → YukFmmVal} (hN : ∀ r, N r = (yukFmmDag D acts).base r + (yukFmmDag D acts).incoming N r)
    {P : Ref → Prov} (hP : IsEvaluation acts P) (r : Ref) :
    FRel D δ ε G T edges r ((yukFmmDag D acts).incoming N r) (inflow P (edgesOf acts) r) := by
  obtain ⟨rank, hrank⟩ := hac
  induction hk : rank r using Nat.strong_induction_on generalizing r with
  | _ k ih =>
    rw [inflow_eq]
    show FRel D δ ε G T edges r (((edgesOf acts).filter fun e => e.dst = r).map fun e => D.op e (N e.src)).sum _
    refine FRel.sum hA _ fun e he => ?_
    obtain ⟨he, hd⟩ := List.mem_filter.1 he
    have hd : e.dst = r := by simpa using hd
    have hlt := hrank e he
    rw [hd, hk] at hlt
    have hrec := ih _ hlt e.src rfl
    rw [← hd]
    refine fmm_edge_rel hA (hed e he) ?_
    have hPe : P e.src = base e.src + inflow P (edgesOf acts) e.src := funext fun i => funext fun y => hP e.src i y
    refine ⟨fun h1 h2 => ?_, fun h => ?_⟩
    · have hnone : (edgesOf acts).filter (fun e' => e'.dst = e.src) = [] := by
        refine List.filter_eq_nil_iff.2 fun e' he' => ?_
        have := fmm_dst_not_start (hed e' he')
        intro hd'
        rw [show e'.dst = e.src by simpa using hd'] at this
        exact this ⟨h1, h2⟩
      rw [hPe, inflow_eq, hnone]
      funext y
      simp [base, h1, h2]
    · have hb : base e.src = 0 ∨ (e.src.side = .src ∧ e.src.kind = .parts) := by
        by_cases h3 : e.src.side = .src ∧ e.src.kind = .parts
        · exact .inr h3
        · left; funext i y
          simp only [base, Pi.zero_apply]
          rw [if_neg]
          rintro ⟨h4, h5, -⟩; exact h3 ⟨h4, h5⟩
      rcases hb with hb | ⟨h3, h4⟩
      · rw [hPe, hb, zero_add, hN e.src]
        have : (yukFmmDag D acts).base e.src = 0 := by
          have h0 : D.toYukData.base e.src = 0 := if_neg h
          show ((D.toYukData.base e.src).1, (0 : WithTop WaveViews), (D.toYukData.base e.src).2) = 0
          rw [h0]; rfl
        rw [this, zero_add]
        exact hrec
      · unfold FRel; rw [h3, h4]; trivial

/-- What the targets of a node hold in the end. -/
theorem fmm_eval_targets {s : Fin 8 → Oct} {L : List Index} (hL : L = leaves Index.root (.node s)) (hn : L.Nodup)
    (hA : FAcc D δ)
    {acts : List Act} (hac : Acyclic (edgesOf acts)) (hed : ∀ e ∈ edgesOf acts, FmmEdge D δ ε G T edges e)
    {N : Ref → YukFmmVal} (hN : ∀ r, N r = (yukFmmDag D acts).base r + (yukFmmDag D acts).incoming N r)
    {P : Ref → Prov} (hP : IsEvaluation acts P) {r : Ref} (h1 : r.side = .tgt) (h2 : r.kind = .parts)
    (hall : ∀ x, P r 0 x = if x ∈ L then 1 else 0) :
    ∃ W : List (Index × Way), (W.map Prod.fst).Perm L ∧ (∀ y ∈ W, Way.Ok edges r.ix y.1 y.2) ∧
      ∀ i t, (D.tgts r.ix)[i]? = some t →
        ∃ v : ℝ, (N r).2.2 i = (v : WithTop ℝ) ∧
          |v - D.phi r.ix i - Yukawa.potential D.lam (D.all s) t| ≤ (W.map (D.fmmError δ ε G r.ix t)).sum := by
  have h := fmm_eval_rel hA hac hed hN hP r
  have hb : base r = 0 := by funext i y; simp [base, h1]
  have hPe : P r = inflow P (edgesOf acts) r := by
    funext i y
    rw [hP r i y, hb]; simp
  rw [← hPe] at h
  unfold FRel at h
  rw [h1, h2] at h
  obtain ⟨W, c1, a1, v1⟩ := h
  have hperm : (W.map Prod.fst).Perm L := by
    rw [List.perm_iff_count]
    intro x
    rw [c1, hall, hn.count]
  refine ⟨W, hperm, a1, fun i t ht => ?_⟩
  obtain ⟨v, hv, hv'⟩ := v1 i t ht
  have hg : (W.map fun y => Yukawa.potential D.lam (D.srcs y.1) t).sum = Yukawa.potential D.lam (D.all s) t := by
    rw [YukData.all, ← hL, potential_flatMap, ← (hperm.map fun x => Yukawa.potential D.lam (D.srcs x) t).sum_eq, List.map_map]; rfl
  rw [hg] at hv'
  refine ⟨D.phi r.ix i + v, ?_, by rwa [show D.phi r.ix i + v - D.phi r.ix i = v by ring]⟩
  have hbase : D.toYukData.base r = (0, fun i => ((D.phi r.ix i : ℝ) : WithTop ℝ)) := if_pos ⟨h1, h2⟩
  have hbase' : (yukFmmDag D acts).base r = (0, 0, fun i => ((D.phi r.ix i : ℝ) : WithTop ℝ)) := by
    show ((D.toYukData.base r).1, (0 : WithTop WaveViews), (D.toYukData.base r).2) = _
    rw [hbase]
  rw [hN r, hbase', Prod.snd_add, Prod.snd_add, Pi.add_apply, hv, WithTop.coe_add]

end
end Dashmm.Yuk
