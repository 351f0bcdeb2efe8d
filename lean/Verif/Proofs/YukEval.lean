import Verif.Props.YukShift
import Verif.Proofs.LapEval
import Verif.Proofs.Order
import Verif.Spec.YukExec

/-!
The numbers an evaluation with the Yukawa kernel computes, node by node.
-/

namespace Dashmm.Yuk

open Finset Harm Lap Bessel Wave

noncomputable section

/-! ### Fields -/

theorem conv_add (M N : Coef) : conv (M + N) = conv M + conv N := by
  funext n m; simp only [conv, Pi.add_apply]; ring

theorem hat_add (a : ℕ → ℝ) (M N : Coef) : hat a (M + N) = hat a M + hat a N := by
  funext n m; simp only [hat, conv_add, Pi.add_apply]; ring

theorem hat_zero (a : ℕ → ℝ) : hat a 0 = 0 := by
  funext n m; simp [hat, conv]

theorem fieldM_add (κ : ℂ) (p : ℕ) (C C' : Coef) (v : Point ℝ) : fieldM κ p (C + C') v = fieldM κ p C v + fieldM κ p C' v := by
  simp only [fieldM, form_add, mul_add, sum_add_distrib]

theorem fieldM_zero (κ : ℂ) (p : ℕ) (v : Point ℝ) : fieldM κ p 0 v = 0 := by
  have := fieldM_add κ p 0 0 v
  rw [add_zero] at this
  simpa using this

theorem evalAt_field (lam : ℝ) (hl : 0 < lam) (p : ℕ) (v : Point ℝ) (hv : Clear v) (scale : ℝ) (hs : 0 < scale) (M : Coef) (B : ℕ → ℝ)
    (hB : ∀ n, B n = scale ^ n * sphK n (lam * v.norm)) :
    Yukawa.evalAt p M (azi v) (ctheta v) B = Real.pi / (2 * lam) * (fieldM lam p (hat (am lam scale) M) v).re := by
  have hv0 : 0 < v.norm := lt_of_le_of_ne (norm_nonneg' v) hv.ne.symm
  rw [evalAt_clear p M v hv, ← Complex.re_ofReal_mul, fieldM, mul_sum]
  congr 1
  refine sum_congr rfl fun n _ => ?_
  rw [form_hat, ffun_real, ← mul_assoc, ← mul_assoc, ← Complex.ofReal_mul, ← Complex.ofReal_mul, hB, sphK_theta n _ (by positivity), am]
  congr 2
  have h3 : v.norm ^ (2 * n + 1) = v.norm ^ n * v.norm ^ n * v.norm := by rw [pow_succ, two_mul, pow_add]
  rw [h3, mul_pow, div_pow, pow_succ, pow_succ]
  field_simp

theorem sToM_some (F : Table) (lam : ℝ) (p : ℕ) (scale : ℝ) (c : Point ℝ) (srcs : List Src) (hc : AllRegular c srcs) :
    ∃ M, Yukawa.sToM F lam p c scale srcs = some M := by
  induction srcs with
  | nil => exact ⟨_, rfl⟩
  | cons s l ih =>
    obtain ⟨R, hR⟩ := ih fun x hx => hc x (List.mem_cons_of_mem _ hx)
    rw [Yukawa.sToM] at hR
    have hn := (clear_of_regular (hc s List.mem_cons_self)).ne
    exact ⟨_, by rw [Yukawa.sToM, Lap.sumSources, hR, Yukawa.sToM1, ephiNeg_eq _ hn]; rfl⟩

/-! ### What the nodes hold -/

variable (D : YukData) (δ : ℝ) (T : Point ℝ → Prop) (E : Index → Index → Prop)

/-- The value of a multipole expansion. -/
def val (ix : Index) (M : Coef) (t : Point ℝ) : ℝ :=
  Real.pi / (2 * D.lam) * (fieldM D.lam D.p (hat (am D.lam (D.scale ix)) M) (t.sub (D.center ix))).re

/-- What a multipole node holds. -/
def RelM (ix : Index) (v : WithTop Coef) (π : Index → ℕ) : Prop :=
  ∃ (M : Coef) (X : List Index), v = (M : WithTop Coef) ∧ Proper M ∧ (∀ x, X.count x = π x) ∧ (∀ x ∈ X, Ancestor ix x) ∧
    (∀ n ≤ D.p, Bd (hat (am D.lam (D.scale ix)) M) n
      ((X.map fun x => D.sizeUp δ x (x.level - ix.level)).sum * D.radius ix.level ^ n)) ∧
    ∀ t, T t → D.radius ix.level < (t.sub (D.center ix)).norm →
      |val D ix M t - (X.map fun x => Yukawa.potential D.lam (D.srcs x) t).sum| ≤
        (X.map fun x => D.pathError δ x t (x.level - ix.level)).sum

/-- What has been added to targets. -/
def RelT (ix : Index) (w : ℕ → WithTop ℝ) (π : Index → ℕ) : Prop :=
  ∃ W : List (Index × Option Index), (∀ x, (W.map Prod.fst).count x = π x) ∧ (∀ y ∈ W, ∀ a, y.2 = some a → E a ix ∧ Ancestor a y.1) ∧
    ∀ i t, (D.tgts ix)[i]? = some t → ∃ v : ℝ, w i = (v : WithTop ℝ) ∧
      |v - (W.map fun y => Yukawa.potential D.lam (D.srcs y.1) t).sum| ≤ (W.map (D.wayError δ t)).sum

/-- What has been added to a node. -/
def Rel (r : Ref) (x : YukVal) (π : Prov) : Prop :=
  match r.side, r.kind with
  | .src, .normal => RelM D δ T r.ix x.1 (π 0)
  | .tgt, .parts => RelT D δ E r.ix x.2 (π 0)
  | _, _ => True

variable {D δ T E}

theorem abs_add_two {a b x y P Q : ℝ} (h1 : |a - x| ≤ P) (h2 : |b - y| ≤ Q) : |a + b - (x + y)| ≤ P + Q := by
  rw [show a + b - (x + y) = (a - x) + (b - y) by ring]
  exact (abs_add_le _ _).trans (add_le_add h1 h2)

theorem Rel.zero (r : Ref) : Rel D δ T E r 0 0 := by
  rcases r with ⟨_ | _, ix, _ | _ | _⟩ <;> simp only [Rel]
  · refine ⟨0, [], rfl, fun _ => rfl, fun _ => rfl, fun x hx => by simp at hx, fun n _ => ?_, fun t _ _ => ?_⟩
    · rw [hat_zero]; simpa using Bd_zero n
    · simp [val, hat_zero, fieldM_zero]
  · exact ⟨[], fun _ => rfl, fun y hy => by simp at hy, fun i t _ => ⟨0, rfl, by simp⟩⟩

theorem Rel.add {r : Ref} {x y : YukVal} {π π' : Prov} (h1 : Rel D δ T E r x π) (h2 : Rel D δ T E r y π') :
    Rel D δ T E r (x + y) (π + π') := by
  rcases r with ⟨_ | _, ix, _ | _ | _⟩ <;> simp only [Rel] at h1 h2 ⊢
  · obtain ⟨M, X, e1, p1, c1, a1, b1, v1⟩ := h1
    obtain ⟨N, Y, e2, p2, c2, a2, b2, v2⟩ := h2
    refine ⟨M + N, X ++ Y, ?_, fun n => ?_, fun z => ?_, fun z hz => ?_, fun n hn => ?_, fun t ht hr => ?_⟩
    · rw [Prod.fst_add, e1, e2, WithTop.coe_add]
    · rw [Pi.add_apply, Pi.add_apply, Complex.add_im, p1 n, p2 n, add_zero]
    · rw [List.count_append, c1, c2]; rfl
    · rcases List.mem_append.1 hz with hz | hz
      · exact a1 z hz
      · exact a2 z hz
    · rw [hat_add, List.map_append, List.sum_append, add_mul]
      exact (b1 n hn).add (b2 n hn)
    · have e : val D ix (M + N) t = val D ix M t + val D ix N t := by
        rw [val, val, val, hat_add, fieldM_add, Complex.add_re, mul_add]
      rw [e, List.map_append, List.sum_append, List.map_append, List.sum_append]
      exact abs_add_two (v1 t ht hr) (v2 t ht hr)
  · obtain ⟨W, c1, a1, v1⟩ := h1
    obtain ⟨W', c2, a2, v2⟩ := h2
    refine ⟨W ++ W', fun z => ?_, fun z hz => ?_, fun i t ht => ?_⟩
    · rw [List.map_append, List.count_append, c1, c2]; rfl
    · rcases List.mem_append.1 hz with hz | hz
      · exact a1 z hz
      · exact a2 z hz
    · obtain ⟨v, hv, ev⟩ := v1 i t ht
      obtain ⟨u, hu, eu⟩ := v2 i t ht
      refine ⟨v + u, ?_, ?_⟩
      · rw [Prod.snd_add, Pi.add_apply, hv, hu, WithTop.coe_add]
      · rw [List.map_append, List.sum_append, List.map_append, List.sum_append]
        exact abs_add_two ev eu

theorem Rel.sum {α : Type} {r : Ref} {f : α → YukVal} {g : α → Prov} : ∀ l : List α,
    (∀ e ∈ l, Rel D δ T E r (f e) (g e)) → Rel D δ T E r (l.map f).sum (l.map g).sum
  | [], _ => Rel.zero r
  | e :: l, h => by
    rw [List.map_cons, List.sum_cons, List.map_cons, List.sum_cons]
    exact (h e List.mem_cons_self).add (Rel.sum l fun e he => h e (List.mem_cons_of_mem _ he))

/-! ### The edges -/

variable (D δ) in
/-- The domain has a size and the table is accurate. -/
structure Acc : Prop where
  size : 0 < D.dom.size
  lo : 10⁻¹ ^ 17 ≤ δ
  hi : δ ≤ 1 / 2
  table : AccurateI D.table δ

variable (D δ T E) in
/-- The edges of Barnes-Hut and of the direct method; targets are within the range of the functions `k_n`. -/
inductive YukEdge : Edge → Prop
  | StoM {a : Index} (hA : Acc D δ) (hin : ∀ q ∈ D.srcs a, InCube D.dom a q.pos) (hr : AllRegular (D.center a) (D.srcs a))
      (hT : ∀ t, T t → Regular (t.sub (D.center a))) :
      YukEdge ⟨.StoM, ⟨.src, a, .parts⟩, ⟨.src, a, .normal⟩⟩
  | StoT {a b : Index} : YukEdge ⟨.StoT, ⟨.src, a, .parts⟩, ⟨.tgt, b, .parts⟩⟩
  | MtoM {a : Index} (hA : Acc D δ) (c : Fin 8) (hl : a.level + 1 ≤ 21) : YukEdge ⟨.MtoM, ⟨.src, a.child c, .normal⟩, ⟨.src, a, .normal⟩⟩
  | MtoT {a b : Index} (hsz : 0 < D.dom.size) (hE : E a b) (ht : ∀ t ∈ D.tgts b, T t ∧ Regular (t.sub (D.center a)) ∧ D.radius a.level < (t.sub (D.center a)).norm ∧
      ∀ M, ∃ v, Yukawa.mToT D.lam D.p (D.center a) (D.scale a) M t = some v) :
      YukEdge ⟨.MtoT, ⟨.src, a, .normal⟩, ⟨.tgt, b, .parts⟩⟩

/-- What a node holds, for a source leaf included. -/
def Good (D : YukData) (δ : ℝ) (T : Point ℝ → Prop) (E : Index → Index → Prop) (r : Ref) (x : YukVal) (π : Prov) : Prop :=
  (r.side = .src → r.kind = .parts → π 0 = fun y => if y = r.ix then 1 else 0) ∧
  (¬ (r.side = .tgt ∧ r.kind = .parts) → Rel D δ T E r x π)

theorem toTargets_some (D : YukData) {ix : Index} {f : Point ℝ → WithTop ℝ} {i : ℕ} {t : Point ℝ} (h : (D.tgts ix)[i]? = some t) :
    D.toTargets ix f i = f t := by
  simp only [YukData.toTargets, h]

theorem count_single (a y : Index) : [a].count y = if y = a then 1 else 0 := by
  rw [List.count_cons, List.count_nil, zero_add]
  by_cases h : y = a
  · subst h; simp
  · rw [if_neg h, if_neg]; simpa using fun e => h e.symm

theorem radius_pos (hsz : 0 < D.dom.size) (lev : ℕ) : 0 < D.radius lev := by unfold YukData.radius; positivity

theorem radius_double (D : YukData) (lev : ℕ) : D.radius lev = D.radius (lev + 1) + D.radius (lev + 1) := by
  unfold YukData.radius; rw [pow_succ]; field_simp; ring

theorem anc_child {a x : Index} {c : ℕ} (hc : c < 8) (h : Ancestor (a.child c) x) :
    Ancestor a x ∧ x.level - a.level = x.level - (a.child c).level + 1 := by
  obtain ⟨h1, h2⟩ := h
  have hl : (a.child c).level = a.level + 1 := rfl
  rw [hl] at h1 h2 ⊢
  have e : x.level - a.level = x.level - (a.level + 1) + 1 := by omega
  refine ⟨⟨by omega, ?_⟩, e⟩
  rw [e, Index.parent_add, h2, Index.parent_child a c hc]

theorem edge_rel (hl : 0 < D.lam)
    {e : Edge} (he : YukEdge D δ T E e) {x : YukVal} {P : Prov} (hx : Good D δ T E e.src x P) :
    Rel D δ T E e.dst (D.op e x) (contrib e P) := by
  have hπ : ∀ e : Edge, e.op ≠ .MtoI → e.op ≠ .ItoI → e.op ≠ .ItoL → contrib e P 0 = P 0 := by
    intro e h1 h2 h3
    funext y
    unfold contrib
    split <;> first | contradiction | simp
  have hs0 : 0 < D.dom.size → 0 < Yukawa.scale0 D.dom.size D.lam := fun hsz => by
    unfold Yukawa.scale0; split <;> positivity
  have hsc : 0 < D.dom.size → ∀ ix, 0 < D.scale ix := fun hsz ix => by have := hs0 hsz; unfold YukData.scale Yukawa.scaleOf; positivity
  cases he with
  | @StoM a hA hin hr hT =>
    obtain ⟨hsz, hδ0, hδ, hF⟩ := hA
    have hs0 := hs0 hsz
    have hsc := hsc hsz
    show RelM D δ T a _ (contrib _ P 0)
    rw [hπ _ (by simp) (by simp) (by simp), hx.1 rfl rfl]
    obtain ⟨M, hM⟩ := sToM_some D.table D.lam D.p (D.scale a) (D.center a) (D.srcs a) hr
    have hin : ∀ q ∈ D.srcs a, (q.pos.sub (D.center a)).norm ≤ D.radius a.level := fun q hq =>
      inBox_norm hsz (hin q hq)
    refine ⟨M, [a], hM, sToM_proper _ _ _ _ _ _ _ hM, count_single a, ?_, ?_, ?_⟩
    · intro y hy
      rw [List.mem_singleton.1 hy]
      exact ⟨le_rfl, by rw [Nat.sub_self, Index.parent_zero]⟩
    · have := (multipoleSize_iff _ _ _ hl (hsc a) _ _ _).1
        (sToM_size D.table δ hδ0 hδ hF D.lam hl D.p (D.scale a) (hsc a) (D.center a) _ (radius_pos hsz a.level) (D.srcs a) hin M hM)
      simpa [YukData.sizeUp] using this
    · intro t ht hr'
      have hreg := hT t ht
      have key := multipole_error_at D.table δ D.lam hl hδ0 hδ hF D.p (D.scale a) (hsc a) (D.center a) (D.srcs a) hr t hreg
        (fun q hq => (hin q hq).trans_lt hr') M hM _ (fun _ => rfl)
      rw [evalAt_field D.lam hl D.p _ (clear_of_regular hreg) _ (hsc a) M _ (fun _ => rfl)] at key
      simpa [YukData.pathError, val] using key
  | @StoT a b =>
    show RelT D δ E b _ (contrib _ P 0)
    rw [hπ _ (by simp) (by simp) (by simp), hx.1 rfl rfl]
    refine ⟨[(a, none)], count_single a, fun y hy => ?_, fun i t ht => ?_⟩
    · rw [List.mem_singleton.1 hy]; intro a h; cases h
    · refine ⟨Yukawa.potential D.lam (D.srcs a) t, (toTargets_some D ht).trans (C86_direct_exact D.lam hl _ t), ?_⟩
      simp [YukData.wayError]
  | @MtoM a hA c h21 =>
    obtain ⟨hsz, hδ0, hδ, hF⟩ := hA
    have hs0 := hs0 hsz
    have hsc := hsc hsz
    obtain ⟨M, X, e1, p1, c1, a1, b1, v1⟩ : RelM D δ T (a.child c) x.1 (P 0) := hx.2 (by simp)
    show RelM D δ T a _ (contrib _ P 0)
    rw [hπ _ (by simp) (by simp) (by simp)]
    have hlv : (a.child c).level = a.level + 1 := rfl
    have e2 : 2 * D.scale (a.child c) = D.scale a := by
      simp only [YukData.scale, Yukawa.scaleOf, hlv, pow_succ]; field_simp
    have hanc : ∀ y ∈ X, Ancestor a y ∧ y.level - a.level = y.level - (a.child c).level + 1 := fun y hy => anc_child c.2 (a1 y hy)
    have hlev : ∀ y ∈ X, y.level - (y.level - (a.child c).level) = a.level + 1 := fun y hy => by
      have := (a1 y hy).1; omega
    refine ⟨tr D.p (Yukawa.m2m D.table D.dom.size D.lam D.p (a.level + 1)) (tabAlpha c * (Real.pi / 4)) (childCos c) M, X, ?_,
      mToM_proper D.table D.dom.size D.lam hl hs0 D.p _ _ _ M p1, c1, fun y hy => (hanc y hy).1, ?_, ?_⟩
    · show Option.bind x.1 (Yukawa.mToM D.table D.dom.size D.lam D.p (a.child c).whichChild (D.scale (a.child c))) = _
      rw [e1, Index.whichChild_child a c c.2]
      exact yuk_mToM_eq D.table D.dom.size D.lam hs0 D.p (a.level + 1) c h21 M
    · intro n hn
      have key := mToM_bd D.table δ hδ0 hδ hF D.dom.size D.lam hsz hl hs0 D.p (a.level + 1) (tabAlpha c * (Real.pi / 4)) (childCos c) M p1
        _ _ (radius_pos hsz (a.level + 1)).le b1 _ rfl n hn
      have e3 : 2 * Yukawa.scaleOf D.dom.size D.lam (a.level + 1) = D.scale a := e2
      have e4 : (X.map fun y => D.sizeUp δ y (y.level - a.level)).sum =
          (X.map fun y => D.sizeUp δ y (y.level - (a.child c).level)).sum *
            Yukawa.mToMGrowth D.p D.lam δ (D.radius (a.level + 1)) (D.radius (a.level + 1)) := by
        rw [← List.sum_map_mul_right]
        congr 1
        refine List.map_congr_left fun y hy => ?_
        rw [(hanc y hy).2, YukData.sizeUp, prod_range_succ, ← mul_assoc, hlev y hy]; rfl
      rw [e3] at key
      rw [e4, radius_double D a.level]
      exact key
    · intro t ht hr
      have hc : (D.radius (a.level + 1) : ℝ) = ((D.center (a.child c)).sub (D.center a)).norm := C98_shift_distance D.dom hsz a c
      have hr' : D.radius (a.child c).level < (t.sub (D.center (a.child c))).norm := by
        have h1 := sub_norm_le t (D.center (a.child c)) (D.center a)
        rw [← hc] at h1
        rw [radius_double] at hr
        rw [hlv]; linarith
      have hv := v1 t ht hr'
      have key := mToM_error D.table δ hδ0 hδ hF D.dom.size D.lam hsz hl hs0 D.p (a.level + 1) c c.2 M p1
        _ _ (radius_pos hsz (a.level + 1)).le b1 _ rfl (t.sub (D.center a)) (by rw [radius_double] at hr; exact hr)
      have e3 : 2 * Yukawa.scaleOf D.dom.size D.lam (a.level + 1) = D.scale a := e2
      have e5 : padd (t.sub (D.center a)) (psmul (-(D.dom.size / 2 ^ (a.level + 1))) (off c)) = t.sub (D.center (a.child c)) := by
        simp only [YukData.center]
        rw [child_at D.dom hsz a c c.2]
        simp only [padd, psmul, Point.sub]
        congr 1 <;> ring
      rw [e5, e3] at key
      have hpi : 0 < Real.pi / (2 * D.lam) := by have := Real.pi_pos; positivity
      set N := tr D.p (Yukawa.m2m D.table D.dom.size D.lam D.p (a.level + 1)) (tabAlpha c * (Real.pi / 4)) (childCos c) M with hN
      have hd : |val D a N t - val D (a.child c) M t| ≤
          (X.map fun y => D.sizeUp δ y (y.level - (a.child c).level)).sum *
            Yukawa.mToMBound D.p D.lam δ (D.radius (a.level + 1)) (D.radius (a.level + 1)) (t.sub (D.center a)).norm := by
        rw [val, val, ← mul_sub, ← Complex.sub_re, abs_mul, abs_of_pos hpi]
        refine (mul_le_mul_of_nonneg_left ((Complex.abs_re_le_norm _).trans key) hpi.le).trans_eq ?_
        rw [Yukawa.mToMBound, Yukawa.shiftError, tabErr_eq, YukData.radius]; ring
      have e4 : (X.map fun y => D.pathError δ y t (y.level - a.level)).sum =
          (X.map fun y => D.pathError δ y t (y.level - (a.child c).level)).sum +
          (X.map fun y => D.sizeUp δ y (y.level - (a.child c).level)).sum *
            Yukawa.mToMBound D.p D.lam δ (D.radius (a.level + 1)) (D.radius (a.level + 1)) (t.sub (D.center a)).norm := by
        rw [← List.sum_map_mul_right, ← List.sum_map_add]
        congr 1
        refine List.map_congr_left fun y hy => ?_
        have hp := (hanc y hy).1.2
        rw [(hanc y hy).2] at hp ⊢
        rw [YukData.pathError, sum_range_succ, ← add_assoc, hlev y hy, hp]; rfl
      rw [e4]
      have : val D a N t - (X.map fun y => Yukawa.potential D.lam (D.srcs y) t).sum =
        (val D (a.child c) M t - (X.map fun y => Yukawa.potential D.lam (D.srcs y) t).sum) + (val D a N t - val D (a.child c) M t) := by ring
      rw [this]
      exact (abs_add_le _ _).trans (add_le_add hv hd)
  | @MtoT a b hsz hE ht =>
    have hsc := hsc hsz
    obtain ⟨M, X, e1, p1, c1, a1, b1, v1⟩ : RelM D δ T a x.1 (P 0) := hx.2 (by simp)
    show RelT D δ E b _ (contrib _ P 0)
    rw [hπ _ (by simp) (by simp) (by simp)]
    refine ⟨X.map fun y => (y, some a), fun y => ?_, fun y hy a' ha' => ?_, fun i t hit => ?_⟩
    · rw [List.map_map, ← c1 y]
      congr 1
      exact List.map_id _
    · obtain ⟨z, hz, rfl⟩ := List.mem_map.1 hy
      cases ha'
      exact ⟨hE, a1 z hz⟩
    · obtain ⟨h1, h2, h3, h4⟩ := ht t (List.mem_of_getElem? hit)
      obtain ⟨v, hv⟩ := h4 M
      refine ⟨v, ?_, ?_⟩
      · refine (toTargets_some D hit).trans ?_
        show Option.bind x.1 _ = _
        rw [e1]
        exact hv
      · have e2 : v = val D a M t := mToT_value D.lam hl D.p _ (clear_of_regular h2) _ (hsc a) M v hv
        rw [e2, List.map_map, List.map_map]
        exact v1 t h1 h3

/-! ### The whole DAG -/

theorem dst_not_start {e : Edge} (h : YukEdge D δ T E e) : ¬ (e.dst.side = .src ∧ e.dst.kind = .parts) := by
  cases h <;> simp

theorem eval_rel (hl : 0 < D.lam)
    {acts : List Act} (hac : Acyclic (edgesOf acts)) (hed : ∀ e ∈ edgesOf acts, YukEdge D δ T E e)
    {N : Ref → YukVal} (hN : ∀ r, N r = (yukDag D acts).base r + (yukDag D acts).incoming N r)
    {P : Ref → Prov} (hP : IsEvaluation acts P) (r : Ref) :
    Rel D δ T E r ((yukDag D acts).incoming N r) (inflow P (edgesOf acts) r) := by
  obtain ⟨rank, hrank⟩ := hac
  induction hk : rank r using Nat.strong_induction_on generalizing r with
  | _ k ih =>
    rw [inflow_eq]
    show Rel D δ T E r (((edgesOf acts).filter fun e => e.dst = r).map fun e => D.op e (N e.src)).sum _
    refine Rel.sum _ fun e he => ?_
    obtain ⟨he, hd⟩ := List.mem_filter.1 he
    have hd : e.dst = r := by simpa using hd
    have hlt := hrank e he
    rw [hd, hk] at hlt
    have hrec := ih _ hlt e.src rfl
    rw [← hd]
    refine edge_rel hl (hed e he) ?_
    have hPe : P e.src = base e.src + inflow P (edgesOf acts) e.src := funext fun i => funext fun y => hP e.src i y
    refine ⟨fun h1 h2 => ?_, fun h => ?_⟩
    · have hnone : (edgesOf acts).filter (fun e' => e'.dst = e.src) = [] := by
        refine List.filter_eq_nil_iff.2 fun e' he' => ?_
        have := dst_not_start (hed e' he')
        intro hd'
        rw [show e'.dst = e.src by simpa using hd'] at this
        exact this ⟨h1, h2⟩
      rw [hPe, inflow_eq, hnone]
      funext y
      simp [base, h1, h2]
    · have hb : base e.src = 0 ∨ (e.src.side = .src ∧ e.src.kind = .parts) := by
        by_cases h3 : e.src.side = .src ∧ e.src.kind = .parts
        · exact .inr h3
        · left; funext i y
          simp only [base, Pi.zero_apply]
          rw [if_neg]
          rintro ⟨h4, h5, -⟩; exact h3 ⟨h4, h5⟩
      rcases hb with hb | ⟨h3, h4⟩
      · rw [hPe, hb, zero_add, hN e.src]
        have : (yukDag D acts).base e.src = 0 := if_neg h
        rw [this, zero_add]
        exact hrec
      · unfold Rel; rw [h3, h4]; trivial

theorem potential_flatMap (lam : ℝ) (t : Point ℝ) (f : Index → List Src) : ∀ X : List Index,
    Yukawa.potential lam (X.flatMap f) t = (X.map fun x => Yukawa.potential lam (f x) t).sum
  | [] => rfl
  | x :: X => by
    have ih := potential_flatMap lam t f X
    rw [List.flatMap_cons, List.map_cons, List.sum_cons, ← ih]
    simp [Yukawa.potential]

/-- What the targets of a node hold in the end. -/
theorem eval_targets {s : Fin 8 → Oct} {L : List Index} (hL : L = leaves Index.root (.node s)) (hn : L.Nodup)
    (hl : 0 < D.lam)
    {acts : List Act} (hac : Acyclic (edgesOf acts)) (hed : ∀ e ∈ edgesOf acts, YukEdge D δ T E e)
    {N : Ref → YukVal} (hN : ∀ r, N r = (yukDag D acts).base r + (yukDag D acts).incoming N r)
    {P : Ref → Prov} (hP : IsEvaluation acts P) {r : Ref} (h1 : r.side = .tgt) (h2 : r.kind = .parts)
    (hall : ∀ x, P r 0 x = if x ∈ L then 1 else 0) :
    ∃ W : List (Index × Option Index), (W.map Prod.fst).Perm L ∧ (∀ y ∈ W, ∀ a, y.2 = some a → E a r.ix ∧ Ancestor a y.1) ∧
      ∀ i t, (D.tgts r.ix)[i]? = some t →
        ∃ v : ℝ, (N r).2 i = (v : WithTop ℝ) ∧ |v - D.phi r.ix i - Yukawa.potential D.lam (D.all s) t| ≤ (W.map (D.wayError δ t)).sum := by
  have h := eval_rel hl hac hed hN hP r
  have hb : base r = 0 := by funext i y; simp [base, h1]
  have hPe : P r = inflow P (edgesOf acts) r := by
    funext i y
    rw [hP r i y, hb]; simp
  rw [← hPe] at h
  unfold Rel at h
  rw [h1, h2] at h
  obtain ⟨W, c1, a1, v1⟩ := h
  have hperm : (W.map Prod.fst).Perm L := by
    rw [List.perm_iff_count]
    intro x
    rw [c1, hall, hn.count]
  refine ⟨W, hperm, a1, fun i t ht => ?_⟩
  obtain ⟨v, hv, hv'⟩ := v1 i t ht
  have hg : (W.map fun y => Yukawa.potential D.lam (D.srcs y.1) t).sum = Yukawa.potential D.lam (D.all s) t := by
    rw [YukData.all, ← hL, potential_flatMap, ← (hperm.map fun x => Yukawa.potential D.lam (D.srcs x) t).sum_eq, List.map_map]; rfl
  rw [hg] at hv'
  refine ⟨D.phi r.ix i + v, ?_, by rwa [show D.phi r.ix i + v - D.phi r.ix i = v by ring]⟩
  have hbase : (yukDag D acts).base r = (0, fun i => ((D.phi r.ix i : ℝ) : WithTop ℝ)) := if_pos ⟨h1, h2⟩
  rw [hN r, hbase, Prod.snd_add, Pi.add_apply, hv, WithTop.coe_add]

end
end Dashmm.Yuk
