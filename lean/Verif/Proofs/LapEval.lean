import Verif.Proofs.LapSep
import Verif.Proofs.PlaneErr
import Verif.Proofs.Inputs
import Verif.Spec.Exec

/-!
The numbers an evaluation computes, node by node, against the sources that reach the node.
-/

namespace Dashmm.Harm

open Lap

noncomputable section

theorem rep_perm (s : ℝ) (c : Point ℝ) {l l' : List Src} (h : l.Perm l') : rep s c l = rep s c l' := (h.map _).sum_eq

theorem potential_perm (t : Point ℝ) {l l' : List Src} (h : l.Perm l') : potential l t = potential l' t := (h.map _).sum_eq

theorem absPotential_perm (t : Point ℝ) {l l' : List Src} (h : l.Perm l') : absPotential l t = absPotential l' t :=
  (h.map _).sum_eq

theorem rep_app (s : ℝ) (c : Point ℝ) (l l' : List Src) : rep s c (l ++ l') = rep s c l + rep s c l' := by simp [rep]

theorem potential_app (t : Point ℝ) (l l' : List Src) : potential (l ++ l') t = potential l t + potential l' t := by
  simp [potential]

theorem absPotential_app (t : Point ℝ) (l l' : List Src) : absPotential (l ++ l') t = absPotential l t + absPotential l' t := by
  simp [absPotential]

theorem absPotential_nonneg (t : Point ℝ) : ∀ l : List Src, 0 ≤ absPotential l t
  | [] => le_refl _
  | x :: l => by
    have := absPotential_nonneg t l
    have h0 : 0 ≤ (t.sub x.pos).norm := Real.sqrt_nonneg _
    rw [absPotential, List.map_cons, List.sum_cons]
    refine add_nonneg ?_ this
    split_ifs
    · exact le_refl _
    · positivity

theorem bound_le {ε : ℝ} {t : Point ℝ} {B : Src → ℝ} : ∀ l : List Src, (∀ q ∈ l, B q ≤ ε * (1 / (t.sub q.pos).norm)) →
    (l.map fun q => |q.charge| * B q).sum ≤ ε * absPotential l t
  | [], _ => by simp [absPotential]
  | x :: l, h => by
    have ih := bound_le l fun q hq => h q (List.mem_cons_of_mem _ hq)
    have hx := mul_le_mul_of_nonneg_left (h x List.mem_cons_self) (abs_nonneg x.charge)
    rw [absPotential, List.map_cons, List.sum_cons, List.map_cons, List.sum_cons, mul_add]
    refine add_le_add (hx.trans (le_of_eq ?_)) ih
    split_ifs with h0
    · rw [h0]; simp
    · ring

/-- The sources of the leaves `L`, each as often as `π` says. -/
def gather (D : LapData) (L : List Index) (π : Index → ℕ) : List Src :=
  L.flatMap fun x => (List.replicate (π x) (D.srcs x)).flatten

theorem gather_zero (D : LapData) (L : List Index) : gather D L 0 = [] := by
  simp [gather]

theorem gather_add (D : LapData) (π π' : Index → ℕ) : ∀ L : List Index,
    (gather D L (π + π')).Perm (gather D L π ++ gather D L π')
  | [] => by simp [gather]
  | x :: L => by
    have ih := gather_add D π π' L
    simp only [gather, List.flatMap_cons, Pi.add_apply, List.replicate_add, List.flatten_append] at ih ⊢
    rw [List.append_assoc, List.append_assoc]
    refine List.Perm.append_left _ ?_
    refine (List.Perm.append_left _ ih).trans ?_
    rw [← List.append_assoc, ← List.append_assoc]
    exact List.Perm.append_right _ List.perm_append_comm

theorem gather_none (D : LapData) (π : Index → ℕ) : ∀ L : List Index, (∀ x ∈ L, π x = 0) → gather D L π = []
  | [], _ => rfl
  | x :: L, h => by
    have ih := gather_none D π L fun y hy => h y (List.mem_cons_of_mem _ hy)
    simp only [gather, List.flatMap_cons] at ih ⊢
    rw [ih, h x List.mem_cons_self]; simp

theorem gather_single (D : LapData) (a : Index) : ∀ L : List Index, L.Nodup → a ∈ L →
    gather D L (fun x => if x = a then 1 else 0) = D.srcs a
  | [], _, h => by simp at h
  | x :: L, hn, h => by
    obtain ⟨h1, h2⟩ := List.nodup_cons.1 hn
    have hc : gather D (x :: L) (fun x => if x = a then 1 else 0) =
        (List.replicate (if x = a then 1 else 0) (D.srcs x)).flatten ++ gather D L (fun x => if x = a then 1 else 0) := rfl
    rw [hc]
    by_cases e : x = a
    · subst e
      rw [gather_none D _ L fun y hy => if_neg fun (e : y = x) => h1 (e ▸ hy)]; simp
    · rw [gather_single D a L h2 ((List.mem_cons.1 h).resolve_left fun e' => e e'.symm), if_neg e]; simp

theorem gather_one (D : LapData) (π : Index → ℕ) (L : List Index) (h : ∀ x ∈ L, π x = 1) :
    gather D L π = L.flatMap D.srcs := by
  unfold gather
  refine List.flatMap_congr fun x hx => ?_
  rw [h x hx]; simp

variable (D : LapData) (L : List Index) (ε : ℝ)

/-- What a multipole node holds. -/
def RelM (ix : Index) (v : WithTop Coef) (π : Index → ℕ) : Prop :=
  ∃ M : Coef, v = (M : WithTop Coef) ∧ (∀ n m, m ≤ n → M n m = rep (D.scale ix) (D.center ix) (gather D L π) n m) ∧
    ∀ q ∈ gather D L π, InCube D.dom ix q.pos

/-- What a local node holds. -/
def RelL (ix : Index) (v : WithTop Coef) (π : Index → ℕ) : Prop :=
  ∃ C : Coef, v = (C : WithTop Coef) ∧ Proper C ∧ ∀ t, InCube D.dom ix t →
    |locVal D.p (D.scale ix) C (t.sub (D.center ix)) - potential (gather D L π) t| ≤ ε * absPotential (gather D L π) t

/-- What has been added to targets. -/
def RelT (ix : Index) (w : ℕ → WithTop ℝ) (π : Index → ℕ) : Prop :=
  ∀ i t, (D.tgts ix)[i]? = some t → ∃ v : ℝ, w i = (v : WithTop ℝ) ∧
    |v - potential (gather D L π) t| ≤ ε * absPotential (gather D L π) t

/-- What a source intermediate node holds. -/
def RelS (ix : Index) (v : WithTop Views) (π : Prov) : Prop :=
  ∃ ρ : Index → ℕ, (∀ i < 6, π i = ρ) ∧ v = (mToI D.rule D.p (rep (D.scale ix) (D.center ix) (gather D L ρ)) : Views) ∧
    ∀ q ∈ gather D L ρ, InCube D.dom ix q.pos

/-- What a child gets from the views of its parent. -/
def taken (c : ℕ) (π : Prov) : Index → ℕ := fun x => ((childTakes c).map fun k => π k.tag x).sum

/-- What a target intermediate node holds: each child can take its local expansion. -/
def RelI (ix : Index) (v : WithTop Views) (π : Prov) : Prop :=
  ∃ E : Views, v = (E : WithTop Views) ∧ ∀ c < 8, ∀ t, InCube D.dom (ix.child c) t →
    |locVal D.p (D.scale (ix.child c)) (iToL D.rule c (D.scale ix * 2) E) (t.sub (D.center (ix.child c))) -
      potential (gather D L (taken c π)) t| ≤ ε * absPotential (gather D L (taken c π)) t

/-- What has been added to a node. -/
def Rel (r : Ref) (x : LapVal) (π : Prov) : Prop :=
  match r.side, r.kind with
  | .src, .normal => RelM D L r.ix x.1 (π 0)
  | .src, .interm => RelS D L r.ix x.2.1 π
  | .tgt, .interm => RelI D L ε r.ix x.2.1 π
  | .tgt, .normal => RelL D L ε r.ix x.1 (π 0)
  | .tgt, .parts => RelT D L ε r.ix x.2.2 (π 0)
  | _, _ => True

variable {D L ε}

theorem taken_add (c : ℕ) (π π' : Prov) : taken c (π + π') = taken c π + taken c π' := by
  funext x
  simp only [taken, Pi.add_apply]
  exact List.sum_map_add

theorem iToL_zero (R : Rule) (c : ℕ) (scale : ℝ) : iToL R c scale 0 = 0 := by
  have := iToL_smul R c scale 0 0
  simpa using this

theorem Rel.zero (r : Ref) : Rel D L ε r 0 0 := by
  rcases r with ⟨_ | _, ix, _ | _ | _⟩ <;> simp only [Rel]
  · refine ⟨0, rfl, fun n m _ => ?_, fun q hq => ?_⟩
    · show _ = rep _ _ (gather D L 0) n m
      rw [gather_zero]; rfl
    · have hq : q ∈ gather D L 0 := hq
      rw [gather_zero] at hq; simp at hq
  · refine ⟨0, fun _ _ => rfl, ?_, fun q hq => ?_⟩
    · rw [gather_zero, rep_nil, (mToI_lin D.rule D.p).map_zero]; rfl
    · rw [gather_zero] at hq; simp at hq
  · intro i t _
    refine ⟨0, rfl, ?_⟩
    show |_ - potential (gather D L 0) t| ≤ ε * absPotential (gather D L 0) t
    rw [gather_zero]; simp [potential, absPotential]
  · refine ⟨0, rfl, fun n => rfl, fun t _ => ?_⟩
    show |_ - potential (gather D L 0) t| ≤ ε * absPotential (gather D L 0) t
    rw [gather_zero, locVal_zero]; simp [potential, absPotential]
  · refine ⟨0, rfl, fun c _ t _ => ?_⟩
    have : taken c 0 = 0 := by funext x; simp [taken]
    rw [this, gather_zero, iToL_zero, locVal_zero]; simp [potential, absPotential]

theorem err_add {a b x y p q P Q : ℝ} (h1 : |a - p| ≤ ε * P) (h2 : |b - q| ≤ ε * Q) (e1 : x = p + q) (e2 : y = P + Q) :
    |a + b - x| ≤ ε * y := by
  rw [e1, e2, mul_add, show a + b - (p + q) = (a - p) + (b - q) by ring]
  exact (abs_add_le _ _).trans (add_le_add h1 h2)

theorem Rel.add {r : Ref} {x y : LapVal} {π π' : Prov} (h1 : Rel D L ε r x π) (h2 : Rel D L ε r y π') :
    Rel D L ε r (x + y) (π + π') := by
  have hp := fun ρ ρ' => gather_add D ρ ρ' L
  have ep := fun ρ ρ' t => (potential_perm t (hp ρ ρ')).trans (potential_app t _ _)
  have ea := fun ρ ρ' t => (absPotential_perm t (hp ρ ρ')).trans (absPotential_app t _ _)
  rcases r with ⟨_ | _, ix, _ | _ | _⟩ <;> simp only [Rel] at h1 h2 ⊢
  · obtain ⟨M, hM, hM1, hM2⟩ := h1
    obtain ⟨N, hN, hN1, hN2⟩ := h2
    refine ⟨M + N, ?_, fun n m hm => ?_, fun q hq => ?_⟩
    · rw [Prod.fst_add, hM, hN, WithTop.coe_add]
    · rw [show (π + π') 0 = π 0 + π' 0 from rfl, rep_perm _ _ (hp _ _), rep_app, Pi.add_apply, Pi.add_apply, hM1 n m hm, hN1 n m hm]; rfl
    · rcases List.mem_append.1 ((hp _ _).mem_iff.1 hq) with hq | hq
      · exact hM2 q hq
      · exact hN2 q hq
  · obtain ⟨ρ, hρ, hv, hq1⟩ := h1
    obtain ⟨ρ', hρ', hv', hq2⟩ := h2
    refine ⟨ρ + ρ', fun i hi => ?_, ?_, fun q hq => ?_⟩
    · rw [Pi.add_apply, hρ i hi, hρ' i hi]
    · rw [rep_perm _ _ (hp _ _), rep_app, (mToI_lin D.rule D.p).map_add, Prod.snd_add, Prod.fst_add, hv, hv', WithTop.coe_add]
    · rcases List.mem_append.1 ((hp _ _).mem_iff.1 hq) with hq | hq
      · exact hq1 q hq
      · exact hq2 q hq
  · intro i t ht
    obtain ⟨v, hv, hv1⟩ := h1 i t ht
    obtain ⟨u, hu, hu1⟩ := h2 i t ht
    refine ⟨v + u, ?_, err_add hv1 hu1 (ep _ _ t) (ea _ _ t)⟩
    rw [Prod.snd_add, Prod.snd_add, Pi.add_apply, hv, hu, WithTop.coe_add]
  · obtain ⟨C, hC, hC1, hC2⟩ := h1
    obtain ⟨C', hC', hC1', hC2'⟩ := h2
    refine ⟨C + C', ?_, fun n => ?_, fun t ht => ?_⟩
    · rw [Prod.fst_add, hC, hC', WithTop.coe_add]
    · simp [hC1 n, hC1' n]
    · rw [locVal_add]
      exact err_add (hC2 t ht) (hC2' t ht) (ep _ _ t) (ea _ _ t)
  · obtain ⟨E, hE, hE1⟩ := h1
    obtain ⟨E', hE', hE1'⟩ := h2
    refine ⟨E + E', ?_, fun c hc t ht => ?_⟩
    · rw [Prod.snd_add, Prod.fst_add, hE, hE', WithTop.coe_add]
    · rw [iToL_add, locVal_add, taken_add]
      exact err_add (hE1 c hc t ht) (hE1' c hc t ht) (ep _ _ t) (ea _ _ t)

theorem Rel.sum {α : Type} {r : Ref} {f : α → LapVal} {g : α → Prov} : ∀ l : List α,
    (∀ e ∈ l, Rel D L ε r (f e) (g e)) → Rel D L ε r (l.map f).sum (l.map g).sum
  | [], _ => Rel.zero r
  | e :: l, h => by
    rw [List.map_cons, List.sum_cons, List.map_cons, List.sum_cons]
    exact (h e List.mem_cons_self).add (Rel.sum l fun e he => h e (List.mem_cons_of_mem _ he))

theorem inBox_child {d : Domain ℝ} (h : 0 < d.size) {ix : Index} {c : ℕ} (hc : c < 8) {v : Point ℝ} (hv : InCube d (ix.child c) v) :
    InCube d ix v := by
  have hp := size_pos d h (ix.level + 1)
  have hs : d.sizeFromLevel ix.level = 2 * d.sizeFromLevel (ix.level + 1) := by
    unfold Domain.sizeFromLevel; rw [pow_succ]; field_simp
  obtain ⟨h1, h2, h3⟩ := hv
  have key : ∀ (x : ℕ) (b : ℕ) (lo u : ℝ), b ≤ 1 →
      |u - (((2 * x + b : ℕ) + 1 / 2 : ℝ) * d.sizeFromLevel (ix.level + 1) + lo)| ≤ d.sizeFromLevel (ix.level + 1) / 2 →
      |u - (((x : ℝ) + 1 / 2) * d.sizeFromLevel ix.level + lo)| ≤ d.sizeFromLevel ix.level / 2 := by
    intro x b lo u hb hu
    obtain ⟨u1, u2⟩ := abs_le.1 hu
    rw [hs, abs_le]
    have hb0 : (0 : ℝ) ≤ b := Nat.cast_nonneg b
    have hb1 : (b : ℝ) ≤ 1 := by exact_mod_cast hb
    push_cast at u1 u2
    constructor <;> nlinarith
  have e := Index.child_eq ix c hc
  simp only [Domain.centerFromIndex, e] at h1 h2 h3
  refine ⟨?_, ?_, ?_⟩ <;> simp only [Domain.centerFromIndex]
  · exact key ix.x _ d.low.x v.x (by omega) h1
  · exact key ix.y _ d.low.y v.y (by omega) h2
  · exact key ix.z _ d.low.z v.z (by omega) h3

/-! ### The edges -/

variable (D L ε)

/-- The edges for which the kernel is accurate to `ε`. -/
inductive LapEdge : Edge → Prop
  | StoM {a : Index} (ha : a ∈ L) (hr : AllRegular (D.center a) (D.srcs a)) :
      LapEdge ⟨.StoM, ⟨.src, a, .parts⟩, ⟨.src, a, .normal⟩⟩
  | StoL {a b : Index} (ha : a ∈ L) (hr : AllRegular (D.center b) (D.srcs a))
      (hp : ∀ s t, InCube D.dom a s → InCube D.dom b t → (t.sub (D.center b)).norm < (s.sub (D.center b)).norm ∧
        ((t.sub (D.center b)).norm / (s.sub (D.center b)).norm) ^ (D.p + 1) /
          ((s.sub (D.center b)).norm - (t.sub (D.center b)).norm) ≤ ε * (1 / (t.sub s).norm)) :
      LapEdge ⟨.StoL, ⟨.src, a, .parts⟩, ⟨.tgt, b, .normal⟩⟩
  | StoT {a b : Index} (ha : a ∈ L) : LapEdge ⟨.StoT, ⟨.src, a, .parts⟩, ⟨.tgt, b, .parts⟩⟩
  | MtoM {a : Index} (c : Fin 8) : LapEdge ⟨.MtoM, ⟨.src, a.child c, .normal⟩, ⟨.src, a, .normal⟩⟩
  | MtoL {a b : Index} (hl : a.level = b.level)
      (hp : ∀ s t, InCube D.dom a s → InCube D.dom b t →
        (s.sub (D.center a)).norm + (t.sub (D.center b)).norm < ((D.center a).sub (D.center b)).norm ∧
        transErr (s.sub (D.center a)).norm (t.sub (D.center b)).norm ((D.center a).sub (D.center b)).norm D.p ≤
          ε * (1 / (t.sub s).norm)) :
      LapEdge ⟨.MtoL, ⟨.src, a, .normal⟩, ⟨.tgt, b, .normal⟩⟩
  | MtoT {a b : Index} (hr : ∀ t ∈ D.tgts b, Regular (t.sub (D.center a)))
      (hp : ∀ s t, InCube D.dom a s → InCube D.dom b t → (s.sub (D.center a)).norm < (t.sub (D.center a)).norm ∧
        ((s.sub (D.center a)).norm / (t.sub (D.center a)).norm) ^ (D.p + 1) /
          ((t.sub (D.center a)).norm - (s.sub (D.center a)).norm) ≤ ε * (1 / (t.sub s).norm)) :
      LapEdge ⟨.MtoT, ⟨.src, a, .normal⟩, ⟨.tgt, b, .parts⟩⟩
  | LtoL {a : Index} (c : Fin 8) : LapEdge ⟨.LtoL, ⟨.tgt, a, .normal⟩, ⟨.tgt, a.child c, .normal⟩⟩
  | LtoT {a : Index} (hr : ∀ t ∈ D.tgts a, Regular (t.sub (D.center a))) :
      LapEdge ⟨.LtoT, ⟨.tgt, a, .normal⟩, ⟨.tgt, a, .parts⟩⟩
  | MtoI {a : Index} : LapEdge ⟨.MtoI, ⟨.src, a, .normal⟩, ⟨.src, a, .interm⟩⟩
  | ItoI {k n : Index} (hE : D.rule.Even) (hA : D.rule.Accurate D.p ε) (hl : k.level = n.level + 1)
      (hx : -2 ≤ (k.x : ℤ) - 2 * n.x ∧ (k.x : ℤ) - 2 * n.x ≤ 3) (hy : -2 ≤ (k.y : ℤ) - 2 * n.y ∧ (k.y : ℤ) - 2 * n.y ≤ 3)
      (hz : -2 ≤ (k.z : ℤ) - 2 * n.z ∧ (k.z : ℤ) - 2 * n.z ≤ 3) :
      LapEdge ⟨.ItoI, ⟨.src, k, .interm⟩, ⟨.tgt, n, .interm⟩⟩
  | ItoL {a : Index} (c : Fin 8) : LapEdge ⟨.ItoL, ⟨.tgt, a, .interm⟩, ⟨.tgt, a.child c, .normal⟩⟩

variable {D L ε}

theorem taken_contrib {k n : Index} (hx : -2 ≤ (k.x : ℤ) - 2 * n.x ∧ (k.x : ℤ) - 2 * n.x ≤ 3)
    (hy : -2 ≤ (k.y : ℤ) - 2 * n.y ∧ (k.y : ℤ) - 2 * n.y ≤ 3) (hz : -2 ≤ (k.z : ℤ) - 2 * n.z ∧ (k.z : ℤ) - 2 * n.z ≤ 3)
    {P : Prov} {ρ : Index → ℕ} (hρ : ∀ i < 6, P i = ρ) {c : ℕ} (hc : c < 8) :
    taken c (contrib ⟨.ItoI, ⟨.src, k, .interm⟩, ⟨.tgt, n, .interm⟩⟩ P) =
      if farOct ((k.x : ℤ) - 2 * n.x) ((k.y : ℤ) - 2 * n.y) ((k.z : ℤ) - 2 * n.z) c then ρ else 0 := by
  obtain ⟨-, h2, -⟩ := paths_table _ (mem_off hx) _ (mem_off hy) _ (mem_off hz) c (List.mem_range.2 hc)
  funext x
  have key : taken c (contrib ⟨.ItoI, ⟨.src, k, .interm⟩, ⟨.tgt, n, .interm⟩⟩ P) x =
      (paths ((k.x : ℤ) - 2 * n.x) ((k.y : ℤ) - 2 * n.y) ((k.z : ℤ) - 2 * n.z) c).length * ρ x := by
    simp only [taken, contrib, paths]
    generalize (mergeTags ((k.x : ℤ) - 2 * n.x) ((k.y : ℤ) - 2 * n.y) ((k.z : ℤ) - 2 * n.z)).getD [] = tags
    induction tags with
    | nil => simp
    | cons tag tags ih =>
      simp only [List.map_cons, List.sum_cons, List.flatMap_cons, List.length_append, add_mul, List.length_map]
      rw [← ih, List.sum_map_add]
      congr 1
      rw [hρ _ (tagView_lt tag)]
      induction childTakes c with
      | nil => simp
      | cons t l ih =>
        rw [List.map_cons, List.sum_cons, ih, List.filter_cons]
        by_cases h : t.tag = tag
        · simp [h]; ring
        · simp [h]
  rw [key, h2]
  split_ifs <;> simp

/-- What a node holds, for a source leaf included. -/
def Good (D : LapData) (L : List Index) (ε : ℝ) (r : Ref) (x : LapVal) (π : Prov) : Prop :=
  (r.side = .src → r.kind = .parts → π 0 = fun y => if y = r.ix then 1 else 0) ∧
  (¬ (r.side = .tgt ∧ r.kind = .parts) → Rel D L ε r x π)

theorem toTargets_some (D : LapData) {ix : Index} {f : Point ℝ → WithTop ℝ} {i : ℕ} {t : Point ℝ} (h : (D.tgts ix)[i]? = some t) :
    D.toTargets ix f i = f t := by
  simp only [LapData.toTargets, h]

theorem edge_rel {s : Fin 8 → Oct} (hL : L = leaves Index.root (.node s)) (hn : L.Nodup) (hpl : D.Placed s) (hε : 0 ≤ ε)
    {e : Edge} (he : LapEdge D L ε e) {x : LapVal} {P : Prov} (hx : Good D L ε e.src x P) :
    Rel D L ε e.dst (D.op e x) (contrib e P) := by
  have hπ : ∀ e : Edge, e.op ≠ .MtoI → e.op ≠ .ItoI → e.op ≠ .ItoL → contrib e P 0 = P 0 := by
    intro e h1 h2 h3
    funext y
    unfold contrib
    split <;> first | contradiction | simp
  have hsz := hpl.size
  cases he with
  | @StoM a ha hr =>
    show RelM D L a _ (contrib _ P 0)
    rw [hπ _ (by simp) (by simp) (by simp), hx.1 rfl rfl]
    obtain ⟨M, hM, hM'⟩ := sToM_rep (D.center a) (D.scale a) (D.srcs a) hr
    refine ⟨M, hM, fun n m hm => ?_, fun q hq => ?_⟩
    · rw [gather_single D a L hn ha]; exact hM' n m hm
    · rw [gather_single D a L hn ha] at hq; exact hpl.srcs a (hL ▸ ha) q hq
  | @StoL a b ha hr hp =>
    show RelL D L ε b _ (contrib _ P 0)
    rw [hπ _ (by simp) (by simp) (by simp), hx.1 rfl rfl]
    obtain ⟨C, hC, hC'⟩ := sToL_rep (D.center b) (D.scale b) (D.srcs a) hr
    refine ⟨C, hC, fun n => ?_, fun t ht => ?_⟩
    · rw [hC' n 0 (Nat.zero_le _)]; exact repL_proper _ _ _ n
    · have e : gather D L (fun y => if y = (⟨.src, a, .parts⟩ : Ref).ix then 1 else 0) = D.srcs a := gather_single D a L hn ha
      rw [e, locVal_congr _ _ _ _ _ hC']
      have hb := fun q hq => hp q.pos t (hpl.srcs a (hL ▸ ha) q hq) ht
      refine (repL_val_error D.p (D.scale b) (scaleOf_pos hsz _) (D.center b) t (D.srcs a) fun q hq => (hb q hq).1).trans ?_
      exact bound_le _ fun q hq => (hb q hq).2
  | @StoT a b ha =>
    show RelT D L ε b _ (contrib _ P 0)
    rw [hπ _ (by simp) (by simp) (by simp), hx.1 rfl rfl]
    intro i t ht
    have e : gather D L (fun y => if y = (⟨.src, a, .parts⟩ : Ref).ix then 1 else 0) = D.srcs a := gather_single D a L hn ha
    refine ⟨potential (D.srcs a) t, (toTargets_some D ht).trans (sToT1_eq _ t), ?_⟩
    rw [e, sub_self, abs_zero]
    exact mul_nonneg hε (absPotential_nonneg t _)
  | @MtoM a c =>
    obtain ⟨M, hM, hM1, hM2⟩ : RelM D L (a.child c) x.1 (P 0) := hx.2 (by simp)
    show RelM D L a _ (contrib _ P 0)
    rw [hπ _ (by simp) (by simp) (by simp)]
    refine ⟨mToM c M, ?_, fun n m hm => ?_, fun q hq => inBox_child hsz c.2 (hM2 q hq)⟩
    · show WithTop.map (mToM (a.child c).whichChild) x.1 = _
      rw [hM, Index.whichChild_child a c c.2]; rfl
    · exact mToM_rep D.dom hsz a c c.2 M _ hM1 n m hm
  | @MtoL a b hl hp =>
    obtain ⟨M, hM, hM1, hM2⟩ : RelM D L a x.1 (P 0) := hx.2 (by simp)
    show RelL D L ε b _ (contrib _ P 0)
    rw [hπ _ (by simp) (by simp) (by simp)]
    refine ⟨mToL D.p (D.scale a) ((a.x : ℤ) - b.x) ((a.y : ℤ) - b.y) ((a.z : ℤ) - b.z) M, ?_, ?_, fun t ht => ?_⟩
    · show WithTop.map _ x.1 = _
      rw [hM]; rfl
    · rw [mToL_congr _ _ _ _ _ M _ hM1]; exact mToL_proper _ _ _ _ _ _ (rep_proper _ _ _)
    · have hb := fun q hq => hp q.pos t (hM2 q hq) ht
      rw [mToL_congr _ _ _ _ _ M _ hM1]
      have hsc : D.scale b = scaleOf D.dom.size a.level := by rw [LapData.scale, hl]
      rw [hsc]
      refine (trans_val_error D.dom hsz D.p a b hl t _ fun q hq => (hb q hq).1).trans ?_
      exact bound_le _ fun q hq => (hb q hq).2
  | @MtoT a b hr hp =>
    obtain ⟨M, hM, hM1, hM2⟩ : RelM D L a x.1 (P 0) := hx.2 (by simp)
    show RelT D L ε b _ (contrib _ P 0)
    rw [hπ _ (by simp) (by simp) (by simp)]
    intro i t ht
    have htm : t ∈ D.tgts b := List.mem_of_getElem? ht
    have hcl := clear_of_regular (hr t htm)
    refine ⟨mulVal D.p (D.scale a) M (t.sub (D.center a)), ?_, ?_⟩
    · refine (toTargets_some D ht).trans ?_
      show Option.bind x.1 _ = _
      rw [hM]
      show mToT1 D.p (t.sub (D.center a)) (D.scale a) M = _
      rw [mToT1_eq _ _ _ _ hcl.ne, snap_of_clear _ hcl]; rfl
    · have hb := fun q hq => hp q.pos t (hM2 q hq) (hpl.tgts b t htm)
      rw [mulVal_congr _ _ _ _ _ hM1]
      refine (rep_val_error D.p (D.scale a) (scaleOf_pos hsz _) (D.center a) t _ fun q hq => (hb q hq).1).trans ?_
      exact bound_le _ fun q hq => (hb q hq).2
  | @LtoL a c =>
    obtain ⟨C, hC, hC1, hC2⟩ : RelL D L ε a x.1 (P 0) := hx.2 (by simp)
    show RelL D L ε (a.child c) _ (contrib _ P 0)
    rw [hπ _ (by simp) (by simp) (by simp)]
    refine ⟨lToL D.p c C, ?_, lToL_proper _ _ _ hC1, fun t ht => ?_⟩
    · show WithTop.map (lToL D.p (a.child c).whichChild) x.1 = _
      rw [hC, Index.whichChild_child a c c.2]; rfl
    · have e := lToL_val D.dom hsz D.p a c c.2 C hC1 t
      have hs : D.scale (a.child c) = scaleOf D.dom.size (a.level + 1) := rfl
      rw [hs]
      unfold LapData.center
      rw [e]
      exact hC2 t (inBox_child hsz c.2 ht)
  | @LtoT a hr =>
    obtain ⟨C, hC, hC1, hC2⟩ : RelL D L ε a x.1 (P 0) := hx.2 (by simp)
    show RelT D L ε a _ (contrib _ P 0)
    rw [hπ _ (by simp) (by simp) (by simp)]
    intro i t ht
    have htm : t ∈ D.tgts a := List.mem_of_getElem? ht
    have hcl := clear_of_regular (hr t htm)
    refine ⟨locVal D.p (D.scale a) C (t.sub (D.center a)), ?_, hC2 t (hpl.tgts a t htm)⟩
    refine (toTargets_some D ht).trans ?_
    show Option.bind x.1 _ = _
    rw [hC]
    show lToT1 D.p (t.sub (D.center a)) (D.scale a) C = _
    rw [lToT1_eq _ _ _ _ hcl.ne, snap_of_clear _ hcl]; rfl
  | @MtoI a =>
    obtain ⟨M, hM, hM1, hM2⟩ : RelM D L a x.1 (P 0) := hx.2 (by simp)
    show RelS D L a _ (contrib _ P)
    refine ⟨P 0, fun i hi => ?_, ?_, hM2⟩
    · funext y; simp [contrib, hi]
    · show WithTop.map (mToI D.rule D.p) x.1 = _
      rw [hM, ← mToI_congr D.rule D.p M _ hM1]; rfl
  | @ItoI k n hE hA hl hdx hdy hdz =>
    obtain ⟨ρ, hρ, hv, hq⟩ : RelS D L k x.2.1 P := hx.2 (by simp)
    show RelI D L ε n _ (contrib _ P)
    refine ⟨iToI D.rule ((k.x : ℤ) - 2 * n.x) ((k.y : ℤ) - 2 * n.y) ((k.z : ℤ) - 2 * n.z)
        (mToI D.rule D.p (rep (D.scale k) (D.center k) (gather D L ρ))), ?_, fun c hc t ht => ?_⟩
    · obtain ⟨h1, -, -⟩ := paths_table _ (mem_off hdx) _ (mem_off hdy) _ (mem_off hdz) 0 (by simp)
      show (if (mergeTags ((k.x : ℤ) - 2 * n.x) ((k.y : ℤ) - 2 * n.y) ((k.z : ℤ) - 2 * n.z)).isSome = true then
        WithTop.map _ x.2.1 else ⊤) = _
      rw [if_pos h1, hv]; rfl
    · obtain ⟨e1, e2⟩ := planeVal_error hE hA hsz hl hc hdx hdy hdz _ hq t ht
      rw [taken_contrib hdx hdy hdz hρ hc]
      rw [← farOct_separated hl hc] at e1 e2
      by_cases hf : farOct ((k.x : ℤ) - 2 * n.x) ((k.y : ℤ) - 2 * n.y) ((k.z : ℤ) - 2 * n.z) c = true
      · rw [if_pos hf]
        refine (e1 hf).trans ?_
        exact bound_le _ fun _ _ => le_refl _
      · rw [if_neg hf, gather_zero]
        have := e2 hf
        unfold planeVal at this
        have e3 : locVal D.p (D.scale (n.child c)) (iToL D.rule c (D.scale n * 2)
          (iToI D.rule ((k.x : ℤ) - 2 * n.x) ((k.y : ℤ) - 2 * n.y) ((k.z : ℤ) - 2 * n.z)
            (mToI D.rule D.p (rep (D.scale k) (D.center k) (gather D L ρ))))) (t.sub (D.center (n.child c))) = 0 := this
        rw [e3]; simp [potential, absPotential]
  | @ItoL a c =>
    obtain ⟨E, hE, hE1⟩ : RelI D L ε a x.2.1 P := hx.2 (by simp)
    show RelL D L ε (a.child c) _ (contrib _ P 0)
    refine ⟨iToL D.rule c (D.scale a * 2) E, ?_, iToL_proper _ _ _ _, fun t ht => ?_⟩
    · show WithTop.map (iToL D.rule (toChild (a.child c)) (D.scale a * 2)) x.2.1 = _
      rw [hE, toChild_child a c c.2]; rfl
    · have e : contrib ⟨.ItoL, ⟨.tgt, a, .interm⟩, ⟨.tgt, a.child c, .normal⟩⟩ P 0 = taken c P := by
        funext y; simp [contrib, taken, toChild_child a c c.2]
      rw [e]
      exact hE1 c c.2 t ht

/-! ### The whole DAG -/

theorem dst_not_start {e : Edge} (h : LapEdge D L ε e) : ¬ (e.dst.side = .src ∧ e.dst.kind = .parts) := by
  cases h <;> simp

theorem inflow_eq (val : Ref → Prov) (r : Ref) : ∀ es : List Edge,
    inflow val es r = ((es.filter fun e => e.dst = r).map fun e => contrib e (val e.src)).sum
  | [] => rfl
  | e :: es => by
    have ih := inflow_eq val r es
    funext i y
    have ih' := congrFun (congrFun ih i) y
    simp only [inflow] at ih'
    simp only [inflow, List.map_cons, List.sum_cons]
    rw [ih', List.filter_cons]
    by_cases h : e.dst = r
    · simp [h]
    · simp [h]

theorem eval_rel {s : Fin 8 → Oct} (hL : L = leaves Index.root (.node s)) (hn : L.Nodup) (hpl : D.Placed s) (hε : 0 ≤ ε)
    {acts : List Act} (hac : Acyclic (edgesOf acts)) (hed : ∀ e ∈ edgesOf acts, LapEdge D L ε e)
    {N : Ref → LapVal} (hN : ∀ r, N r = (lapDag D acts).base r + (lapDag D acts).incoming N r)
    {P : Ref → Prov} (hP : IsEvaluation acts P) (r : Ref) :
    Rel D L ε r ((lapDag D acts).incoming N r) (inflow P (edgesOf acts) r) := by
  obtain ⟨rank, hrank⟩ := hac
  induction hk : rank r using Nat.strong_induction_on generalizing r with
  | _ k ih =>
    rw [inflow_eq]
    show Rel D L ε r (((edgesOf acts).filter fun e => e.dst = r).map fun e => D.op e (N e.src)).sum _
    refine Rel.sum _ fun e he => ?_
    obtain ⟨he, hd⟩ := List.mem_filter.1 he
    have hd : e.dst = r := by simpa using hd
    have hlt := hrank e he
    rw [hd, hk] at hlt
    have hrec := ih _ hlt e.src rfl
    rw [← hd]
    refine edge_rel hL hn hpl hε (hed e he) ?_
    have hPe : P e.src = base e.src + inflow P (edgesOf acts) e.src := funext fun i => funext fun y => hP e.src i y
    refine ⟨fun h1 h2 => ?_, fun h => ?_⟩
    · have hnone : (edgesOf acts).filter (fun e' => e'.dst = e.src) = [] := by
        refine List.filter_eq_nil_iff.2 fun e' he' => ?_
        have := dst_not_start (hed e' he')
        intro hd'
        rw [show e'.dst = e.src by simpa using hd'] at this
        exact this ⟨h1, h2⟩
      rw [hPe, inflow_eq, hnone]
      funext y
      simp [base, h1, h2]
    · have hb : base e.src = 0 ∨ (e.src.side = .src ∧ e.src.kind = .parts) := by
        by_cases h3 : e.src.side = .src ∧ e.src.kind = .parts
        · exact .inr h3
        · left; funext i y
          simp only [base, Pi.zero_apply]
          rw [if_neg]
          rintro ⟨h4, h5, -⟩; exact h3 ⟨h4, h5⟩
      rcases hb with hb | ⟨h3, h4⟩
      · rw [hPe, hb, zero_add, hN e.src]
        have : (lapDag D acts).base e.src = 0 := if_neg h
        rw [this, zero_add]
        exact hrec
      · unfold Rel; rw [h3, h4]; trivial

/-- What the targets of a node hold in the end. -/
theorem eval_targets {s : Fin 8 → Oct} (hL : L = leaves Index.root (.node s)) (hn : L.Nodup) (hpl : D.Placed s) (hε : 0 ≤ ε)
    {acts : List Act} (hac : Acyclic (edgesOf acts)) (hed : ∀ e ∈ edgesOf acts, LapEdge D L ε e)
    {N : Ref → LapVal} (hN : ∀ r, N r = (lapDag D acts).base r + (lapDag D acts).incoming N r)
    {P : Ref → Prov} (hP : IsEvaluation acts P) {r : Ref} (h1 : r.side = .tgt) (h2 : r.kind = .parts)
    (hall : ∀ x, P r 0 x = if x ∈ L then 1 else 0) {i : ℕ} {t : Point ℝ} (ht : (D.tgts r.ix)[i]? = some t) :
    ∃ v : ℝ, (N r).2.2 i = (v : WithTop ℝ) ∧ |v - D.phi r.ix i - potential (D.all s) t| ≤ ε * absPotential (D.all s) t := by
  have h := eval_rel hL hn hpl hε hac hed hN hP r
  have hb : base r = 0 := by funext i y; simp [base, h1]
  have hPe : P r = inflow P (edgesOf acts) r := by
    funext i y
    rw [hP r i y, hb]; simp
  rw [← hPe] at h
  unfold Rel at h
  rw [h1, h2] at h
  obtain ⟨v, hv, hv'⟩ := h i t ht
  have hg : gather D L (P r 0) = D.all s := by
    rw [gather_one D _ L fun x hx => by rw [hall x, if_pos hx], LapData.all, hL]
  rw [hg] at hv'
  refine ⟨D.phi r.ix i + v, ?_, by rwa [show D.phi r.ix i + v - D.phi r.ix i = v by ring]⟩
  have hbase : (lapDag D acts).base r = (0, 0, fun i => ((D.phi r.ix i : ℝ) : WithTop ℝ)) := if_pos ⟨h1, h2⟩
  rw [hN r, hbase, Prod.snd_add, Prod.snd_add, Pi.add_apply, hv, WithTop.coe_add]

end

end Dashmm.Harm
