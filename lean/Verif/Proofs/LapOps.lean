import Verif.Proofs.HarmExp
import Verif.Proofs.Index
import Verif.Spec.Laplace
import Mathlib.Tactic.Ring.RingNF

/-!
Sums over sources; centres and scales of the boxes.
-/

namespace Dashmm.Harm

open Lap

noncomputable section

theorem clear_of_regular {v : Point ℝ} (h : Regular v) : Clear v := by
  refine ⟨h.1, ?_⟩
  rcases h.2 with ⟨h1, h2⟩ | h2
  · left; unfold proj; rw [h1, h2]; simp
  · right; unfold proj; rwa [sq, sq] at h2

/-- The coefficients of charges about `c`. -/
def rep (s : ℝ) (c : Point ℝ) (srcs : List Src) : Coef :=
  (srcs.map fun x => x.charge • reg (psmul s (x.pos.sub c))).sum

theorem rep_nil (s : ℝ) (c : Point ℝ) : rep s c [] = 0 := rfl
theorem rep_cons (s : ℝ) (c : Point ℝ) (x : Src) (l : List Src) :
    rep s c (x :: l) = x.charge • reg (psmul s (x.pos.sub c)) + rep s c l := rfl

theorem sToM_rep (c : Point ℝ) (s : ℝ) : ∀ l : List Src, AllRegular c l →
    ∃ M, sToM c s l = some M ∧ ∀ n m, m ≤ n → M n m = rep s c l n m
  | [], _ => ⟨_, rfl, fun n m _ => rfl⟩
  | x :: l, h => by
    obtain ⟨M, hM, hM2⟩ := sToM_rep c s l fun y hy => h y (List.mem_cons_of_mem _ hy)
    have hx := clear_of_regular (h x List.mem_cons_self)
    obtain ⟨C, hC, hC2⟩ := sToM1_eq (x.pos.sub c) x.charge s hx.ne
    rw [sToM] at hM ⊢
    refine ⟨fun n m => C n m + M n m, ?_, fun n m hm => ?_⟩
    · rw [sumSources, hM, hC]; rfl
    · simp only
      rw [hC2 n m hm, hM2 n m hm, snap_of_clear _ hx, rep_cons]
      simp only [Pi.add_apply, Pi.smul_apply, Complex.real_smul]

/-- The local coefficients of charges about `c`. -/
def repL (s : ℝ) (c : Point ℝ) (srcs : List Src) : Coef :=
  (srcs.map fun x => x.charge • fun n m =>
    ((1 / (x.pos.sub c).norm / ((x.pos.sub c).norm * s) ^ n / (x.pos.sub c).norm ^ n : ℝ) : ℂ) * reg (x.pos.sub c) n m).sum

theorem repL_cons (s : ℝ) (c : Point ℝ) (x : Src) (l : List Src) :
    repL s c (x :: l) = (x.charge • fun n m =>
    ((1 / (x.pos.sub c).norm / ((x.pos.sub c).norm * s) ^ n / (x.pos.sub c).norm ^ n : ℝ) : ℂ) * reg (x.pos.sub c) n m)
      + repL s c l := by
  rw [repL, List.map_cons, List.sum_cons]; rfl

theorem sToL_rep (c : Point ℝ) (s : ℝ) : ∀ l : List Src, AllRegular c l →
    ∃ L, sToL c s l = some L ∧ ∀ n m, m ≤ n → L n m = repL s c l n m
  | [], _ => ⟨_, rfl, fun n m _ => rfl⟩
  | x :: l, h => by
    obtain ⟨M, hM, hM2⟩ := sToL_rep c s l fun y hy => h y (List.mem_cons_of_mem _ hy)
    have hx := clear_of_regular (h x List.mem_cons_self)
    obtain ⟨C, hC, hC2⟩ := sToL1_eq (x.pos.sub c) x.charge s hx.ne
    rw [sToL] at hM ⊢
    refine ⟨fun n m => C n m + M n m, ?_, fun n m hm => ?_⟩
    · rw [sumSources, hM, hC]; rfl
    · simp only
      rw [hC2 n m hm, hM2 n m hm, snap_of_clear _ hx, repL_cons]
      simp only [Pi.add_apply, Pi.smul_apply, Complex.real_smul]
      push_cast; ring

/-! ### The values are linear in the coefficients -/

theorem locVal_add (p : ℕ) (s : ℝ) (L L' : Coef) (v : Point ℝ) : locVal p s (L + L') v = locVal p s L v + locVal p s L' v := by
  simp only [locVal, form_add, Complex.add_re, Finset.sum_add_distrib]

theorem locVal_smul (p : ℕ) (s a : ℝ) (L : Coef) (v : Point ℝ) : locVal p s (a • L) v = a * locVal p s L v := by
  simp only [locVal, form_smul, Complex.re_ofReal_mul, Finset.mul_sum]

theorem form_zero (v : Point ℝ) (n : ℕ) : form 0 v n = 0 := by
  have := form_smul 0 0 v n
  simpa using this

theorem locVal_zero (p : ℕ) (s : ℝ) (v : Point ℝ) : locVal p s 0 v = 0 := by
  simp [locVal, form_zero]

theorem mulVal_add (p : ℕ) (s : ℝ) (L L' : Coef) (v : Point ℝ) : mulVal p s (L + L') v = mulVal p s L v + mulVal p s L' v := by
  simp only [mulVal, form_add, Complex.add_re, add_div, Finset.sum_add_distrib]

theorem mulVal_smul (p : ℕ) (s a : ℝ) (L : Coef) (v : Point ℝ) : mulVal p s (a • L) v = a * mulVal p s L v := by
  simp only [mulVal, form_smul, Complex.re_ofReal_mul, Finset.mul_sum, mul_div_assoc]

theorem mulVal_zero (p : ℕ) (s : ℝ) (v : Point ℝ) : mulVal p s 0 v = 0 := by
  simp [mulVal, form_zero]

theorem locVal_congr (p : ℕ) (s : ℝ) (L L' : Coef) (v : Point ℝ) (h : ∀ n m, m ≤ n → L n m = L' n m) :
    locVal p s L v = locVal p s L' v :=
  Finset.sum_congr rfl fun n _ => by rw [form_congr L L' _ n (h n)]

theorem mulVal_congr (p : ℕ) (s : ℝ) (L L' : Coef) (v : Point ℝ) (h : ∀ n m, m ≤ n → L n m = L' n m) :
    mulVal p s L v = mulVal p s L' v :=
  Finset.sum_congr rfl fun n _ => by rw [form_congr L L' _ n (h n)]

theorem lin_zero {f : Coef → Coef} (hf : IsLinearMap ℝ f) : f 0 = 0 := by
  have := hf.map_smul 0 0
  simpa using this

/-- A value of charges, if linear, is that of each charge. -/
theorem sum_error {G : Point ℝ → Coef} {val : Coef → ℝ} {φ : Point ℝ → ℝ} {B : Point ℝ → ℝ}
    (h0 : val 0 = 0) (ha : ∀ L L', val (L + L') = val L + val L') (hm : ∀ (a : ℝ) L, val (a • L) = a * val L)
    (srcs : List Src) (h : ∀ s ∈ srcs, |val (G s.pos) - φ s.pos| ≤ B s.pos) :
    |val (srcs.map fun s => s.charge • G s.pos).sum - (srcs.map fun s => s.charge * φ s.pos).sum| ≤
      (srcs.map fun s => |s.charge| * B s.pos).sum := by
  induction srcs with
  | nil => simp [h0]
  | cons x l ih =>
    have ih' := ih fun s hs => h s (List.mem_cons_of_mem _ hs)
    have hx := h x List.mem_cons_self
    simp only [List.map_cons, List.sum_cons]
    rw [ha, hm]
    have e : x.charge * val (G x.pos) + val (l.map fun s => s.charge • G s.pos).sum -
        (x.charge * φ x.pos + (l.map fun s => s.charge * φ s.pos).sum) =
        x.charge * (val (G x.pos) - φ x.pos) +
        (val (l.map fun s => s.charge • G s.pos).sum - (l.map fun s => s.charge * φ s.pos).sum) := by ring
    rw [e]
    refine (abs_add_le _ _).trans (add_le_add ?_ ih')
    rw [abs_mul]
    exact mul_le_mul_of_nonneg_left hx (abs_nonneg _)

theorem potential_eq (srcs : List Src) (t : Point ℝ) :
    potential srcs t = (srcs.map fun s => s.charge * (1 / (t.sub s.pos).norm)).sum := by
  unfold potential
  congr 1
  refine List.map_congr_left fun s _ => ?_
  split_ifs with h
  · rw [h]; simp
  · ring

theorem rep_proper (s : ℝ) (c : Point ℝ) : ∀ l : List Src, Proper (rep s c l)
  | [] => fun n => by simp [rep]
  | x :: l => fun n => by
    have h1 := reg_proper (psmul s (x.pos.sub c)) n
    have h2 := rep_proper s c l n
    rw [rep_cons]
    simp only [Pi.add_apply, Pi.smul_apply, Complex.real_smul, Complex.add_im, Complex.re_mul_ofReal, Complex.im_ofReal_mul]
    rw [h1, h2]; simp

/-! ### Direct interactions -/

/-- The loops of `S_to_T`, for any kernel. -/
theorem foldlM_quot {F S : Type} [Field F] (c : S → Prop) [DecidablePred c] (num den f : S → F)
    (h : ∀ s, c s → den s ≠ 0 ∧ f s = num s / den s) (h' : ∀ s, ¬ c s → f s = 0) : ∀ (l : List S) (a : F),
    l.foldlM (fun pot s => if c s then (quot (num s) (den s)).map (pot + ·) else some pot) a = some (a + (l.map f).sum)
  | [], a => by simp
  | s :: l, a => by
    rw [List.foldlM_cons, List.map_cons, List.sum_cons]
    by_cases hc : c s
    · rw [if_pos hc, quot, if_neg (h s hc).1, ← (h s hc).2]
      simp only [Option.map_some, Option.bind_eq_bind, Option.bind_some]
      rw [foldlM_quot c num den f h h' l, add_assoc]
    · rw [if_neg hc]
      simp only [Option.bind_eq_bind, Option.bind_some]
      rw [foldlM_quot c num den f h h' l, h' s hc, zero_add]

theorem sToT1_eq (srcs : List Src) (t : Point ℝ) : sToT1 srcs t = some (potential srcs t) := by
  have := foldlM_quot (fun s : Src => 0 < (t.sub s.pos).norm) (fun s => s.charge) (fun s => (t.sub s.pos).norm)
    (fun s => if (t.sub s.pos).norm = 0 then 0 else s.charge / (t.sub s.pos).norm) (fun s hs => ⟨hs.ne', if_neg hs.ne'⟩)
    (fun s hs => if_pos (le_antisymm (not_lt.1 hs) (Real.sqrt_nonneg _))) srcs 0
  rw [zero_add] at this
  exact this

/-! ### Centres and scales -/

theorem scaleOf_pos {D : ℝ} (h : 0 < D) (l : ℕ) : 0 < scaleOf D l := by unfold scaleOf; positivity

theorem scaleOf_succ (D : ℝ) (l : ℕ) : scaleOf D (l + 1) = 2 * scaleOf D l := by unfold scaleOf; ring

theorem scaleOf_size (d : Domain ℝ) (h : 0 < d.size) (l : ℕ) : scaleOf d.size l * d.sizeFromLevel l = 1 := by
  unfold scaleOf Domain.sizeFromLevel; field_simp

theorem bit_mod (c : ℕ) (hc : c < 8) :
    (c &&& 1 ≠ 0 ↔ c % 2 = 1) ∧ (c &&& 2 ≠ 0 ↔ c / 2 % 2 = 1) ∧ (c &&& 4 ≠ 0 ↔ c / 4 % 2 = 1) := by
  revert c; decide

theorem child_center (d : Domain ℝ) (h : 0 < d.size) (ix : Index) (c : ℕ) (hc : c < 8) :
    psmul (scaleOf d.size (ix.level + 1)) ((d.centerFromIndex (ix.child c)).sub (d.centerFromIndex ix)) = off c := by
  have hs := scaleOf_size d h (ix.level + 1)
  have h2 : d.sizeFromLevel ix.level = 2 * d.sizeFromLevel (ix.level + 1) := by
    unfold Domain.sizeFromLevel; rw [pow_succ]; field_simp
  generalize scaleOf d.size (ix.level + 1) = s at *
  generalize hz : d.sizeFromLevel (ix.level + 1) = z at *
  simp only [Domain.centerFromIndex, hz, h2, Point.sub, psmul, off, Point.mk.injEq, Index.child, Nat.shiftLeft_eq]
  refine ⟨?_, ?_, ?_⟩ <;> split_ifs <;> push_cast <;> first | linear_combination (1 / 2 : ℝ) * hs | linear_combination (-(1 / 2) : ℝ) * hs

theorem same_level_offset (d : Domain ℝ) (h : 0 < d.size) (a b : Index) (hl : a.level = b.level) :
    psmul (scaleOf d.size a.level) ((d.centerFromIndex a).sub (d.centerFromIndex b)) =
      ⟨((a.x - b.x : ℤ) : ℝ), ((a.y - b.y : ℤ) : ℝ), ((a.z - b.z : ℤ) : ℝ)⟩ := by
  have hs := scaleOf_size d h a.level
  rw [hl] at hs ⊢
  generalize scaleOf d.size b.level = s at *
  generalize hz : d.sizeFromLevel b.level = z at *
  simp only [Domain.centerFromIndex, hl, hz, Point.sub, psmul, Point.mk.injEq]
  push_cast
  refine ⟨?_, ?_, ?_⟩
  · linear_combination ((a.x : ℝ) - b.x) * hs
  · linear_combination ((a.y : ℝ) - b.y) * hs
  · linear_combination ((a.z : ℝ) - b.z) * hs

/-- `M_to_M` of the coefficients of charges. -/
theorem mToM_rep (d : Domain ℝ) (h : 0 < d.size) (ix : Index) (c : ℕ) (hc : c < 8) (M : Coef) (srcs : List Src)
    (hM : ∀ n m, m ≤ n → M n m = rep (scaleOf d.size (ix.level + 1)) (d.centerFromIndex (ix.child c)) srcs n m)
    (n m : ℕ) (hm : m ≤ n) :
    mToM c M n m = rep (scaleOf d.size ix.level) (d.centerFromIndex ix) srcs n m := by
  have hcg : mToM c M n m = mToM c (rep (scaleOf d.size (ix.level + 1)) (d.centerFromIndex (ix.child c)) srcs) n m := by
    have z : ∀ n m, m ≤ n → rotateZ M (tabAlpha c * (Real.pi / 4)) n m =
        rotateZ (rep (scaleOf d.size (ix.level + 1)) (d.centerFromIndex (ix.child c)) srcs) (tabAlpha c * (Real.pi / 4)) n m :=
      fun n m hm => rotateZ_congr _ _ _ _ _ (hM n m hm)
    have y : ∀ n m, m ≤ n → _ := fun n m (_ : m ≤ n) => rotateY_congr _ _ (dmatPlus (childCos c)) n (z n) m
    have sh := shiftM_congr (-√3 / 2) _ _ y
    have y2 := fun n m (_ : m ≤ n) => rotateY_congr _ _ (dmatMinus (childCos c)) n (sh n) m
    simp only [mToM]
    rw [rotateZ_congr _ _ _ _ _ (y2 n m hm)]
  rw [hcg]
  have hoff := child_center d h ix c hc
  have hs2 := scaleOf_succ d.size ix.level
  clear hcg hM
  induction srcs with
  | nil => rw [rep_nil, rep_nil, lin_zero (mToM_lin c)]
  | cons x l ih =>
    rw [rep_cons, rep_cons, (mToM_lin c).map_add, (mToM_lin c).map_smul]
    simp only [Pi.add_apply, Pi.smul_apply]
    rw [ih, mToM_reg c hc _ n m hm]
    have e : psmul (1 / 2) (padd (psmul (scaleOf d.size (ix.level + 1)) (x.pos.sub (d.centerFromIndex (ix.child c)))) (off c)) =
        psmul (scaleOf d.size ix.level) (x.pos.sub (d.centerFromIndex ix)) := by
      rw [← hoff, hs2]
      simp only [psmul, padd, Point.sub, Point.mk.injEq]; refine ⟨?_, ?_, ?_⟩ <;> ring
    rw [e]

/-- `L_to_L` and the value of a local expansion. -/
theorem lToL_val (d : Domain ℝ) (h : 0 < d.size) (p : ℕ) (ix : Index) (c : ℕ) (hc : c < 8) (L : Coef) (hL : Proper L) (t : Point ℝ) :
    locVal p (scaleOf d.size (ix.level + 1)) (lToL p c L) (t.sub (d.centerFromIndex (ix.child c))) =
      locVal p (scaleOf d.size ix.level) L (t.sub (d.centerFromIndex ix)) := by
  rw [locVal_lToL p c hc _ L hL, locVal]
  refine Finset.sum_congr rfl fun n _ => ?_
  congr 2
  rw [← child_center d h ix c hc, scaleOf_succ]
  simp only [psmul, padd, Point.sub, Point.mk.injEq]; refine ⟨?_, ?_, ?_⟩ <;> ring

theorem rep_val_error (p : ℕ) (s : ℝ) (hs : 0 < s) (c t : Point ℝ) (srcs : List Src)
    (h : ∀ x ∈ srcs, (x.pos.sub c).norm < (t.sub c).norm) :
    |mulVal p s (rep s c srcs) (t.sub c) - potential srcs t| ≤ multipoleBound p c srcs t := by
  rw [potential_eq]
  refine sum_error (G := fun x => reg (psmul s (x.sub c))) (val := fun M => mulVal p s M (t.sub c))
    (φ := fun x => 1 / (t.sub x).norm)
    (B := fun x => ((x.sub c).norm / (t.sub c).norm) ^ (p + 1) / ((t.sub c).norm - (x.sub c).norm))
    (mulVal_zero _ _ _) (fun L L' => mulVal_add _ _ _ _ _) (fun a L => mulVal_smul _ _ _ _ _) srcs fun x hx => ?_
  have := mulVal_error p s hs (x.pos.sub c) (t.sub c) (h x hx)
  rwa [show (t.sub c).sub (x.pos.sub c) = t.sub x.pos by
    simp only [Point.sub, Point.mk.injEq]; refine ⟨?_, ?_, ?_⟩ <;> ring] at this

theorem repL_val_error (p : ℕ) (s : ℝ) (hs : 0 < s) (c t : Point ℝ) (srcs : List Src)
    (h : ∀ x ∈ srcs, (t.sub c).norm < (x.pos.sub c).norm) :
    |locVal p s (repL s c srcs) (t.sub c) - potential srcs t| ≤ localBound p c srcs t := by
  rw [potential_eq]
  refine sum_error (G := fun x n m =>
      ((1 / (x.sub c).norm / ((x.sub c).norm * s) ^ n / (x.sub c).norm ^ n : ℝ) : ℂ) * reg (x.sub c) n m)
    (val := fun M => locVal p s M (t.sub c))
    (φ := fun x => 1 / (t.sub x).norm)
    (B := fun x => ((t.sub c).norm / (x.sub c).norm) ^ (p + 1) / ((x.sub c).norm - (t.sub c).norm))
    (locVal_zero _ _ _) (fun L L' => locVal_add _ _ _ _ _) (fun a L => locVal_smul _ _ _ _ _) srcs fun x hx => ?_
  have := locVal_error p s hs (x.pos.sub c) (t.sub c) (h x hx) _ (fun n m _ => rfl)
  rwa [show (t.sub c).sub (x.pos.sub c) = t.sub x.pos by
    simp only [Point.sub, Point.mk.injEq]; refine ⟨?_, ?_, ?_⟩ <;> ring] at this

theorem repL_proper (s : ℝ) (c : Point ℝ) : ∀ l : List Src, Proper (repL s c l)
  | [] => fun n => by simp [repL]
  | x :: l => fun n => by
    have h1 := reg_proper (x.pos.sub c) n
    have h2 := repL_proper s c l n
    rw [repL] at h2 ⊢
    rw [List.map_cons, List.sum_cons]
    simp only [Pi.add_apply, Pi.smul_apply, Complex.real_smul, Complex.add_im, Complex.im_ofReal_mul]
    rw [h1, h2]; simp

theorem mToL_congr (p : ℕ) (s : ℝ) (x y z : ℤ) (M M' : Coef) (h : ∀ n m, m ≤ n → M n m = M' n m) :
    mToL p s x y z M = mToL p s x y z M' := by
  have hz : ∀ β n m, m ≤ n → rotateZ M β n m = rotateZ M' β n m := fun β n m hm => rotateZ_congr _ _ _ _ _ (h n m hm)
  have hy : ∀ β (D : DMat) n m, m ≤ n → rotateY (rotateZ M β) D n m = rotateY (rotateZ M' β) D n m :=
    fun β D n m _ => rotateY_congr _ _ D n (hz β n) m
  unfold mToL
  simp only [mToLzp_eq, mToLzm_eq]
  split_ifs
  · rw [mToLg_congr _ _ _ _ _ _ h]
  · rw [mToLg_congr _ _ _ _ _ _ h]
  · rw [mToLg_congr _ _ _ _ _ _ (hy _ _)]
  · rw [mToLg_congr _ _ _ _ _ _ (hy _ _)]

theorem trans_val_error (d : Domain ℝ) (h : 0 < d.size) (p : ℕ) (a b : Index) (hl : a.level = b.level) (t : Point ℝ)
    (srcs : List Src)
    (hs : ∀ x ∈ srcs, (x.pos.sub (d.centerFromIndex a)).norm + (t.sub (d.centerFromIndex b)).norm <
      ((d.centerFromIndex a).sub (d.centerFromIndex b)).norm) :
    |locVal p (scaleOf d.size a.level) (mToL p (scaleOf d.size a.level) (a.x - b.x) (a.y - b.y) (a.z - b.z)
      (rep (scaleOf d.size a.level) (d.centerFromIndex a) srcs)) (t.sub (d.centerFromIndex b)) - potential srcs t| ≤
    translationBound p (d.centerFromIndex a) (d.centerFromIndex b) srcs t := by
  have hlin := mToL_lin p (scaleOf d.size a.level) (a.x - b.x) (a.y - b.y) (a.z - b.z)
  rw [potential_eq]
  refine sum_error (G := fun x => reg (psmul (scaleOf d.size a.level) (x.sub (d.centerFromIndex a))))
    (val := fun M => locVal p (scaleOf d.size a.level) (mToL p (scaleOf d.size a.level) (a.x - b.x) (a.y - b.y) (a.z - b.z) M)
      (t.sub (d.centerFromIndex b)))
    (φ := fun x => 1 / (t.sub x).norm)
    (B := fun x => transErr (x.sub (d.centerFromIndex a)).norm (t.sub (d.centerFromIndex b)).norm
      ((d.centerFromIndex a).sub (d.centerFromIndex b)).norm p)
    ?_ (fun L L' => ?_) (fun c L => ?_) srcs fun x hx => ?_
  · rw [lin_zero hlin, locVal_zero]
  · rw [hlin.map_add, locVal_add]
  · rw [hlin.map_smul, locVal_smul]
  · have := mToL_val_error p (scaleOf d.size a.level) (scaleOf_pos h _) (a.x - b.x) (a.y - b.y) (a.z - b.z)
      (x.pos.sub (d.centerFromIndex a)) (t.sub (d.centerFromIndex b)) _ (same_level_offset d h a b hl) (hs x hx)
    rwa [show ((padd ((d.centerFromIndex a).sub (d.centerFromIndex b)) (x.pos.sub (d.centerFromIndex a))).sub
        (t.sub (d.centerFromIndex b))).norm = (t.sub x.pos).norm by
      apply norm_congr_sq; simp only [Point.sub, padd]; ring] at this

end
end Dashmm.Harm
