import Verif.Proofs.PlaneLoc
import Verif.Proofs.MergeShift

/-!
The three plane-wave operators together compute the quadrature rule.
-/

namespace Dashmm.Harm

open Lap
open Complex (I)

noncomputable section

/-! ### Shifts -/

/-- The factor of a shift. -/
def shiftF (R : Rule) (k j : ℕ) (d : Point ℝ) : ℂ :=
  Complex.exp (R.lam k * (-d.z + I * (d.x * Real.cos (R.alpha k j) + d.y * Real.sin (R.alpha k j))))

theorem eToE_eq (R : Rule) (W : Wave) (x y z : ℤ) (k j : ℕ) : eToE R W x y z k j = W k j * shiftF R k j ⟨x, y, z⟩ := by
  have hx : R.xs k j x = Complex.exp (((R.lam k * x * Real.cos (R.alpha k j) : ℝ) : ℂ) * I) := by
    rw [← cis_eq]; rfl
  have hy : R.ys k j y = Complex.exp (((R.lam k * y * Real.sin (R.alpha k j) : ℝ) : ℂ) * I) := by
    rw [← cis_eq]; rfl
  have hz : (R.zs k z : ℂ) = Complex.exp ((-R.lam k * z : ℝ) : ℂ) := by rw [← Complex.ofReal_exp]; rfl
  rw [eToE, hx, hy, hz, mul_assoc, mul_assoc, ← Complex.exp_add, ← Complex.exp_add, shiftF]
  congr 2
  push_cast; ring

theorem eToE_eToE (R : Rule) (W : Wave) (x y z x' y' z' : ℤ) :
    eToE R (eToE R W x y z) x' y' z' = eToE R W (x + x') (y + y') (z + z') := by
  funext k j
  rw [eToE_eq, eToE_eq, eToE_eq, mul_assoc, shiftF, shiftF, shiftF, ← Complex.exp_add]
  congr 2
  push_cast; ring

/-! ### Linearity -/

theorem eToE_lin (R : Rule) (x y z : ℤ) : IsLinearMap ℝ fun W : Wave => eToE R W x y z where
  map_add W W' := by funext k j; simp only [eToE, Pi.add_apply]; ring
  map_smul a W := by funext k j; simp only [eToE, Pi.smul_apply, Complex.real_smul]; ring

theorem pairW_add (R : Rule) (p : ℕ) (W W' : Wave) (b : Point ℝ) : pairW R p (W + W') b = pairW R p W b + pairW R p W' b := by
  unfold pairW
  rw [← Finset.sum_add_distrib]
  refine Finset.sum_congr rfl fun k _ => ?_
  rw [← Finset.sum_add_distrib]
  refine Finset.sum_congr rfl fun j _ => ?_
  rw [Pi.add_apply, Pi.add_apply, add_mul, Complex.add_re]; ring

theorem pairW_smul (R : Rule) (p : ℕ) (a : ℝ) (W : Wave) (b : Point ℝ) : pairW R p (a • W) b = a * pairW R p W b := by
  unfold pairW
  rw [Finset.mul_sum]
  refine Finset.sum_congr rfl fun k _ => ?_
  rw [Finset.mul_sum]
  refine Finset.sum_congr rfl fun j _ => ?_
  rw [Pi.smul_apply, Pi.smul_apply, Complex.real_smul, mul_assoc, Complex.re_ofReal_mul]; ring

theorem pairW_zero (R : Rule) (p : ℕ) (b : Point ℝ) : pairW R p 0 b = 0 := by
  have := pairW_smul R p 0 0 b
  simpa using this

theorem pairW_sum {ι : Type} (R : Rule) (p : ℕ) (b : Point ℝ) (f : ι → Wave) : ∀ l : List ι,
    pairW R p (l.map f).sum b = (l.map fun i => pairW R p (f i) b).sum
  | [] => pairW_zero R p b
  | i :: l => by rw [List.map_cons, List.sum_cons, pairW_add, pairW_sum R p b f l, List.map_cons, List.sum_cons]

theorem stepSum_add (a p : ℕ) (g h : ℕ → ℂ) : stepSum a p (fun n => g n + h n) = stepSum a p g + stepSum a p h :=
  Finset.sum_add_distrib

theorem stepSum_mul (a p : ℕ) (c : ℂ) (g : ℕ → ℂ) : stepSum a p (fun n => c * g n) = c * stepSum a p g :=
  (Finset.mul_sum _ _ _).symm

theorem zTerm_add (R : Rule) (M N : Coef) (k m : ℕ) : zTerm R (M + N) k m = fun n => zTerm R M k m n + zTerm R N k m n := by
  funext n; simp only [zTerm, Pi.add_apply]; ring

theorem zTerm_smul (R : Rule) (a : ℝ) (M : Coef) (k m : ℕ) : zTerm R (a • M) k m = fun n => (a : ℂ) * zTerm R M k m n := by
  funext n; simp only [zTerm, Pi.smul_apply, Complex.real_smul]; ring

theorem z1_add (R : Rule) (p : ℕ) (M N : Coef) (k m : ℕ) : z1 R p (M + N) k m = z1 R p M k m + z1 R p N k m := by
  unfold z1; simp only [zTerm_add, stepSum_add]; split_ifs <;> rfl

theorem z2_add (R : Rule) (p : ℕ) (M N : Coef) (k m : ℕ) : z2 R p (M + N) k m = z2 R p M k m + z2 R p N k m := by
  unfold z2; simp only [zTerm_add, stepSum_add]; split_ifs <;> rfl

theorem z1_smul (R : Rule) (p : ℕ) (a : ℝ) (M : Coef) (k m : ℕ) : z1 R p (a • M) k m = a * z1 R p M k m := by
  unfold z1; simp only [zTerm_smul, stepSum_mul]; split_ifs <;> rfl

theorem z2_smul (R : Rule) (p : ℕ) (a : ℝ) (M : Coef) (k m : ℕ) : z2 R p (a • M) k m = a * z2 R p M k m := by
  unfold z2; simp only [zTerm_smul, stepSum_mul]; split_ifs <;> rfl

theorem waveUp_lin (R : Rule) (p : ℕ) : IsLinearMap ℝ (waveUp R p) where
  map_add M N := by
    funext k j
    simp only [waveUp, z1_add, z2_add, Pi.add_apply]
    rw [← mul_add]
    congr 1
    refine Eq.trans ?_ (add_add_add_comm _ _ _ _)
    rw [← Finset.sum_add_distrib]
    congr 1
    · ring
    · refine Finset.sum_congr rfl fun m _ => ?_
      rw [add_add_add_comm, mul_add (R.ealpha k j m), Complex.add_re]; push_cast; ring
  map_smul a M := by
    funext k j
    simp only [waveUp, z1_smul, z2_smul, Pi.smul_apply, Complex.real_smul]
    rw [mul_left_comm, mul_add (a : ℂ), Finset.mul_sum]
    congr 1
    congr 1
    · ring
    · refine Finset.sum_congr rfl fun m _ => ?_
      rw [← mul_add, mul_left_comm, Complex.re_ofReal_mul]; push_cast; ring

theorem waveDn_lin (R : Rule) (p : ℕ) : IsLinearMap ℝ (waveDn R p) where
  map_add M N := by
    funext k j
    simp only [waveDn, z1_add, z2_add, Pi.add_apply]
    rw [← mul_add]
    congr 1
    refine Eq.trans ?_ (add_add_add_comm _ _ _ _)
    rw [← Finset.sum_add_distrib]
    congr 1
    · ring
    · refine Finset.sum_congr rfl fun m _ => ?_
      rw [add_sub_add_comm, mul_add (R.ealpha k j m), Complex.add_re]; push_cast; ring
  map_smul a M := by
    funext k j
    simp only [waveDn, z1_smul, z2_smul, Pi.smul_apply, Complex.real_smul]
    rw [mul_left_comm, mul_add (a : ℂ), Finset.mul_sum]
    congr 1
    congr 1
    · ring
    · refine Finset.sum_congr rfl fun m _ => ?_
      rw [← mul_sub, mul_left_comm, Complex.re_ofReal_mul]; push_cast; ring

theorem mToI_lin (R : Rule) (p : ℕ) : IsLinearMap ℝ (mToI R p) where
  map_add M N := by
    have e1 := (rotateY_lin (dmatPlus 0)).map_add M N
    have e2 : rotateY (rotateZ (M + N) (-Real.pi / 2)) (dmatMinus 0) = _ :=
      (lin_comp (rotateY_lin (dmatMinus 0)) (rotateZ_lin (-Real.pi / 2))).map_add M N
    funext v
    show mToI R p (M + N) v = mToI R p M v + mToI R p N v
    unfold mToI
    rcases v with _ | _ | _ | _ | _ | _ | v <;> simp only
    · rw [e1, (waveUp_lin R p).map_add]
    · rw [e1, (waveDn_lin R p).map_add]
    · rw [e2, (waveUp_lin R p).map_add]
    · rw [e2, (waveDn_lin R p).map_add]
    · rw [(waveUp_lin R p).map_add]
    · rw [(waveDn_lin R p).map_add]
    · funext k j; simp
  map_smul a M := by
    have e1 := (rotateY_lin (dmatPlus 0)).map_smul a M
    have e2 : rotateY (rotateZ (a • M) (-Real.pi / 2)) (dmatMinus 0) = _ :=
      (lin_comp (rotateY_lin (dmatMinus 0)) (rotateZ_lin (-Real.pi / 2))).map_smul a M
    funext v
    show mToI R p (a • M) v = a • mToI R p M v
    unfold mToI
    rcases v with _ | _ | _ | _ | _ | _ | v <;> simp only
    · rw [e1, (waveUp_lin R p).map_smul]
    · rw [e1, (waveDn_lin R p).map_smul]
    · rw [e2, (waveUp_lin R p).map_smul]
    · rw [e2, (waveDn_lin R p).map_smul]
    · rw [(waveUp_lin R p).map_smul]
    · rw [(waveDn_lin R p).map_smul]
    · funext k j; simp

theorem stepSum_congr (a p : ℕ) (g h : ℕ → ℂ) (e : ∀ n, a ≤ n → g n = h n) : stepSum a p g = stepSum a p h :=
  Finset.sum_congr rfl fun n hn => e n (Finset.mem_Icc.1 (Finset.mem_filter.1 hn).1).1

theorem z1_congr (R : Rule) (p : ℕ) (M N : Coef) (h : ∀ n m, m ≤ n → M n m = N n m) (k m : ℕ) : z1 R p M k m = z1 R p N k m := by
  unfold z1
  split_ifs
  · exact stepSum_congr _ _ _ _ fun n hn => by rw [zTerm, zTerm, h n 0 (Nat.zero_le _)]
  · exact stepSum_congr _ _ _ _ fun n hn => by rw [zTerm, zTerm, h n m (by omega)]
  · exact stepSum_congr _ _ _ _ fun n hn => by rw [zTerm, zTerm, h n m (by omega)]

theorem z2_congr (R : Rule) (p : ℕ) (M N : Coef) (h : ∀ n m, m ≤ n → M n m = N n m) (k m : ℕ) : z2 R p M k m = z2 R p N k m := by
  unfold z2
  split_ifs
  · exact stepSum_congr _ _ _ _ fun n hn => by rw [zTerm, zTerm, h n 0 (Nat.zero_le _)]
  · exact stepSum_congr _ _ _ _ fun n hn => by rw [zTerm, zTerm, h n m (by omega)]
  · exact stepSum_congr _ _ _ _ fun n hn => by rw [zTerm, zTerm, h n m (by omega)]

theorem waveUp_congr (R : Rule) (p : ℕ) (M N : Coef) (h : ∀ n m, m ≤ n → M n m = N n m) : waveUp R p M = waveUp R p N := by
  funext k j; simp only [waveUp, z1_congr R p M N h, z2_congr R p M N h]

theorem waveDn_congr (R : Rule) (p : ℕ) (M N : Coef) (h : ∀ n m, m ≤ n → M n m = N n m) : waveDn R p M = waveDn R p N := by
  funext k j; simp only [waveDn, z1_congr R p M N h, z2_congr R p M N h]

theorem mToI_congr (R : Rule) (p : ℕ) (M N : Coef) (h : ∀ n m, m ≤ n → M n m = N n m) : mToI R p M = mToI R p N := by
  have hx : ∀ n m, m ≤ n → rotateY M (dmatPlus 0) n m = rotateY N (dmatPlus 0) n m :=
    fun n m _ => rotateY_congr M N _ n (fun i hi => h n i hi) m
  have hy : ∀ n m, m ≤ n → rotateY (rotateZ M (-Real.pi / 2)) (dmatMinus 0) n m =
      rotateY (rotateZ N (-Real.pi / 2)) (dmatMinus 0) n m :=
    fun n m _ => rotateY_congr _ _ _ n (fun i hi => rotateZ_congr _ _ _ _ _ (h n i hi)) m
  funext v
  unfold mToI
  simp only
  rw [waveUp_congr R p _ _ hx, waveUp_congr R p _ _ hy, waveUp_congr R p _ _ h, waveDn_congr R p _ _ hx, waveDn_congr R p _ _ hy,
    waveDn_congr R p _ _ h]

theorem iToI_add (R : Rule) (dx dy dz : ℤ) (S S' : Views) : iToI R dx dy dz (S + S') = iToI R dx dy dz S + iToI R dx dy dz S' := by
  funext v
  show iToI R dx dy dz (S + S') v = iToI R dx dy dz S v + iToI R dx dy dz S' v
  unfold iToI
  rw [← List.sum_map_add]
  congr 1
  refine List.map_congr_left fun tag _ => ?_
  split_ifs
  · exact (eToE_lin R _ _ _).map_add _ _
  · simp

theorem iToI_smul (R : Rule) (dx dy dz : ℤ) (a : ℝ) (S : Views) : iToI R dx dy dz (a • S) = a • iToI R dx dy dz S := by
  funext v
  show iToI R dx dy dz (a • S) v = a • iToI R dx dy dz S v
  unfold iToI
  rw [List.smul_sum, List.map_map]
  congr 1
  refine List.map_congr_left fun tag _ => ?_
  simp only [Function.comp]
  split_ifs
  · exact (eToE_lin R _ _ _).map_smul _ _
  · simp

theorem zBack_add (R : Rule) (E E' : Wave) (k m : ℕ) : zBack R (E + E') k m = zBack R E k m + zBack R E' k m := by
  simp only [zBack_eq, Pi.add_apply, map_add]
  rw [← Finset.sum_add_distrib]
  exact Finset.sum_congr rfl fun j _ => by ring

theorem zBack_smul (R : Rule) (a : ℝ) (E : Wave) (k m : ℕ) : zBack R (a • E) k m = a * zBack R E k m := by
  simp only [zBack_eq, Pi.smul_apply, Complex.real_smul, map_mul, Complex.conj_ofReal]
  rw [Finset.mul_sum]
  exact Finset.sum_congr rfl fun j _ => by ring

theorem backCoef_lin (R : Rule) (sgn : Bool) : IsLinearMap ℝ fun E : Wave => backCoef R E sgn := by
  have h : IsLinearMap ℝ fun E : Wave => backCoef R E true := by
    constructor
    · intro E E'
      funext n m
      simp only [backCoef_true, Pi.add_apply]
      rw [← add_mul, ← Finset.sum_add_distrib]
      congr 1
      refine Finset.sum_congr rfl fun k _ => ?_
      split_ifs
      · rw [zBack_add]; ring
      · simp
    · intro a E
      funext n m
      simp only [backCoef_true, Pi.smul_apply, Complex.real_smul]
      rw [← mul_assoc, Finset.mul_sum]
      congr 1
      refine Finset.sum_congr rfl fun k _ => ?_
      split_ifs
      · rw [zBack_smul]; ring
      · simp
  cases sgn
  · constructor
    · intro E E'
      funext n m
      have := congrFun (congrFun (h.map_add E E') n) m
      simp only [backCoef_false, Pi.add_apply] at this ⊢
      rw [this]; ring
    · intro a E
      funext n m
      have := congrFun (congrFun (h.map_smul a E) n) m
      simp only [backCoef_false, Pi.smul_apply, Complex.real_smul] at this ⊢
      rw [this]; ring
  · exact h

theorem eToL_lin (R : Rule) (dir : Char) (sgn : Bool) : IsLinearMap ℝ fun E : Wave => eToL R E dir sgn := by
  have h := backCoef_lin R sgn
  unfold eToL
  simp only
  split_ifs
  · exact h
  · constructor
    · intro E E'
      rw [h.map_add]
      exact (lin_comp (rotateZ_lin (Real.pi / 2)) (rotateY_lin (dmatPlus 0))).map_add _ _
    · intro a E
      rw [h.map_smul]
      exact (lin_comp (rotateZ_lin (Real.pi / 2)) (rotateY_lin (dmatPlus 0))).map_smul _ _
  · constructor
    · intro E E'
      rw [h.map_add]; exact (rotateY_lin (dmatMinus 0)).map_add _ _
    · intro a E
      rw [h.map_smul]; exact (rotateY_lin (dmatMinus 0)).map_smul _ _

theorem slotWave_eq (R : Rule) (c : ℕ) (scale : ℝ) (E : Views) (slot : ℕ) : slotWave R c scale E slot =
    scale • (((childTakes c).filter fun t => t.slot = slot).map fun t => eToE R (E t.tag) t.x t.y t.z).sum := by
  funext k j
  simp only [slotWave, Pi.mul_apply, Pi.smul_apply, Complex.real_smul]; ring

theorem slotWave_add (R : Rule) (c : ℕ) (scale : ℝ) (E E' : Views) (slot : ℕ) :
    slotWave R c scale (E + E') slot = slotWave R c scale E slot + slotWave R c scale E' slot := by
  rw [slotWave_eq, slotWave_eq, slotWave_eq, ← smul_add, ← List.sum_map_add]
  congr 2
  exact List.map_congr_left fun t _ => (eToE_lin R _ _ _).map_add _ _

theorem slotWave_smul (R : Rule) (c : ℕ) (scale a : ℝ) (E : Views) (slot : ℕ) :
    slotWave R c scale (a • E) slot = a • slotWave R c scale E slot := by
  rw [slotWave_eq, slotWave_eq, smul_comm a scale]
  congr 1
  rw [List.smul_sum, List.map_map]
  congr 1
  exact List.map_congr_left fun t _ => (eToE_lin R _ _ _).map_smul _ _

theorem iToL_add (R : Rule) (c : ℕ) (scale : ℝ) (E E' : Views) : iToL R c scale (E + E') = iToL R c scale E + iToL R c scale E' := by
  unfold iToL
  simp only [slotWave_add]
  simp only [(eToL_lin R _ _).map_add]
  abel

theorem iToL_smul (R : Rule) (c : ℕ) (scale a : ℝ) (E : Views) : iToL R c scale (a • E) = a • iToL R c scale E := by
  unfold iToL
  simp only [slotWave_smul]
  simp only [(eToL_lin R _ _).map_smul, smul_add]

theorem iToL_proper (R : Rule) (c : ℕ) (scale : ℝ) (E : Views) : Proper (iToL R c scale E) := by
  intro n
  have h := fun E dir sgn => eToL_proper R E dir sgn n
  simp only [iToL, Pi.add_apply, Complex.add_im, h, add_zero]

/-! ### The value -/

/-- The value of `iToL`, path by path. -/
theorem iToL_val (R : Rule) (p c : ℕ) (scale : ℝ) (E : Views) (b : Point ℝ) :
    ∑ n ∈ Finset.range (p + 1), (form (iToL R c scale E) b n).re =
      scale * ((childTakes c).map fun t => pairW R p (eToE R (E t.tag) t.x t.y t.z) (turn (slotView t.slot) b)).sum := by
  have hs : ∀ slot v, pairW R p (slotWave R c scale E slot) (turn v b) =
      scale * (((childTakes c).filter fun t => t.slot = slot).map fun t =>
        pairW R p (eToE R (E t.tag) t.x t.y t.z) (turn v b)).sum := by
    intro slot v
    rw [slotWave_eq, pairW_smul, pairW_sum]
  have h0 := fun E => (eToL_val R p E b)
  have hsplit : ∀ l : List Take, (∀ t ∈ l, t.slot < 6) → ∀ g : Take → ℕ → ℝ,
      (l.map fun t => g t (slotView t.slot)).sum =
      ((l.filter fun t => t.slot = 0).map fun t => g t 5).sum + ((l.filter fun t => t.slot = 1).map fun t => g t 4).sum +
      ((l.filter fun t => t.slot = 2).map fun t => g t 3).sum + ((l.filter fun t => t.slot = 3).map fun t => g t 2).sum +
      ((l.filter fun t => t.slot = 4).map fun t => g t 1).sum + ((l.filter fun t => t.slot = 5).map fun t => g t 0).sum := by
    intro l
    induction l with
    | nil => intro _ g; simp
    | cons t l ih =>
      intro hl g
      have ih := ih (fun t ht => hl t (List.mem_cons_of_mem _ ht)) g
      have ht := hl t List.mem_cons_self
      have hc : t.slot = 0 ∨ t.slot = 1 ∨ t.slot = 2 ∨ t.slot = 3 ∨ t.slot = 4 ∨ t.slot = 5 := by omega
      rw [List.map_cons, List.sum_cons, ih]
      rcases hc with h | h | h | h | h | h <;> simp [h, slotView] <;> ring
  have hslot : ∀ t ∈ childTakes c, t.slot < 6 := by
    have hd : ∀ c ∈ List.range 8, ∀ t ∈ childTakes c, t.slot < 6 := by decide
    intro t ht
    by_cases h : c < 8
    · exact hd c (List.mem_range.2 h) t ht
    · match c, h with
      | c + 8, _ => simp [childTakes] at ht
  rw [hsplit _ hslot fun t v => pairW R p (eToE R (E t.tag) t.x t.y t.z) (turn v b)]
  simp only [mul_add, ← hs]
  unfold iToL
  simp only [form_add, Complex.add_re, Finset.sum_add_distrib]
  rw [(h0 _).2.1, (h0 _).1, (h0 _).2.2.2.1, (h0 _).2.2.1, (h0 _).2.2.2.2.2, (h0 _).2.2.2.2.1]

/-- The value of `iToL` of `iToI`: a sum over the paths. -/
theorem iToL_iToI_val (R : Rule) (p c : ℕ) (scale : ℝ) (dx dy dz : ℤ) (S : Views) (b : Point ℝ) :
    ∑ n ∈ Finset.range (p + 1), (form (iToL R c scale (iToI R dx dy dz S)) b n).re =
      scale * ((paths dx dy dz c).map fun q =>
        let t := tagShift q.tag dx dy dz
        pairW R p (eToE R (S (tagView q.tag)) (t.1 + q.take.x) (t.2.1 + q.take.y) (t.2.2 + q.take.z))
          (turn (slotView q.take.slot) b)).sum := by
  rw [iToL_val]
  congr 1
  unfold paths iToI
  generalize (mergeTags dx dy dz).getD [] = tags
  induction tags with
  | nil =>
    simp only [List.map_nil, List.sum_nil, List.flatMap_nil]
    refine List.sum_eq_zero fun x hx => ?_
    obtain ⟨t, -, rfl⟩ := List.mem_map.1 hx
    have : eToE R (0 : Wave) t.x t.y t.z = 0 := (eToE_lin R t.x t.y t.z).map_zero
    rw [this, pairW_zero]
  | cons tag tags ih =>
    rw [List.flatMap_cons, List.map_append, List.sum_append, ← ih]
    simp only [List.map_cons, List.sum_cons]
    simp only [(eToE_lin R _ _ _).map_add, pairW_add]
    rw [List.sum_map_add]
    congr 1
    rw [List.map_map]
    induction childTakes c with
    | nil => rfl
    | cons t l ih =>
      rw [List.map_cons, List.sum_cons, ih, List.filter_cons]
      by_cases h : t.tag = tag
      · simp only [h, if_pos, beq_self_eq_true, List.map_cons, List.sum_cons, Function.comp]
        rw [eToE_eToE]
      · have e : eToE R (0 : Wave) t.x t.y t.z = 0 := (eToE_lin R t.x t.y t.z).map_zero
        simp only [h, beq_iff_eq, if_false, e, pairW_zero, zero_add]

/-! ### Half the angles -/

theorem sum_Icc_shift (c : ℕ) (g : ℕ → ℂ) : ∀ h : ℕ, ∑ j ∈ Finset.Icc 1 (h + c), g j =
    ∑ j ∈ Finset.Icc 1 c, g j + ∑ j ∈ Finset.Icc 1 h, g (j + c)
  | 0 => by simp
  | h + 1 => by
    rw [show h + 1 + c = (h + c) + 1 by ring, Finset.sum_Icc_succ_top (by omega), sum_Icc_shift c g h,
      Finset.sum_Icc_succ_top (by omega), add_assoc]
    congr 3
    omega

theorem planeKernel_half (R : Rule) (hR : R.Even) (p : ℕ) (a d b : Point ℝ) : planeKernel R p a d b =
    ∑ k ∈ Finset.range R.s, ∑ j ∈ Finset.Icc 1 (R.m k / 2),
      2 * (((R.wt k / R.m k : ℝ) : ℂ) * cutWave p (R.f k) (R.lam k) a (R.alpha k j) * shiftF R k j d *
        cutWave p (R.f k) (-R.lam k) b (R.alpha k j)).re := by
  unfold planeKernel
  rw [Complex.re_sum]
  refine Finset.sum_congr rfl fun k hk => ?_
  obtain ⟨h1, h2⟩ := hR k (Finset.mem_range.1 hk)
  have hα : ∀ j : ℕ, 2 * Real.pi * j / R.m k = R.alpha k j := by intro j; unfold Rule.alpha; ring
  have hα' : ∀ j : ℕ, R.alpha k (j + R.m k / 2) = R.alpha k j + Real.pi := by
    intro j
    unfold Rule.alpha
    have e : ((R.m k / 2 : ℕ) : ℝ) = R.m k / 2 := by
      have : (R.m k : ℝ) = ((2 * (R.m k / 2) : ℕ) : ℝ) := by congr 1; omega
      rw [this]; push_cast; ring
    have h0 : (R.m k : ℝ) ≠ 0 := by exact_mod_cast h1.ne'
    push_cast [e]; field_simp
  simp only [hα]
  have hm : Finset.Icc 1 (R.m k) = Finset.Icc 1 (R.m k / 2 + R.m k / 2) := by congr 1; omega
  rw [hm, sum_Icc_shift, ← Finset.sum_add_distrib, Finset.mul_sum, Complex.re_sum]
  refine Finset.sum_congr rfl fun j _ => ?_
  have hcj : cutWave p (R.f k) (R.lam k) a (R.alpha k (j + R.m k / 2)) *
      Complex.exp (R.lam k * (-d.z + I * (d.x * Real.cos (R.alpha k (j + R.m k / 2)) + d.y * Real.sin (R.alpha k (j + R.m k / 2))))) *
      cutWave p (R.f k) (-R.lam k) b (R.alpha k (j + R.m k / 2)) =
      starRingEnd ℂ (cutWave p (R.f k) (R.lam k) a (R.alpha k j) * shiftF R k j d * cutWave p (R.f k) (-R.lam k) b (R.alpha k j)) := by
    rw [hα', map_mul, map_mul, cutWave_conj, cutWave_conj, shiftF, ← Complex.exp_conj, Real.cos_add_pi, Real.sin_add_pi]
    congr 3
    simp only [map_mul, map_add, map_neg, Complex.conj_ofReal, Complex.conj_I]
    push_cast; ring
  rw [hcj]
  show (((R.wt k / R.m k : ℝ) : ℂ) * (cutWave p (R.f k) (R.lam k) a (R.alpha k j) * shiftF R k j d *
    cutWave p (R.f k) (-R.lam k) b (R.alpha k j) + _)).re = _
  rw [Complex.add_conj, Complex.re_ofReal_mul, Complex.ofReal_re,
    show ∀ A B C E : ℂ, A * B * C * E = A * (B * C * E) by intros; ring, Complex.re_ofReal_mul]; ring

/-- The value of the shifted plane waves of a unit charge. -/
theorem pairW_kernel (R : Rule) (hR : R.Even) (p : ℕ) (M : Coef) (u : Point ℝ) (hM : ∀ n m, m ≤ n → M n m = reg u n m) (v : ℕ)
    (hv : v < 6) (x y z : ℤ) (b : Point ℝ) :
    pairW R p (eToE R (mToI R p M v) x y z) b = planeKernel R p (turn v u) ⟨x, y, z⟩ b := by
  rw [planeKernel_half R hR]
  unfold pairW
  refine Finset.sum_congr rfl fun k _ => Finset.sum_congr rfl fun j _ => ?_
  rw [eToE_eq, mToI_reg R p M u hM v hv]

end
end Dashmm.Harm
