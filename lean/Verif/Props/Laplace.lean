import Verif.Proofs.LapOps
import Mathlib.Tactic.NormNum.NatFactorial

/-!
# Laplace kernel with spherical harmonics (C63 – C71)

The model is `Verif.Model.Laplace`, the specification `Verif.Spec.Laplace`.
-/

namespace Dashmm

open Lap Harm

/-! ### A way to see that points are regular -/

theorem regular_of {v : Point ℝ} (h : 1 / 1000 ≤ v.x ^ 2) (hn : v.x ^ 2 + v.y ^ 2 + v.z ^ 2 ≤ 1000) : Regular v := by
  have e : v.norm = √(v.x ^ 2 + v.y ^ 2 + v.z ^ 2) := by rw [Point.norm]; congr 1; ring
  have h1 : (1 / 100 : ℝ) ≤ √(v.x ^ 2 + v.y ^ 2) := Real.le_sqrt_of_sq_le (by nlinarith [sq_nonneg v.y])
  have h2 : √(v.x ^ 2 + v.y ^ 2) ≤ v.norm := e ▸ Real.sqrt_le_sqrt (by nlinarith [sq_nonneg v.z])
  have h3 : v.norm ≤ 100 := by rw [e]; exact Real.sqrt_le_iff.2 ⟨by norm_num, by linarith⟩
  have h0 : 0 < v.norm := by linarith
  refine ⟨by norm_num; linarith, Or.inr ?_⟩
  rw [lt_div_iff₀ h0]
  norm_num
  nlinarith

/-! ### C63: no source and no target may be at the centre of an expansion -/

theorem sum_none (f : Point ℝ → ℝ → ℝ → Option Coef) (c : Point ℝ) (s : ℝ) (hf : ∀ q, f (c.sub c) q s = none) :
    ∀ l : List Src, (∃ x ∈ l, x.pos = c) → sumSources f c s l = none
  | [], h => by simp at h
  | y :: l, ⟨x, hx, e⟩ => by
    rw [sumSources]
    rcases List.mem_cons.1 hx with rfl | hx
    · rw [e, hf]
      cases sumSources f c s l <;> rfl
    · rw [sum_none f c s hf l ⟨x, hx, e⟩]; rfl

theorem norm_self (c : Point ℝ) : (c.sub c).norm = 0 := by simp [Point.norm, Point.sub]

/-- **C63 (defect)** A source at the centre of its box makes the multipole expansion not-a-number. -/
theorem C63_source_at_centre_spoils_multipole (c : Point ℝ) (scale : ℝ) (srcs : List Src) (h : ∃ s ∈ srcs, s.pos = c) :
    sToM c scale srcs = none :=
  sum_none _ _ _ (fun q => by rw [sToM1, ephiNeg, if_pos (norm_self c)]; rfl) srcs h

/-- **C63 (defect)** The same for the local expansion. -/
theorem C63_source_at_centre_spoils_local (c : Point ℝ) (scale : ℝ) (srcs : List Src) (h : ∃ s ∈ srcs, s.pos = c) :
    sToL c scale srcs = none :=
  sum_none _ _ _ (fun q => by rw [sToL1, ephiNeg, if_pos (norm_self c)]; rfl) srcs h

/-- **C63 (defect)** A target at the centre of its box gets not-a-number from every local expansion, even from the one
that is zero. -/
theorem C63_target_at_centre_spoiled (p : ℕ) (t : Point ℝ) (scale : ℝ) (L : Coef) : lToT1 p (t.sub t) scale L = none := by
  rw [lToT1, ephi, if_pos (norm_self t)]; rfl

/-- **C63** Otherwise the operators yield numbers. -/
theorem C63_defined_elsewhere (c : Point ℝ) (scale : ℝ) (srcs : List Src) (h : ∀ s ∈ srcs, s.pos ≠ c) (t : Point ℝ)
    (ht : t ≠ c) (p : ℕ) (C : Coef) :
    (∃ M, sToM c scale srcs = some M) ∧ (∃ L, sToL c scale srcs = some L) ∧
    (∃ v, mToT1 p (t.sub c) scale C = some v) ∧ ∃ v, lToT1 p (t.sub c) scale C = some v := by
  have hn : ∀ x : Point ℝ, x ≠ c → (x.sub c).norm ≠ 0 := by
    intro x hx e
    apply hx
    rw [Point.norm, Real.sqrt_eq_zero (by nlinarith [sq_nonneg (x.sub c).x, sq_nonneg (x.sub c).y, sq_nonneg (x.sub c).z])] at e
    have e1 : (x.sub c).x = 0 := by nlinarith [sq_nonneg (x.sub c).x, sq_nonneg (x.sub c).y, sq_nonneg (x.sub c).z]
    have e2 : (x.sub c).y = 0 := by nlinarith [sq_nonneg (x.sub c).x, sq_nonneg (x.sub c).y, sq_nonneg (x.sub c).z]
    have e3 : (x.sub c).z = 0 := by nlinarith [sq_nonneg (x.sub c).x, sq_nonneg (x.sub c).y, sq_nonneg (x.sub c).z]
    simp only [Point.sub] at e1 e2 e3
    rcases x with ⟨x1, x2, x3⟩; rcases c with ⟨c1, c2, c3⟩
    simp only at e1 e2 e3
    simp only [Point.mk.injEq]
    exact ⟨by linarith, by linarith, by linarith⟩
  have hs : ∀ f : Point ℝ → ℝ → ℝ → Option Coef, (∀ v q, v.norm ≠ 0 → ∃ C, f v q scale = some C) →
      ∃ M, sumSources f c scale srcs = some M := by
    intro f hf
    induction srcs with
    | nil => exact ⟨_, rfl⟩
    | cons x l ih =>
      obtain ⟨M, hM⟩ := ih fun s hs => h s (List.mem_cons_of_mem _ hs)
      obtain ⟨C, hC⟩ := hf (x.pos.sub c) x.charge (hn _ (h x List.mem_cons_self))
      exact ⟨_, by rw [sumSources, hM, hC]; rfl⟩
  refine ⟨hs _ fun v q hv => ?_, hs _ fun v q hv => ?_, ⟨_, mToT1_eq p _ _ _ (hn t ht)⟩, ⟨_, lToT1_eq p _ _ _ (hn t ht)⟩⟩
  · obtain ⟨C, hC, -⟩ := sToM1_eq v q scale hv; exact ⟨C, hC⟩
  · obtain ⟨C, hC, -⟩ := sToL1_eq v q scale hv; exact ⟨C, hC⟩

/-! ### C64: `M_to_M` is exact -/

/-- **C64** Shifting the multipole expansion of a child to its parent yields the coefficients that the same sources
have about the parent's centre: nothing is lost at any order, at any level, for any of the eight children. -/
theorem C64_m_to_m_exact (d : Domain ℝ) (h : 0 < d.size) (ix : Index) (c : Fin 8) (srcs : List Src)
    (hc : AllRegular (d.centerFromIndex (ix.child c)) srcs) (hp : AllRegular (d.centerFromIndex ix) srcs) :
    ∃ M N, sToM (d.centerFromIndex (ix.child c)) (scaleOf d.size (ix.level + 1)) srcs = some M ∧
      sToM (d.centerFromIndex ix) (scaleOf d.size ix.level) srcs = some N ∧
      ∀ n m, m ≤ n → mToM c M n m = N n m := by
  obtain ⟨M, hM, hM'⟩ := sToM_rep _ (scaleOf d.size (ix.level + 1)) srcs hc
  obtain ⟨N, hN, hN'⟩ := sToM_rep _ (scaleOf d.size ix.level) srcs hp
  exact ⟨M, N, hM, hN, fun n m hm => by rw [mToM_rep d h ix c c.2 M srcs hM' n m hm, hN' n m hm]⟩

theorem rep_append (s : ℝ) (c : Point ℝ) (l l' : List Src) : rep s c (l ++ l') = rep s c l + rep s c l' := by
  simp [rep]

/-- **C64** The sum of what the eight children send is the expansion of all their sources about the parent's
centre. -/
theorem C64_parent_is_sum_of_children (d : Domain ℝ) (h : 0 < d.size) (ix : Index) (srcs : Fin 8 → List Src)
    (hc : ∀ c : Fin 8, AllRegular (d.centerFromIndex (ix.child c)) (srcs c))
    (hp : ∀ c : Fin 8, AllRegular (d.centerFromIndex ix) (srcs c)) :
    ∃ (M : Fin 8 → Coef) (N : Coef),
      (∀ c : Fin 8, sToM (d.centerFromIndex (ix.child c)) (scaleOf d.size (ix.level + 1)) (srcs c) = some (M c)) ∧
      sToM (d.centerFromIndex ix) (scaleOf d.size ix.level) ((List.finRange 8).flatMap srcs) = some N ∧
      ∀ n m, m ≤ n → ((List.finRange 8).map fun c : Fin 8 => mToM c (M c) n m).sum = N n m := by
  choose M hM hM' using fun c : Fin 8 => sToM_rep _ (scaleOf d.size (ix.level + 1)) (srcs c) (hc c)
  obtain ⟨N, hN, hN'⟩ := sToM_rep (d.centerFromIndex ix) (scaleOf d.size ix.level) ((List.finRange 8).flatMap srcs)
    (fun s hs => by obtain ⟨c, -, hc⟩ := List.mem_flatMap.1 hs; exact hp c s hc)
  refine ⟨M, N, hM, hN, fun n m hm => ?_⟩
  rw [hN' n m hm]
  have key : ∀ l : List (Fin 8), (l.map fun c : Fin 8 => mToM c (M c) n m).sum =
      rep (scaleOf d.size ix.level) (d.centerFromIndex ix) (l.flatMap srcs) n m := by
    intro l
    induction l with
    | nil => rfl
    | cons c l ih =>
      rw [List.map_cons, List.sum_cons, ih, List.flatMap_cons, rep_append, mToM_rep d h ix c c.2 (M c) (srcs c) (hM' c) n m hm]
      rfl
  exact key _

/-! ### C65: `L_to_L` is exact -/

/-- **C65** Shifting a local expansion to a child does not change the value any target gets from it. -/
theorem C65_l_to_l_exact (d : Domain ℝ) (h : 0 < d.size) (p : ℕ) (ix : Index) (c : Fin 8) (L : Coef) (hL : RealZonal L)
    (t : Point ℝ) (hc : Regular (t.sub (d.centerFromIndex (ix.child c)))) (hp : Regular (t.sub (d.centerFromIndex ix))) :
    ∃ v, lToT1 p (t.sub (d.centerFromIndex ix)) (scaleOf d.size ix.level) L = some v ∧
      lToT1 p (t.sub (d.centerFromIndex (ix.child c))) (scaleOf d.size (ix.level + 1)) (lToL p c L) = some v := by
  refine ⟨_, lToT1_eq p _ _ L (clear_of_regular hp).ne, ?_⟩
  rw [lToT1_eq p _ _ _ (clear_of_regular hc).ne, snap_of_clear _ (clear_of_regular hc), snap_of_clear _ (clear_of_regular hp),
    lToL_val d h p ix c c.2 L hL t]

/-- **C65** Every local expansion that is made meets the hypothesis. -/
theorem C65_locals_are_proper (p : ℕ) (c : Point ℝ) (s : ℝ) (srcs : List Src) (x y z : ℤ) (i : Fin 8)
    (L L' M : Coef) (hr : AllRegular c srcs) (hM : sToM c s srcs = some M) :
    (sToL c s srcs = some L → RealZonal L) ∧ RealZonal (mToL p s x y z M) ∧
    (RealZonal L → RealZonal (lToL p i L)) ∧ (RealZonal L → RealZonal L' → RealZonal (L + L')) := by
  obtain ⟨M', hM1, hM2⟩ := sToM_rep c s srcs hr
  obtain rfl : M' = M := by rw [hM1] at hM; exact Option.some.inj hM
  refine ⟨fun hL n => ?_, ?_, lToL_proper p i L, fun h1 h2 n => by simp [h1 n, h2 n]⟩
  · obtain ⟨L1, hL1, hL2⟩ := sToL_rep c s srcs hr
    rw [hL1] at hL
    rw [← Option.some.inj hL, hL2 n 0 (Nat.zero_le _)]
    exact repL_proper s c srcs n
  · rw [mToL_congr p s x y z M' _ hM2]
    exact mToL_proper p s x y z _ (rep_proper s c srcs)

/-! ### C66 – C68: the error of the expansions -/

/-- **C66** Sources to multipole expansion to a target farther from the centre than any source. -/
theorem C66_multipole_error (p : ℕ) (c : Point ℝ) (scale : ℝ) (hs : 0 < scale) (srcs : List Src) (t : Point ℝ)
    (hr : AllRegular c srcs) (ht : Regular (t.sub c)) (hsep : ∀ s ∈ srcs, (s.pos.sub c).norm < (t.sub c).norm) :
    ∃ M v, sToM c scale srcs = some M ∧ mToT1 p (t.sub c) scale M = some v ∧
      |v - potential srcs t| ≤ multipoleBound p c srcs t := by
  obtain ⟨M, hM, hM'⟩ := sToM_rep c scale srcs hr
  refine ⟨M, _, hM, mToT1_eq p _ _ M (clear_of_regular ht).ne, ?_⟩
  rw [snap_of_clear _ (clear_of_regular ht), mulVal_congr p scale M _ _ hM']
  exact rep_val_error p scale hs c t srcs hsep

/-- **C67** Sources to local expansion to a target nearer the centre than any source. -/
theorem C67_local_error (p : ℕ) (c : Point ℝ) (scale : ℝ) (hs : 0 < scale) (srcs : List Src) (t : Point ℝ)
    (hr : AllRegular c srcs) (ht : Regular (t.sub c)) (hsep : ∀ s ∈ srcs, (t.sub c).norm < (s.pos.sub c).norm) :
    ∃ L v, sToL c scale srcs = some L ∧ lToT1 p (t.sub c) scale L = some v ∧
      |v - potential srcs t| ≤ localBound p c srcs t := by
  obtain ⟨M, hM, hM'⟩ := sToL_rep c scale srcs hr
  refine ⟨M, _, hM, lToT1_eq p _ _ M (clear_of_regular ht).ne, ?_⟩
  rw [snap_of_clear _ (clear_of_regular ht), locVal_congr p scale M _ _ hM']
  exact repL_val_error p scale hs c t srcs hsep

/-- **C68** Sources in a box `a` to its multipole expansion, by `M_to_L` to a box `b` of the same level, to a
target. -/
theorem C68_translation_error (d : Domain ℝ) (h : 0 < d.size) (p : ℕ) (a b : Index) (hl : a.level = b.level)
    (srcs : List Src) (t : Point ℝ) (hr : AllRegular (d.centerFromIndex a) srcs)
    (ht : Regular (t.sub (d.centerFromIndex b)))
    (hsep : ∀ s ∈ srcs, (s.pos.sub (d.centerFromIndex a)).norm + (t.sub (d.centerFromIndex b)).norm <
      ((d.centerFromIndex a).sub (d.centerFromIndex b)).norm) :
    ∃ M v, sToM (d.centerFromIndex a) (scaleOf d.size a.level) srcs = some M ∧
      lToT1 p (t.sub (d.centerFromIndex b)) (scaleOf d.size b.level)
        (mToL p (scaleOf d.size a.level) (a.x - b.x) (a.y - b.y) (a.z - b.z) M) = some v ∧
      |v - potential srcs t| ≤ translationBound p (d.centerFromIndex a) (d.centerFromIndex b) srcs t := by
  obtain ⟨M, hM, hM'⟩ := sToM_rep _ (scaleOf d.size a.level) srcs hr
  refine ⟨M, _, hM, lToT1_eq p _ _ _ (clear_of_regular ht).ne, ?_⟩
  rw [snap_of_clear _ (clear_of_regular ht), mToL_congr p _ _ _ _ M _ hM', ← hl]
  exact trans_val_error d h p a b hl t srcs hsep

/-! ### C69: any number of shifts -/

theorem descend_level : ∀ (cs : List (Fin 8)) (ix : Index), (descend ix cs).level = ix.level + cs.length
  | [], ix => rfl
  | c :: cs, ix => by rw [descend, descend_level cs]; simp [Index.child]; omega

theorem upward_rep (d : Domain ℝ) (h : 0 < d.size) (srcs : List Src) : ∀ (cs : List (Fin 8)) (ix : Index) (M : Coef),
    (∀ n m, m ≤ n → M n m = rep (scaleOf d.size (descend ix cs).level) (d.centerFromIndex (descend ix cs)) srcs n m) →
    ∀ n m, m ≤ n → upward cs M n m = rep (scaleOf d.size ix.level) (d.centerFromIndex ix) srcs n m
  | [], _, _, hM => hM
  | c :: cs, ix, M, hM => mToM_rep d h ix c c.2 _ srcs (upward_rep d h srcs cs (ix.child c) M hM)

theorem downward_val (d : Domain ℝ) (h : 0 < d.size) (p : ℕ) (t : Point ℝ) : ∀ (cs : List (Fin 8)) (ix : Index) (L : Coef),
    Proper L →
    locVal p (scaleOf d.size (descend ix cs).level) (downward p cs L) (t.sub (d.centerFromIndex (descend ix cs))) =
      locVal p (scaleOf d.size ix.level) L (t.sub (d.centerFromIndex ix))
  | [], ix, L, _ => rfl
  | c :: cs, ix, L, hL => by
    rw [descend, downward, downward_val d h p t cs _ _ (lToL_proper p c L hL), ← lToL_val d h p ix c c.2 L hL t]
    rfl

/-- **C69** Sources in a leaf any number of levels below `a`, up to `a`, across to `b`, down to a leaf any number of
levels below `b`: the error is the same as without the shifts, and the sources and the target need to be regular
only for the centres of the two leaves. -/
theorem C69_shifts_do_not_add_error (d : Domain ℝ) (h : 0 < d.size) (p : ℕ) (a b : Index) (hl : a.level = b.level)
    (up down : List (Fin 8)) (srcs : List Src) (t : Point ℝ)
    (hr : AllRegular (d.centerFromIndex (descend a up)) srcs)
    (ht : Regular (t.sub (d.centerFromIndex (descend b down))))
    (hsep : ∀ s ∈ srcs, (s.pos.sub (d.centerFromIndex a)).norm + (t.sub (d.centerFromIndex b)).norm <
      ((d.centerFromIndex a).sub (d.centerFromIndex b)).norm) :
    ∃ M v, sToM (d.centerFromIndex (descend a up)) (scaleOf d.size (descend a up).level) srcs = some M ∧
      lToT1 p (t.sub (d.centerFromIndex (descend b down))) (scaleOf d.size (descend b down).level)
        (downward p down (mToL p (scaleOf d.size a.level) (a.x - b.x) (a.y - b.y) (a.z - b.z) (upward up M))) = some v ∧
      |v - potential srcs t| ≤ translationBound p (d.centerFromIndex a) (d.centerFromIndex b) srcs t := by
  obtain ⟨M, hM, hM'⟩ := sToM_rep _ (scaleOf d.size (descend a up).level) srcs hr
  refine ⟨M, _, hM, lToT1_eq p _ _ _ (clear_of_regular ht).ne, ?_⟩
  have hu := upward_rep d h srcs up a M hM'
  rw [snap_of_clear _ (clear_of_regular ht), mToL_congr p _ _ _ _ (upward up M) _ hu,
    downward_val d h p t down b _ (mToL_proper p _ _ _ _ _ (rep_proper _ _ _)), ← hl]
  exact trans_val_error d h p a b hl t srcs hsep

/-- **C69** The same without `M_to_L`: up from a leaf to `a`, and from there to the target. -/
theorem C69_multipole_after_shifts (d : Domain ℝ) (h : 0 < d.size) (p : ℕ) (a : Index) (up : List (Fin 8))
    (srcs : List Src) (t : Point ℝ) (hr : AllRegular (d.centerFromIndex (descend a up)) srcs)
    (ht : Regular (t.sub (d.centerFromIndex a)))
    (hsep : ∀ s ∈ srcs, (s.pos.sub (d.centerFromIndex a)).norm < (t.sub (d.centerFromIndex a)).norm) :
    ∃ M v, sToM (d.centerFromIndex (descend a up)) (scaleOf d.size (descend a up).level) srcs = some M ∧
      mToT1 p (t.sub (d.centerFromIndex a)) (scaleOf d.size a.level) (upward up M) = some v ∧
      |v - potential srcs t| ≤ multipoleBound p (d.centerFromIndex a) srcs t := by
  obtain ⟨M, hM, hM'⟩ := sToM_rep _ (scaleOf d.size (descend a up).level) srcs hr
  refine ⟨M, _, hM, mToT1_eq p _ _ _ (clear_of_regular ht).ne, ?_⟩
  rw [snap_of_clear _ (clear_of_regular ht), mulVal_congr p _ _ _ _ (upward_rep d h srcs up a M hM')]
  exact rep_val_error p _ (scaleOf_pos h _) _ t srcs hsep

/-- **C69** The same with `S_to_L`: from sources to `b`, and down to a leaf below `b`. -/
theorem C69_local_before_shifts (d : Domain ℝ) (h : 0 < d.size) (p : ℕ) (b : Index) (down : List (Fin 8))
    (srcs : List Src) (t : Point ℝ) (hr : AllRegular (d.centerFromIndex b) srcs)
    (ht : Regular (t.sub (d.centerFromIndex (descend b down))))
    (hsep : ∀ s ∈ srcs, (t.sub (d.centerFromIndex b)).norm < (s.pos.sub (d.centerFromIndex b)).norm) :
    ∃ L v, sToL (d.centerFromIndex b) (scaleOf d.size b.level) srcs = some L ∧
      lToT1 p (t.sub (d.centerFromIndex (descend b down))) (scaleOf d.size (descend b down).level) (downward p down L) = some v ∧
      |v - potential srcs t| ≤ localBound p (d.centerFromIndex b) srcs t := by
  obtain ⟨L, hL, hL'⟩ := sToL_rep (d.centerFromIndex b) (scaleOf d.size b.level) srcs hr
  refine ⟨L, _, hL, lToT1_eq p _ _ _ (clear_of_regular ht).ne, ?_⟩
  have hp : Proper L := fun n => by rw [hL' n 0 (Nat.zero_le _)]; exact repL_proper _ _ _ n
  rw [snap_of_clear _ (clear_of_regular ht), downward_val d h p t down b _ hp, locVal_congr p _ _ _ _ hL']
  exact repL_val_error p _ (scaleOf_pos h _) _ t srcs hsep

/-! ### C70: `S_to_T` -/

/-- **C70** The direct interaction is the sum of `q / |t - s|` over the sources elsewhere than at the target; there is no division by zero. -/
theorem C70_s_to_t_exact (srcs : List Src) (t : Point ℝ) : sToT1 srcs t = some (potential srcs t) := sToT1_eq srcs t

/-- **C70** The order of the sources and their division into leaves do not matter. -/
theorem C70_order_and_division (l l' : List Src) (t : Point ℝ) :
    (l.Perm l' → sToT1 l t = sToT1 l' t) ∧ sToT1 (l ++ l') t = some (potential l t + potential l' t) := by
  simp only [C70_s_to_t_exact]
  refine ⟨fun h => ?_, by simp [potential]⟩
  unfold potential
  rw [(h.map _).sum_eq]

/-- **C70** A source at the target adds nothing. -/
theorem C70_self_excluded (l l' : List Src) (s : Src) : sToT1 (l ++ s :: l') s.pos = sToT1 (l ++ l') s.pos := by
  simp [C70_s_to_t_exact, potential, norm_self]

/-! ### C71: tables and rotations -/

/-- **C71** The tables hold the square roots of the factorials and of the binomial coefficients. -/
theorem C71_tables (n m : ℕ) : sqf n = √(n.factorial) ∧ (m ≤ n → sqbinom n m = √(n.choose m)) := by
  constructor
  · induction n with
    | zero => simp [sqf]
    | succ n ih =>
      rw [sqf, ih, ← Real.sqrt_mul (by positivity), Nat.factorial_succ]
      congr 1; push_cast; ring
  · intro h; rw [sqbinom, binom_eq n m h]

theorem turnZ_eq : turnZ = rotZ := rfl

theorem turnY_eq (x : ℝ) (h1 : -1 ≤ x) (h2 : x ≤ 1) (v : Point ℝ) :
    turnY (Real.arccos x) v = rotY (Real.cos (Real.arccos x / 2)) (Real.sin (Real.arccos x / 2)) v := by
  have e1 := Real.cos_two_mul (Real.arccos x / 2)
  have e2 := Real.sin_two_mul (Real.arccos x / 2)
  have e3 := Real.cos_sq_add_sin_sq (Real.arccos x / 2)
  rw [show 2 * (Real.arccos x / 2) = Real.arccos x by ring] at e1 e2
  simp only [turnY, rotY, Point.mk.injEq]
  refine ⟨?_, trivial, ?_⟩ <;> rw [e1, e2]
  · linear_combination v.x * e3
  · linear_combination v.z * e3

theorem rep_rotZ (s α : ℝ) (l : List Src) : rotateZ (rep s ⟨0, 0, 0⟩ l) α =
    rep s ⟨0, 0, 0⟩ (l.map fun x => ⟨turnZ α x.pos, x.charge⟩) := by
  have hl := rotateZ_lin α
  induction l with
  | nil => exact lin_zero hl
  | cons x l ih =>
    rw [List.map_cons, rep_cons, rep_cons, hl.map_add, hl.map_smul, ih]
    congr 2
    rw [rotateZ_reg]
    congr 1
    simp only [turnZ, rotZ, psmul, Point.sub, Point.mk.injEq]
    refine ⟨?_, ?_, ?_⟩ <;> first | trivial | ring

theorem rep_rotY (s x : ℝ) (h1 : -1 ≤ x) (h2 : x ≤ 1) (l : List Src) (n m : ℕ) (hm : m ≤ n) :
    rotateY (rep s ⟨0, 0, 0⟩ l) (dmatPlus x) n m =
    rep s ⟨0, 0, 0⟩ (l.map fun y => ⟨turnY (Real.arccos x) y.pos, y.charge⟩) n m := by
  have hl := rotateY_lin (dmatPlus x)
  induction l with
  | nil => exact congrFun (congrFun (lin_zero hl) n) m
  | cons y l ih =>
    rw [List.map_cons, rep_cons, rep_cons, hl.map_add, hl.map_smul]
    simp only [Pi.add_apply, Pi.smul_apply]
    rw [ih, rotateY_reg _ _ _ _ (dmatPlus_is x) (cs_one _) n m hm]
    congr 3
    rw [turnY_eq x h1 h2]
    simp only [rotY, psmul, Point.sub, Point.mk.injEq]
    refine ⟨?_, ?_, ?_⟩ <;> first | trivial | ring

/-- **C71** Rotating an expansion is turning its sources: about the z-axis by any angle, about the y-axis by the
angle whose cosine selects the matrix. -/
theorem C71_rotation_turns_the_sources (scale : ℝ) (srcs : List Src) (α x : ℝ) (h1 : -1 ≤ x) (h2 : x ≤ 1)
    (hr : AllRegular ⟨0, 0, 0⟩ srcs)
    (hz : AllRegular ⟨0, 0, 0⟩ (srcs.map fun s => ⟨turnZ α s.pos, s.charge⟩))
    (hy : AllRegular ⟨0, 0, 0⟩ (srcs.map fun s => ⟨turnY (Real.arccos x) s.pos, s.charge⟩)) :
    ∃ M Mz My, sToM ⟨0, 0, 0⟩ scale srcs = some M ∧
      sToM ⟨0, 0, 0⟩ scale (srcs.map fun s => ⟨turnZ α s.pos, s.charge⟩) = some Mz ∧
      sToM ⟨0, 0, 0⟩ scale (srcs.map fun s => ⟨turnY (Real.arccos x) s.pos, s.charge⟩) = some My ∧
      ∀ n m, m ≤ n → rotateZ M α n m = Mz n m ∧ rotateY M (dmatPlus x) n m = My n m := by
  obtain ⟨M, hM, hM'⟩ := sToM_rep _ scale _ hr
  obtain ⟨Mz, hMz, hMz'⟩ := sToM_rep _ scale _ hz
  obtain ⟨My, hMy, hMy'⟩ := sToM_rep _ scale _ hy
  refine ⟨M, Mz, My, hM, hMz, hMy, fun n m hm => ⟨?_, ?_⟩⟩
  · rw [rotateZ_congr _ _ _ _ _ (hM' n m hm), hMz' n m hm, rep_rotZ]
  · rw [rotateY_congr _ _ _ n (hM' n) m, hMy' n m hm, rep_rotY scale x h1 h2 srcs n m hm]

/-- **C71** Turning back by the matrix for the opposite angle restores the expansion. -/
theorem C71_rotation_undone (c : Point ℝ) (scale : ℝ) (srcs : List Src) (α x : ℝ) (hr : AllRegular c srcs) :
    ∃ M, sToM c scale srcs = some M ∧
      ∀ n m, m ≤ n → rotateZ (rotateZ M α) (-α) n m = M n m ∧
        rotateY (rotateY M (dmatPlus x)) (dmatMinus x) n m = M n m := by
  obtain ⟨M, hM, hM'⟩ := sToM_rep c scale srcs hr
  refine ⟨M, hM, fun n m hm => ⟨?_, ?_⟩⟩
  · have e : (((Real.cos α : ℂ) + (Real.sin α : ℂ) * Complex.I) * ((Real.cos (-α) : ℂ) + (Real.sin (-α) : ℂ) * Complex.I)) = 1 := by
      rw [Real.cos_neg, Real.sin_neg]
      have := Real.cos_sq_add_sin_sq α
      have h2 : (Real.cos α : ℂ) ^ 2 + (Real.sin α : ℂ) ^ 2 = 1 := by exact_mod_cast this
      rw [Complex.ofReal_neg]
      linear_combination h2 - (Real.sin α : ℂ) ^ 2 * Complex.I_sq
    rw [rotateZ, rotateZ, mul_assoc, ← mul_pow, e, one_pow, mul_one]
  · have e1 : ∀ m, m ≤ n → rotateY M (dmatPlus x) n m = rotateY (rep scale c srcs) (dmatPlus x) n m := fun m _ =>
      rotateY_congr _ _ _ n (hM' n) m
    rw [rotateY_congr _ _ _ n e1 m, hM' n m hm]
    have l1 := rotateY_lin (dmatPlus x)
    have l2 := rotateY_lin (dmatMinus x)
    generalize srcs = l
    induction l with
    | nil => rw [rep_nil, lin_zero l1, lin_zero l2]
    | cons y l ih =>
      rw [rep_cons, l1.map_add, l1.map_smul, l2.map_add, l2.map_smul]
      simp only [Pi.add_apply, Pi.smul_apply]
      rw [ih]
      congr 2
      rw [rotateY_congr _ _ _ n (fun m hm => rotateY_reg _ _ _ _ (dmatPlus_is x) (cs_one _) n m hm) m,
        rotateY_reg _ _ _ _ (dmatMinus_is x) (by rw [neg_sq]; exact cs_one _) n m hm, rotY_rotY _ _ (cs_one _)]

/-! ### Concrete cases that meet the hypotheses -/

section Examples

/-- The unit cube. -/
noncomputable def lapDom : Domain ℝ := ⟨⟨0, 0, 0⟩, 1⟩

/-- The corner box of level 2 at the origin, and one three boxes away. -/
def lapA : Index := ⟨0, 0, 0, 2⟩
def lapB : Index := ⟨3, 0, 0, 2⟩

/-- Two charges in `lapA`. -/
noncomputable def lapSrcs : List Src := [⟨⟨1 / 5, 1 / 10, 1 / 10⟩, 1⟩, ⟨⟨1 / 20, 1 / 10, 1 / 5⟩, -2⟩]

theorem lapA_center : lapDom.centerFromIndex lapA = ⟨1 / 8, 1 / 8, 1 / 8⟩ := by
  simp only [Domain.centerFromIndex, Domain.sizeFromLevel, lapDom, lapA, Point.mk.injEq]; norm_num

theorem lapB_center : lapDom.centerFromIndex lapB = ⟨7 / 8, 1 / 8, 1 / 8⟩ := by
  simp only [Domain.centerFromIndex, Domain.sizeFromLevel, lapDom, lapB, Point.mk.injEq]; norm_num

theorem lapA0_center : lapDom.centerFromIndex (lapA.child (0 : Fin 8)) = ⟨1 / 16, 1 / 16, 1 / 16⟩ := by
  simp only [Domain.centerFromIndex, Domain.sizeFromLevel, lapDom, lapA, Index.child, Point.mk.injEq]; norm_num

theorem lapSrcs_regular : AllRegular (lapDom.centerFromIndex lapA) lapSrcs := by
  rw [lapA_center]
  intro s hs
  simp only [lapSrcs, List.mem_cons, List.not_mem_nil, or_false] at hs
  rcases hs with rfl | rfl <;> refine regular_of ?_ ?_ <;> simp only [Point.sub] <;> norm_num

theorem norm_le_of {v : Point ℝ} {r : ℝ} (hr : 0 ≤ r) (h : v.x * v.x + v.y * v.y + v.z * v.z ≤ r ^ 2) : v.norm ≤ r :=
  Real.sqrt_le_iff.2 ⟨hr, h⟩

/-- C63: a source at the centre of the root box. -/
example : sToM (lapDom.centerFromIndex ⟨0, 0, 0, 0⟩) 1 [⟨⟨1 / 2, 1 / 2, 1 / 2⟩, 1⟩] = none := by
  refine C63_source_at_centre_spoils_multipole _ _ _ ⟨_, List.mem_cons_self, ?_⟩
  simp only [Domain.centerFromIndex, Domain.sizeFromLevel, lapDom, Point.mk.injEq]; norm_num

/-- C64: one charge of a child, seen from the child and from its parent. -/
example : AllRegular (lapDom.centerFromIndex (lapA.child (0 : Fin 8))) [⟨⟨0, 1 / 10, 1 / 10⟩, 1⟩] ∧
    AllRegular (lapDom.centerFromIndex lapA) [⟨⟨0, 1 / 10, 1 / 10⟩, 1⟩] := by
  rw [lapA_center, lapA0_center]
  constructor <;> intro s hs <;> rw [List.mem_singleton] at hs <;> subst hs <;> refine regular_of ?_ ?_ <;>
    simp only [Point.sub] <;> norm_num

/-- C65, C68: charges in `lapA`, a target in `lapB`. -/
example (p : ℕ) : ∃ M v, sToM (lapDom.centerFromIndex lapA) (scaleOf 1 2) lapSrcs = some M ∧
    lToT1 p (Point.sub ⟨4 / 5, 1 / 10, 1 / 10⟩ (lapDom.centerFromIndex lapB)) (scaleOf 1 2)
      (mToL p (scaleOf 1 2) (-3) 0 0 M) = some v ∧
    |v - potential lapSrcs ⟨4 / 5, 1 / 10, 1 / 10⟩| ≤
      translationBound p (lapDom.centerFromIndex lapA) (lapDom.centerFromIndex lapB) lapSrcs ⟨4 / 5, 1 / 10, 1 / 10⟩ := by
  refine C68_translation_error lapDom (by norm_num [lapDom]) p lapA lapB rfl lapSrcs _ lapSrcs_regular ?_ ?_
  · rw [lapB_center]; refine regular_of ?_ ?_ <;> simp only [Point.sub] <;> norm_num
  · intro s hs
    rw [lapA_center, lapB_center]
    have hd : (Point.sub (⟨1 / 8, 1 / 8, 1 / 8⟩ : Point ℝ) ⟨7 / 8, 1 / 8, 1 / 8⟩).norm = 3 / 4 := by
      rw [Point.norm, show (3 / 4 : ℝ) = √((3 / 4) ^ 2) from (Real.sqrt_sq (by norm_num)).symm]
      congr 1; simp only [Point.sub]; norm_num
    have ht : (Point.sub (⟨4 / 5, 1 / 10, 1 / 10⟩ : Point ℝ) ⟨7 / 8, 1 / 8, 1 / 8⟩).norm ≤ 1 / 8 :=
      norm_le_of (by norm_num) (by simp only [Point.sub]; norm_num)
    have hs' : (s.pos.sub ⟨1 / 8, 1 / 8, 1 / 8⟩).norm ≤ 1 / 4 := by
      simp only [lapSrcs, List.mem_cons, List.not_mem_nil, or_false] at hs
      rcases hs with rfl | rfl <;> exact norm_le_of (by norm_num) (by simp only [Point.sub]; norm_num)
    rw [hd]; linarith

/-- C66, C67: a target far from the charges, and a charge far from the target. -/
example : (∀ s ∈ lapSrcs, (s.pos.sub (lapDom.centerFromIndex lapA)).norm <
      (Point.sub ⟨4 / 5, 1 / 10, 1 / 10⟩ (lapDom.centerFromIndex lapA)).norm) ∧
    Regular (Point.sub ⟨4 / 5, 1 / 10, 1 / 10⟩ (lapDom.centerFromIndex lapA)) := by
  rw [lapA_center]
  refine ⟨fun s hs => ?_, by refine regular_of ?_ ?_ <;> simp only [Point.sub] <;> norm_num⟩
  have h1 : (s.pos.sub ⟨1 / 8, 1 / 8, 1 / 8⟩).norm ≤ 1 / 4 := by
    simp only [lapSrcs, List.mem_cons, List.not_mem_nil, or_false] at hs
    rcases hs with rfl | rfl <;> exact norm_le_of (by norm_num) (by simp only [Point.sub]; norm_num)
  have h2 : (1 / 2 : ℝ) ≤ (Point.sub (⟨4 / 5, 1 / 10, 1 / 10⟩ : Point ℝ) ⟨1 / 8, 1 / 8, 1 / 8⟩).norm :=
    Real.le_sqrt_of_sq_le (by simp only [Point.sub]; norm_num)
  linarith

/-- C69: two levels up and three down; the leaves are what they should be. -/
example : descend ⟨0, 0, 0, 0⟩ [0, 1, 7] = ⟨3, 1, 1, 3⟩ := by decide

/-- C70: a charge at the target and one elsewhere. -/
example : sToT1 [⟨⟨0, 0, 0⟩, 5⟩, ⟨⟨2, 0, 0⟩, 6⟩] ⟨0, 0, 0⟩ = some 3 := by
  rw [C70_s_to_t_exact, Option.some.injEq]
  have : (Point.sub (⟨0, 0, 0⟩ : Point ℝ) ⟨2, 0, 0⟩).norm = 2 := by
    rw [Point.norm, show (2 : ℝ) = √(2 ^ 2) from (Real.sqrt_sq (by norm_num)).symm]
    congr 1; simp only [Point.sub]; norm_num
  simp only [potential, List.map_cons, List.map_nil, List.sum_cons, List.sum_nil, norm_self, this]; norm_num

end Examples

end Dashmm
