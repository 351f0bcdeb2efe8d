import Verif.Proofs.PlaneErr
import Verif.Proofs.PlaneBound
import Verif.Proofs.PlaneTable
import Verif.Props.LapFmm

/-!
# Plane waves of the Laplace kernel, and FMM97 (C75 – C77)
-/

namespace Dashmm

open Lap Harm Ev ExecState

/-! ### C75: the operators -/

/-- The displacement from `b` to `a` in units of a length `1 / s`. -/
def inUnits (s : ℝ) (a b : Point ℝ) : Point ℝ := ⟨s * (a.x - b.x), s * (a.y - b.y), s * (a.z - b.z)⟩

section Operators

variable (R : Rule) (p : ℕ) (d : Domain ℝ) (k n : Index)

/-- The calls for charges of the box `k`, a box `n` of the level above and its child `c`: `M_to_I`, `I_to_I` from `k` to `n`,
`I_to_L` from `n` to `c`, `L_to_T` for a target in `c`. -/
noncomputable def planeCalls (c : Fin 8) (M : Coef) (t : Point ℝ) : Option ℝ :=
  lToT1 p (t.sub (d.centerFromIndex (n.child c))) (scaleOf d.size (n.level + 1)) (iToL R c (scaleOf d.size n.level * 2)
    (iToI R ((k.x : ℤ) - 2 * n.x) ((k.y : ℤ) - 2 * n.y) ((k.z : ℤ) - 2 * n.z) (mToI R p M)))

variable {R p d k n}

theorem planeCalls_eq (c : Fin 8) {M : Coef} {srcs : List Src}
    (hM : ∀ i j, j ≤ i → M i j = rep (scaleOf d.size k.level) (d.centerFromIndex k) srcs i j) (t : Point ℝ)
    (ht : Regular (t.sub (d.centerFromIndex (n.child c)))) :
    planeCalls R p d k n c M t = some (planeVal R p d k n c (rep (scaleOf d.size k.level) (d.centerFromIndex k) srcs) t) := by
  rw [planeCalls, lToT1_eq p _ _ _ (clear_of_regular ht).ne, snap_of_clear _ (clear_of_regular ht), mToI_congr R p M _ hM]
  rfl

/-- **C75** If the child is separated from the source box, then there is one of the six directions, in whose frame the child
is two or three boxes ahead (and at most three aside), such that every target in the child gets from every charge what
the quadrature rule gives for their positions in that frame. If the child is not separated, it gets nothing. -/
theorem C75_plane_waves_apply_the_rule (hR : R.Even) (h : 0 < d.size) (hl : k.level = n.level + 1) (c : Fin 8)
    (hx : -2 ≤ (k.x : ℤ) - 2 * n.x ∧ (k.x : ℤ) - 2 * n.x ≤ 3) (hy : -2 ≤ (k.y : ℤ) - 2 * n.y ∧ (k.y : ℤ) - 2 * n.y ≤ 3)
    (hz : -2 ≤ (k.z : ℤ) - 2 * n.z ∧ (k.z : ℤ) - 2 * n.z ≤ 3) (srcs : List Src) (hr : AllRegular (d.centerFromIndex k) srcs) :
    let s := scaleOf d.size k.level
    let D := inUnits s (d.centerFromIndex (n.child c)) (d.centerFromIndex k)
    ∃ M, sToM (d.centerFromIndex k) s srcs = some M ∧
      (Separated k (n.child c) → ∃ (v : ℕ) (x y z : ℤ), v < 6 ∧ turn v D = ⟨x, y, z⟩ ∧ |x| ≤ 3 ∧ |y| ≤ 3 ∧ 2 ≤ z ∧ z ≤ 3 ∧
        ∀ t, Regular (t.sub (d.centerFromIndex (n.child c))) → planeCalls R p d k n c M t = some ((srcs.map fun q =>
          q.charge * (s * planeKernel R p (turn v (inUnits s q.pos (d.centerFromIndex k))) ⟨x, y, z⟩
            (turn v (inUnits s t (d.centerFromIndex (n.child c)))))).sum)) ∧
      (¬ Separated k (n.child c) → ∀ t, Regular (t.sub (d.centerFromIndex (n.child c))) → planeCalls R p d k n c M t = some 0) := by
  intro s D
  obtain ⟨M, hM, hM'⟩ := sToM_rep _ s srcs hr
  refine ⟨M, hM, ?_⟩
  rw [← farOct_separated hl c.2]
  have hsc : scaleOf d.size n.level * 2 = s := by show _ = scaleOf d.size k.level; rw [hl, scaleOf_succ]; ring
  have hD : D = disp ((k.x : ℤ) - 2 * n.x) ((k.y : ℤ) - 2 * n.y) ((k.z : ℤ) - 2 * n.z) c := disp_eq d h k n c c.2 hl
  have hval : ∀ (u t : Point ℝ), planeVal R p d k n c (reg u) t = ∑ i ∈ Finset.range (p + 1), (form (iToL R c s
      (iToI R ((k.x : ℤ) - 2 * n.x) ((k.y : ℤ) - 2 * n.y) ((k.z : ℤ) - 2 * n.z) (mToI R p (reg u)))) (psmul s (t.sub (d.centerFromIndex (n.child c)))) i).re :=
    fun u t => by unfold planeVal locVal; rw [hsc, ← hl]
  constructor
  · intro hf
    obtain ⟨v, x, y, z, h0, h1, h2, h3, h4, h5, h6⟩ := (plane_unit R hR p c c.2 _ _ _ hx hy hz).1 hf
    refine ⟨v, x, y, z, h0, by rw [hD]; exact h1, h2, h3, h4, h5, fun t ht => ?_⟩
    rw [planeCalls_eq c hM' t ht]
    congr 1
    clear hM hM' hr
    induction srcs with
    | nil => rw [rep_nil, planeVal_zero]; rfl
    | cons q l ih =>
      rw [rep_cons, planeVal_add, planeVal_smul, hval, h6, ih, List.map_cons, List.sum_cons]
      rfl
  · intro hf t ht
    have hf : farOct ((k.x : ℤ) - 2 * n.x) ((k.y : ℤ) - 2 * n.y) ((k.z : ℤ) - 2 * n.z) c = false := by simpa using hf
    rw [planeCalls_eq c hM' t ht]
    congr 1
    clear hM hM' hr
    induction srcs with
    | nil => rw [rep_nil, planeVal_zero]
    | cons q l ih =>
      rw [rep_cons, planeVal_add, planeVal_smul, hval, (plane_unit R hR p c c.2 _ _ _ hx hy hz).2 hf, ih]; simp

/-- **C75** The frames keep distances. -/
theorem C75_frames_keep_distances (v : ℕ) (a b : Point ℝ) :
    ((turn v a).sub (turn v b)).norm = (a.sub b).norm := by
  refine norm_congr_sq _ _ ?_
  rcases v with _ | _ | _ | _ | _ | v <;> simp only [turn, Point.sub] <;> ring

/-- **C75** With a rule of relative accuracy `ε` the error at a target is at most `ε` times the potential of the absolute
charges. -/
theorem C75_translation_error {ε : ℝ} (hR : R.Even) (hA : R.Accurate p ε) (h : 0 < d.size) (hl : k.level = n.level + 1) (c : Fin 8)
    (hx : -2 ≤ (k.x : ℤ) - 2 * n.x ∧ (k.x : ℤ) - 2 * n.x ≤ 3) (hy : -2 ≤ (k.y : ℤ) - 2 * n.y ∧ (k.y : ℤ) - 2 * n.y ≤ 3)
    (hz : -2 ≤ (k.z : ℤ) - 2 * n.z ∧ (k.z : ℤ) - 2 * n.z ≤ 3) (hs : Separated k (n.child c))
    (srcs : List Src) (hr : AllRegular (d.centerFromIndex k) srcs) (hb : ∀ q ∈ srcs, InCube d k q.pos)
    (t : Point ℝ) (ht : Regular (t.sub (d.centerFromIndex (n.child c)))) (hbt : InCube d (n.child c) t) :
    ∃ M v, sToM (d.centerFromIndex k) (scaleOf d.size k.level) srcs = some M ∧ planeCalls R p d k n c M t = some v ∧
      |v - potential srcs t| ≤ ε * absPotential srcs t := by
  obtain ⟨M, hM, hM'⟩ := sToM_rep _ (scaleOf d.size k.level) srcs hr
  refine ⟨M, _, hM, planeCalls_eq c hM' t ht, ?_⟩
  refine ((planeVal_error hR hA h hl c.2 hx hy hz srcs hb t hbt).1 hs).trans (le_of_eq ?_)
  unfold absPotential
  rw [← List.sum_map_mul_left]
  congr 1
  refine List.map_congr_left fun q _ => ?_
  split_ifs with h0
  · rw [h0]; simp
  · ring

end Operators

/-! ### C76: the tables -/

/-- **C76** The literals of the three tables agree with each other. -/
theorem C76_tables_consistent : table3.Ok ∧ table6.Ok ∧ table9.Ok := ⟨table3_ok, table6_ok, table9_ok⟩

/-- **C76** In a consistent table every place the operators compute is within the array and holds the entry meant. -/
theorem C76_places {T : PlaneTable} (h : T.Ok) (p : ℕ) :
    (∀ k < T.s, ∀ j, 1 ≤ j → j ≤ T.rule.m k / 2 → ∀ x : ℤ, -3 ≤ x → x ≤ 3 →
      PlaneTable.at? T.xsArr (((T.sm.getD k 0 + (j - 1) : ℕ) : ℤ) * 7 + 3 + x) = some (T.rule.xs k j x) ∧
      PlaneTable.at? T.ysArr (((T.sm.getD k 0 + (j - 1) : ℕ) : ℤ) * 7 + 3 + x) = some (T.rule.ys k j x)) ∧
    (∀ k < T.s, ∀ z < 4, T.zsArr[4 * k + z]? = some (T.rule.zs k z)) ∧
    (∀ k < T.s, ∀ n ≤ p, ∀ m ≤ n, (T.lamArr p)[k * ((p + 1) * (p + 2) / 2) + (n * (n + 1) / 2 + m)]? = some (T.rule.lamknm k n m)) ∧
    (∀ k < T.s, ∀ j, 1 ≤ j → j ≤ T.rule.m k / 2 → ∀ m, 1 ≤ m → m ≤ T.rule.f k →
      T.eaArr[T.smf.getD k 0 + (j - 1) * T.rule.f k + (m - 1)]? = some (T.rule.ealpha k j m)) ∧
    ∀ W : Wave, (T.flat W).length = T.nexp ∧ ∀ k < T.s, ∀ j, 1 ≤ j → j ≤ T.rule.m k / 2 →
      (T.flat W)[T.sm.getD k 0 + (j - 1)]? = some (W k j) := by
  refine ⟨fun k hk j h1 h2 x hx1 hx2 => ?_, (PlaneTable.zs_at T).2, (PlaneTable.lam_at T p).2, fun k hk j h1 h2 m m1 m2 => ?_,
    fun W => ⟨(h.flat_at W).1, fun k hk j h1 h2 => ?_⟩⟩
  · have e1 := h.xs_at.2 k hk (j - 1) (by omega) (3 + x).toNat (by omega)
    have e2 := h.ys_at.2 k hk (j - 1) (by omega) (3 + x).toNat (by omega)
    rw [show ((3 + x).toNat : ℤ) - 3 = x by omega, show j - 1 + 1 = j by omega] at e1 e2
    unfold PlaneTable.at?
    rw [if_pos (by omega), if_pos (by omega), ← e1, ← e2]
    constructor <;> congr 1 <;> omega
  · have := h.ea_at.2 k hk (j - 1) (by omega) (m - 1) (by omega)
    rwa [show j - 1 + 1 = j by omega, show m - 1 + 1 = m by omega] at this
  · have := (h.flat_at W).2 k hk (j - 1) (by omega)
    rwa [show j - 1 + 1 = j by omega] at this

/-- **C76** The shift on arrays never reads out of range for the shifts of `I_to_I` and `I_to_L` (C38) and is the shift of the
model. -/
theorem C76_shift_on_arrays {T : PlaneTable} (h : T.Ok) (W : Wave) (x y z : ℤ) (hs : shiftInTable x y z) :
    T.eToEArr (T.flat W) x y z = some (T.flat (eToE T.rule W x y z)) := h.eToE_arr W x y z hs

/-- **C76** For three and nine digits the constructor makes the table of that accuracy and loses nothing; for six digits it
makes the table for nine digits, and the arrays of the table for six digits are lost; for any other number it makes no
table. -/
theorem C76_construct (n : ℕ) : construct n =
    if n = 3 then (some table3, []) else if n = 6 then (some table9, [table6]) else if n = 9 then (some table9, []) else (none, []) := by
  by_cases h3 : n = 3
  · subst h3; rfl
  by_cases h6 : n = 6
  · subst h6; rfl
  by_cases h9 : n = 9
  · subst h9; rfl
  · rw [if_neg h3, if_neg h6, if_neg h9]
    have e : ∀ m : ℕ, m ≠ n → (decide (m ≠ n)) = true := fun m h => decide_eq_true h
    simp only [construct, switchCases, List.dropWhile, e 3 (Ne.symm h3), e 6 (Ne.symm h6), e 9 (Ne.symm h9), runCases]

/-- **C76** The table made for six digits is not the one written for six digits. -/
theorem C76_six_digits_is_nine : (construct 6).1 = some table9 ∧ table9.s ≠ table6.s := ⟨rfl, by decide⟩

/-! ### C77: FMM97 -/

/-- The accuracy is monotone. -/
theorem Lap.Rule.Accurate.mono {R : Rule} {p : ℕ} {ε ε' : ℝ} (h : R.Accurate p ε) (hε : ε ≤ ε') : R.Accurate p ε' :=
  fun a b x y z ha hb hx hy hz1 hz2 => (h a b x y z ha hb hx hy hz1 hz2).trans
    (mul_le_mul_of_nonneg_right hε (by rw [one_div]; exact inv_nonneg.2 (norm_nonneg' _)))

/-- **C77** FMM97 with the Laplace kernel: when the evaluation has finished every target holds what it held at first plus its
potential, with a relative error (as in C72) of at most the greater one of the bound of C72 and the error `ε` of the
quadrature rule. -/
theorem C77_fmm97_accuracy {unif : Nat} {same : Bool} {s t : Fin 8 → Oct} {acts : List Act}
    (hr : Runs (createProg FMM97 unif same s t) acts) {D : LapData} (hp : D.Placed s) (hc : D.Clear acts)
    (hE : D.rule.Even) {ε : ℝ} (hA : D.rule.Accurate D.p ε)
    {loc : Ref → Nat} {n k : Nat} {S : Sys Ref Edge LapVal} (hS : Sys.Steps (lapDag D acts) loc n k S)
    (hl : ∀ r ∈ (lapDag D acts).watched, loc r < n) (hd : ∀ k < n, S.Done k)
    {r : Ref} (hn : r ∈ nodesOf acts) (hs : r.side = .tgt) (hk : r.kind = .parts)
    {i : ℕ} {x : Point ℝ} (hx : (D.tgts r.ix)[i]? = some x) :
    ∃ v : ℝ, (S.ex.acc r).2.2 i = (v : WithTop ℝ) ∧
      |v - D.phi r.ix i - potential (D.all s) x| ≤ max (fmmEps D.p) ε * absPotential (D.all s) x :=
  lap_evaluation FMM97_delivers hr (FMM97_safe hr) (FMM97_ranked hr) ((fmmEps_nonneg _).trans (le_max_left _ _)) hp
    (fmm97_lapEdge hr hp hc hE (hA.mono (le_max_right _ _)) (le_max_left _ _)) hS hl hd hn hs hk hx

/-! ### Concrete cases -/

section Examples

/-- C75, C76: the table for three digits is a rule as needed, and it has some accuracy. -/
theorem rule3_even : rule3.Even := table3_ok.ruleEven

/-- C75: a source in the box `(3, 1, 1, 2)`, targets in the children of `(0, 0, 0, 1)`; the first child is separated. -/
example (p : ℕ) : ∃ (ε : ℝ) (M : Coef) (v : ℝ), sToM ⟨14, 6, 6⟩ (scaleOf 16 2) [⟨⟨131 / 10, 61 / 10, 57 / 10⟩, 5⟩] = some M ∧
    planeCalls rule3 p ⟨⟨0, 0, 0⟩, 16⟩ ⟨3, 1, 1, 2⟩ ⟨0, 0, 0, 1⟩ 0 M ⟨11 / 10, 13 / 10, 22 / 10⟩ = some v ∧
    |v - potential [⟨⟨131 / 10, 61 / 10, 57 / 10⟩, 5⟩] ⟨11 / 10, 13 / 10, 22 / 10⟩| ≤
      ε * absPotential [⟨⟨131 / 10, 61 / 10, 57 / 10⟩, 5⟩] ⟨11 / 10, 13 / 10, 22 / 10⟩ := by
  obtain ⟨ε, -, hA⟩ := exists_accurate rule3 p
  have ec : (⟨⟨0, 0, 0⟩, 16⟩ : Domain ℝ).centerFromIndex ⟨3, 1, 1, 2⟩ = ⟨14, 6, 6⟩ := by
    simp only [Domain.centerFromIndex, Domain.sizeFromLevel]; norm_num
  have et : (⟨⟨0, 0, 0⟩, 16⟩ : Domain ℝ).centerFromIndex ((⟨0, 0, 0, 1⟩ : Index).child ((0 : Fin 8) : ℕ)) = ⟨2, 2, 2⟩ := by
    rw [show (⟨0, 0, 0, 1⟩ : Index).child ((0 : Fin 8) : ℕ) = ⟨0, 0, 0, 2⟩ from rfl]
    simp only [Domain.centerFromIndex, Domain.sizeFromLevel]; norm_num
  have := C75_translation_error (R := rule3) (p := p) (d := ⟨⟨0, 0, 0⟩, 16⟩) (k := ⟨3, 1, 1, 2⟩) (n := ⟨0, 0, 0, 1⟩) rule3_even hA (by norm_num)
    rfl 0 (by decide) (by decide) (by decide) ((farOct_separated rfl (by decide)).1 (by decide +kernel)) [⟨⟨131 / 10, 61 / 10, 57 / 10⟩, 5⟩]
    (by rw [ec]; intro q hq; simp at hq; subst hq; refine regular_of ?_ ?_ <;> simp only [Point.sub] <;> norm_num)
    (by intro q hq; simp at hq; subst hq; unfold InCube; rw [ec]; simp only [Domain.sizeFromLevel, abs_le]; norm_num)
    ⟨11 / 10, 13 / 10, 22 / 10⟩
    (by rw [et]; refine regular_of ?_ ?_ <;> simp only [Point.sub] <;> norm_num)
    (by unfold InCube; rw [et]; rw [show ((⟨0, 0, 0, 1⟩ : Index).child ((0 : Fin 8) : ℕ)).level = 2 from rfl]
        simp only [Domain.sizeFromLevel, abs_le]; norm_num)
  rw [ec] at this
  exact ⟨ε, this⟩

/-- C75: a source box with a separated child and a child that is its neighbour. -/
example : ¬ Separated ⟨2, 1, 1, 2⟩ ((⟨0, 0, 0, 1⟩ : Index).child 7) ∧ Separated ⟨2, 1, 1, 2⟩ ((⟨0, 0, 0, 1⟩ : Index).child 0) := by
  constructor
  · rw [← farOct_separated rfl (by decide)]; decide +kernel
  · rw [← farOct_separated rfl (by decide)]; decide +kernel

/-- C77: the DAG of FMM97 for this tree has edges between intermediate expansions. -/
example : ∃ e ∈ edgesOf (createDag FMM97 2 true exFar exFar), e.op = .ItoI := by decide +kernel

/-- C77: FMM97 on two ranks. -/
example (p : ℕ) : ∃ ε k S, Sys.Steps (lapDag (exLap p) (createDag FMM97 2 true exFar exFar)) (fun r => r.ix.level % 2) 2 k S ∧
    (∀ k < 2, S.Done k) ∧ ∃ v : ℝ, (S.ex.acc ⟨.tgt, ⟨0, 0, 0, 2⟩, .parts⟩).2.2 1 = (v : WithTop ℝ) ∧
      |v - 1 - potential ((exLap p).all exFar) ⟨31 / 10, 1, 1⟩| ≤
        max (fmmEps p) ε * absPotential ((exLap p).all exFar) ⟨31 / 10, 1, 1⟩ := by
  obtain ⟨ε, -, hA⟩ := exists_accurate rule3 p
  have hr := createDag_runs FMM97 2 true exFar exFar
  obtain ⟨k, S, hS, hd⟩ := exists_lap_done (exLap p) (FMM97_safe hr) (FMM97_ranked hr) (by decide +kernel)
    (loc := fun r => r.ix.level % 2) (n := 2) (fun r => Nat.mod_lt _ (by omega))
  refine ⟨ε, k, S, hS, hd, ?_⟩
  have := C77_fmm97_accuracy hr (exLap_placed p) (exLap_clear p (by decide +kernel)) rule3_even hA hS
    (fun r _ => Nat.mod_lt _ (by omega)) hd
    (r := ⟨.tgt, ⟨0, 0, 0, 2⟩, .parts⟩) (by decide +kernel) rfl rfl (i := 1) (x := ⟨31 / 10, 1, 1⟩) (by simp [exLap])
  simpa [exLap] using this

end Examples

end Dashmm
