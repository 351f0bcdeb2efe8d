import Verif.Proofs.HelmBack
import Verif.Proofs.YukPlane
import Verif.Props.HelmShift

/-!
# The plane waves of the Helmholtz kernel: from sources to targets
-/

namespace Dashmm.Helm

open Harm Lap Waves
open Complex (I)

noncomputable section

/-! ### Sums over angles -/

/-- The phases of a level, for `cnt` angles. -/
def Phases (L : Level) (cnt : ℕ → ℕ) : Prop := ∀ k < L.s, ∀ j, 1 ≤ j → j ≤ cnt k → ∀ m, 1 ≤ m → m ≤ L.f k →
  Yukawa.ealpha L k j m = Complex.exp ((m : ℂ) * (L.angle k j : ℝ) * I)

/-- The waves of all angles from those of half of them. -/
def fullW (L : Level) (W : Wave) : Wave := fun k j => if j ≤ L.m k / 2 then W k j else starRingEnd ℂ (W k (j - L.m k / 2))

theorem angle_half (L : Level) (k : ℕ) (h1 : 0 < L.m k) (h2 : L.m k % 2 = 0) (j : ℕ) : L.angle k (j + L.m k / 2) = L.angle k j + Real.pi := by
  unfold Level.angle
  have e : ((L.m k / 2 : ℕ) : ℝ) = L.m k / 2 := by
    have : (L.m k : ℝ) = ((2 * (L.m k / 2) : ℕ) : ℝ) := by congr 1; omega
    rw [this]; push_cast; ring
  have h0 : (L.m k : ℝ) ≠ 0 := by exact_mod_cast h1.ne'
  push_cast [e]; field_simp

theorem phase_of (L : Level) {cnt : ℕ → ℕ} (he : Phases L cnt) (k : ℕ) (hk : k < L.s) (j : ℕ) (h1 : 1 ≤ j) (h2 : j ≤ cnt k) (m : ℤ) (hm : m ≠ 0)
    (hf : m.natAbs ≤ L.f k) : (if 0 < m then starRingEnd ℂ (Yukawa.ealpha L k j m.natAbs) else Yukawa.ealpha L k j m.natAbs) =
      Complex.exp (-(m * (L.angle k j : ℝ) * I)) := by
  rw [he k hk j h1 h2 m.natAbs (by omega) hf]
  split_ifs with h
  · obtain ⟨i, rfl⟩ := Int.eq_ofNat_of_zero_le h.le
    rw [← Complex.exp_conj]
    congr 1
    simp
  · obtain ⟨i, hi⟩ := Int.eq_ofNat_of_zero_le (by omega : 0 ≤ -m)
    obtain rfl : m = -(i : ℤ) := by omega
    congr 1
    simp

theorem sum_full (L : Level) (W : Wave) (k : ℕ) (h1 : 0 < L.m k) (h2 : L.m k % 2 = 0) (m : ℤ) :
    ∑ j ∈ Finset.Icc 1 (L.m k), fullW L W k j * Complex.exp (-(m * (L.angle k j : ℝ) * I)) =
      ∑ j ∈ Finset.Icc 1 (L.m k / 2), (W k j + (powM1 m : ℂ) * starRingEnd ℂ (W k j)) * Complex.exp (-(m * (L.angle k j : ℝ) * I)) := by
  have hmm : Finset.Icc 1 (L.m k) = Finset.Icc 1 (L.m k / 2 + L.m k / 2) := by congr 1; omega
  rw [hmm, sum_Icc_shift, ← Finset.sum_add_distrib]
  refine Finset.sum_congr rfl fun j hj => ?_
  rw [Finset.mem_Icc] at hj
  have hz : Complex.exp (-(m * (L.angle k (j + L.m k / 2) : ℝ) * I)) = (powM1 m : ℂ) * Complex.exp (-(m * (L.angle k j : ℝ) * I)) := by
    rw [angle_half L k h1 h2, show -((m : ℂ) * ((L.angle k j + Real.pi : ℝ) : ℂ) * I) = ((-m : ℤ) : ℂ) * (Real.pi * I) + -((m : ℂ) * (L.angle k j : ℝ) * I) by
      push_cast; ring, Complex.exp_add, Complex.exp_int_mul, Complex.exp_pi_mul_I]
    congr 1
    rw [← powM1_neg]
    rcases Int.emod_two_eq_zero_or_one m with h | h
    · rw [powM1, if_neg (by omega), (Int.even_iff.2 (by omega) : Even (-m)).neg_one_zpow]; simp
    · rw [powM1, if_pos (by omega), (Int.odd_iff.2 (by omega) : Odd (-m)).neg_one_zpow]; simp
  rw [fullW, if_pos hj.2, fullW, if_neg (by omega), Nat.add_sub_cancel, hz]
  ring

theorem zEvan_full (L : Level) (hL : ∀ k < L.s, 0 < L.m k ∧ L.m k % 2 = 0) (he : Phases L L.half) (E : List ℂ) (W : Wave)
    (hE : ∀ k < L.s, ∀ j, 1 ≤ j → j ≤ L.m k / 2 → E[L.sm k + (j - 1)]? = some (W k j)) (k : ℕ) (hk : k < L.s) (m : ℤ) (hm : m.natAbs ≤ L.f k) :
    zEvan L E k m = ∑ j ∈ Finset.Icc 1 (L.m k), fullW L W k j * Complex.exp (-(m * (L.angle k j : ℝ) * I)) := by
  rw [sum_full L W k (hL k hk).1 (hL k hk).2]
  have hj : ∀ j ∈ Finset.Icc 1 (L.m k / 2), E.getD (L.sm k + j - 1) 0 = W k j := by
    intro j hj
    rw [Finset.mem_Icc] at hj
    rw [List.getD_eq_getElem?_getD, show L.sm k + j - 1 = L.sm k + (j - 1) by omega, hE k hk j hj.1 hj.2, Option.getD_some]
  unfold zEvan
  simp only
  by_cases h0 : m = 0
  · rw [if_pos h0]
    subst h0
    refine Finset.sum_congr rfl fun j h => ?_
    rw [hj j h, ← Complex.add_conj]
    simp [powM1]
  by_cases h1 : m.natAbs % 2 = 1
  · rw [if_neg h0, if_pos h1]
    refine Finset.sum_congr rfl fun j h => ?_
    have hp := phase_of L he k hk j (Finset.mem_Icc.1 h).1 (Finset.mem_Icc.1 h).2 m h0 hm
    rw [hj j h, hp, powM1, if_pos (by omega)]
    push_cast; ring
  · rw [if_neg h0, if_neg h1]
    refine Finset.sum_congr rfl fun j h => ?_
    have hp := phase_of L he k hk j (Finset.mem_Icc.1 h).1 (Finset.mem_Icc.1 h).2 m h0 hm
    rw [hj j h, hp, powM1, if_neg (by omega)]
    push_cast; ring

theorem zProp_full (L : Level) (he : Phases L L.m) (E : List ℂ) (W : Wave)
    (hE : ∀ k < L.s, ∀ j, 1 ≤ j → j ≤ L.m k → E[L.sm k + (j - 1)]? = some (W k j)) (k : ℕ) (hk : k < L.s) (m : ℤ) (hm : m.natAbs ≤ L.f k) :
    zProp L E k m = ∑ j ∈ Finset.Icc 1 (L.m k), W k j * Complex.exp (-(m * (L.angle k j : ℝ) * I)) := by
  have hj : ∀ j ∈ Finset.Icc 1 (L.m k), E.getD (L.sm k + j - 1) 0 = W k j := by
    intro j hj
    rw [Finset.mem_Icc] at hj
    rw [List.getD_eq_getElem?_getD, show L.sm k + j - 1 = L.sm k + (j - 1) by omega, hE k hk j hj.1 hj.2, Option.getD_some]
  unfold zProp
  simp only
  split_ifs with h0 h1
  · subst h0
    refine Finset.sum_congr rfl fun j h => ?_
    rw [hj j h]; simp
  · refine Finset.sum_congr rfl fun j h => ?_
    have hp := phase_of L he k hk j (Finset.mem_Icc.1 h).1 (Finset.mem_Icc.1 h).2 m h0 hm
    rw [if_pos h1] at hp
    rw [hj j h, hp, mul_comm]
  · refine Finset.sum_congr rfl fun j h => ?_
    have hp := phase_of L he k hk j (Finset.mem_Icc.1 h).1 (Finset.mem_Icc.1 h).2 m h0 hm
    rw [if_neg h1] at hp
    rw [hj j h, hp, mul_comm]

/-- The weights of the evanescent waves. -/
def wtE (T : PlaneTable) (L : Level) (wd : ℝ) (k : ℕ) : ℂ := -I / wd * ((T.rule.wt k / L.m k : ℝ) : ℂ)

/-- The weights of the propagating waves. -/
def wtP (Q : PropRule) (L : Level) (k : ℕ) : ℂ := ((Q.w k / L.m k : ℝ) : ℂ)

theorem backL_sum (T : PlaneTable) (Q : PropRule) (L : Level × Level) (size om scale : ℝ) (hL : ∀ k < L.1.s, 0 < L.1.m k ∧ L.1.m k % 2 = 0)
    (he : Phases L.1 L.1.half) (hp : Phases L.2 L.2.m) (P E : List ℂ) (We Wp : Wave)
    (hE : ∀ k < L.1.s, ∀ j, 1 ≤ j → j ≤ L.1.m k / 2 → E[L.1.sm k + (j - 1)]? = some (We k j))
    (hP : ∀ k < L.2.s, ∀ j, 1 ≤ j → j ≤ L.2.m k → P[L.2.sm k + (j - 1)]? = some (Wp k j)) (n : ℕ) (m : ℤ) (hm : |m| ≤ n) :
    backL T Q L size om scale P E true n m =
      (backSum L.1 (fullW L.1 We) (wtE T L.1 (wdOf size om scale)) (fun k n m => I ^ m * (legE T size om scale k n m : ℂ)) +
        backSum L.2 Wp (wtP Q L.2) (legP Q scale)) n m := by
  have hc : ∀ f : ℕ, (m.natAbs ≤ if n ≤ f then n else f) ↔ m.natAbs ≤ f := by
    intro f
    rw [Int.abs_eq_natAbs] at hm
    split_ifs <;> omega
  rw [Pi.add_apply, Pi.add_apply, backSum, backSum, ← add_mul, backL]
  simp only [Bool.not_true, Bool.false_and, Bool.false_eq_true, if_false]
  congr 2
  · rw [backEvan]
    refine Finset.sum_congr rfl fun k hk => ?_
    simp only [hc]
    split_ifs with h
    · rw [zEvan_full L.1 hL he E We hE k (Finset.mem_range.1 hk) m h]
      refine congrArg (_ * ·) ?_
      have e : (⟨0, -T.rule.wt k / wdOf size om scale / L.1.m k⟩ : ℂ) = wtE T L.1 (wdOf size om scale) k := by
        rw [Complex.mk_eq_add_mul_I, wtE]; push_cast; ring
      rw [e]; ring
    · rfl
  · rw [backProp]
    refine Finset.sum_congr rfl fun k hk => ?_
    simp only [hc]
    split_ifs with h
    · rw [zProp_full L.2 hp P Wp hP k (Finset.mem_range.1 hk) m h, wtP]
      ring
    · rfl

/-! ### Frames -/

theorem val_congr (L L' : LCoef) (b : Point ℝ) (n : ℕ) (h : ∀ m : ℤ, |m| ≤ n → L n m = L' n m) : val L b n = val L' b n := by
  refine Finset.sum_congr rfl fun m hm => ?_
  rw [xt, xt, h m (by rw [abs_le]; exact Finset.mem_Icc.1 hm)]

theorem val_neg (L : LCoef) (b : Point ℝ) (n : ℕ) : val L ⟨-b.x, -b.y, -b.z⟩ n = (-1) ^ n * val L b n := by
  rw [val, val, Finset.mul_sum]
  refine Finset.sum_congr rfl fun m _ => ?_
  have : nrm ⟨-b.x, -b.y, -b.z⟩ n m = (-1) ^ n * nrm b n m := by
    unfold nrm
    rw [har_homog']; ring
  rw [this, map_mul, map_pow, map_neg, map_one]; ring

theorem val_false (T : PlaneTable) (Q : PropRule) (L : Level × Level) (size om scale : ℝ) (P E : List ℂ) (b : Point ℝ) (n : ℕ) :
    val (backL T Q L size om scale P E false) b n = val (backL T Q L size om scale P E true) ⟨-b.x, -b.y, -b.z⟩ n := by
  rw [val_neg, val, val, Finset.mul_sum]
  refine Finset.sum_congr rfl fun m _ => ?_
  rw [xt, xt]
  generalize (if 0 ≤ m then (-1 : ℂ) ^ m.natAbs else 1) = sg
  unfold backL
  rcases Nat.mod_two_eq_zero_or_one n with h | h
  · simp [h, (Nat.even_iff.2 h).neg_one_pow]
  · simp [h, (Nat.odd_iff.2 h).neg_one_pow]

/-- The value at `b` of what the waves of one direction add. -/
theorem eToL_val (T : PlaneTable) (Q : PropRule) (L : Level × Level) (size om scale : ℝ) (P E : List ℂ) (b : Point ℝ) (n : ℕ) :
    let V := fun dir sgn => val (eToL T Q L size om scale P E dir sgn) b n
    let D := fun v => val (backL T Q L size om scale P E true) (Lap.turn v b) n
    V 'z' true = D 4 ∧ V 'z' false = D 5 ∧ V 'y' true = D 2 ∧ V 'y' false = D 3 ∧ V 'x' true = D 0 ∧ V 'x' false = D 1 := by
  intro V D
  have hx : ∀ sgn, V 'x' sgn = val (backL T Q L size om scale P E sgn) ⟨-b.z, b.y, b.x⟩ n := by
    intro sgn
    show val (rotateYL (backL T Q L size om scale P E sgn) (hmat (dmatMinus 0))) b n = _
    rw [val_rotY _ _ _ _ (dmatMinus_is 0) (by rw [neg_sq]; exact cs_one _), neg_neg, rotY_plus]
  have hy : ∀ sgn, V 'y' sgn = val (backL T Q L size om scale P E sgn) ⟨b.z, b.x, b.y⟩ n := by
    intro sgn
    show val (rotateZL (rotateYL (backL T Q L size om scale P E sgn) (hmat (dmatPlus 0))) (Real.pi / 2)) b n = _
    rw [val_rotZ, val_rotY _ _ _ _ (dmatPlus_is 0) (cs_one _), rotZ_minus, rotY_minus, neg_neg]
  have hz : ∀ sgn, V 'z' sgn = val (backL T Q L size om scale P E sgn) b n := fun _ => rfl
  refine ⟨hz true, (hz false).trans (val_false ..), hy true, (hy false).trans (val_false ..), hx true, (hx false).trans ?_⟩
  rw [val_false]; simp only [neg_neg]; rfl

/-! ### Sums of waves -/

theorem pairW_congr (L : Level) (wt : ℕ → ℂ) (c : ℕ → Point ℝ → ℝ → ℂ) (p : ℕ) (B : ℕ → ℝ) (W W' : Wave) (b : Point ℝ)
    (h : ∀ k < L.s, ∀ j, 1 ≤ j → j ≤ L.m k → W k j = W' k j) : pairW L wt c p B W b = pairW L wt c p B W' b := by
  refine Finset.sum_congr rfl fun k hk => congrArg (wt k * ·) (Finset.sum_congr rfl fun j hj => ?_)
  rw [Finset.mem_range] at hk
  rw [Finset.mem_Icc] at hj
  rw [h k hk j hj.1 hj.2]

theorem pairW_sum {ι : Type} (L : Level) (wt : ℕ → ℂ) (c : ℕ → Point ℝ → ℝ → ℂ) (p : ℕ) (B : ℕ → ℝ) (b : Point ℝ) (f : ι → Wave) : ∀ l : List ι,
    pairW L wt c p B (fun k j => (l.map fun i => f i k j).sum) b = (l.map fun i => pairW L wt c p B (f i) b).sum
  | [] => by simp [pairW]
  | i :: l => by
    simp only [List.map_cons, List.sum_cons]
    rw [← pairW_sum L wt c p B b f l]
    unfold pairW
    rw [← Finset.sum_add_distrib]
    refine Finset.sum_congr rfl fun k _ => ?_
    rw [← mul_add, ← Finset.sum_add_distrib]
    refine congrArg (wt k * ·) (Finset.sum_congr rfl fun j _ => ?_)
    rw [add_mul]

theorem pairW_if (L : Level) (wt : ℕ → ℂ) (c : ℕ → Point ℝ → ℝ → ℂ) (p : ℕ) (B : ℕ → ℝ) (b : Point ℝ) (P : Prop) [Decidable P] (W : Wave) :
    pairW L wt c p B (fun k j => if P then W k j else 0) b = if P then pairW L wt c p B W b else 0 := by
  split_ifs
  · rfl
  · simp [pairW]

theorem pairW_smul (L : Level) (wt : ℕ → ℂ) (c : ℕ → Point ℝ → ℝ → ℂ) (p : ℕ) (B : ℕ → ℝ) (b : Point ℝ) (q : ℂ) (W : Wave) :
    pairW L wt c p B (fun k j => q * W k j) b = q * pairW L wt c p B W b := by
  unfold pairW
  rw [Finset.mul_sum]
  refine Finset.sum_congr rfl fun k _ => ?_
  rw [mul_left_comm, Finset.mul_sum (a := q)]
  refine congrArg (wt k * ·) (Finset.sum_congr rfl fun j _ => ?_)
  rw [mul_assoc]

theorem fullW_sum {ι : Type} (L : Level) (f : ι → Wave) (l : List ι) :
    fullW L (fun k j => (l.map fun i => f i k j).sum) = fun k j => (l.map fun i => fullW L (f i) k j).sum := by
  funext k j
  unfold fullW
  split_ifs
  · rfl
  · induction l with
    | nil => simp
    | cons i l ih =>
      simp only [List.map_cons, List.sum_cons, map_add] at ih ⊢
      rw [ih]

theorem fullW_if (L : Level) (P : Prop) [Decidable P] (W : Wave) :
    fullW L (fun k j => if P then W k j else 0) = fun k j => if P then fullW L W k j else 0 := by
  funext k j
  unfold fullW
  split_ifs <;> simp

/-! ### Gathering -/

theorem foldlM_pair {α β γ : Type} (f : α → γ → Option α) (g : β → γ → Option β) : ∀ (l : List γ) (a a' : α) (b b' : β),
    l.foldlM f a = some a' → l.foldlM g b = some b' →
    l.foldlM (fun (s : α × β) x => (f s.1 x).bind fun u => (g s.2 x).bind fun w => some (u, w)) (a, b) = some (a', b')
  | [], a, a', b, b', h1, h2 => by
    rw [List.foldlM_nil] at h1 h2 ⊢
    cases h1; cases h2; rfl
  | x :: l, a, a', b, b', h1, h2 => by
    rw [List.foldlM_cons] at h1 h2 ⊢
    cases hf : f a x with
    | none => rw [hf] at h1; cases h1
    | some u =>
      cases hg : g b x with
      | none => rw [hg] at h2; cases h2
      | some w =>
        rw [hf] at h1
        rw [hg] at h2
        exact foldlM_pair f g l u a' w b' h1 h2

theorem gather_evan {d : ℤ} {T : PlaneTable} (hT : waveBase d = some T) {om size : ℝ} (h0 : 0 ≤ om * size) (lev : ℕ)
    {C C' : ℕ × ℕ} (hC : extra om (unitsAt om size lev) = some C) (hC' : extra om (unitsAt om size (lev + 1)) = some C')
    (boxes : List SrcBox) (hb : ∀ b ∈ boxes, b.Near) {c : ℕ} (hc : c < 8) :
    let wd := unitsAt om size (lev + 1)
    let N := (evanLevel T (unitsAt om size lev) C.1).nexp
    let L := evanLevel T wd C'.1
    ∃ E, boxes.foldlM (fun E b => do addViews E (← Waves.iToI (evanEToE L) L.nexp b.dx b.dy b.dz fun w => arrayOf L.s L.half (b.S w))) (freshViews N) = some E ∧
      ∀ v < 6, ∃ A, slotArr (evanEToE L) L.nexp c E (5 - v) = some A ∧
        ∀ k < L.s, ∀ j, 1 ≤ j → j ≤ L.m k / 2 → A[L.sm k + (j - 1)]? = some ((boxes.map fun b =>
          if b.direction c = some v then b.S v k j * planeWave (helmKappa T wd k) (T.rule.lam k) (L.angle k j)
            (b.toChild c v).1 (b.toChild c v).2.1 (b.toChild c v).2.2 else 0).sum) := by
  intro wd N L
  have h := fun v hv => C90_evanescent_gather hT h0 lev hC hC' boxes hb (v := v) hc hv
  simp only [Waves.gather] at h
  cases hE : boxes.foldlM (fun E b => do addViews E (← Waves.iToI (evanEToE L) L.nexp b.dx b.dy b.dz fun w => arrayOf L.s L.half (b.S w))) (freshViews N) with
  | none =>
    obtain ⟨A, hA, -⟩ := h 0 (by norm_num)
    rw [hE] at hA
    cases hA
  | some E =>
    refine ⟨E, rfl, fun v hv => ?_⟩
    obtain ⟨A, hA, hl, hs⟩ := h v hv
    rw [hE] at hA
    exact ⟨A, hA, hs⟩

theorem gather_prop {d : ℤ} {T : PlaneTable} (hT : waveBase d = some T) (Q : PropRule) {om size : ℝ} (h0 : 0 ≤ om * size) (lev : ℕ)
    {C C' : ℕ × ℕ} (hC : extra om (unitsAt om size lev) = some C) (hC' : extra om (unitsAt om size (lev + 1)) = some C')
    (boxes : List SrcBox) (hb : ∀ b ∈ boxes, b.Near) {c : ℕ} (hc : c < 8) :
    let wd := unitsAt om size (lev + 1)
    let N := (propLevel Q.s Q.f Q.x (unitsAt om size lev) C.2).nexp
    let L := propLevel Q.s Q.f Q.x wd C'.2
    ∃ E, boxes.foldlM (fun E b => do addViews E (← propIToI L b.dx b.dy b.dz fun w => arrayOf L.s L.m (b.S w))) (freshViews N) = some E ∧
      ∀ v < 6, ∃ A, slotArr (propEToE L false) L.nexp c E (5 - v) = some A ∧
        ∀ k < L.s, ∀ j, 1 ≤ j → j ≤ L.m k → A[L.sm k + (j - 1)]? = some ((boxes.map fun b =>
          if b.direction c = some v then (if v % 2 = 1 then starRingEnd ℂ (b.S (v / 2) k j) else b.S (v / 2) k j) *
            travelWave (wd * Real.sin (Q.x k)) (wd * Real.cos (Q.x k)) (L.angle k j)
            (b.toChild c v).1 (b.toChild c v).2.1 (b.toChild c v).2.2 else 0).sum) := by
  intro wd N L
  have h := fun v hv => C90_propagating_gather hT Q.s Q.f Q.x h0 lev hC hC' boxes hb (v := v) hc hv
  simp only [Waves.gather] at h
  cases hE : boxes.foldlM (fun E b => do addViews E (← propIToI L b.dx b.dy b.dz fun w => arrayOf L.s L.m (b.S w))) (freshViews N) with
  | none =>
    obtain ⟨A, hA, -⟩ := h 0 (by norm_num)
    rw [hE] at hA
    cases hA
  | some E =>
    refine ⟨E, rfl, fun v hv => ?_⟩
    obtain ⟨A, hA, hl, hs⟩ := h v hv
    rw [hE] at hA
    exact ⟨A, hA, hs⟩

/-! ### The levels -/

theorem extra_some {om size : ℝ} (ho : 0 < om) (hs : 0 < size) (h : om ≤ 10 ∨ om * size ≤ 1 / 8) (lev : ℕ) : ∃ C, extra om (unitsAt om size lev) = some C := by
  unfold extra
  split_ifs with h1 h2 h3 h4 h5
  · exact ⟨_, rfl⟩
  · exact ⟨_, rfl⟩
  · exact ⟨_, rfl⟩
  · exact ⟨_, rfl⟩
  · exact ⟨_, rfl⟩
  · exfalso
    rcases h with h | h
    · exact h5 h
    · refine h1 (le_trans ?_ (h.trans (by norm_num)))
      exact div_le_self (mul_pos ho hs).le (one_le_pow₀ (by norm_num))

theorem mapM_getElem? {α β : Type} (f : α → Option β) : ∀ (l : List α) (r : List β), l.mapM f = some r → ∀ i : ℕ, r[i]? = l[i]?.bind f
  | [], r, h, i => by
    rw [List.mapM_nil] at h; cases h; simp
  | a :: l, r, h, i => by
    rw [List.mapM_cons] at h
    cases hf : f a with
    | none => rw [hf] at h; cases h
    | some b =>
      cases hr : l.mapM f with
      | none => rw [hf, hr] at h; cases h
      | some r' =>
        rw [hf, hr] at h
        cases h
        cases i with
        | zero => simp [hf]
        | succ i => simpa using mapM_getElem? f l r' hr i

theorem mapM_some {α β : Type} (f : α → Option β) : ∀ l : List α, (∀ a ∈ l, ∃ b, f a = some b) → ∃ r, l.mapM f = some r
  | [], _ => ⟨[], rfl⟩
  | a :: l, h => by
    obtain ⟨b, hb⟩ := h a List.mem_cons_self
    obtain ⟨r, hr⟩ := mapM_some f l fun x hx => h x (List.mem_cons_of_mem _ hx)
    exact ⟨b :: r, by rw [List.mapM_cons, hb, hr]; rfl⟩

theorem wavesOf_eq (T : PlaneTable) (Q : PropRule) {size om : ℝ} (hs : 0 < size) (ho : 0 < om) (h : om ≤ 10 ∨ om * size ≤ 1 / 8) (lev : ℕ) (hl : lev ≤ 21)
    {C : ℕ × ℕ} (hC : extra om (unitsAt om size lev) = some C) :
    wavesOf T Q size om (scaleOf size om lev) = some (evanLevel T (unitsAt om size lev) C.1, propLevel Q.s Q.f Q.x (unitsAt om size lev) C.2) := by
  have hat : ∀ l, ∃ L, wavesAt T Q size om l = some L := by
    intro l
    obtain ⟨C, hC⟩ := extra_some ho hs h l
    exact ⟨_, by rw [wavesAt, hC]; rfl⟩
  obtain ⟨r, hr⟩ := mapM_some (fun lev => wavesAt T Q size om lev) (List.range (maxlev + 1)) fun l _ => hat l
  unfold wavesOf
  rw [hr]
  show r[level size om (scaleOf size om lev)]? = _
  rw [helm_level_eq size om (helm_scale0_pos size om hs ho) lev, mapM_getElem? _ _ _ hr, List.getElem?_range (show lev < maxlev + 1 by unfold maxlev; omega)]
  show wavesAt T Q size om lev = _
  rw [wavesAt, hC]; rfl

theorem evan_phases {d : ℤ} {T : PlaneTable} (hT : waveBase d = some T) {om wd : ℝ} {C : ℕ × ℕ} (hC : extra om wd = some C) :
    Phases (evanLevel T wd C.1) (evanLevel T wd C.1).half := by
  intro k hk j h1 h2 m h3 h4
  have h := ((C90_helmholtz_layout hT hC).2.2.2.2.2.2.2 k hk j h1 h2).1 m h3 h4
  rw [Yukawa.ealpha, List.getD_eq_getElem?_getD, h, Option.getD_some, Yuk.phase_exp]

theorem prop_phases (s f : ℕ) (x : ℕ → ℝ) (wd : ℝ) (C : ℕ) : Phases (propLevel s f x wd C) (propLevel s f x wd C).m := by
  intro k hk j h1 h2 m h3 h4
  have h := ((C90_propagating_layout s f x wd C).2.2.2.2.2 k hk j h1 h2).1 m h3 h4
  rw [Yukawa.ealpha, List.getD_eq_getElem?_getD, h, Option.getD_some, Yuk.phase_exp]

end
end Dashmm.Helm
