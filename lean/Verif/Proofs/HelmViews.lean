import Verif.Proofs.HelmSrc
import Verif.Proofs.YukBox
import Verif.Model.HelmFmm

/-!
# The views of the Helmholtz kernel as vectors
-/

namespace Dashmm.Helm

open Harm Lap Waves
open Complex (I)
open YukFmm (arrays ofArrays ofMade)
open Yuk (waveOf arrays_holds waveOf_lin)

noncomputable section

/-! ### From waves to a local expansion: linear -/

theorem zEvan_lin (L : Level) (E E' E'' : List ℂ) (a : ℝ) (k : ℕ)
    (h : ∀ j, 1 ≤ j → j ≤ L.m k / 2 → E''.getD (L.sm k + j - 1) 0 = a * E.getD (L.sm k + j - 1) 0 + E'.getD (L.sm k + j - 1) 0) (m : ℤ) :
    zEvan L E'' k m = a * zEvan L E k m + zEvan L E' k m := by
  unfold zEvan
  simp only
  generalize hA : (fun j => if 0 < m then starRingEnd ℂ (Yukawa.ealpha L k j m.natAbs) else Yukawa.ealpha L k j m.natAbs) = A
  have hA' : ∀ j, (if 0 < m then starRingEnd ℂ (Yukawa.ealpha L k j m.natAbs) else Yukawa.ealpha L k j m.natAbs) = A j := fun j => by rw [← hA]
  simp only [hA']
  by_cases h0 : m = 0
  · rw [if_pos h0, if_pos h0, if_pos h0, Finset.mul_sum, ← Finset.sum_add_distrib]
    refine Finset.sum_congr rfl fun j hj => ?_
    rw [Finset.mem_Icc] at hj
    rw [h j hj.1 hj.2, Complex.add_re, Complex.re_ofReal_mul]
    push_cast; ring
  · rw [if_neg h0, if_neg h0, if_neg h0]
    by_cases h1 : m.natAbs % 2 = 1
    · rw [if_pos h1, if_pos h1, if_pos h1, Finset.mul_sum, ← Finset.sum_add_distrib]
      refine Finset.sum_congr rfl fun j hj => ?_
      rw [Finset.mem_Icc] at hj
      rw [h j hj.1 hj.2, map_add, map_mul, Complex.conj_ofReal]
      ring
    · rw [if_neg h1, if_neg h1, if_neg h1, Finset.mul_sum, ← Finset.sum_add_distrib]
      refine Finset.sum_congr rfl fun j hj => ?_
      rw [Finset.mem_Icc] at hj
      rw [h j hj.1 hj.2, map_add, map_mul, Complex.conj_ofReal]
      ring

theorem zProp_lin (L : Level) (E E' E'' : List ℂ) (a : ℝ) (k : ℕ)
    (h : ∀ j, 1 ≤ j → j ≤ L.m k → E''.getD (L.sm k + j - 1) 0 = a * E.getD (L.sm k + j - 1) 0 + E'.getD (L.sm k + j - 1) 0) (m : ℤ) :
    zProp L E'' k m = a * zProp L E k m + zProp L E' k m := by
  unfold zProp
  simp only
  split_ifs <;>
  · rw [Finset.mul_sum, ← Finset.sum_add_distrib]
    refine Finset.sum_congr rfl fun j hj => ?_
    rw [Finset.mem_Icc] at hj
    rw [h j hj.1 hj.2]
    try ring

/-- The waves of the evanescent family are combined. -/
def LinE (L : Level) (E E' E'' : List ℂ) (a : ℝ) : Prop :=
  ∀ k < L.s, ∀ j, 1 ≤ j → j ≤ L.m k / 2 → E''.getD (L.sm k + j - 1) 0 = a * E.getD (L.sm k + j - 1) 0 + E'.getD (L.sm k + j - 1) 0

/-- The waves of the propagating family are combined. -/
def LinP (L : Level) (E E' E'' : List ℂ) (a : ℝ) : Prop :=
  ∀ k < L.s, ∀ j, 1 ≤ j → j ≤ L.m k → E''.getD (L.sm k + j - 1) 0 = a * E.getD (L.sm k + j - 1) 0 + E'.getD (L.sm k + j - 1) 0

theorem backL_lin (T : PlaneTable) (Q : PropRule) (L : Level × Level) (size om scale : ℝ) (P P' P'' E E' E'' : List ℂ) (a : ℝ) (sgn : Bool)
    (hE : LinE L.1 E E' E'' a) (hP : LinP L.2 P P' P'' a) :
    backL T Q L size om scale P'' E'' sgn = a • backL T Q L size om scale P E sgn + backL T Q L size om scale P' E' sgn := by
  funext n m
  have k1 : backEvan T L.1 size om scale E'' n m = a * backEvan T L.1 size om scale E n m + backEvan T L.1 size om scale E' n m := by
    unfold backEvan
    rw [Finset.mul_sum, ← Finset.sum_add_distrib]
    refine Finset.sum_congr rfl fun k hk => ?_
    rw [zEvan_lin L.1 E E' E'' a k (hE k (Finset.mem_range.1 hk)) m]
    by_cases hc : m.natAbs ≤ (if n ≤ L.1.f k then n else L.1.f k)
    · rw [if_pos hc, if_pos hc, if_pos hc]; ring
    · rw [if_neg hc, if_neg hc, if_neg hc]; ring
  have k2 : backProp Q L.2 scale P'' n m = a * backProp Q L.2 scale P n m + backProp Q L.2 scale P' n m := by
    unfold backProp
    rw [Finset.mul_sum, ← Finset.sum_add_distrib]
    refine Finset.sum_congr rfl fun k hk => ?_
    rw [zProp_lin L.2 P P' P'' a k (hP k (Finset.mem_range.1 hk)) m]
    by_cases hc : m.natAbs ≤ (if n ≤ L.2.f k then n else L.2.f k)
    · rw [if_pos hc, if_pos hc, if_pos hc]; ring
    · rw [if_neg hc, if_neg hc, if_neg hc]; ring
  rw [Pi.add_apply, Pi.add_apply, Pi.smul_apply, Pi.smul_apply, Complex.real_smul]
  unfold backL
  simp only [k1, k2]
  split <;> ring

theorem rotateZL_lin (a : ℝ) (L L' : LCoef) (α : ℝ) : rotateZL (a • L + L') α = a • rotateZL L α + rotateZL L' α := by
  funext n m
  simp only [rotateZL, Pi.add_apply, Pi.smul_apply, Complex.real_smul]
  ring

theorem rotateYL_lin (a : ℝ) (L L' : LCoef) (d : HMat) : rotateYL (a • L + L') d = a • rotateYL L d + rotateYL L' d := by
  funext n mp
  simp only [rotateYL, Pi.add_apply, Pi.smul_apply, Complex.real_smul]
  have : ∀ s s' s'' : ℂ, s'' = a * s + s' → (if mp < 0 then s'' else s'' * (-1) ^ mp.toNat) =
      a * (if mp < 0 then s else s * (-1) ^ mp.toNat) + if mp < 0 then s' else s' * (-1) ^ mp.toNat := by
    intro s s' s'' h
    subst h
    split_ifs <;> ring
  apply this
  rw [mul_add, Finset.mul_sum]
  have : ∀ (u v x : ℂ) (f g : ℕ → ℂ) (t : Finset ℕ), ∑ i ∈ t, (f i + g i) = ∑ i ∈ t, f i + ∑ i ∈ t, g i := fun _ _ _ f g t => Finset.sum_add_distrib
  have e : ∑ m ∈ Finset.Icc 1 n, ((a * L n (m : ℤ) + L' n (m : ℤ)) * (-1) ^ m * (d n mp (m : ℤ) : ℂ) + (a * L n (-(m : ℤ)) + L' n (-(m : ℤ))) * (d n mp (-(m : ℤ)) : ℂ)) =
      ∑ m ∈ Finset.Icc 1 n, a * (L n (m : ℤ) * (-1) ^ m * (d n mp (m : ℤ) : ℂ) + L n (-(m : ℤ)) * (d n mp (-(m : ℤ)) : ℂ)) +
      ∑ m ∈ Finset.Icc 1 n, (L' n (m : ℤ) * (-1) ^ m * (d n mp (m : ℤ) : ℂ) + L' n (-(m : ℤ)) * (d n mp (-(m : ℤ)) : ℂ)) := by
    rw [← Finset.sum_add_distrib]
    exact Finset.sum_congr rfl fun m _ => by ring
  rw [e]; ring

theorem eToL_lin (T : PlaneTable) (Q : PropRule) (L : Level × Level) (size om scale : ℝ) (P P' P'' E E' E'' : List ℂ) (a : ℝ) (dir : Char) (sgn : Bool)
    (hE : LinE L.1 E E' E'' a) (hP : LinP L.2 P P' P'' a) :
    eToL T Q L size om scale P'' E'' dir sgn = a • eToL T Q L size om scale P E dir sgn + eToL T Q L size om scale P' E' dir sgn := by
  have hb := backL_lin T Q L size om scale P P' P'' E E' E'' a sgn hE hP
  unfold eToL
  simp only
  rw [hb]
  split_ifs
  · rfl
  · rw [rotateYL_lin, rotateZL_lin]
  · rw [rotateYL_lin]

/-! ### The six directions of a child -/

/-- The sum of six expansions that `I_to_L` computes; `A` are the evanescent waves of the directions, `B` the propagating ones. -/
def sixL (T : PlaneTable) (Q : PropRule) (L : Level × Level) (size om scale : ℝ) (A B : ℕ → List ℂ) : LCoef :=
  eToL T Q L size om scale (B 0) (A 0) 'z' false + eToL T Q L size om scale (B 1) (A 1) 'z' true + eToL T Q L size om scale (B 2) (A 2) 'y' false +
    eToL T Q L size om scale (B 3) (A 3) 'y' true + eToL T Q L size om scale (B 4) (A 4) 'x' false + eToL T Q L size om scale (B 5) (A 5) 'x' true

theorem sixL_lin (T : PlaneTable) (Q : PropRule) (L : Level × Level) (size om scale : ℝ) (A A' A'' B B' B'' : ℕ → List ℂ) (a : ℝ)
    (hA : ∀ i < 6, LinE L.1 (A i) (A' i) (A'' i) a) (hB : ∀ i < 6, LinP L.2 (B i) (B' i) (B'' i) a) :
    sixL T Q L size om scale A'' B'' = a • sixL T Q L size om scale A B + sixL T Q L size om scale A' B' := by
  have e := fun i hi dir sgn => eToL_lin T Q L size om scale (B i) (B' i) (B'' i) (A i) (A' i) (A'' i) a dir sgn (hA i hi) (hB i hi)
  unfold sixL
  rw [e 0 (by norm_num), e 1 (by norm_num), e 2 (by norm_num), e 3 (by norm_num), e 4 (by norm_num), e 5 (by norm_num)]
  simp only [smul_add]
  abel

theorem sixL_congr (T : PlaneTable) (Q : PropRule) (L : Level × Level) (size om scale : ℝ) (A A' B B' : ℕ → List ℂ)
    (hA : ∀ i < 6, ∀ k < L.1.s, ∀ j, 1 ≤ j → j ≤ L.1.m k / 2 → (A i).getD (L.1.sm k + j - 1) 0 = (A' i).getD (L.1.sm k + j - 1) 0)
    (hB : ∀ i < 6, ∀ k < L.2.s, ∀ j, 1 ≤ j → j ≤ L.2.m k → (B i).getD (L.2.sm k + j - 1) 0 = (B' i).getD (L.2.sm k + j - 1) 0) :
    sixL T Q L size om scale A B = sixL T Q L size om scale A' B' := by
  have := sixL_lin T Q L size om scale A A' A B B' B 0 (fun i hi k hk j h1 h2 => by rw [hA i hi k hk j h1 h2]; simp)
    fun i hi k hk j h1 h2 => by rw [hB i hi k hk j h1 h2]; simp
  rw [this, zero_smul, zero_add]

theorem iToL_six (T : PlaneTable) (Q : PropRule) {size om : ℝ} (hs : 0 < size) (ho : 0 < om) (hom : om ≤ 10 ∨ om * size ≤ 1 / 8) (lev : ℕ) (hlev : lev + 1 ≤ 21)
    {C' : ℕ × ℕ} (hC' : extra om (unitsAt om size (lev + 1)) = some C') (c : ℕ) (E P : ℕ → List ℂ) (A B : ℕ → List ℂ)
    (hA : ∀ i < 6, slotArr (evanEToE (lvl T Q (unitsAt om size (lev + 1)) C').1) (lvl T Q (unitsAt om size (lev + 1)) C').1.nexp c E i = some (A i))
    (hB : ∀ i < 6, slotArr (propEToE (lvl T Q (unitsAt om size (lev + 1)) C').2 false) (lvl T Q (unitsAt om size (lev + 1)) C').2.nexp c P i = some (B i)) :
    iToL T Q size om (scaleOf size om lev) c E P =
      some (sixL T Q (lvl T Q (unitsAt om size (lev + 1)) C') size om (scaleOf size om (lev + 1)) A B) := by
  have hsc : scaleOf size om lev / 2 = scaleOf size om (lev + 1) := by
    rw [helm_scaleOf_half]
  have hw := wavesOf_eq T Q hs ho hom (lev + 1) hlev hC'
  rw [show (evanLevel T (unitsAt om size (lev + 1)) C'.1, propLevel Q.s Q.f Q.x (unitsAt om size (lev + 1)) C'.2) = lvl T Q (unitsAt om size (lev + 1)) C' from rfl] at hw
  generalize lvl T Q (unitsAt om size (lev + 1)) C' = L at hA hB hw ⊢
  rw [iToL, hsc, hw, Option.bind_eq_bind, Option.bind_some]
  have one : ∀ (slot : ℕ) (_ : slot < 6) (dir : Char) (sgn : Bool),
      (do
        let e ← slotArr (evanEToE L.1) L.1.nexp c E slot
        let q ← slotArr (propEToE L.2 false) L.2.nexp c P slot
        some (eToL T Q L size om (scaleOf size om (lev + 1)) q e dir sgn)) = some (eToL T Q L size om (scaleOf size om (lev + 1)) (B slot) (A slot) dir sgn) := by
    intro slot h dir sgn
    rw [hA slot h, hB slot h]; rfl
  show (Option.bind _ _) = _
  refine (congrArg (fun o : Option LCoef => o.bind _) (one 0 (by norm_num) 'z' false)).trans ?_
  refine (congrArg (fun o : Option LCoef => o.bind _) (one 1 (by norm_num) 'z' true)).trans ?_
  refine (congrArg (fun o : Option LCoef => o.bind _) (one 2 (by norm_num) 'y' false)).trans ?_
  refine (congrArg (fun o : Option LCoef => o.bind _) (one 3 (by norm_num) 'y' true)).trans ?_
  refine (congrArg (fun o : Option LCoef => o.bind _) (one 4 (by norm_num) 'x' false)).trans ?_
  exact congrArg (fun o : Option LCoef => o.bind _) (one 5 (by norm_num) 'x' true)

theorem evan_shift (T : PlaneTable) (wd : ℝ) (C : ℕ) :
    ∃ φ : ℤ → ℤ → ℤ → Wave, ∀ (M W : List ℂ) (A B : Wave) (x y z : ℤ), Holds (evanLevel T wd C).s (evanLevel T wd C).half M A →
      running (evanLevel T wd C).half (evanLevel T wd C).s ≤ M.length →
      Holds (evanLevel T wd C).s (evanLevel T wd C).half W B → shiftInTable x y z →
      ∃ M', evanEToE (evanLevel T wd C) M W x y z = some M' ∧ M'.length = M.length ∧
        Holds (evanLevel T wd C).s (evanLevel T wd C).half M' (A + B * φ x y z) :=
  ⟨_, fun (M W : List ℂ) (A B : Wave) (x y z : ℤ) hM hl hW hs =>
    evanEToE_holds T (helmAngles T wd C) (helmKappa T wd) T.rule.lam (M := M) (W := W) (A := A) (B := B) (x := x) (y := y) (z := z) hM hl hW hs⟩

theorem prop_shift (s f : ℕ) (u : ℕ → ℝ) (wd : ℝ) (C : ℕ) :
    ∃ φ : ℤ → ℤ → ℤ → Wave, ∀ (M W : List ℂ) (A B : Wave) (x y z : ℤ), Holds (propLevel s f u wd C).s (propLevel s f u wd C).m M A →
      running (propLevel s f u wd C).m (propLevel s f u wd C).s ≤ M.length →
      Holds (propLevel s f u wd C).s (propLevel s f u wd C).m W B → shiftInTable x y z →
      ∃ M', propEToE (propLevel s f u wd C) false M W x y z = some M' ∧ M'.length = M.length ∧
        Holds (propLevel s f u wd C).s (propLevel s f u wd C).m M' (A + B * φ x y z) :=
  ⟨propFactor s f u wd C, fun (M W : List ℂ) (A B : Wave) (x y z : ℤ) hM hl hW (hs : shiftInTable x y z) =>
    propEToE_holds s f u wd C false (M := M) (W := W) (A := A) (B := B)
      (a := x) (b := y) (c := z) hM hl hW ⟨by have := hs.1; omega, by have := hs.1; omega⟩
      ⟨by have := hs.2.1; omega, by have := hs.2.1; omega⟩ ⟨by have := hs.2.2; omega, by have := hs.2.2; omega⟩⟩

theorem getD_of_wave {s : ℕ} {cnt sm : ℕ → ℕ} (hsm : ∀ k, sm k = running cnt k) {A : List ℂ} {W : Wave} (h : Holds s cnt A W)
    {k : ℕ} (hk : k < s) {j : ℕ} (h1 : 1 ≤ j) (h2 : j ≤ cnt k) : A.getD (sm k + j - 1) 0 = W k j := by
  obtain ⟨i, rfl⟩ : ∃ i, j = i + 1 := ⟨j - 1, by omega⟩
  rw [List.getD_eq_getElem?_getD, hsm, show running cnt k + (i + 1) - 1 = running cnt k + i by omega, h k hk i h2, Option.getD_some]

/-- What `I_to_L` makes of the views of a box. -/
def iVal (T : PlaneTable) (Q : PropRule) (size om : ℝ) (N : ℕ × ℕ) (lev c : ℕ) (E : WaveViews × WaveViews) : LCoef :=
  (iToL T Q size om (scaleOf size om lev) c (arrays N.1 E.1) (arrays N.2 E.2)).getD 0

/-- The waves of the slots depend linearly on the views. -/
theorem slots_lin {L : Level} {cnt : ℕ → ℕ} {shift : Shift} {φ : ℤ → ℤ → ℤ → Wave}
    (hφ : ∀ (M W : List ℂ) (A B : Wave) (x y z : ℤ), Holds L.s cnt M A → running cnt L.s ≤ M.length → Holds L.s cnt W B →
      shiftInTable x y z → ∃ M', shift M W x y z = some M' ∧ M'.length = M.length ∧ Holds L.s cnt M' (A + B * φ x y z))
    (hne : running cnt L.s = L.nexp) (hsm : ∀ k, L.sm k = running cnt k) {N : ℕ} (hN : L.nexp ≤ N) {c : ℕ} (hc : c < 8) :
    ∃ A : WaveViews → ℕ → List ℂ, (∀ E i, slotArr shift L.nexp c (arrays N E) i = some (A E i)) ∧
      ∀ (a : ℝ) (E E' : WaveViews) (i : ℕ), ∀ k < L.s, ∀ j, 1 ≤ j → j ≤ cnt k →
        (A (a • E + E') i).getD (L.sm k + j - 1) 0 = a * (A E i).getD (L.sm k + j - 1) 0 + (A E' i).getD (L.sm k + j - 1) 0 := by
  have hslot : ∀ (E : WaveViews) (i : ℕ), ∃ A, slotArr shift L.nexp c (arrays N E) i = some A ∧
      Holds L.s cnt A (0 + (((childTakes c).filter fun t => t.slot = i).map fun t => waveOf cnt (E t.tag) * φ t.x t.y t.z).sum) := by
    intro E i
    obtain ⟨A, e, -, h⟩ := slot_holds hφ (arrays N E) (fun t => waveOf cnt (E t)) (arrays_holds (hne.le.trans hN) E)
      ((childTakes c).filter fun t => t.slot = i) (List.replicate L.nexp 0) 0
      (fun t ht => takes_shift c (List.mem_range.2 hc) t (List.mem_filter.1 ht).1) (Holds.zero _ _ _ hne.le) (by rw [List.length_replicate]; exact hne.le)
    exact ⟨A, e, h⟩
  choose A hA hH using hslot
  refine ⟨A, hA, fun a E E' i k hk j h1 h2 => ?_⟩
  rw [getD_of_wave hsm (hH _ i) hk h1 h2, getD_of_wave hsm (hH E i) hk h1 h2, getD_of_wave hsm (hH E' i) hk h1 h2]
  have e3 : ∀ l : List Take, (l.map fun t => waveOf cnt ((a • E + E') t.tag) * φ t.x t.y t.z).sum k j =
      a * (l.map fun t => waveOf cnt (E t.tag) * φ t.x t.y t.z).sum k j + (l.map fun t => waveOf cnt (E' t.tag) * φ t.x t.y t.z).sum k j := by
    intro l
    induction l with
    | nil => simp
    | cons t l ih =>
      rw [List.map_cons, List.map_cons, List.map_cons, List.sum_cons, List.sum_cons, List.sum_cons]
      show waveOf cnt ((a • E + E') t.tag) k j * φ t.x t.y t.z k j + _ = a * (_ + _) + (_ + _)
      rw [ih, waveOf_lin]
      show ((a : ℂ) * waveOf cnt (E t.tag) k j + waveOf cnt (E' t.tag) k j) * φ t.x t.y t.z k j + _ =
        a * (waveOf cnt (E t.tag) k j * φ t.x t.y t.z k j + _) + (waveOf cnt (E' t.tag) k j * φ t.x t.y t.z k j + _)
      ring
  simp only [Pi.add_apply, Pi.zero_apply, zero_add]
  exact e3 _

theorem iVal_spec {dg : ℤ} {T : PlaneTable} (hT : waveBase dg = some T) (Q : PropRule)
    {size om : ℝ} (hs : 0 < size) (ho : 0 < om) (hom : om ≤ 10 ∨ om * size ≤ 1 / 8) (lev : ℕ) (hlev : lev + 1 ≤ 21)
    {C C' : ℕ × ℕ} (hC : extra om (unitsAt om size lev) = some C) (hC' : extra om (unitsAt om size (lev + 1)) = some C') (c : ℕ) (hc : c < 8) :
    let N := ((lvl T Q (unitsAt om size lev) C).1.nexp, (lvl T Q (unitsAt om size lev) C).2.nexp)
    (∀ E : WaveViews × WaveViews, iToL T Q size om (scaleOf size om lev) c (arrays N.1 E.1) (arrays N.2 E.2) = some (iVal T Q size om N lev c E)) ∧
    ∀ (a : ℝ) (E E' : WaveViews × WaveViews), iVal T Q size om N lev c (a • E + E') = a • iVal T Q size om N lev c E + iVal T Q size om N lev c E' := by
  intro N
  obtain ⟨φ, hφ⟩ := evan_shift T (unitsAt om size (lev + 1)) C'.1
  obtain ⟨ψ, hψ⟩ := prop_shift Q.s Q.f Q.x (unitsAt om size (lev + 1)) C'.2
  obtain ⟨hN1, hN2⟩ := C90_helmholtz_shrinks hT Q.s Q.f Q.x (mul_pos ho hs).le lev hC hC'
  obtain ⟨A, hA, hA'⟩ := slots_lin hφ rfl (fun _ => rfl) (show _ ≤ N.1 from hN1) hc
  obtain ⟨B, hB, hB'⟩ := slots_lin hψ rfl (fun _ => rfl) (show _ ≤ N.2 from hN2) hc
  have e1 : ∀ E : WaveViews × WaveViews, iToL T Q size om (scaleOf size om lev) c (arrays N.1 E.1) (arrays N.2 E.2) =
      some (sixL T Q (lvl T Q (unitsAt om size (lev + 1)) C') size om (scaleOf size om (lev + 1)) (A E.1) (B E.2)) :=
    fun E => iToL_six T Q hs ho hom lev hlev hC' c _ _ _ _ (fun i _ => hA E.1 i) fun i _ => hB E.2 i
  have e2 : ∀ E, iVal T Q size om N lev c E = sixL T Q (lvl T Q (unitsAt om size (lev + 1)) C') size om (scaleOf size om (lev + 1)) (A E.1) (B E.2) := by
    intro E
    rw [iVal, e1, Option.getD_some]
  refine ⟨fun E => by rw [e1, e2], fun a E E' => ?_⟩
  rw [e2, e2, e2]
  exact sixL_lin T Q _ size om _ _ _ _ _ _ _ a (fun i _ k hk j h1 h2 => hA' a E.1 E'.1 i k hk j h1 h2) fun i _ k hk j h1 h2 => hB' a E.2 E'.2 i k hk j h1 h2

end
end Dashmm.Helm
