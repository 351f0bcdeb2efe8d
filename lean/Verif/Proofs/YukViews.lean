import Verif.Proofs.YukPlane
import Verif.Spec.YukFmm

/-!
# The views of the Yukawa kernel as vectors
-/

namespace Dashmm.Yuk

open Harm Lap Waves
open Complex (I)
open YukFmm (arrays ofArrays ofMade)

noncomputable section

/-! ### From waves to a local expansion: linear -/

theorem zBack_lin (L : Level) (E E' E'' : List ℂ) (a : ℝ) (k : ℕ)
    (h : ∀ j, 1 ≤ j → j ≤ L.m k / 2 → E''.getD (L.sm k + j - 1) 0 = a * E.getD (L.sm k + j - 1) 0 + E'.getD (L.sm k + j - 1) 0) (m : ℕ) :
    Yukawa.zBack L E'' k m = a * Yukawa.zBack L E k m + Yukawa.zBack L E' k m := by
  unfold Yukawa.zBack
  simp only
  split_ifs <;>
  · rw [Finset.mul_sum, ← Finset.sum_add_distrib]
    refine Finset.sum_congr rfl fun j hj => ?_
    rw [Finset.mem_Icc] at hj
    rw [h j hj.1 hj.2, map_add, map_mul, Complex.conj_ofReal]
    ring

theorem backCoef_lin' (T : PlaneTable) (L : Level) (size lam scale : ℝ) (E E' E'' : List ℂ) (a : ℝ) (sgn : Bool)
    (h : ∀ k < L.s, ∀ j, 1 ≤ j → j ≤ L.m k / 2 → E''.getD (L.sm k + j - 1) 0 = a * E.getD (L.sm k + j - 1) 0 + E'.getD (L.sm k + j - 1) 0) :
    Yukawa.backCoef T L size lam scale E'' sgn = a • Yukawa.backCoef T L size lam scale E sgn + Yukawa.backCoef T L size lam scale E' sgn := by
  funext n m
  have key : (∑ k ∈ Finset.range L.s, if m ≤ (if n ≤ L.f k then n else L.f k) then
      Yukawa.zBack L E'' k m * (Yukawa.legAt T size lam scale k n m : ℂ) * ((T.rule.wt k / L.m k : ℝ) : ℂ) else 0) =
      a * (∑ k ∈ Finset.range L.s, if m ≤ (if n ≤ L.f k then n else L.f k) then
        Yukawa.zBack L E k m * (Yukawa.legAt T size lam scale k n m : ℂ) * ((T.rule.wt k / L.m k : ℝ) : ℂ) else 0) +
      ∑ k ∈ Finset.range L.s, if m ≤ (if n ≤ L.f k then n else L.f k) then
        Yukawa.zBack L E' k m * (Yukawa.legAt T size lam scale k n m : ℂ) * ((T.rule.wt k / L.m k : ℝ) : ℂ) else 0 := by
    rw [Finset.mul_sum, ← Finset.sum_add_distrib]
    refine Finset.sum_congr rfl fun k hk => ?_
    rw [zBack_lin L E E' E'' a k (h k (Finset.mem_range.1 hk)) m]
    split_ifs <;> ring
  rw [Pi.add_apply, Pi.add_apply, Pi.smul_apply, Pi.smul_apply, Complex.real_smul]
  unfold Yukawa.backCoef
  simp only [key]
  split <;> ring

theorem eToL_lin' (T : PlaneTable) (L : Level) (size lam scale : ℝ) (E E' E'' : List ℂ) (a : ℝ) (dir : Char) (sgn : Bool)
    (h : ∀ k < L.s, ∀ j, 1 ≤ j → j ≤ L.m k / 2 → E''.getD (L.sm k + j - 1) 0 = a * E.getD (L.sm k + j - 1) 0 + E'.getD (L.sm k + j - 1) 0) :
    Yukawa.eToL T L size lam scale E'' dir sgn = a • Yukawa.eToL T L size lam scale E dir sgn + Yukawa.eToL T L size lam scale E' dir sgn := by
  have hb := backCoef_lin' T L size lam scale E E' E'' a sgn h
  unfold Yukawa.eToL
  simp only
  rw [hb]
  split_ifs
  · rfl
  · rw [(rotateY_lin _).map_add, (rotateY_lin _).map_smul, (rotateZ_lin _).map_add, (rotateZ_lin _).map_smul]
  · rw [(rotateY_lin _).map_add, (rotateY_lin _).map_smul]

/-! ### The six directions of a child -/

/-- The numbers of an array at the places of a level. -/
def waveOf (cnt : ℕ → ℕ) (f : ℕ → ℂ) : Wave := fun k j => f (running cnt k + (j - 1))

theorem arrays_holds {s : ℕ} {cnt : ℕ → ℕ} {N : ℕ} (hN : running cnt s ≤ N) (E : WaveViews) (t : ℕ) :
    Holds s cnt (arrays N E t) (waveOf cnt (E t)) := by
  intro k hk j hj
  have h := (place_lt hk hj).trans_le hN
  rw [arrays, List.getElem?_map, List.getElem?_range h, Option.map_some]
  rfl

theorem waveOf_lin (cnt : ℕ → ℕ) (a : ℝ) (E E' : WaveViews) (t : ℕ) : waveOf cnt ((a • E + E') t) = (fun _ _ => (a : ℂ)) * waveOf cnt (E t) + waveOf cnt (E' t) := by
  funext k j
  simp [waveOf]

/-- The sum of six expansions that `I_to_L` computes. -/
def sixL (T : PlaneTable) (L : Level) (size lam scale : ℝ) (A : ℕ → List ℂ) : Coef :=
  Yukawa.eToL T L size lam scale (A 0) 'z' false + Yukawa.eToL T L size lam scale (A 1) 'z' true + Yukawa.eToL T L size lam scale (A 2) 'y' false +
    Yukawa.eToL T L size lam scale (A 3) 'y' true + Yukawa.eToL T L size lam scale (A 4) 'x' false + Yukawa.eToL T L size lam scale (A 5) 'x' true

theorem sixL_lin (T : PlaneTable) (L : Level) (size lam scale : ℝ) (A A' A'' : ℕ → List ℂ) (a : ℝ)
    (h : ∀ i < 6, ∀ k < L.s, ∀ j, 1 ≤ j → j ≤ L.m k / 2 →
      (A'' i).getD (L.sm k + j - 1) 0 = a * (A i).getD (L.sm k + j - 1) 0 + (A' i).getD (L.sm k + j - 1) 0) :
    sixL T L size lam scale A'' = a • sixL T L size lam scale A + sixL T L size lam scale A' := by
  have e := fun i hi dir sgn => eToL_lin' T L size lam scale (A i) (A' i) (A'' i) a dir sgn (h i hi)
  unfold sixL
  rw [e 0 (by norm_num), e 1 (by norm_num), e 2 (by norm_num), e 3 (by norm_num), e 4 (by norm_num), e 5 (by norm_num)]
  simp only [smul_add]
  abel

theorem iToL_six (T : PlaneTable) (size lam : ℝ) (hs : 0 < size) (hl : 0 < lam) (lev : ℕ) (hlev : lev + 1 ≤ 21) (c : ℕ) (E : ℕ → List ℂ) (A : ℕ → List ℂ)
    (h : ∀ i < 6, slotArr (yukEToE (yukLevel T lam size (lev + 1))) (yukLevel T lam size (lev + 1)).nexp c E i = some (A i)) :
    Yukawa.iToL T size lam (Yukawa.scaleOf size lam lev) c E =
      some (sixL T (yukLevel T lam size (lev + 1)) size lam (Yukawa.scaleOf size lam (lev + 1)) A) := by
  have hs0 := scale0_pos size lam hs hl
  have hsc : Yukawa.scaleOf size lam lev / 2.0 = Yukawa.scaleOf size lam (lev + 1) := by rw [scaleOf_half]; norm_num
  have hlv : Yukawa.level size lam (Yukawa.scaleOf size lam (lev + 1)) = lev + 1 := level_eq size lam hs0 (lev + 1)
  rw [Yukawa.iToL, hsc, Yukawa.iToL1, hlv, if_pos (show lev + 1 ≤ Yukawa.maxlev from hlev)]
  generalize yukLevel T lam size (lev + 1) = L at h ⊢
  show (slotArr (yukEToE L) L.nexp c E 0).bind _ = _
  rw [h 0 (by norm_num), Option.bind_some]
  show (slotArr (yukEToE L) L.nexp c E 1).bind _ = _
  rw [h 1 (by norm_num), Option.bind_some]
  show (slotArr (yukEToE L) L.nexp c E 2).bind _ = _
  rw [h 2 (by norm_num), Option.bind_some]
  show (slotArr (yukEToE L) L.nexp c E 3).bind _ = _
  rw [h 3 (by norm_num), Option.bind_some]
  show (slotArr (yukEToE L) L.nexp c E 4).bind _ = _
  rw [h 4 (by norm_num), Option.bind_some]
  show (slotArr (yukEToE L) L.nexp c E 5).bind _ = _
  rw [h 5 (by norm_num), Option.bind_some]
  rfl

theorem yuk_shift (T : PlaneTable) (lam size : ℝ) (lev : ℕ) :
    ∃ φ : ℤ → ℤ → ℤ → Wave, ∀ (M W : List ℂ) (A B : Wave) (x y z : ℤ), Holds (yukLevel T lam size lev).s (yukLevel T lam size lev).half M A →
      running (yukLevel T lam size lev).half (yukLevel T lam size lev).s ≤ M.length →
      Holds (yukLevel T lam size lev).s (yukLevel T lam size lev).half W B → shiftInTable x y z →
      ∃ M', yukEToE (yukLevel T lam size lev) M W x y z = some M' ∧ M'.length = M.length ∧
        Holds (yukLevel T lam size lev).s (yukLevel T lam size lev).half M' (A + B * φ x y z) :=
  ⟨_, fun (M W : List ℂ) (A B : Wave) (x y z : ℤ) hM hl hW hs =>
    yukEToE_holds T (fun j => angles T (yukKappa T (unitsAt lam size lev) j) j) (yukKappa T (unitsAt lam size lev))
      (fun k => T.rule.lam k + unitsAt lam size lev) (M := M) (W := W) (A := A) (B := B) (x := x) (y := y) (z := z) hM hl hW hs⟩

/-- What `I_to_L` makes of the views of a box. -/
def iVal (T : PlaneTable) (size lam : ℝ) (lev c : ℕ) (E : WaveViews) : Coef :=
  (Yukawa.iToL T size lam (Yukawa.scaleOf size lam lev) c (arrays (yukLevel T lam size lev).nexp E)).getD 0

theorem getD_of_holds {L : Level} {cnt : ℕ → ℕ} (hc : L.half = cnt) (hsm : ∀ k, L.sm k = running cnt k) {A : List ℂ} {W : Wave} (h : Holds L.s cnt A W)
    {k : ℕ} (hk : k < L.s) {j : ℕ} (h1 : 1 ≤ j) (h2 : j ≤ L.m k / 2) : A.getD (L.sm k + j - 1) 0 = W k j := by
  subst hc
  obtain ⟨i, rfl⟩ : ∃ i, j = i + 1 := ⟨j - 1, by omega⟩
  rw [List.getD_eq_getElem?_getD, hsm, show running L.half k + (i + 1) - 1 = running L.half k + i by omega, h k hk i h2, Option.getD_some]

theorem iVal_spec {dg : ℤ} {T : PlaneTable} (hT : waveBase dg = some T) (size lam : ℝ) (hs : 0 < size) (hl : 0 < lam) (lev : ℕ) (hlev : lev + 1 ≤ 21)
    (c : ℕ) (hc : c < 8) :
    (∀ E, Yukawa.iToL T size lam (Yukawa.scaleOf size lam lev) c (arrays (yukLevel T lam size lev).nexp E) = some (iVal T size lam lev c E)) ∧
    ∀ (a : ℝ) (E E' : WaveViews), iVal T size lam lev c (a • E + E') = a • iVal T size lam lev c E + iVal T size lam lev c E' := by
  obtain ⟨φ, hφ⟩ := yuk_shift T lam size (lev + 1)
  have hN : running (yukLevel T lam size (lev + 1)).half (yukLevel T lam size (lev + 1)).s ≤ (yukLevel T lam size lev).nexp :=
    C90_yukawa_shrinks hT (mul_pos hl hs).le lev
  have hsm : ∀ k, (yukLevel T lam size (lev + 1)).sm k = running (yukLevel T lam size (lev + 1)).half k := fun _ => rfl
  have hne : running (yukLevel T lam size (lev + 1)).half (yukLevel T lam size (lev + 1)).s = (yukLevel T lam size (lev + 1)).nexp := rfl
  have h6 := iToL_six T size lam hs hl lev hlev c
  generalize hLdef : yukLevel T lam size (lev + 1) = L at hφ hN hsm hne h6
  have hslot : ∀ (E : WaveViews) (i : ℕ), ∃ A, slotArr (yukEToE L) L.nexp c (arrays (yukLevel T lam size lev).nexp E) i = some A ∧
      Holds L.s L.half A (0 + (((childTakes c).filter fun t => t.slot = i).map fun t => waveOf L.half (E t.tag) * φ t.x t.y t.z).sum) := by
    intro E i
    obtain ⟨A, e, -, h⟩ := slot_holds hφ (arrays (yukLevel T lam size lev).nexp E) (fun t => waveOf L.half (E t)) (arrays_holds hN E)
      ((childTakes c).filter fun t => t.slot = i) (List.replicate L.nexp 0) 0
      (fun t ht => takes_shift c (List.mem_range.2 hc) t (List.mem_filter.1 ht).1) (Holds.zero _ _ _ hne.le) (by rw [List.length_replicate]; exact hne.le)
    exact ⟨A, e, h⟩
  choose A hA hH using hslot
  have e1 : ∀ E, Yukawa.iToL T size lam (Yukawa.scaleOf size lam lev) c (arrays (yukLevel T lam size lev).nexp E) =
      some (sixL T L size lam (Yukawa.scaleOf size lam (lev + 1)) (A E)) := fun E => h6 _ _ fun i _ => hA E i
  have e2 : ∀ E, iVal T size lam lev c E = sixL T L size lam (Yukawa.scaleOf size lam (lev + 1)) (A E) := by
    intro E
    rw [iVal, e1, Option.getD_some]
  refine ⟨fun E => by rw [e1, e2], fun a E E' => ?_⟩
  rw [e2, e2, e2]
  refine sixL_lin T L size lam _ _ _ _ a fun i _ k hk j h1 h2 => ?_
  rw [getD_of_holds rfl hsm (hH _ i) hk h1 h2, getD_of_holds rfl hsm (hH E i) hk h1 h2, getD_of_holds rfl hsm (hH E' i) hk h1 h2]
  have e3 : ∀ l : List Take, (l.map fun t => waveOf L.half ((a • E + E') t.tag) * φ t.x t.y t.z).sum k j =
      a * (l.map fun t => waveOf L.half (E t.tag) * φ t.x t.y t.z).sum k j + (l.map fun t => waveOf L.half (E' t.tag) * φ t.x t.y t.z).sum k j := by
    intro l
    induction l with
    | nil => simp
    | cons t l ih =>
      rw [List.map_cons, List.map_cons, List.map_cons, List.sum_cons, List.sum_cons, List.sum_cons]
      show waveOf L.half ((a • E + E') t.tag) k j * φ t.x t.y t.z k j + _ = a * (_ + _) + (_ + _)
      rw [ih, waveOf_lin]
      show ((a : ℂ) * waveOf L.half (E t.tag) k j + waveOf L.half (E' t.tag) k j) * φ t.x t.y t.z k j + _ =
        a * (waveOf L.half (E t.tag) k j * φ t.x t.y t.z k j + _) + (waveOf L.half (E' t.tag) k j * φ t.x t.y t.z k j + _)
      ring
  simp only [Pi.add_apply, Pi.zero_apply, zero_add]
  exact e3 _

end
end Dashmm.Yuk
