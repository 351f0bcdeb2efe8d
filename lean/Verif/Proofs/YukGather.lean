import Verif.Proofs.YukRule
import Verif.Proofs.YukTrans
import Verif.Proofs.YukSize
import Verif.Proofs.YukValue

/-!
# The plane waves of the Yukawa kernel: the arrays, the local expansions
-/

namespace Dashmm.Yuk

open Harm Lap Waves
open Complex (I)

noncomputable section

theorem conv_hat (C : Coef) : conv C = hat (fun _ => 1) C := by
  funext n m; simp [hat]

theorem conv_rotateZ (C : Coef) (α : ℝ) : conv (rotateZ C α) = rotateZ (conv C) α := by
  rw [conv_hat, conv_hat, hat_rotateZ]

theorem conv_plus (C : Coef) (c : ℝ) : conv (rotateY C (Yukawa.ydmatPlus c)) = rotateY (conv C) (dmatPlus c) := by
  funext n m
  rw [conv_hat, conv_hat]; exact hat_rotateY _ C (dmatPlus c) n m

theorem conv_minus (C : Coef) (c : ℝ) : conv (rotateY C (Yukawa.ydmatMinus c)) = rotateY (conv C) (dmatMinus c) := by
  funext n m
  rw [conv_hat, conv_hat]; exact hat_rotateY _ C (dmatMinus c) n m

theorem conv_proper (C : Coef) (h : Proper C) : Proper (conv C) := by
  rw [conv_hat]; exact hat_proper _ C h

theorem conv_add (C D : Coef) : conv (C + D) = conv C + conv D := by
  funext n m; simp only [conv, Pi.add_apply]; ring

/-! ### The arrays -/

theorem phase_exp (m : ℕ) (α : ℝ) : phase m α = Complex.exp ((m : ℂ) * α * I) := by
  have := cis_eq ((m : ℝ) * α)
  rw [cis] at this
  refine this.trans ?_
  push_cast; rfl

theorem ealpha_angle {d : ℤ} {T : PlaneTable} (hT : waveBase d = some T) (lam size : ℝ) (lev k j m : ℕ)
    (hk : k < (yukLevel T lam size lev).s) (h1 : 1 ≤ j) (h2 : j ≤ (yukLevel T lam size lev).m k / 2) (h3 : 1 ≤ m)
    (h4 : m ≤ (yukLevel T lam size lev).f k) : Yukawa.ealpha (yukLevel T lam size lev) k j m =
      Complex.exp ((m : ℂ) * ((yukLevel T lam size lev).angle k j : ℝ) * I) := by
  have h := ((C90_yukawa_layout hT lam size lev).2.2.2.2.2.2.2 k hk j h1 h2).1 m h3 h4
  rw [Yukawa.ealpha, List.getD_eq_getElem?_getD, h, Option.getD_some, phase_exp]

theorem arrayOf_congr (s : ℕ) (cnt : ℕ → ℕ) (W W' : Wave) (h : ∀ k < s, ∀ j < cnt k, W k (j + 1) = W' k (j + 1)) :
    arrayOf s cnt W = arrayOf s cnt W' := by
  unfold arrayOf
  refine List.flatMap_congr fun k hk => List.map_congr_left fun j hj => h k (List.mem_range.1 hk) j (List.mem_range.1 hj)

/-- The waves of a multipole expansion. -/
def mWave (L : Level) (p : ℕ) (leg : ℕ → ℕ → ℕ → ℝ) (C : Coef) (v : ℕ) : Wave := fun k j =>
  sig (gw (leg k)) p (L.f k) (frameC v C) (L.angle k j)

/-- The views that `M_to_I` makes. -/
def mViews (L : Level) (p : ℕ) (leg : ℕ → ℕ → ℕ → ℝ) (M : Coef) (v : ℕ) : List ℂ :=
  match v with
  | 0 => Yukawa.waveArr L p leg (rotateY M (Yukawa.ydmatPlus 0)) 1
  | 1 => Yukawa.waveArr L p leg (rotateY M (Yukawa.ydmatPlus 0)) (-1)
  | 2 => Yukawa.waveArr L p leg (rotateY (rotateZ M (-Real.pi / 2)) (Yukawa.ydmatMinus 0)) 1
  | 3 => Yukawa.waveArr L p leg (rotateY (rotateZ M (-Real.pi / 2)) (Yukawa.ydmatMinus 0)) (-1)
  | 4 => Yukawa.waveArr L p leg M 1
  | _ => Yukawa.waveArr L p leg M (-1)

theorem mViews_arr (L : Level) (he : ∀ k < L.s, ∀ j, 1 ≤ j → j ≤ L.m k / 2 → ∀ m, 1 ≤ m → m ≤ L.f k →
      Yukawa.ealpha L k j m = Complex.exp ((m : ℂ) * (L.angle k j : ℝ) * I)) (p : ℕ) (leg : ℕ → ℕ → ℕ → ℝ) (M : Coef) (hM : Proper M) (v : ℕ) :
    mViews L p leg M v = arrayOf L.s L.half (mWave L p leg (conv M) v) := by
  have key : ∀ (W C : Coef), conv W = C → Proper C → Yukawa.waveArr L p leg W 1 = arrayOf L.s L.half (fun k j => sig (gw (leg k)) p (L.f k) C (L.angle k j)) ∧
      Yukawa.waveArr L p leg W (-1) = arrayOf L.s L.half (fun k j => sig (gw (leg k)) p (L.f k) (fun n m => (((-1) ^ n : ℝ) : ℂ) * C n m) (L.angle k j)) := by
    intro W C hW hP
    subst hW
    constructor
    · refine arrayOf_congr _ _ (fun k j => Yukawa.waveAt L p leg W 1 k j) _ fun k hk j hj => ?_
      exact (waveAt_sig L p leg W hP k (j + 1) (L.angle k (j + 1)) fun m h3 h4 => he k hk (j + 1) (by omega) hj m h3 h4).1
    · refine arrayOf_congr _ _ (fun k j => Yukawa.waveAt L p leg W (-1) k j) _ fun k hk j hj => ?_
      rw [sig_cmul]
      exact (waveAt_sig L p leg W hP k (j + 1) (L.angle k (j + 1)) fun m h3 h4 => he k hk (j + 1) (by omega) hj m h3 h4).2
  have hP := conv_proper M hM
  have kx := key (rotateY M (Yukawa.ydmatPlus 0)) _ (conv_plus M 0) (rotateY_proper _ hP _ _ _ (dmatPlus_is 0))
  have ky := key (rotateY (rotateZ M (-Real.pi / 2)) (Yukawa.ydmatMinus 0)) _ ((conv_minus _ 0).trans (by rw [conv_rotateZ]))
    (rotateY_proper _ (rotateZ_proper (-Real.pi / 2) _ hP) _ _ _ (dmatMinus_is 0))
  have kz := key M _ rfl hP
  rcases v with _ | _ | _ | _ | _ | v
  · exact kx.1
  · exact kx.2
  · exact ky.1
  · exact ky.2
  · exact kz.1
  · exact kz.2

theorem mToI_arr {d : ℤ} {T : PlaneTable} (hT : waveBase d = some T) (size lam : ℝ) (p : ℕ) (scale : ℝ) (M : Coef) (hM : Proper M)
    (hl : Yukawa.level size lam scale ≤ Yukawa.maxlev) :
    ∃ S, Yukawa.mToI T size lam p scale M = some S ∧ ∀ v, S v =
      arrayOf (yukLevel T lam size (Yukawa.level size lam scale)).s (yukLevel T lam size (Yukawa.level size lam scale)).half
        (mWave (yukLevel T lam size (Yukawa.level size lam scale)) p (Yukawa.legAt T size lam scale) (conv M) v) := by
  refine ⟨mViews (yukLevel T lam size (Yukawa.level size lam scale)) p (Yukawa.legAt T size lam scale) M, ?_, fun v => ?_⟩
  · rw [Yukawa.mToI, if_pos hl]
    congr 1
  · exact mViews_arr _ (fun k hk j h1 h2 m h3 h4 => ealpha_angle hT lam size _ k j m hk h1 h2 h3 h4) p _ M hM v

/-! ### Back to local expansions -/

/-- The rule of a level. -/
def ruleOf (T : PlaneTable) (L : Level) : Rule := ⟨L.s, T.rule.lam, T.rule.wt, L.m, L.f⟩

/-- The weights of a degree and an order in the local expansion. -/
def gBack (T : PlaneTable) (L : Level) (ld : ℝ) (leg : ℕ → ℕ → ℕ → ℝ) (k n m : ℕ) : ℝ :=
  (-1) ^ n * ((2 * n + 1) * gw (leg k) n m) * (T.rule.wt k / L.m k * (Real.pi / 2 / ld))

theorem zBack_rule {d : ℤ} {T : PlaneTable} (hT : waveBase d = some T) (lam size : ℝ) (lev : ℕ) (E : List ℂ) (W : Wave)
    (hE : ∀ k < (yukLevel T lam size lev).s, ∀ j, 1 ≤ j → j ≤ (yukLevel T lam size lev).m k / 2 →
      E[(yukLevel T lam size lev).sm k + (j - 1)]? = some (W k j)) (k m : ℕ)
    (hk : k < (yukLevel T lam size lev).s) (hm : m ≤ (yukLevel T lam size lev).f k) :
    Yukawa.zBack (yukLevel T lam size lev) E k m = Lap.zBack (ruleOf T (yukLevel T lam size lev)) W k m := by
  have he : ∀ j, 1 ≤ j → j ≤ (yukLevel T lam size lev).m k / 2 → E.getD ((yukLevel T lam size lev).sm k + j - 1) 0 = W k j := by
    intro j h1 h2
    rw [List.getD_eq_getElem?_getD, show (yukLevel T lam size lev).sm k + j - 1 = (yukLevel T lam size lev).sm k + (j - 1) by omega,
      hE k hk j h1 h2, Option.getD_some]
  have ha : ∀ j, 1 ≤ j → j ≤ (yukLevel T lam size lev).m k / 2 → 1 ≤ m →
      Yukawa.ealpha (yukLevel T lam size lev) k j m = (ruleOf T (yukLevel T lam size lev)).ealpha k j m := by
    intro j h1 h2 h3
    rw [ealpha_angle hT lam size lev k j m hk h1 h2 h3 hm, ealpha_eq]; rfl
  unfold Yukawa.zBack Lap.zBack
  split_ifs with h h'
  · refine Finset.sum_congr rfl fun j hj => ?_
    rw [Finset.mem_Icc] at hj
    simp only
    rw [he j hj.1 hj.2]
  · refine Finset.sum_congr rfl fun j hj => ?_
    rw [Finset.mem_Icc] at hj
    simp only
    rw [he j hj.1 hj.2, ha j hj.1 hj.2 (by omega)]
  · refine Finset.sum_congr rfl fun j hj => ?_
    rw [Finset.mem_Icc] at hj
    simp only
    rw [he j hj.1 hj.2, ha j hj.1 hj.2 (by omega)]

theorem conv_back {d : ℤ} {T : PlaneTable} (hT : waveBase d = some T) (lam size scale : ℝ) (lev : ℕ) (E : List ℂ) (W : Wave)
    (hE : ∀ k < (yukLevel T lam size lev).s, ∀ j, 1 ≤ j → j ≤ (yukLevel T lam size lev).m k / 2 →
      E[(yukLevel T lam size lev).sm k + (j - 1)]? = some (W k j)) (n m : ℕ) (hm : m ≤ n) :
    conv (Yukawa.backCoef T (yukLevel T lam size lev) size lam scale E true) n m =
      (∑ k ∈ Finset.range (ruleOf T (yukLevel T lam size lev)).s, if m ≤ (ruleOf T (yukLevel T lam size lev)).f k then
        (gBack T (yukLevel T lam size lev) (Yukawa.ldOf size lam scale) (Yukawa.legAt T size lam scale) k n m : ℂ) *
          Lap.zBack (ruleOf T (yukLevel T lam size lev)) W k m else 0) *
      (I ^ m / (Lap.sqf (n - m) : ℂ) / (Lap.sqf (n + m) : ℂ)) := by
  have h1 : (Lap.sqf (n - m) : ℂ) ≠ 0 := by exact_mod_cast (lsqf_pos (n - m)).ne'
  have h2 : (Lap.sqf (n + m) : ℂ) ≠ 0 := by exact_mod_cast (lsqf_pos (n + m)).ne'
  have h3 : ((n - m).factorial : ℝ) = Lap.sqf (n - m) ^ 2 := (lsqf_sq _).symm
  rw [conv, Yukawa.backCoef]
  simp only [Bool.not_true, Bool.false_and, Bool.false_eq_true, if_false]
  rw [Finset.sum_mul, Finset.sum_mul, Finset.sum_mul]
  refine Finset.sum_congr rfl fun k hk => ?_
  have hc : (m ≤ if n ≤ (yukLevel T lam size lev).f k then n else (yukLevel T lam size lev).f k) ↔ m ≤ (yukLevel T lam size lev).f k := by
    split_ifs <;> omega
  simp only [hc]
  show _ = (if m ≤ (yukLevel T lam size lev).f k then _ else _) * _
  split_ifs with h
  · rw [zBack_rule hT lam size lev E W hE k m (Finset.mem_range.1 hk) h, gBack, gw, h3, Yukawa.sqf, fact_sq, fact_sq]
    push_cast
    field_simp
  · ring

theorem back_false (T : PlaneTable) (L : Level) (size lam scale : ℝ) (E : List ℂ) : conv (Yukawa.backCoef T L size lam scale E false) =
    fun n m => (((-1) ^ n : ℝ) : ℂ) * conv (Yukawa.backCoef T L size lam scale E true) n m := by
  funext n m
  rw [conv, conv]
  unfold Yukawa.backCoef
  rcases Nat.mod_two_eq_zero_or_one n with h | h
  · simp [h, (Nat.even_iff.2 h).neg_one_pow]
  · simp [h, (Nat.odd_iff.2 h).neg_one_pow]

theorem form_cmul (a : ℕ → ℝ) (C : Coef) (b : Point ℝ) (n : ℕ) : form (fun n m => (a n : ℂ) * C n m) b n = a n * form C b n := by
  unfold form
  rw [Finset.mul_sum]
  exact Finset.sum_congr rfl fun m _ => by rw [ext_cmul]; ring

/-- The value at `b` of what the waves of one direction add. -/
theorem eToL_pair (T : PlaneTable) (L : Level) (lam size scale : ℝ) (p : ℕ) (B : ℕ → ℝ) (b : Point ℝ)
    (E : List ℂ) (W : Wave)
    (hD : ∀ n m, m ≤ n → conv (Yukawa.backCoef T L size lam scale E true) n m =
      (∑ k ∈ Finset.range (ruleOf T L).s, if m ≤ (ruleOf T L).f k then
        (gBack T L (Yukawa.ldOf size lam scale) (Yukawa.legAt T size lam scale) k n m : ℂ) * Lap.zBack (ruleOf T L) W k m else 0) *
      (I ^ m / (Lap.sqf (n - m) : ℂ) / (Lap.sqf (n + m) : ℂ))) :
    let P := fun v => pairG (ruleOf T L) p (fun k n m => B n * gBack T L (Yukawa.ldOf size lam scale) (Yukawa.legAt T size lam scale) k n m) W (Lap.turn v b)
    let V := fun dir sgn => ∑ n ∈ Finset.range (p + 1), B n * (form (conv (Yukawa.eToL T L size lam scale E dir sgn)) b n).re
    V 'z' true = P 4 ∧ V 'z' false = P 5 ∧ V 'y' true = P 2 ∧ V 'y' false = P 3 ∧ V 'x' true = P 0 ∧ V 'x' false = P 1 := by
  intro P V
  have hv : ∀ b, ∑ n ∈ Finset.range (p + 1), B n * (form (conv (Yukawa.backCoef T L size lam scale E true)) b n).re =
      pairG (ruleOf T L) p (fun k n m => B n * gBack T L (Yukawa.ldOf size lam scale) (Yukawa.legAt T size lam scale) k n m) W b :=
    fun b => back_valG (ruleOf T L) W _ _ hD b p B
  have hPt : Proper (conv (Yukawa.backCoef T L size lam scale E true)) := (form_backG (ruleOf T L) W _ _ hD b 0).1
  have hP : ∀ sgn, Proper (conv (Yukawa.backCoef T L size lam scale E sgn)) := by
    intro sgn
    cases sgn
    · rw [back_false]
      intro n
      simp only
      rw [Complex.im_ofReal_mul, hPt n, mul_zero]
    · exact hPt
  have hf : ∀ b n, form (conv (Yukawa.backCoef T L size lam scale E false)) b n =
      form (conv (Yukawa.backCoef T L size lam scale E true)) ⟨-b.x, -b.y, -b.z⟩ n := by
    intro b n
    rw [back_false, form_cmul, form_neg]; push_cast; ring
  have hx : ∀ sgn n, form (conv (Yukawa.eToL T L size lam scale E 'x' sgn)) b n =
      form (conv (Yukawa.backCoef T L size lam scale E sgn)) ⟨-b.z, b.y, b.x⟩ n := by
    intro sgn n
    show form (conv (rotateY (Yukawa.backCoef T L size lam scale E sgn) (Yukawa.ydmatMinus 0))) b n = _
    rw [conv_minus, form_rotateY _ (hP sgn) _ _ _ (dmatMinus_is 0) (by rw [neg_sq]; exact cs_one _), neg_neg, rotY_plus]
  have hy : ∀ sgn n, form (conv (Yukawa.eToL T L size lam scale E 'y' sgn)) b n =
      form (conv (Yukawa.backCoef T L size lam scale E sgn)) ⟨b.z, b.x, b.y⟩ n := by
    intro sgn n
    show form (conv (rotateZ (rotateY (Yukawa.backCoef T L size lam scale E sgn) (Yukawa.ydmatPlus 0)) (Real.pi / 2))) b n = _
    rw [conv_rotateZ, conv_plus, form_rotateZ, form_rotateY _ (hP sgn) _ _ _ (dmatPlus_is 0) (cs_one _), rotZ_minus, rotY_minus, neg_neg]
  have hz : ∀ sgn n, form (conv (Yukawa.eToL T L size lam scale E 'z' sgn)) b n =
      form (conv (Yukawa.backCoef T L size lam scale E sgn)) b n := fun _ _ => rfl
  refine ⟨?_, ?_, ?_, ?_, ?_, ?_⟩
  · simp only [V, hz]; exact hv b
  · simp only [V, hz, hf]; exact hv _
  · simp only [V, hy]; exact hv _
  · simp only [V, hy, hf]; exact hv _
  · simp only [V, hx]; exact hv _
  · simp only [V, hx, hf, neg_neg]; exact hv _

theorem proper_add {C D : Coef} (hC : Proper C) (hD : Proper D) : Proper (C + D) := by
  intro n
  rw [Pi.add_apply, Pi.add_apply, Complex.add_im, hC n, hD n, add_zero]

theorem eToL_proper' (T : PlaneTable) (L : Level) (lam size scale : ℝ) (E : List ℂ) (W : Wave)
    (hD : ∀ n m, m ≤ n → conv (Yukawa.backCoef T L size lam scale E true) n m =
      (∑ k ∈ Finset.range (ruleOf T L).s, if m ≤ (ruleOf T L).f k then
        (gBack T L (Yukawa.ldOf size lam scale) (Yukawa.legAt T size lam scale) k n m : ℂ) * Lap.zBack (ruleOf T L) W k m else 0) *
      (I ^ m / (Lap.sqf (n - m) : ℂ) / (Lap.sqf (n + m) : ℂ))) (dir : Char) (sgn : Bool) :
    Proper (conv (Yukawa.eToL T L size lam scale E dir sgn)) := by
  have hPt : Proper (conv (Yukawa.backCoef T L size lam scale E true)) := (form_backG (ruleOf T L) W _ _ hD ⟨0, 0, 0⟩ 0).1
  have hP : Proper (conv (Yukawa.backCoef T L size lam scale E sgn)) := by
    cases sgn
    · rw [back_false]
      intro n
      simp only
      rw [Complex.im_ofReal_mul, hPt n, mul_zero]
    · exact hPt
  unfold Yukawa.eToL
  simp only
  split_ifs
  · exact hP
  · rw [conv_rotateZ, conv_plus]
    exact rotateZ_proper _ _ (rotateY_proper _ hP _ _ _ (dmatPlus_is 0))
  · rw [conv_minus]
    exact rotateY_proper _ hP _ _ _ (dmatMinus_is 0)

end
end Dashmm.Yuk
