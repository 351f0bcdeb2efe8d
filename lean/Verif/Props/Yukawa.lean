import Verif.Proofs.YukVal
import Verif.Props.Laplace
import Verif.Props.Bessel

/-!
# C86: the expansions of the Yukawa kernel
-/

namespace Dashmm

open Bessel Harm
open Lap (Src Coef AllRegular Regular)
open scoped Nat

/-- **C86, direct.** `S_to_T` adds exactly the screened potential. -/
theorem C86_direct_exact (lam : ℝ) (hl : 0 < lam) (srcs : List Src) (t : Point ℝ) :
    Yukawa.sToT lam srcs t = some (Yukawa.potential lam srcs t) := by
  have key := foldlM_quot (fun s : Src => 0 < lam * (t.sub s.pos).norm) (fun s => s.charge * Real.exp (-(lam * (t.sub s.pos).norm)))
    (fun s => lam * (t.sub s.pos).norm) (fun s => if 0 < lam * (t.sub s.pos).norm then
      s.charge * Real.exp (-(lam * (t.sub s.pos).norm)) / (lam * (t.sub s.pos).norm) else 0)
    (fun s hs => ⟨hs.ne', if_pos hs⟩) (fun s hs => if_neg hs) srcs 0
  rw [Yukawa.sToT, Yukawa.potential]
  simp only
  rw [key, Option.map_some, zero_add, ← List.sum_map_mul_right]
  congr 2
  refine List.map_congr_left fun s _ => ?_
  have h0 := norm_nonneg' (t.sub s.pos)
  rcases h0.eq_or_lt with h | h
  · simp [← h]
  · rw [if_neg h.ne']
    rw [if_pos (by positivity)]
    field_simp

/-- **C86, multipole.** Whatever the charges and their places: if the target is farther from the centre than each charge,
the value that `M_to_T` adds is the screened potential up to the stated bound: a truncated geometric series, the error of the
Bessel functions and what is lost to underflow. -/
theorem C86_multipole_error (F : Table) (δ lam : ℝ) (hl : 0 < lam) (hδ0 : 10⁻¹ ^ 17 ≤ δ) (hδ : δ ≤ 1 / 2) (hF : AccurateI F δ)
    (p : ℕ) (scale : ℝ) (hs : 0 < scale) (c : Point ℝ) (srcs : List Src) (hc : AllRegular c srcs) (t : Point ℝ)
    (ht : Regular (t.sub c)) (hfar : ∀ s ∈ srcs, (s.pos.sub c).norm < (t.sub c).norm) :
    ∃ M, Yukawa.sToM F lam p c scale srcs = some M ∧ ∀ v, Yukawa.mToT lam p c scale M t = some v →
      |v - Yukawa.potential lam srcs t| ≤ Yukawa.multipoleBound p lam scale δ c srcs t := by
  suffices h : ∃ M, Yukawa.sToM F lam p c scale srcs = some M by
    obtain ⟨M, hM⟩ := h
    exact ⟨M, hM, fun v hv => Yuk.multipole_error F δ lam hl hδ0 hδ hF p scale hs c srcs hc t ht hfar M hM v hv⟩
  clear hfar
  induction srcs with
  | nil => exact ⟨_, rfl⟩
  | cons s l ih =>
    obtain ⟨R, hR⟩ := ih fun x hx => hc x (List.mem_cons_of_mem _ hx)
    rw [Yukawa.sToM] at hR
    have hn := (clear_of_regular (hc s List.mem_cons_self)).ne
    exact ⟨_, by rw [Yukawa.sToM, Lap.sumSources, hR, Yukawa.sToM1, ephiNeg_eq _ hn]; rfl⟩

/-- **C86, local.** The same for the local expansion, for a target closer to the centre than each charge. -/
theorem C86_local_error (F : Table) (δ lam : ℝ) (hl : 0 < lam) (hδ0 : 10⁻¹ ^ 17 ≤ δ) (hδ : δ ≤ 1 / 2) (hF : AccurateI F δ)
    (p : ℕ) (scale : ℝ) (hs : 0 < scale) (c : Point ℝ) (srcs : List Src) (hc : AllRegular c srcs) (t : Point ℝ)
    (ht : Regular (t.sub c)) (hfar : ∀ s ∈ srcs, (t.sub c).norm < (s.pos.sub c).norm) (L : Coef)
    (hL : Yukawa.sToL lam p c scale srcs = some L) :
    ∃ v, Yukawa.lToT F lam p c scale L t = some v ∧
      |v - Yukawa.potential lam srcs t| ≤ Yukawa.localBound p lam scale δ c srcs t :=
  Yuk.local_error F δ lam hl hδ0 hδ hF p scale hs c srcs hc t ht hfar L hL

/-! ### When the operators return -/

theorem scale0_le (size lam : ℝ) (hs : 0 < size) : Yukawa.scale0 size lam ≤ lam * size := by
  rw [Yukawa.scale0]; split
  · next h => rw [one_div, inv_mul_cancel₀ hs.ne']; exact h.le
  · exact le_rfl

theorem scale0_pos (size lam : ℝ) (hs : 0 < size) (hl : 0 < lam) : 0 < Yukawa.scale0 size lam := by
  rw [Yukawa.scale0]; split <;> positivity

theorem yuk_fits (p : ℕ) (hp : p ≤ 18) (lam size : ℝ) (hl : 0 < lam) (hsz : 0 < size) (lev : ℕ) (r : ℝ)
    (hr : size / 2 ^ lev / 4 ≤ r) (h1 : 10⁻¹ ^ 200 ≤ lam * r) (n : ℕ) (hn : n ≤ p + 1) :
    Real.pi / 2 * ((2 * n - 1)‼ : ℕ) * Yukawa.scaleOf size lam lev ^ n / (lam * r) ^ (n + 1) < xinf := by
  have hx0 : 0 < lam * r := lt_of_lt_of_le (by positivity) h1
  have hs0 : 0 < Yukawa.scaleOf size lam lev := by have := scale0_pos size lam hsz hl; unfold Yukawa.scaleOf; positivity
  have hs : Yukawa.scaleOf size lam lev ≤ 4 * (lam * r) := by
    have := scale0_le size lam hsz
    have h2 : Yukawa.scaleOf size lam lev ≤ lam * size / 2 ^ lev := by unfold Yukawa.scaleOf; gcongr
    have h3 : lam * size / 2 ^ lev = 4 * (lam * (size / 2 ^ lev / 4)) := by ring
    rw [h3] at h2
    exact h2.trans (by gcongr)
  have hd : (((2 * n - 1)‼ : ℕ) : ℝ) ≤ 10 ^ 25 := by
    have h19 : n ≤ 19 := by omega
    have : (2 * n - 1)‼ ≤ 10 ^ 25 := by interval_cases n <;> decide
    exact_mod_cast this
  have h4 : (4 : ℝ) ^ n ≤ 4 ^ 19 := pow_le_pow_right₀ (by norm_num) (by omega)
  have hpi := Real.pi_lt_four
  have hpi0 := Real.pi_pos
  calc Real.pi / 2 * ((2 * n - 1)‼ : ℕ) * Yukawa.scaleOf size lam lev ^ n / (lam * r) ^ (n + 1)
      ≤ 4 / 2 * 10 ^ 25 * (4 * (lam * r)) ^ n / (lam * r) ^ (n + 1) := by gcongr
    _ = 2 * 10 ^ 25 * 4 ^ n / (lam * r) := by
      generalize lam * r = y at hx0 ⊢
      rw [mul_pow, pow_succ]; field_simp; ring
    _ ≤ 2 * 10 ^ 25 * 4 ^ 19 / 10⁻¹ ^ 200 := by gcongr
    _ = 2 * 10 ^ 25 * 4 ^ 19 * 10 ^ 200 := by rw [inv_pow, div_inv_eq_mul]
    _ < xinf := by
      unfold xinf
      have : (10 : ℝ) ^ 308 = 10 ^ 108 * 10 ^ 200 := by rw [← pow_add]
      rw [this]
      have h0 : (0 : ℝ) < 10 ^ 200 := by positivity
      generalize (10 : ℝ) ^ 200 = t at h0 ⊢
      nlinarith

theorem xmin_le : xmin ≤ 10⁻¹ ^ 200 := by
  have : (10⁻¹ : ℝ) ^ 308 = 10⁻¹ ^ 108 * 10⁻¹ ^ 200 := by rw [← pow_add]
  have h0 : (0 : ℝ) < 10⁻¹ ^ 200 := by positivity
  unfold xmin
  rw [this]
  generalize (10⁻¹ : ℝ) ^ 200 = t at h0 ⊢
  nlinarith

/-- **C86, defined.** With the order and the scale the table gives, at any level of the tree, `M_to_T` returns for every
target at more than a quarter of the size of the box from its centre, as long as `λ r` is between `10⁻²⁰⁰` and `10⁸`. -/
theorem C86_multipole_returns (p : ℕ) (hp : p ≤ 18) (lam size : ℝ) (hl : 0 < lam) (hsz : 0 < size) (lev : ℕ) (c t : Point ℝ)
    (hr : size / 2 ^ lev / 4 ≤ (t.sub c).norm) (h1 : 10⁻¹ ^ 200 ≤ lam * (t.sub c).norm) (h2 : lam * (t.sub c).norm < 10 ^ 8)
    (M : Coef) : ∃ v, Yukawa.mToT lam p c (Yukawa.scaleOf size lam lev) M t = some v := by
  have hs0 : 0 < Yukawa.scaleOf size lam lev := by have := scale0_pos size lam hsz hl; unfold Yukawa.scaleOf; positivity
  have hn : (t.sub c).norm ≠ 0 := by
    intro h0; rw [h0, mul_zero] at h1
    exact absurd h1 (not_le.2 (by positivity))
  rw [Yukawa.mToT, Yukawa.mToT1, ephi_eq _ hn, kn_succeeds (p + 1) _ _ (by omega) (xmin_le.trans h1) h2 hs0
    (yuk_fits p hp lam size hl hsz lev _ hr h1)]
  exact ⟨_, rfl⟩

/-- **C86, defined.** The same for `S_to_L`, if the order is not zero. -/
theorem C86_local_returns (p : ℕ) (hp1 : 1 ≤ p) (hp : p ≤ 18) (lam size : ℝ) (hl : 0 < lam) (hsz : 0 < size) (lev : ℕ) (c : Point ℝ)
    (srcs : List Src) (h : ∀ s ∈ srcs, size / 2 ^ lev / 4 ≤ (s.pos.sub c).norm ∧ 10⁻¹ ^ 200 ≤ lam * (s.pos.sub c).norm ∧
      lam * (s.pos.sub c).norm < 10 ^ 8) : ∃ L, Yukawa.sToL lam p c (Yukawa.scaleOf size lam lev) srcs = some L := by
  have hs0 : 0 < Yukawa.scaleOf size lam lev := by have := scale0_pos size lam hsz hl; unfold Yukawa.scaleOf; positivity
  induction srcs with
  | nil => exact ⟨_, rfl⟩
  | cons s l ih =>
    obtain ⟨R, hR⟩ := ih fun x hx => h x (List.mem_cons_of_mem _ hx)
    obtain ⟨hr, h1, h2⟩ := h s List.mem_cons_self
    have hn : (s.pos.sub c).norm ≠ 0 := by
      intro h0; rw [h0, mul_zero] at h1
      exact absurd h1 (not_le.2 (by positivity))
    rw [Yukawa.sToL] at hR
    exact ⟨_, by
      rw [Yukawa.sToL, Lap.sumSources, hR, Yukawa.sToL1, ephiNeg_eq _ hn, kn_succeeds p _ _ hp1 (xmin_le.trans h1) h2 hs0
        (fun n hn => yuk_fits p hp lam size hl hsz lev _ hr h1 n (by omega))]; rfl⟩

/-- **C86, what is false.** Numbers of digits other than 3 and 6 give the order zero, and then `S_to_L` aborts on the first
charge. -/
theorem C86_other_digits_abort (d p : ℕ) (hd : Yukawa.pTable d = some p) (h3 : d ≠ 3) (h6 : d ≠ 6) (lam : ℝ) (c : Point ℝ)
    (scale : ℝ) (s : Src) (srcs : List Src) : p = 0 ∧ Yukawa.sToL lam p c scale (s :: srcs) = none := by
  have hp : p = 0 := by
    have hlt : d < 15 := by
      by_contra hge
      rw [Yukawa.pTable, List.getElem?_eq_none (by simp; omega)] at hd
      cases hd
    interval_cases d <;> simp_all [Yukawa.pTable]
  refine ⟨hp, ?_⟩
  subst hp
  rw [Yukawa.sToL, Lap.sumSources]
  have : Yukawa.sToL1 lam 0 (s.pos.sub c) s.charge scale = none := by
    rw [Yukawa.sToL1, C85_kn_aborts 0 _ _ (Or.inl rfl)]
    cases Lap.ephiNeg (s.pos.sub c) <;> rfl
  rw [this]
  cases Lap.sumSources (Yukawa.sToL1 lam 0) c scale srcs <;> rfl

/-- **C86, what is false.** A target with `λ r ≥ 10⁸`, where the potential is zero to all digits, aborts the evaluation. -/
theorem C86_far_target_aborts (lam : ℝ) (p : ℕ) (c t : Point ℝ) (scale : ℝ) (M : Coef) (h : 10 ^ 8 ≤ lam * (t.sub c).norm) :
    Yukawa.mToT lam p c scale M t = none := by
  rw [Yukawa.mToT, Yukawa.mToT1, C85_kn_aborts _ _ _ (Or.inr (Or.inr h))]
  cases Lap.ephi (t.sub c) <;> rfl

/-- The scale of a box at level `lev` of a domain of side `size`: the side of the box in units of
`1 / lam`, or its share of the domain if the domain is larger than `1 / lam`.  It never exceeds either. -/
theorem C86_scale (size lam : ℝ) (hs : 0 < size) (hl : 0 < lam) (lev : ℕ) :
    Yukawa.scaleOf size lam lev = min (lam * (size / 2 ^ lev)) (1 / 2 ^ lev) ∧ 0 < Yukawa.scaleOf size lam lev ∧
    Yukawa.scaleOf size lam (lev + 1) = Yukawa.scaleOf size lam lev / 2 := by
  have h2 : (0 : ℝ) < 2 ^ lev := by positivity
  have h0 : Yukawa.scale0 size lam = min (lam * size) 1 := by
    unfold Yukawa.scale0
    split
    · rw [min_eq_right (by linarith)]; field_simp
    · rw [min_eq_left (by linarith)]
  refine ⟨?_, ?_, ?_⟩
  · rw [Yukawa.scaleOf, h0, ← mul_div_assoc, min_div_div_right h2.le]
  · rw [Yukawa.scaleOf, h0]; have : 0 < min (lam * size) 1 := lt_min (by positivity) one_pos; positivity
  · rw [Yukawa.scaleOf, Yukawa.scaleOf, pow_succ, div_div]

/-! ### Cases that meet the hypotheses -/

/-- Two charges in a box of the unit cube at level 2, a target in another, `λ = 1`, 3 digits: the operators return, and the
error is bounded. -/
example : let F : Table := fun _ x n => sphI n x / √(Real.pi / 2 / x)
    let t : Point ℝ := ⟨4 / 5, 1 / 10, 1 / 10⟩
    let c := lapDom.centerFromIndex lapA
    ∃ p M v, Yukawa.pTable 3 = some p ∧ Yukawa.sToM F 1 p c (Yukawa.scaleOf 1 1 2) lapSrcs = some M ∧
      Yukawa.mToT 1 p c (Yukawa.scaleOf 1 1 2) M t = some v ∧
      |v - Yukawa.potential 1 lapSrcs t| ≤ Yukawa.multipoleBound 9 1 (Yukawa.scaleOf 1 1 2) (10⁻¹ ^ 17) c lapSrcs t := by
  intro F t c
  have hF : AccurateI F (10⁻¹ ^ 17) := by
    intro nb x hx hx2 n _
    have hx0 : 0 < x := lt_trans (by positivity) hx
    have : 0 < √(Real.pi / 2 / x) := Real.sqrt_pos.2 (by have := Real.pi_pos; positivity)
    have e : sphI n x / √(Real.pi / 2 / x) * √(Real.pi / 2 / x) - sphI n x = 0 := by field_simp; ring
    show |sphI n x / √(Real.pi / 2 / x) * √(Real.pi / 2 / x) - sphI n x| ≤ _
    rw [e, abs_zero]
    have := sphI_nonneg n x hx0.le
    positivity
  have hc : c = ⟨1 / 8, 1 / 8, 1 / 8⟩ := lapA_center
  have ht : Regular (t.sub c) := by
    rw [hc]; refine regular_of ?_ ?_ <;> simp only [t, Point.sub] <;> norm_num
  have h1 : ∀ s ∈ lapSrcs, (s.pos.sub c).norm ≤ 1 / 4 := by
    intro s hs
    rw [hc]
    simp only [lapSrcs, List.mem_cons, List.not_mem_nil, or_false] at hs
    rcases hs with rfl | rfl <;> exact norm_le_of (by norm_num) (by simp only [Point.sub]; norm_num)
  have h2 : (1 / 2 : ℝ) ≤ (t.sub c).norm := by
    rw [hc]; exact Real.le_sqrt_of_sq_le (by simp only [t, Point.sub]; norm_num)
  have h3 : (t.sub c).norm ≤ 1 := by
    rw [hc]; exact norm_le_of (by norm_num) (by simp only [t, Point.sub]; norm_num)
  have hs : 0 < Yukawa.scaleOf 1 1 2 := by
    have := scale0_pos 1 1 one_pos one_pos
    unfold Yukawa.scaleOf; positivity
  obtain ⟨M, hM, hv⟩ := C86_multipole_error F (10⁻¹ ^ 17) 1 one_pos le_rfl (by norm_num) hF 9 (Yukawa.scaleOf 1 1 2) hs c lapSrcs
    lapSrcs_regular t ht (fun s hs => by have := h1 s hs; linarith)
  have h200 : (10⁻¹ : ℝ) ^ 200 ≤ 10⁻¹ ^ 1 := pow_le_pow_of_le_one (by norm_num) (by norm_num) (by norm_num)
  obtain ⟨v, hv'⟩ := C86_multipole_returns 9 (by norm_num) 1 1 one_pos one_pos 2 c t (by norm_num; linarith)
    (h200.trans (by norm_num; linarith)) (by norm_num; linarith) M
  exact ⟨9, M, v, by simp [Yukawa.pTable], hM, hv', hv v hv'⟩

end Dashmm
