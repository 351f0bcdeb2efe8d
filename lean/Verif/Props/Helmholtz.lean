import Verif.Proofs.HelmVal
import Verif.Props.Laplace
import Verif.Props.Bessel

/-!
# C88: the expansions of the Helmholtz kernel
-/

namespace Dashmm

open Bessel Harm
open Lap (Src Coef AllRegular Regular)
open scoped Nat

/-- **C88, direct.** `S_to_T` adds exactly the field. -/
theorem C88_direct_exact (om : ℝ) (ho : 0 < om) (srcs : List Src) (t : Point ℝ) :
    Helm.sToT om srcs t = some (Helm.field om srcs t) := by
  have key := foldlM_quot (fun s : Src => 0 < om * (t.sub s.pos).norm)
    (fun s => (s.charge : ℂ) * Complex.exp ((om * (t.sub s.pos).norm : ℝ) * Complex.I)) (fun s => ((om * (t.sub s.pos).norm : ℝ) : ℂ) * Complex.I)
    (fun s => if 0 < om * (t.sub s.pos).norm then
      (s.charge : ℂ) * Complex.exp ((om * (t.sub s.pos).norm : ℝ) * Complex.I) / (((om * (t.sub s.pos).norm : ℝ) : ℂ) * Complex.I) else 0)
    (fun s hs => ⟨mul_ne_zero (Complex.ofReal_ne_zero.2 hs.ne') Complex.I_ne_zero, if_pos hs⟩) (fun s hs => if_neg hs) srcs 0
  rw [Helm.sToT, Helm.field]
  simp only
  rw [key, zero_add]
  congr 2
  refine List.map_congr_left fun s _ => ?_
  have h0 := norm_nonneg' (t.sub s.pos)
  rcases h0.eq_or_lt with h | h
  · simp [← h]
  · rw [if_neg h.ne']
    rw [if_pos (by positivity), mul_comm Complex.I]

/-- **C88, multipole.** Whatever the charges and their places: if the target is farther from the centre than each charge, the
value that `M_to_T` adds is the field up to the truncated rest of the series and the errors of the two arrays of functions. -/
theorem C88_multipole_error (J Y : Table) (om : ℝ) (ho : 0 < om) (p : ℕ) (scale : ℝ) (hs : 0 < scale) (c : Point ℝ)
    (srcs : List Src) (hc : AllRegular c srcs) (t : Point ℝ) (ht : Regular (t.sub c))
    (hfar : ∀ s ∈ srcs, (s.pos.sub c).norm < (t.sub c).norm) (α : Src → ℕ → ℝ) (β : ℕ → ℝ)
    (hJ : ∀ s ∈ srcs, Helm.NearJ p (om * (s.pos.sub c).norm) scale (α s) (jnScaled J p (om * (s.pos.sub c).norm) scale))
    (hH : Helm.NearH p (om * (t.sub c).norm) scale β (Helm.hn J Y p (om * (t.sub c).norm) scale)) :
    ∃ M v, Helm.sToM J om p c scale srcs = some M ∧ Helm.mToT J Y om p c scale M t = some v ∧
      ‖v - Helm.field om srcs t‖ ≤ (srcs.map fun s => |s.charge| *
        (Helm.truncation p om (s.pos.sub c).norm (t.sub c).norm +
          Helm.functionError p om scale (s.pos.sub c).norm (t.sub c).norm (α s) β)).sum := by
  suffices h : ∃ M, Helm.sToM J om p c scale srcs = some M by
    obtain ⟨M, hM⟩ := h
    obtain ⟨v, hv, hb⟩ := Helm.multipole_error J Y om ho p scale hs c srcs hc t ht hfar α β hJ hH M hM
    exact ⟨M, v, hM, hv, hb⟩
  clear hfar hJ
  induction srcs with
  | nil => exact ⟨_, rfl⟩
  | cons s l ih =>
    obtain ⟨R, hR⟩ := ih fun x hx => hc x (List.mem_cons_of_mem _ hx)
    rw [Helm.sToM] at hR
    have hn := (clear_of_regular (hc s List.mem_cons_self)).ne
    exact ⟨_, by rw [Helm.sToM, Lap.sumSources, hR, Helm.sToM1, ephiNeg_eq _ hn]; rfl⟩

/-- **C88, local.** The same for the local expansion, for a target closer to the centre than each charge. -/
theorem C88_local_error (J Y : Table) (om : ℝ) (ho : 0 < om) (p : ℕ) (scale : ℝ) (hs : 0 < scale) (c : Point ℝ)
    (srcs : List Src) (hc : AllRegular c srcs) (t : Point ℝ) (ht : Regular (t.sub c))
    (hfar : ∀ s ∈ srcs, (t.sub c).norm < (s.pos.sub c).norm) (α : ℕ → ℝ) (β : Src → ℕ → ℝ)
    (hJ : Helm.NearJ p (om * (t.sub c).norm) scale α (jnScaled J p (om * (t.sub c).norm) scale))
    (hH : ∀ s ∈ srcs, Helm.NearH p (om * (s.pos.sub c).norm) scale (β s) (Helm.hn J Y p (om * (s.pos.sub c).norm) scale)) :
    ∃ L v, Helm.sToL J Y om p c scale srcs = some L ∧ Helm.lToT J om p c scale L t = some v ∧
      ‖v - Helm.field om srcs t‖ ≤ (srcs.map fun s => |s.charge| *
        (Helm.truncation p om (t.sub c).norm (s.pos.sub c).norm +
          Helm.functionError p om scale (t.sub c).norm (s.pos.sub c).norm α (β s))).sum :=
  Helm.local_error J Y om ho p scale hs c srcs hc t ht hfar α β hJ hH

/-- The arrays of `bessel_hn_scaled` are near if the tables are. -/
theorem hn_near (J Y : Table) (ε : ℝ) (p : ℕ) (x scale : ℝ) (hx : 10⁻¹ ^ 4 ≤ x) (hs : 0 < scale)
    (hJ : ∀ n ≤ p, |J p x n * √(Real.pi / 2 / x) - sphJ n x| ≤ ε)
    (hY : ∀ n ≤ p, |Y p x n * √(Real.pi / 2 / x) - sphY x n| ≤ ε) :
    Helm.NearH p x scale (fun n => 2 * (scale ^ n * ε)) (Helm.hn J Y p x scale) := by
  intro n hn
  obtain ⟨h1, h2⟩ := C85_hn_error_partial J Y ε p x scale hx hs n (hJ n hn) (hY n hn)
  have e : Helm.hn J Y p x scale n - (scale : ℂ) ^ n * Helm.sphH n x =
      ((hnRe J p x scale n - scale ^ n * sphJ n x : ℝ) : ℂ) + ((hnIm Y p x scale n - scale ^ n * sphY x n : ℝ) : ℂ) * Complex.I := by
    have : Helm.hn J Y p x scale n = (hnRe J p x scale n : ℂ) + (hnIm Y p x scale n : ℂ) * Complex.I := by
      rw [Helm.hn]; apply Complex.ext <;> simp
    rw [this, Helm.sphH]; push_cast; ring
  rw [e]
  refine (norm_add_le _ _).trans ?_
  rw [norm_mul, Complex.norm_I, mul_one, Complex.norm_real, Complex.norm_real, Real.norm_eq_abs, Real.norm_eq_abs]
  linarith

/-- **C88, multipole, accurate tables.** If the box is at most `10⁻⁴ / ω` wide around its centre, so that no table of `j_n` is
needed there, and the target is at least that far away, nothing but the accuracy of the tables at the target is assumed. -/
theorem C88_multipole_small_box (J Y : Table) (om : ℝ) (ho : 0 < om) (p : ℕ) (scale : ℝ) (hs : 0 < scale) (c : Point ℝ)
    (srcs : List Src) (hc : AllRegular c srcs) (t : Point ℝ) (ht : Regular (t.sub c))
    (hfar : ∀ s ∈ srcs, (s.pos.sub c).norm < (t.sub c).norm)
    (hin : ∀ s ∈ srcs, om * (s.pos.sub c).norm ≤ 10⁻¹ ^ 4) (hout : 10⁻¹ ^ 4 ≤ om * (t.sub c).norm) (ε : ℝ)
    (hJ : ∀ n ≤ p, |J p (om * (t.sub c).norm) n * √(Real.pi / 2 / (om * (t.sub c).norm)) - sphJ n (om * (t.sub c).norm)| ≤ ε)
    (hY : ∀ n ≤ p, |Y p (om * (t.sub c).norm) n * √(Real.pi / 2 / (om * (t.sub c).norm)) - sphY (om * (t.sub c).norm) n| ≤ ε) :
    ∃ M v, Helm.sToM J om p c scale srcs = some M ∧ Helm.mToT J Y om p c scale M t = some v ∧
      ‖v - Helm.field om srcs t‖ ≤ (srcs.map fun s => |s.charge| *
        (Helm.truncation p om (s.pos.sub c).norm (t.sub c).norm +
          Helm.functionError p om scale (s.pos.sub c).norm (t.sub c).norm
            (fun n => 10⁻¹ ^ 17 * ((om * (s.pos.sub c).norm / scale) ^ n / ((2 * n + 1)‼ : ℕ)) +
              2 * 10⁻¹ ^ 300 * max 1 (om * (s.pos.sub c).norm / scale) ^ n)
            (fun n => 2 * (scale ^ n * ε)))).sum :=
  C88_multipole_error J Y om ho p scale hs c srcs hc t ht hfar _ _
    (fun s hs' n _ => C85_jn_small J p _ scale hs (mul_nonneg ho.le (norm_nonneg' _)) (hin s hs') n)
    (hn_near J Y ε p _ scale hout hs hJ hY)

/-- The scale of a box at level `lev` of a domain of side `size`: the side of the box in units of
`1 / om`, or its share of the domain if the domain is larger than `1 / om`.  It never exceeds either. -/
theorem C88_scale (size om : ℝ) (hs : 0 < size) (hl : 0 < om) (lev : ℕ) :
    Helm.scaleOf size om lev = min (om * (size / 2 ^ lev)) (1 / 2 ^ lev) ∧ 0 < Helm.scaleOf size om lev ∧
    Helm.scaleOf size om (lev + 1) = Helm.scaleOf size om lev / 2 := by
  have h2 : (0 : ℝ) < 2 ^ lev := by positivity
  have h0 : Helm.scale0 size om = min (om * size) 1 := by
    unfold Helm.scale0
    split
    · rw [min_eq_right (by linarith)]; field_simp
    · rw [min_eq_left (by linarith)]
  refine ⟨?_, ?_, ?_⟩
  · rw [Helm.scaleOf, h0, ← mul_div_assoc, min_div_div_right h2.le]
  · rw [Helm.scaleOf, h0]; have : 0 < min (om * size) 1 := lt_min (by positivity) one_pos; positivity
  · rw [Helm.scaleOf, Helm.scaleOf, pow_succ, div_div]

/-- **C88.** The rest of the series is a geometric sequence: it vanishes as the order grows. -/
theorem C88_truncation_le (p : ℕ) (om ρ r : ℝ) (ho : 0 < om) (hρ : 0 ≤ ρ) (hr : ρ < r) :
    Helm.truncation p om ρ r ≤ Real.exp (om * (r + ρ)) * Real.exp (om ^ 2 * ρ ^ 2) * (1 + om ^ 2 * (ρ * r)) / (om * (r - ρ)) *
      (ρ / r) ^ (p + 1) := by
  have hr0 : 0 < r := lt_of_le_of_lt hρ hr
  have hd : 0 < r - ρ := sub_pos.2 hr
  have h1 : om ^ 2 * ρ ^ 2 / (2 * (2 * p + 3)) ≤ om ^ 2 * ρ ^ 2 :=
    div_le_self (by positivity) (by have : (0 : ℝ) ≤ p := Nat.cast_nonneg p; linarith)
  have h2 : om ^ 2 * (ρ * r) / ((2 * p + 1) * (2 * p + 3)) ≤ om ^ 2 * (ρ * r) :=
    div_le_self (by positivity) (by have : (0 : ℝ) ≤ p := Nat.cast_nonneg p; nlinarith)
  rw [Helm.truncation]
  calc _ ≤ Real.exp (om * (r + ρ)) * Real.exp (om ^ 2 * ρ ^ 2) * (1 + om ^ 2 * (ρ * r)) * ((ρ / r) ^ (p + 1) / (r - ρ)) / om := by
        gcongr
    _ = _ := by field_simp

/-- **C88, what is false.** For a target with `ω r < 10⁻⁴` no order helps: the functions of degree one and more that multiply the
coefficients are at most `3 ω r` times what they should be, so that they are not near with any tolerance below that. -/
theorem C88_near_target_wrong (J Y : Table) (p : ℕ) (hp : 1 ≤ p) (x scale : ℝ) (hx : 0 < x) (hx4 : x < 10⁻¹ ^ 4) (hs : 0 < scale)
    (β : ℕ → ℝ) (hβ : β 1 < (1 - 3 * x) * |scale ^ 1 * sphY x 1|) : ¬ Helm.NearH p x scale β (Helm.hn J Y p x scale) := by
  intro h
  have h1 := h 1 hp
  obtain ⟨h2, _⟩ := C85_hn_small_wrong Y p x scale hx hx4 hs 0
  rw [zero_add] at h2
  have him : (Helm.hn J Y p x scale 1 - (scale : ℂ) ^ 1 * Helm.sphH 1 x).im = hnIm Y p x scale 1 - scale ^ 1 * sphY x 1 := by
    rw [Helm.hn, Helm.sphH]; simp
  have h3 := (Complex.abs_im_le_norm _).trans h1
  rw [him] at h3
  have h4 := abs_sub_abs_le_abs_sub (scale ^ 1 * sphY x 1) (hnIm Y p x scale 1)
  rw [abs_sub_comm] at h4
  linarith

/-! ### Cases that meet the hypotheses -/

/-- Two charges in a box of the unit cube at level 2, a target in another, `ω = 1 / 10000`, 3 digits, exact tables. -/
example : let J : Table := fun _ x n => sphJ n x / √(Real.pi / 2 / x)
    let Y : Table := fun _ x n => sphY x n / √(Real.pi / 2 / x)
    let om : ℝ := 2 * 10⁻¹ ^ 4
    let t : Point ℝ := ⟨4 / 5, 1 / 10, 1 / 10⟩
    let c := lapDom.centerFromIndex lapA
    ∃ p M v, Helm.pTable 3 = some p ∧ Helm.sToM J om p c (Helm.scaleOf 1 om 2) lapSrcs = some M ∧
      Helm.mToT J Y om p c (Helm.scaleOf 1 om 2) M t = some v ∧
      ‖v - Helm.field om lapSrcs t‖ ≤ (lapSrcs.map fun s => |s.charge| *
        (Helm.truncation 9 om (s.pos.sub c).norm (t.sub c).norm +
          Helm.functionError 9 om (Helm.scaleOf 1 om 2) (s.pos.sub c).norm (t.sub c).norm
            (fun n => 10⁻¹ ^ 17 * ((om * (s.pos.sub c).norm / Helm.scaleOf 1 om 2) ^ n / ((2 * n + 1)‼ : ℕ)) +
              2 * 10⁻¹ ^ 300 * max 1 (om * (s.pos.sub c).norm / Helm.scaleOf 1 om 2) ^ n)
            (fun n => 2 * (Helm.scaleOf 1 om 2 ^ n * 0)))).sum := by
  intro J Y om t c
  have hc : c = ⟨1 / 8, 1 / 8, 1 / 8⟩ := lapA_center
  have ho : 0 < om := by simp only [om]; positivity
  have ht : Regular (t.sub c) := by
    rw [hc]; refine regular_of ?_ ?_ <;> simp only [t, Point.sub] <;> norm_num
  have h1 : ∀ s ∈ lapSrcs, (s.pos.sub c).norm ≤ 1 / 4 := by
    intro s hs
    rw [hc]
    simp only [lapSrcs, List.mem_cons, List.not_mem_nil, or_false] at hs
    rcases hs with rfl | rfl <;> exact norm_le_of (by norm_num) (by simp only [Point.sub]; norm_num)
  have h2 : (1 / 2 : ℝ) ≤ (t.sub c).norm := by
    rw [hc]; exact Real.le_sqrt_of_sq_le (by simp only [t, Point.sub]; norm_num)
  have hs : 0 < Helm.scaleOf 1 om 2 := by
    have : 0 < Helm.scale0 1 om := by unfold Helm.scale0; split <;> positivity
    unfold Helm.scaleOf; positivity
  have hx : 0 < om * (t.sub c).norm := mul_pos ho (by linarith)
  have hq : 0 < √(Real.pi / 2 / (om * (t.sub c).norm)) := Real.sqrt_pos.2 (by have := Real.pi_pos; positivity)
  obtain ⟨M, v, hM, hv, hb⟩ := C88_multipole_small_box J Y om ho 9 (Helm.scaleOf 1 om 2) hs c lapSrcs lapSrcs_regular t ht
    (fun s hs => by have := h1 s hs; linarith)
    (fun s hs => by have := h1 s hs; simp only [om]; nlinarith [norm_nonneg' (s.pos.sub c)])
    (by simp only [om]; nlinarith) 0
    (fun n _ => by
      have : J 9 (om * (t.sub c).norm) n * √(Real.pi / 2 / (om * (t.sub c).norm)) - sphJ n (om * (t.sub c).norm) = 0 := by
        simp only [J]; rw [div_mul_cancel₀ _ hq.ne', sub_self]
      rw [this, abs_zero])
    (fun n _ => by
      have : Y 9 (om * (t.sub c).norm) n * √(Real.pi / 2 / (om * (t.sub c).norm)) - sphY (om * (t.sub c).norm) n = 0 := by
        simp only [Y]; rw [div_mul_cancel₀ _ hq.ne', sub_self]
      rw [this, abs_zero])
  exact ⟨9, M, v, by simp [Helm.pTable], hM, hv, hb⟩

end Dashmm
