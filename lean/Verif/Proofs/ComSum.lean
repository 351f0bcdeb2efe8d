import Verif.Proofs.ComError
import Verif.Spec.ComEval

/-! From the error of one source to the error of `M_to_T`; `S_to_T` is the direct sum. -/

namespace Dashmm.Com

theorem total_close {l : List (Src ℝ)} {f g : Src ℝ → ℝ} {B : ℝ}
    (h : ∀ s ∈ l, |f s - g s| ≤ B) : |total l f - total l g| ≤ absCharge l * B := by
  induction l with
  | nil => simp [absCharge]
  | cons s l ih =>
    have h1 := ih (fun t ht => h t (by simp [ht]))
    have h2 := h s (by simp)
    have e : total (s :: l) f - total (s :: l) g =
        s.charge * (f s - g s) + (total l f - total l g) := by
      simp only [total_cons]; ring
    have e2 : absCharge (s :: l) = |s.charge| + absCharge l := by simp [absCharge]
    rw [e, e2, add_mul]
    refine (abs_add_le _ _).trans (add_le_add ?_ h1)
    rw [abs_mul]; exact mul_le_mul_of_nonneg_left h2 (abs_nonneg _)

theorem total_congr {l : List (Src ℝ)} {f g : Src ℝ → ℝ} (h : ∀ s ∈ l, f s = g s) :
    total l f = total l g := by
  unfold total
  congr 1
  apply List.map_congr_left
  intro s hs; rw [h s hs]

theorem total_add {l : List (Src ℝ)} {f g : Src ℝ → ℝ} :
    total l (fun s => f s + g s) = total l f + total l g := by
  induction l with
  | nil => simp
  | cons s l ih => simp only [total_cons, ih]; ring

theorem total_smul {l : List (Src ℝ)} {f : Src ℝ → ℝ} (c : ℝ) :
    total l (fun s => c * f s) = c * total l f := by
  induction l with
  | nil => simp
  | cons s l ih => simp only [total_cons, ih]; ring

/-- `S_to_T` of `LaplaceCOM` computes the potential. -/
theorem comSToTSum_eq (srcs : List (Src ℝ)) (t : PhiTarget) :
    comSToTSum srcs t = potential srcs t.x t.y t.z := by
  have hd : ∀ i : Src ℝ, (t.x - i.x) * (t.x - i.x) + (t.y - i.y) * (t.y - i.y)
      + (t.z - i.z) * (t.z - i.z) = dist2 i t.x t.y t.z := by intro i; unfold dist2; ring
  have hn : ∀ i : Src ℝ, 0 ≤ dist2 i t.x t.y t.z := by intro i; unfold dist2; positivity
  have : ∀ (l : List (Src ℝ)) (a : ℝ), l.foldl (fun sum i =>
      if 0 < dist2 i t.x t.y t.z then sum + i.charge / Real.sqrt (dist2 i t.x t.y t.z) else sum) a
      = a + potential l t.x t.y t.z := by
    intro l
    induction l with
    | nil => intro a; simp [potential]
    | cons s l ih =>
      intro a
      rw [List.foldl_cons, ih]
      unfold potential
      simp only [List.map_cons, List.sum_cons]
      by_cases h : dist2 s t.x t.y t.z = 0
      · simp [h]
      · rw [if_pos (lt_of_le_of_ne (hn s) (Ne.symm h)), if_neg h]; ring
  unfold comSToTSum
  simp only [hd]
  rw [this]; simp

/-- `S_to_T` of `LaplaceCOMAcc` computes the field. -/
theorem accSToTSum_eq (srcs : List (Src ℝ)) (t : AccTarget) :
    accSToTSum srcs t =
      (fieldX srcs t.x t.y t.z, fieldY srcs t.x t.y t.z, fieldZ srcs t.x t.y t.z) := by
  have hd : ∀ i : Src ℝ, (t.x - i.x) * (t.x - i.x) + (t.y - i.y) * (t.y - i.y)
      + (t.z - i.z) * (t.z - i.z) = dist2 i t.x t.y t.z := by intro i; unfold dist2; ring
  have hn : ∀ i : Src ℝ, 0 ≤ dist2 i t.x t.y t.z := by intro i; unfold dist2; positivity
  have h3 : ∀ i : Src ℝ, dist2 i t.x t.y t.z * Real.sqrt (dist2 i t.x t.y t.z) =
      Real.sqrt (dist2 i t.x t.y t.z) ^ 3 := by
    intro i
    have := Real.sq_sqrt (hn i)
    calc _ = Real.sqrt (dist2 i t.x t.y t.z) ^ 2 * Real.sqrt (dist2 i t.x t.y t.z) := by rw [this]
      _ = _ := by ring
  have : ∀ (l : List (Src ℝ)) (a : ℝ × ℝ × ℝ), l.foldl (fun (s : ℝ × ℝ × ℝ) i =>
      if 0 < dist2 i t.x t.y t.z then
      (s.1 + i.charge * (t.x - i.x) / Real.sqrt (dist2 i t.x t.y t.z) ^ 3,
       s.2.1 + i.charge * (t.y - i.y) / Real.sqrt (dist2 i t.x t.y t.z) ^ 3,
       s.2.2 + i.charge * (t.z - i.z) / Real.sqrt (dist2 i t.x t.y t.z) ^ 3) else s) a
      = (a.1 + fieldX l t.x t.y t.z, a.2.1 + fieldY l t.x t.y t.z,
          a.2.2 + fieldZ l t.x t.y t.z) := by
    intro l
    induction l with
    | nil => intro a; simp [fieldX, fieldY, fieldZ, fieldComp]
    | cons s l ih =>
      intro a
      rw [List.foldl_cons, ih]
      unfold fieldX fieldY fieldZ fieldComp
      simp only [List.map_cons, List.sum_cons]
      by_cases h : dist2 s t.x t.y t.z = 0
      · simp [h]
      · rw [if_pos (lt_of_le_of_ne (hn s) (Ne.symm h)), if_neg h, if_neg h, if_neg h]
        ext <;> simp <;> ring
  unfold accSToTSum
  simp only [hd, h3]
  rw [this]; simp

section sep
variable {d : Data ℝ} {l : List (Src ℝ)} {a r x y z : ℝ}

/-- The data of one source needed by the estimates. -/
theorem Separated.one (h : Separated d l a r x y z) {s : Src ℝ} (hs : s ∈ l) :
    let P := (x - d.c0) * (s.x - d.c0) + (y - d.c1) * (s.y - d.c1) + (z - d.c2) * (s.z - d.c2)
    let σ := Real.sqrt (sq s d.c0 d.c1 d.c2)
    0 ≤ σ ∧ σ ≤ a ∧ σ ^ 2 = sq s d.c0 d.c1 d.c2 ∧ P ^ 2 ≤ r ^ 2 * σ ^ 2 ∧
      dist2 s x y z = r ^ 2 - 2 * P + σ ^ 2 ∧ dist2 s x y z ≠ 0 := by
  intro P σ
  have h0 : 0 ≤ sq s d.c0 d.c1 d.c2 := by unfold sq; positivity
  have hσ2 : σ ^ 2 = sq s d.c0 d.c1 d.c2 := Real.sq_sqrt h0
  have hσ : 0 ≤ σ := Real.sqrt_nonneg _
  have hσa : σ ≤ a := by
    rw [Real.sqrt_le_left h.a_nonneg]; exact h.near s hs
  have hP : P ^ 2 ≤ r ^ 2 * σ ^ 2 := by
    rw [hσ2, ← h.dist]
    simp only [P, sq]
    nlinarith [sq_nonneg ((x - d.c0) * (s.y - d.c1) - (y - d.c1) * (s.x - d.c0)),
      sq_nonneg ((x - d.c0) * (s.z - d.c2) - (z - d.c2) * (s.x - d.c0)),
      sq_nonneg ((y - d.c1) * (s.z - d.c2) - (z - d.c2) * (s.y - d.c1))]
  have hd : dist2 s x y z = r ^ 2 - 2 * P + σ ^ 2 := by
    rw [hσ2, ← h.dist]; simp only [P, sq, dist2]; ring
  refine ⟨hσ, hσa, hσ2, hP, hd, ?_⟩
  rw [hd]
  have h1 : P ≤ r * σ := abs_le_of_sq_le_sq' (by nlinarith : P ^ 2 ≤ (r * σ) ^ 2)
    (mul_nonneg h.r_nonneg hσ) |>.2
  have h2 : 0 < r - σ := by linarith [h.apart]
  nlinarith [mul_pos h2 h2]

theorem Separated.r_pos (h : Separated d l a r x y z) : 0 < r :=
  lt_of_le_of_lt h.a_nonneg h.apart

theorem Separated.sqrt (h : Separated d l a r x y z) :
    Real.sqrt ((x - d.c0) * (x - d.c0) + (y - d.c1) * (y - d.c1) + (z - d.c2) * (z - d.c2)) = r := by
  have : (x - d.c0) * (x - d.c0) + (y - d.c1) * (y - d.c1) + (z - d.c2) * (z - d.c2) = r ^ 2 := by
    rw [← h.dist]; ring
  rw [this, Real.sqrt_sq h.r_nonneg]

theorem potential_total (h : Separated d l a r x y z) :
    potential l x y z = total l fun s => 1 / Real.sqrt (dist2 s x y z) := by
  unfold potential total
  congr 1
  apply List.map_congr_left
  intro s hs
  rw [if_neg (h.one hs).2.2.2.2.2]; ring

theorem fieldComp_total (h : Separated d l a r x y z) (comp : Src ℝ → ℝ) :
    fieldComp l x y z comp =
      total l fun s => comp s / (dist2 s x y z * Real.sqrt (dist2 s x y z)) := by
  unfold fieldComp total
  congr 1
  apply List.map_congr_left
  intro s hs
  rw [if_neg (h.one hs).2.2.2.2.2]
  have h0 : 0 ≤ dist2 s x y z := by unfold dist2; positivity
  have h3 : dist2 s x y z * Real.sqrt (dist2 s x y z) = Real.sqrt (dist2 s x y z) ^ 3 := by
    have := Real.sq_sqrt h0
    calc _ = Real.sqrt (dist2 s x y z) ^ 2 * Real.sqrt (dist2 s x y z) := by rw [this]
      _ = _ := by ring
  show _ = s.charge * (comp s / (dist2 s x y z * Real.sqrt (dist2 s x y z)))
  rw [h3]; ring

/-- The quadrupole form of the moments applied to the displacement. -/
noncomputable def quadForm (d : Data ℝ) (x y z : ℝ) : ℝ :=
  d.qxx * (x - d.c0) * (x - d.c0) + 2 * d.qxy * (x - d.c0) * (y - d.c1)
  + 2 * d.qxz * (x - d.c0) * (z - d.c2) + d.qyy * (y - d.c1) * (y - d.c1)
  + 2 * d.qyz * (y - d.c1) * (z - d.c2) + d.qzz * (z - d.c2) * (z - d.c2)

/-- Projection of a source's displacement. -/
noncomputable def proj (d : Data ℝ) (x y z : ℝ) (s : Src ℝ) : ℝ :=
  (x - d.c0) * (s.x - d.c0) + (y - d.c1) * (s.y - d.c1) + (z - d.c2) * (s.z - d.c2)

theorem quad_list (l : List (Src ℝ)) (c0 c1 c2 X Y Z : ℝ) :
    (total l fun s => 3 * (s.x - c0) * (s.x - c0) - sq s c0 c1 c2) * X * X
    + 2 * (total l fun s => 3 * (s.x - c0) * (s.y - c1)) * X * Y
    + 2 * (total l fun s => 3 * (s.x - c0) * (s.z - c2)) * X * Z
    + (total l fun s => 3 * (s.y - c1) * (s.y - c1) - sq s c0 c1 c2) * Y * Y
    + 2 * (total l fun s => 3 * (s.y - c1) * (s.z - c2)) * Y * Z
    + (total l fun s => 3 * (s.z - c2) * (s.z - c2) - sq s c0 c1 c2) * Z * Z =
    total l fun s => 3 * (X * (s.x - c0) + Y * (s.y - c1) + Z * (s.z - c2)) ^ 2
      - (X ^ 2 + Y ^ 2 + Z ^ 2) * sq s c0 c1 c2 := by
  induction l with
  | nil => simp
  | cons s l ih => simp only [total_cons]; linear_combination ih

theorem quad_total (hm : IsMoments d l) (x y z : ℝ) :
    quadForm d x y z = total l fun s => 3 * proj d x y z s ^ 2
      - ((x - d.c0) ^ 2 + (y - d.c1) ^ 2 + (z - d.c2) ^ 2) * sq s d.c0 d.c1 d.c2 := by
  unfold quadForm
  rw [hm.qxx, hm.qxy, hm.qxz, hm.qyy, hm.qyz, hm.qzz]
  exact quad_list l d.c0 d.c1 d.c2 (x - d.c0) (y - d.c1) (z - d.c2)

/-- Rows of the quadrupole tensor. -/
theorem row_x (l : List (Src ℝ)) (c0 c1 c2 X Y Z : ℝ) :
    (total l fun s => 3 * (s.x - c0) * (s.x - c0) - sq s c0 c1 c2) * X
    + (total l fun s => 3 * (s.x - c0) * (s.y - c1)) * Y
    + (total l fun s => 3 * (s.x - c0) * (s.z - c2)) * Z =
    total l fun s => 3 * (s.x - c0) * (X * (s.x - c0) + Y * (s.y - c1) + Z * (s.z - c2))
      - sq s c0 c1 c2 * X := by
  induction l with
  | nil => simp
  | cons s l ih => simp only [total_cons]; linear_combination ih

theorem row_y (l : List (Src ℝ)) (c0 c1 c2 X Y Z : ℝ) :
    (total l fun s => 3 * (s.x - c0) * (s.y - c1)) * X
    + (total l fun s => 3 * (s.y - c1) * (s.y - c1) - sq s c0 c1 c2) * Y
    + (total l fun s => 3 * (s.y - c1) * (s.z - c2)) * Z =
    total l fun s => 3 * (s.y - c1) * (X * (s.x - c0) + Y * (s.y - c1) + Z * (s.z - c2))
      - sq s c0 c1 c2 * Y := by
  induction l with
  | nil => simp
  | cons s l ih => simp only [total_cons]; linear_combination ih

theorem row_z (l : List (Src ℝ)) (c0 c1 c2 X Y Z : ℝ) :
    (total l fun s => 3 * (s.x - c0) * (s.z - c2)) * X
    + (total l fun s => 3 * (s.y - c1) * (s.z - c2)) * Y
    + (total l fun s => 3 * (s.z - c2) * (s.z - c2) - sq s c0 c1 c2) * Z =
    total l fun s => 3 * (s.z - c2) * (X * (s.x - c0) + Y * (s.y - c1) + Z * (s.z - c2))
      - sq s c0 c1 c2 * Z := by
  induction l with
  | nil => simp
  | cons s l ih => simp only [total_cons]; linear_combination ih

/-- The dipole about the centre of charge vanishes. -/
theorem dip (hm : IsMoments d l) : total l (fun s => s.x - d.c0) = 0 ∧
    total l (fun s => s.y - d.c1) = 0 ∧ total l (fun s => s.z - d.c2) = 0 := by
  have hc : ∀ c : ℝ, total l (fun _ => c) = c * total l (fun _ => 1) := by
    intro c; rw [← total_smul]; simp
  refine ⟨?_, ?_, ?_⟩
  · rw [total_sub, hc, ← hm.cx, ← hm.mtot]; ring
  · rw [total_sub, hc, ← hm.cy, ← hm.mtot]; ring
  · rw [total_sub, hc, ← hm.cz, ← hm.mtot]; ring

theorem proj_total (hm : IsMoments d l) (x y z : ℝ) : total l (proj d x y z) = 0 := by
  obtain ⟨h0, h1, h2⟩ := dip hm
  have : proj d x y z = fun s => ((x - d.c0) * (s.x - d.c0) + (y - d.c1) * (s.y - d.c1))
      + (z - d.c2) * (s.z - d.c2) := rfl
  rw [this, total_add, total_add, total_smul, total_smul, total_smul, h0, h1, h2]; ring

/-- The true quadrupole approximation of the potential. -/
theorem quad_error (h : Separated d l a r x y z) (hm : IsMoments d l) :
    |potential l x y z - (d.mtot / r + quadForm d x y z / (2 * r ^ 5))|
      ≤ absCharge l * (6 * (a ^ 3 / (r ^ 3 * (r - a)))) := by
  have hr := h.r_pos
  have e : d.mtot / r + quadForm d x y z / (2 * r ^ 5) =
      total l fun s => 1 / r + proj d x y z s / r ^ 3 +
        (3 * proj d x y z s ^ 2 - r ^ 2 * sq s d.c0 d.c1 d.c2) / (2 * r ^ 5) := by
    have e1 : (fun s => 1 / r + proj d x y z s / r ^ 3 +
        (3 * proj d x y z s ^ 2 - r ^ 2 * sq s d.c0 d.c1 d.c2) / (2 * r ^ 5)) =
      fun s => (1 / r * 1 + 1 / r ^ 3 * proj d x y z s) + 1 / (2 * r ^ 5) *
        (3 * proj d x y z s ^ 2 - r ^ 2 * sq s d.c0 d.c1 d.c2) := by funext s; field_simp
    rw [e1, total_add, total_add, total_smul, total_smul, total_smul, ← hm.mtot]
    have : total l (fun s => proj d x y z s) = 0 := proj_total hm x y z
    rw [this, quad_total hm, h.dist]; field_simp; ring
  rw [potential_total h, e]
  apply total_close
  intro s hs
  obtain ⟨h0, h1, h2, h3, h4, _⟩ := h.one hs
  have q := pot_one hr h0 h1 h.apart h3
  rw [← h4, h2] at q
  exact q

/-- The size of the quadrupole term. -/
theorem quad_size (h : Separated d l a r x y z) (hm : IsMoments d l) :
    |quadForm d x y z / (2 * r ^ 5)| ≤ absCharge l * (a ^ 2 / r ^ 3) := by
  have hr := h.r_pos
  have e : quadForm d x y z / (2 * r ^ 5) = total l fun s =>
      (3 * proj d x y z s ^ 2 - r ^ 2 * sq s d.c0 d.c1 d.c2) / (2 * r ^ 5) := by
    have e1 : (fun s => (3 * proj d x y z s ^ 2 - r ^ 2 * sq s d.c0 d.c1 d.c2) / (2 * r ^ 5)) =
      fun s => 1 / (2 * r ^ 5) *
        (3 * proj d x y z s ^ 2 - r ^ 2 * sq s d.c0 d.c1 d.c2) := by funext s; field_simp
    rw [e1, total_smul, quad_total hm, h.dist]; field_simp
  have z0 : total l (fun _ => (0:ℝ)) = 0 := by
    have := total_smul (l := l) (f := fun _ => (0:ℝ)) 0
    simpa using this
  rw [e, ← sub_zero (total l _), ← z0]
  apply total_close
  intro s hs
  obtain ⟨h0, h1, h2, h3, h4, _⟩ := h.one hs
  have hp : (proj d x y z s) ^ 2 ≤ r ^ 2 * (sq s d.c0 d.c1 d.c2) := by rw [← h2]; exact h3
  have hs2 : sq s d.c0 d.c1 d.c2 ≤ a ^ 2 := by rw [← h2]; exact pow_le_pow_left₀ h0 h1 2
  have hs0 : 0 ≤ sq s d.c0 d.c1 d.c2 := by rw [← h2]; positivity
  rw [sub_zero, abs_div, abs_of_pos (by positivity : (0:ℝ) < 2 * r ^ 5)]
  have : a ^ 2 / r ^ 3 = (2 * (r ^ 2 * a ^ 2)) / (2 * r ^ 5) := by field_simp
  rw [this]
  apply div_le_div_of_nonneg_right _ (by positivity)
  have hx : r ^ 2 * sq s d.c0 d.c1 d.c2 ≤ r ^ 2 * a ^ 2 :=
    mul_le_mul_of_nonneg_left hs2 (by positivity)
  have hx0 : 0 ≤ r ^ 2 * sq s d.c0 d.c1 d.c2 := by positivity
  rw [abs_le]; constructor <;> nlinarith [sq_nonneg (proj d x y z s)]

theorem comMToT1_phi (h : Separated d l a r x y z) (phi : ℝ) :
    (comMToT1 d ⟨x, y, z, phi⟩).phi = phi + (d.mtot / r - quadForm d x y z / (2 * r ^ 5)) := by
  have hr := h.r_pos
  have h2 : (x - d.c0) * (x - d.c0) + (y - d.c1) * (y - d.c1) + (z - d.c2) * (z - d.c2) = r ^ 2 := by
    rw [← h.dist]; ring
  unfold comMToT1 quadForm
  simp only [h.sqrt]
  rw [h2]
  field_simp
  ring

/-- The sum behind one component of the quadrupole approximation of the field. -/
theorem acc_total (h : Separated d l a r x y z) (hm : IsMoments d l) (X : ℝ) (sk : Src ℝ → ℝ)
    (hsk : total l sk = 0) (row : ℝ)
    (hrow : row = total l fun s => 3 * sk s * proj d x y z s - sq s d.c0 d.c1 d.c2 * X) :
    d.mtot * X / r ^ 3 + 5 / 2 * quadForm d x y z * X / r ^ 7 - row / r ^ 5 =
      total l fun s => X / r ^ 3
        + 5 / 2 * (3 * proj d x y z s ^ 2 - r ^ 2 * sq s d.c0 d.c1 d.c2) * X / r ^ 7
        - (3 * sk s * proj d x y z s - sq s d.c0 d.c1 d.c2 * X) / r ^ 5
        + (3 * proj d x y z s * X / r ^ 5 - sk s / r ^ 3) := by
  have hr := h.r_pos
  have e1 : (fun s => X / r ^ 3
        + 5 / 2 * (3 * proj d x y z s ^ 2 - r ^ 2 * sq s d.c0 d.c1 d.c2) * X / r ^ 7
        - (3 * sk s * proj d x y z s - sq s d.c0 d.c1 d.c2 * X) / r ^ 5
        + (3 * proj d x y z s * X / r ^ 5 - sk s / r ^ 3)) =
      fun s => (X / r ^ 3) * 1
        + (5 / 2 * X / r ^ 7) * (3 * proj d x y z s ^ 2 - r ^ 2 * sq s d.c0 d.c1 d.c2)
        + (-(1 / r ^ 5)) * (3 * sk s * proj d x y z s - sq s d.c0 d.c1 d.c2 * X)
        + (3 * X / r ^ 5) * proj d x y z s + (-(1 / r ^ 3)) * sk s := by
    funext s; field_simp; ring
  rw [e1, total_add, total_add, total_add, total_add, total_smul, total_smul, total_smul,
    total_smul, total_smul, ← hm.mtot, ← hrow]
  have h0 : total l (fun s => proj d x y z s) = 0 := proj_total hm x y z
  have h1 : total l (fun s => sk s) = 0 := hsk
  rw [h0, h1, quad_total hm, h.dist]; field_simp; ring

theorem acc_error (h : Separated d l a r x y z) (hm : IsMoments d l) (X : ℝ) (sk : Src ℝ → ℝ)
    (hsk : total l sk = 0) (row : ℝ)
    (hrow : row = total l fun s => 3 * sk s * proj d x y z s - sq s d.c0 d.c1 d.c2 * X)
    (hX : X ^ 2 ≤ r ^ 2) (hs : ∀ s, sk s ^ 2 ≤ sq s d.c0 d.c1 d.c2) :
    |fieldComp l x y z (fun s => X - sk s)
        - (d.mtot * X / r ^ 3 + 5 / 2 * quadForm d x y z * X / r ^ 7 - row / r ^ 5)|
      ≤ absCharge l * (76 * (a ^ 3 / (r ^ 2 * (r - a) ^ 3))) := by
  rw [fieldComp_total h, acc_total h hm X sk hsk row hrow]
  apply total_close
  intro s hsl
  obtain ⟨h0, h1, h2, h3, h4, _⟩ := h.one hsl
  have hX' : |X| ≤ r := abs_le_of_sq_le_sq hX h.r_nonneg
  have hs' : |sk s| ≤ Real.sqrt (sq s d.c0 d.c1 d.c2) := by
    apply abs_le_of_sq_le_sq _ h0
    rw [h2]; exact hs s
  have q := acc_one (dk := X) (sk := sk s) h.r_pos h0 h1 h.apart h3 hX' hs'
  rw [← h4, h2] at q
  exact q

theorem sq_x_le (s : Src ℝ) (c0 c1 c2 : ℝ) : (s.x - c0) ^ 2 ≤ sq s c0 c1 c2 := by
  unfold sq; nlinarith [sq_nonneg (s.y - c1), sq_nonneg (s.z - c2)]
theorem sq_y_le (s : Src ℝ) (c0 c1 c2 : ℝ) : (s.y - c1) ^ 2 ≤ sq s c0 c1 c2 := by
  unfold sq; nlinarith [sq_nonneg (s.x - c0), sq_nonneg (s.z - c2)]
theorem sq_z_le (s : Src ℝ) (c0 c1 c2 : ℝ) : (s.z - c2) ^ 2 ≤ sq s c0 c1 c2 := by
  unfold sq; nlinarith [sq_nonneg (s.y - c1), sq_nonneg (s.x - c0)]

theorem accMToT1_eq (h : Separated d l a r x y z) (a0 a1 a2 : ℝ) :
    accMToT1 d ⟨x, y, z, a0, a1, a2⟩ = ⟨x, y, z,
      a0 + (d.mtot * (x - d.c0) / r ^ 3 + 5 / 2 * quadForm d x y z * (x - d.c0) / r ^ 7
        - (d.qxx * (x - d.c0) + d.qxy * (y - d.c1) + d.qxz * (z - d.c2)) / r ^ 5),
      a1 + (d.mtot * (y - d.c1) / r ^ 3 + 5 / 2 * quadForm d x y z * (y - d.c1) / r ^ 7
        - (d.qxy * (x - d.c0) + d.qyy * (y - d.c1) + d.qyz * (z - d.c2)) / r ^ 5),
      a2 + (d.mtot * (z - d.c2) / r ^ 3 + 5 / 2 * quadForm d x y z * (z - d.c2) / r ^ 7
        - (d.qxz * (x - d.c0) + d.qyz * (y - d.c1) + d.qzz * (z - d.c2)) / r ^ 5)⟩ := by
  have hr := h.r_pos
  have h2 : (x - d.c0) * (x - d.c0) + (y - d.c1) * (y - d.c1) + (z - d.c2) * (z - d.c2) = r ^ 2 := by
    rw [← h.dist]; ring
  unfold accMToT1 quadForm
  simp only [h2, Real.sqrt_sq hr.le, AccTarget.mk.injEq, true_and]
  refine ⟨?_, ?_, ?_⟩ <;> field_simp <;> ring

theorem acc_all (h : Separated d l a r x y z) (hm : IsMoments d l) (a0 a1 a2 : ℝ) :
    let E := absCharge l * (76 * (a ^ 3 / (r ^ 2 * (r - a) ^ 3)))
    let t' := accMToT1 d ⟨x, y, z, a0, a1, a2⟩
    |t'.a0 - (a0 + fieldX l x y z)| ≤ E ∧ |t'.a1 - (a1 + fieldY l x y z)| ≤ E ∧
      |t'.a2 - (a2 + fieldZ l x y z)| ≤ E := by
  intro E t'
  obtain ⟨z0, z1, z2⟩ := dip hm
  have hd := h.dist
  have k0 := acc_error h hm (x - d.c0) (fun s => s.x - d.c0) z0
    (d.qxx * (x - d.c0) + d.qxy * (y - d.c1) + d.qxz * (z - d.c2))
    (by rw [hm.qxx, hm.qxy, hm.qxz, row_x]; rfl)
    (by nlinarith [sq_nonneg (y - d.c1), sq_nonneg (z - d.c2)]) (fun s => sq_x_le s _ _ _)
  have k1 := acc_error h hm (y - d.c1) (fun s => s.y - d.c1) z1
    (d.qxy * (x - d.c0) + d.qyy * (y - d.c1) + d.qyz * (z - d.c2))
    (by rw [hm.qxy, hm.qyy, hm.qyz, row_y]; rfl)
    (by nlinarith [sq_nonneg (x - d.c0), sq_nonneg (z - d.c2)]) (fun s => sq_y_le s _ _ _)
  have k2 := acc_error h hm (z - d.c2) (fun s => s.z - d.c2) z2
    (d.qxz * (x - d.c0) + d.qyz * (y - d.c1) + d.qzz * (z - d.c2))
    (by rw [hm.qxz, hm.qyz, hm.qzz, row_z]; rfl)
    (by nlinarith [sq_nonneg (x - d.c0), sq_nonneg (y - d.c1)]) (fun s => sq_z_le s _ _ _)
  simp only [t', accMToT1_eq h]
  simp only [sub_sub_sub_cancel_right] at k0 k1 k2
  refine ⟨?_, ?_, ?_⟩
  · rw [abs_sub_comm] at k0; rw [add_sub_add_left_eq_sub]; exact k0
  · rw [abs_sub_comm] at k1; rw [add_sub_add_left_eq_sub]; exact k1
  · rw [abs_sub_comm] at k2; rw [add_sub_add_left_eq_sub]; exact k2

end sep

end Dashmm.Com
