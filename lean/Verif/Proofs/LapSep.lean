import Verif.Proofs.LapOps
import Verif.Proofs.Acyclic
import Verif.Spec.LapExec

/-!
Distances between boxes that are apart, and what they make of the error bounds.
-/

namespace Dashmm.Harm

open Lap

theorem sqrt3_sq : √3 * √3 = (3 : ℝ) := Real.mul_self_sqrt (by norm_num)

theorem sqrt3_lo : (1.73 : ℝ) ≤ √3 := Real.le_sqrt_of_sq_le (by norm_num)

theorem sqrt3_hi : √3 ≤ (1.733 : ℝ) := Real.sqrt_le_iff.2 ⟨by norm_num, by norm_num⟩

theorem ratio_pos : 0 < √3 / (4 - √3) := div_pos (by linarith [sqrt3_lo]) (by linarith [sqrt3_hi])

theorem ratio_lt : √3 / (4 - √3) < 1 := by rw [div_lt_one (by linarith [sqrt3_hi])]; linarith [sqrt3_hi]

theorem fmmEps_nonneg (p : ℕ) : 0 ≤ fmmEps p := by
  have := ratio_pos; unfold fmmEps; positivity

theorem norm_le_box {h : ℝ} {v : Point ℝ} (hh : 0 ≤ h) (hx : |v.x| ≤ h / 2) (hy : |v.y| ≤ h / 2) (hz : |v.z| ≤ h / 2) :
    v.norm ≤ √3 / 2 * h := by
  refine Real.sqrt_le_iff.2 ⟨by positivity, ?_⟩
  have e : (√3 / 2 * h) ^ 2 = 3 * (h / 2) ^ 2 := by
    have := sqrt3_sq
    rw [show (√3 / 2 * h) ^ 2 = (√3 * √3) * (h / 2) ^ 2 by ring, this]
  rw [e]
  have h2 := fun a (ha : |a| ≤ h / 2) => (sq_le_sq' (abs_le.1 ha).1 (abs_le.1 ha).2 : a ^ 2 ≤ (h / 2) ^ 2)
  nlinarith [h2 _ hx, h2 _ hy, h2 _ hz]

theorem abs_x_le_norm (v : Point ℝ) : |v.x| ≤ v.norm := Real.abs_le_sqrt (by nlinarith [sq_nonneg v.y, sq_nonneg v.z])
theorem abs_y_le_norm (v : Point ℝ) : |v.y| ≤ v.norm := Real.abs_le_sqrt (by nlinarith [sq_nonneg v.x, sq_nonneg v.z])
theorem abs_z_le_norm (v : Point ℝ) : |v.z| ≤ v.norm := Real.abs_le_sqrt (by nlinarith [sq_nonneg v.x, sq_nonneg v.y])

/-- The bound of a translation between separated boxes. -/
theorem trans_pair (p : ℕ) {a b d h r : ℝ} (hh : 0 < h) (ha : 0 ≤ a) (hb : 0 ≤ b) (ha' : a ≤ √3 / 2 * h) (hb' : b ≤ √3 / 2 * h)
    (hd : 2 * h ≤ d) (hr : 0 < r) (hr' : r ≤ d + a + b) : a + b < d ∧ transErr a b d p ≤ fmmEps p * (1 / r) := by
  have s1 := sqrt3_lo
  have s2 := sqrt3_hi
  have s3 := sqrt3_sq
  have hlt : a + b < d := by nlinarith
  refine ⟨hlt, ?_⟩
  have q1 : ∀ a b : ℝ, 0 ≤ a → a ≤ √3 / 2 * h → b ≤ √3 / 2 * h → (a / (d - b)) ^ (p + 1) ≤ (√3 / (4 - √3)) ^ (p + 1) := by
    intro a b ha ha' hb'
    have hdb : 0 < d - b := by nlinarith
    refine pow_le_pow_left₀ (div_nonneg ha hdb.le) ?_ _
    rw [div_le_div_iff₀ hdb (by linarith)]
    nlinarith
  have q2 : 1 / (d - a - b) ≤ (2 + √3) ^ 2 * (1 / r) := by
    rw [mul_one_div, div_le_div_iff₀ (by linarith) hr]
    have : (2 + √3) ^ 2 = 7 + 4 * √3 := by nlinarith
    rw [this]
    nlinarith
  have hq := q1 a b ha ha' hb'
  have hq' := q1 b a hb hb' ha'
  have h0 : 0 < 1 / (d - a - b) := by apply one_div_pos.2; linarith
  have hrp := ratio_pos
  unfold transErr fmmEps
  rw [div_eq_mul_one_div]
  calc _ ≤ ((√3 / (4 - √3)) ^ (p + 1) + (√3 / (4 - √3)) ^ (p + 1)) * (1 / (d - a - b)) :=
        mul_le_mul_of_nonneg_right (add_le_add hq hq') h0.le
    _ ≤ ((√3 / (4 - √3)) ^ (p + 1) + (√3 / (4 - √3)) ^ (p + 1)) * ((2 + √3) ^ 2 * (1 / r)) :=
        mul_le_mul_of_nonneg_left q2 (by positivity)
    _ = _ := by ring

/-- The bound of an expansion at a point one and a half boxes from its centre. -/
theorem mult_pair (p : ℕ) {a d h r : ℝ} (hh : 0 < h) (ha : 0 ≤ a) (ha' : a ≤ √3 / 2 * h) (hd : 3 / 2 * h ≤ d) (hr : 0 < r)
    (hr' : r ≤ d + a) : a < d ∧ (a / d) ^ (p + 1) / (d - a) ≤ fmmEps p * (1 / r) := by
  have s1 := sqrt3_lo
  have s2 := sqrt3_hi
  have s3 := sqrt3_sq
  have hlt : a < d := by nlinarith
  have hd0 : 0 < d := by linarith
  refine ⟨hlt, ?_⟩
  have hrp := ratio_pos
  have q1 : (a / d) ^ (p + 1) ≤ (√3 / (4 - √3)) ^ (p + 1) := by
    refine pow_le_pow_left₀ (div_nonneg ha hd0.le) ?_ _
    rw [div_le_div_iff₀ hd0 (by linarith)]
    nlinarith
  have q2 : 1 / (d - a) ≤ (2 + √3) ^ 2 * (1 / r) := by
    rw [mul_one_div, div_le_div_iff₀ (by linarith) hr]
    have : (2 + √3) ^ 2 = 7 + 4 * √3 := by nlinarith
    rw [this]
    nlinarith
  have h0 : 0 < 1 / (d - a) := by apply one_div_pos.2; linarith
  unfold fmmEps
  rw [div_eq_mul_one_div]
  calc _ ≤ (√3 / (4 - √3)) ^ (p + 1) * (1 / (d - a)) := mul_le_mul_of_nonneg_right q1 h0.le
    _ ≤ (√3 / (4 - √3)) ^ (p + 1) * ((2 + √3) ^ 2 * (1 / r)) := mul_le_mul_of_nonneg_left q2 (by positivity)
    _ ≤ 2 * ((√3 / (4 - √3)) ^ (p + 1) * ((2 + √3) ^ 2 * (1 / r))) := by
        have : 0 ≤ (√3 / (4 - √3)) ^ (p + 1) * ((2 + √3) ^ 2 * (1 / r)) := by positivity
        linarith
    _ = _ := by ring

theorem sub_norm_le (u v w : Point ℝ) : (u.sub w).norm ≤ (u.sub v).norm + (v.sub w).norm := by
  have key : ∀ a b c x y z : ℝ, √((a + x) ^ 2 + (b + y) ^ 2 + (c + z) ^ 2) ≤ √(a ^ 2 + b ^ 2 + c ^ 2) + √(x ^ 2 + y ^ 2 + z ^ 2) := by
    intro a b c x y z
    have h1 := Real.sq_sqrt (show 0 ≤ a ^ 2 + b ^ 2 + c ^ 2 by positivity)
    have h2 := Real.sq_sqrt (show 0 ≤ x ^ 2 + y ^ 2 + z ^ 2 by positivity)
    have p1 := Real.sqrt_nonneg (a ^ 2 + b ^ 2 + c ^ 2)
    have p2 := Real.sqrt_nonneg (x ^ 2 + y ^ 2 + z ^ 2)
    refine Real.sqrt_le_iff.2 ⟨by linarith, ?_⟩
    have cs : a * x + b * y + c * z ≤ √(a ^ 2 + b ^ 2 + c ^ 2) * √(x ^ 2 + y ^ 2 + z ^ 2) := by
      rw [← Real.sqrt_mul (by positivity)]
      refine Real.le_sqrt_of_sq_le ?_
      nlinarith [sq_nonneg (a * y - b * x), sq_nonneg (a * z - c * x), sq_nonneg (b * z - c * y)]
    nlinarith
  have := key (u.sub v).x (u.sub v).y (u.sub v).z (v.sub w).x (v.sub w).y (v.sub w).z
  have e : ∀ q : Point ℝ, q.norm = √(q.x ^ 2 + q.y ^ 2 + q.z ^ 2) := fun q => by rw [Point.norm]; congr 1; ring
  rw [e, e (u.sub v), e (v.sub w)]
  convert this using 3 <;> simp only [Point.sub] <;> ring

theorem norm_neg_sub (u v : Point ℝ) : (u.sub v).norm = (v.sub u).norm := by
  rw [Point.norm, Point.norm]; congr 1; simp only [Point.sub]; ring

theorem size_pos (d : Domain ℝ) (h : 0 < d.size) (l : ℕ) : 0 < d.sizeFromLevel l := by
  unfold Domain.sizeFromLevel; positivity

theorem inBox_norm {d : Domain ℝ} (h : 0 < d.size) {ix : Index} {v : Point ℝ} (hv : InCube d ix v) :
    (v.sub (d.centerFromIndex ix)).norm ≤ √3 / 2 * d.sizeFromLevel ix.level :=
  norm_le_box (size_pos d h _).le hv.1 hv.2.1 hv.2.2

/-- Boxes of one level that are apart: the centres are two boxes from each other. -/
theorem sep_centers {d : Domain ℝ} (h : 0 < d.size) {a b : Index} (hl : a.level = b.level) (hs : Separated a b) :
    2 * d.sizeFromLevel a.level ≤ ((d.centerFromIndex a).sub (d.centerFromIndex b)).norm := by
  have hp := size_pos d h a.level
  have one : ∀ (x y : ℕ), (x + 1 + 1 ≤ y ∨ y + 1 + 1 ≤ x) → ∀ lo : ℝ,
      2 * d.sizeFromLevel a.level ≤ |((x : ℝ) + 1 / 2) * d.sizeFromLevel a.level + lo -
        (((y : ℝ) + 1 / 2) * d.sizeFromLevel b.level + lo)| := by
    intro x y hxy lo
    rw [← hl, show ((x : ℝ) + 1 / 2) * d.sizeFromLevel a.level + lo - (((y : ℝ) + 1 / 2) * d.sizeFromLevel a.level + lo) =
      ((x : ℝ) - y) * d.sizeFromLevel a.level by ring, abs_mul, abs_of_pos hp]
    refine mul_le_mul_of_nonneg_right ?_ hp.le
    rw [le_abs]
    rcases hxy with hxy | hxy
    · right; have : (x : ℝ) + 1 + 1 ≤ y := by exact_mod_cast hxy
      linarith
    · left; have : (y : ℝ) + 1 + 1 ≤ x := by exact_mod_cast hxy
      linarith
  simp only [Separated, boxHi, boxLo, hl, Nat.max_self, Nat.sub_self, Nat.pow_zero, Nat.mul_one] at hs
  rcases hs with hs | hs | hs
  · exact (one _ _ hs d.low.x).trans (abs_x_le_norm ((d.centerFromIndex a).sub (d.centerFromIndex b)))
  · exact (one _ _ hs d.low.y).trans (abs_y_le_norm ((d.centerFromIndex a).sub (d.centerFromIndex b)))
  · exact (one _ _ hs d.low.z).trans (abs_z_le_norm ((d.centerFromIndex a).sub (d.centerFromIndex b)))

/-- A point of a box that is apart from a box not larger: it is one and a half of the latter from its centre. -/
theorem sep_point {d : Domain ℝ} (h : 0 < d.size) {a b : Index} (hl : b.level ≤ a.level) (hs : Separated a b) {t : Point ℝ}
    (ht : InCube d b t) : 3 / 2 * d.sizeFromLevel a.level ≤ (t.sub (d.centerFromIndex a)).norm := by
  have hp := size_pos d h a.level
  have hsz : d.sizeFromLevel b.level = 2 ^ (a.level - b.level) * d.sizeFromLevel a.level := by
    unfold Domain.sizeFromLevel
    obtain ⟨k, hk⟩ := Nat.exists_eq_add_of_le hl
    rw [hk, Nat.add_sub_cancel_left, pow_add]
    field_simp
  have one : ∀ (x y : ℕ) (lo u : ℝ),
      ((x + 1) * 2 ^ (a.level - a.level) + 1 ≤ y * 2 ^ (a.level - b.level) ∨
        (y + 1) * 2 ^ (a.level - b.level) + 1 ≤ x * 2 ^ (a.level - a.level)) →
      |u - (((y : ℝ) + 1 / 2) * d.sizeFromLevel b.level + lo)| ≤ d.sizeFromLevel b.level / 2 →
      3 / 2 * d.sizeFromLevel a.level ≤ |u - (((x : ℝ) + 1 / 2) * d.sizeFromLevel a.level + lo)| := by
    intro x y lo u hxy hu
    rw [Nat.sub_self, Nat.pow_zero, Nat.mul_one, Nat.mul_one] at hxy
    rw [hsz] at hu
    obtain ⟨u1, u2⟩ := abs_le.1 hu
    rw [le_abs]
    rcases hxy with hxy | hxy
    · left
      have hc : (x : ℝ) + 1 + 1 ≤ y * 2 ^ (a.level - b.level) := by exact_mod_cast hxy
      have := mul_le_mul_of_nonneg_right hc hp.le
      nlinarith
    · right
      have hc : ((y : ℝ) + 1) * 2 ^ (a.level - b.level) + 1 ≤ x := by exact_mod_cast hxy
      have := mul_le_mul_of_nonneg_right hc hp.le
      nlinarith
  simp only [Separated, boxHi, boxLo, Nat.max_eq_left hl] at hs
  rcases hs with hs | hs | hs
  · exact (one _ _ d.low.x t.x hs ht.1).trans (abs_x_le_norm (t.sub (d.centerFromIndex a)))
  · exact (one _ _ d.low.y t.y hs ht.2.1).trans (abs_y_le_norm (t.sub (d.centerFromIndex a)))
  · exact (one _ _ d.low.z t.z hs ht.2.2).trans (abs_z_le_norm (t.sub (d.centerFromIndex a)))

end Dashmm.Harm
