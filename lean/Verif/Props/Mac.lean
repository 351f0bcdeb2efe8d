import Verif.Model.Mac
import Mathlib.Tactic.Linarith
import Mathlib.Tactic.NormNum
import Mathlib.Tactic.Positivity
/-!
C40: what the Barnes-Hut acceptance test promises.

The full property is

  `∀ theta d source target, 0 < d.size → bhAccepts theta d source target →
     ∀ p, InTargetBox d target p → GoodAngle theta d source p`

and it is false of the code (`C40_acceptance_unsound`): when the source lies on the low side of the
target box in some dimension, `nearest` returns the *far* face of the box in that dimension.
-/
namespace Dashmm

/-- `p` lies in the closed box of the index. -/
def InTargetBox (d : Domain ℝ) (i : Index) (p : Point ℝ) : Prop :=
  ((d.lowFromIndex i).x ≤ p.x ∧ p.x ≤ (d.highFromIndex i).x) ∧
  ((d.lowFromIndex i).y ≤ p.y ∧ p.y ≤ (d.highFromIndex i).y) ∧
  ((d.lowFromIndex i).z ≤ p.z ∧ p.z ≤ (d.highFromIndex i).z)

/-- The size of the source box is less than `theta` times the distance of `p` from its centre. -/
def GoodAngle (theta : ℝ) (d : Domain ℝ) (source : Index) (p : Point ℝ) : Prop :=
  let c := d.centerFromIndex source
  d.sizeFromLevel source.level <
    theta * Real.sqrt ((p.x - c.x) ^ 2 + (p.y - c.y) ^ 2 + (p.z - c.z) ^ 2)

theorem sqrt_of_sq {a b : ℝ} (hb : 0 ≤ b) (h : a = b * b) : Real.sqrt a = b := by
  rw [h]; exact Real.sqrt_mul_self hb

/-- C40 fails: with critical angle 1/2 a source box of size 1/4 is accepted for a target box one of
whose points is only 3/8 away from the source's centre. -/
theorem C40_acceptance_unsound : ∃ (theta : ℝ) (d : Domain ℝ) (source target : Index) (p : Point ℝ),
    0 < d.size ∧ 0 < theta ∧ bhAccepts theta d source target ∧ InTargetBox d target p ∧
    ¬ GoodAngle theta d source p := by
  have h49 : Real.sqrt 49 = 7 := sqrt_of_sq (by norm_num) (by norm_num)
  have h64 : Real.sqrt 64 = 8 := sqrt_of_sq (by norm_num) (by norm_num)
  have h9 : Real.sqrt 9 = 3 := sqrt_of_sq (by norm_num) (by norm_num)
  refine ⟨1 / 2, ⟨⟨0, 0, 0⟩, 1⟩, ⟨0, 0, 0, 2⟩, ⟨1, 0, 0, 1⟩, ⟨1 / 2, 1 / 8, 1 / 8⟩,
    by norm_num, by norm_num, ?_, ?_, ?_⟩
  · simp only [bhAccepts, bhMac, bhNearest, nearest1, Domain.centerFromIndex, Domain.sizeFromLevel,
      Point.sub, Point.norm]
    norm_num [abs_of_neg, abs_of_pos, h49, h64]
  · simp only [InTargetBox, Domain.lowFromIndex, Domain.highFromIndex, Domain.sizeFromLevel]
    norm_num
  · simp only [GoodAngle, Domain.centerFromIndex, Domain.sizeFromLevel]
    norm_num [h9, h64]

theorem nearest1_sq_le {s t len p : ℝ} (hs : t - len ≤ s) (h2 : p ≤ t + len) :
    (nearest1 s t len - s) * (nearest1 s t len - s) ≤ (p - s) ^ 2 := by
  unfold nearest1
  split
  · rename_i h
    have : t + len < s := by
      rcases lt_abs.1 h with h | h <;> linarith
    nlinarith
  · have : (s - t + t - s) * (s - t + t - s) = 0 := by ring
    rw [this]; positivity

/-- C40, proved part: in the absence of the defect, i.e. if in every dimension the centre of the
source is not below the low face of the target box, acceptance is valid for every point of the
target box.  Missing: sources on the low side, for which the claim is false (see above). -/
theorem C40_acceptance_sound_partial (theta : ℝ) (d : Domain ℝ) (source target : Index)
    (hth : 0 < theta)
    (hx : (d.lowFromIndex target).x ≤ (d.centerFromIndex source).x)
    (hy : (d.lowFromIndex target).y ≤ (d.centerFromIndex source).y)
    (hz : (d.lowFromIndex target).z ≤ (d.centerFromIndex source).z)
    (hacc : bhAccepts theta d source target) (p : Point ℝ) (hp : InTargetBox d target p) :
    GoodAngle theta d source p := by
  obtain ⟨hn, ha⟩ := hacc
  simp only [Point.norm] at hn ha
  have hpos := lt_of_le_of_ne (Real.sqrt_nonneg _) (Ne.symm hn)
  rw [div_lt_iff₀ hpos] at ha
  refine lt_of_lt_of_le ha ?_
  apply mul_le_mul_of_nonneg_left _ hth.le
  apply Real.sqrt_le_sqrt
  obtain ⟨⟨x1, x2⟩, ⟨y1, y2⟩, ⟨z1, z2⟩⟩ := hp
  simp only [Domain.lowFromIndex, Domain.highFromIndex, Domain.centerFromIndex] at *
  simp only [Point.sub, bhNearest]
  have hx' := nearest1_sq_le (s := (source.x + 1 / 2) * d.sizeFromLevel source.level + d.low.x)
    (t := (target.x + 1 / 2) * d.sizeFromLevel target.level + d.low.x)
    (len := d.sizeFromLevel target.level / 2) (p := p.x) (by linarith) (by linarith)
  have hy' := nearest1_sq_le (s := (source.y + 1 / 2) * d.sizeFromLevel source.level + d.low.y)
    (t := (target.y + 1 / 2) * d.sizeFromLevel target.level + d.low.y)
    (len := d.sizeFromLevel target.level / 2) (p := p.y) (by linarith) (by linarith)
  have hz' := nearest1_sq_le (s := (source.z + 1 / 2) * d.sizeFromLevel source.level + d.low.z)
    (t := (target.z + 1 / 2) * d.sizeFromLevel target.level + d.low.z)
    (len := d.sizeFromLevel target.level / 2) (p := p.z) (by linarith) (by linarith)
  linarith

/-- Non-vacuity: a source on the high side that is accepted. -/
example : bhAccepts (1 / 2) ⟨⟨0, 0, 0⟩, 1⟩ ⟨7, 0, 0, 3⟩ ⟨0, 0, 0, 1⟩ := by
  have h49 : Real.sqrt 49 = 7 := sqrt_of_sq (by norm_num) (by norm_num)
  have h256 : Real.sqrt 256 = 16 := sqrt_of_sq (by norm_num) (by norm_num)
  simp only [bhAccepts, bhMac, bhNearest, nearest1, Domain.centerFromIndex, Domain.sizeFromLevel,
    Point.sub, Point.norm]
  norm_num [abs_of_neg, abs_of_pos, h49, h256]

end Dashmm
