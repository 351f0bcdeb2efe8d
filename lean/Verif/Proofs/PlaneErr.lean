import Verif.Proofs.PlaneKernel
import Verif.Proofs.LapSep

/-!
The error of the plane-wave translation of charges, in terms of the accuracy of the quadrature rule.
-/

namespace Dashmm.Harm

open Lap
open Complex (I)

noncomputable section

theorem mem_off {x : ℤ} (h : -2 ≤ x ∧ x ≤ 3) : x ∈ ([-2, -1, 0, 1, 2, 3] : List ℤ) := by
  simp only [List.mem_cons, List.not_mem_nil, or_false]; omega

/-- The displacement of the child `c` of the target from the source, in boxes. -/
def disp (dx dy dz : ℤ) (c : ℕ) : Point ℝ :=
  ⟨((c % 2 : ℕ) : ℝ) - dx, ((c / 2 % 2 : ℕ) : ℝ) - dy, ((c / 4 % 2 : ℕ) : ℝ) - dz⟩

theorem frame_turn (v : ℕ) (dx dy dz : ℤ) (c : ℕ) :
    let f := frame v (dx - (c % 2 : ℕ), dy - (c / 2 % 2 : ℕ), dz - (c / 4 % 2 : ℕ))
    turn v (disp dx dy dz c) = ⟨(f.1 : ℝ), (f.2.1 : ℝ), (f.2.2 : ℝ)⟩ := by
  unfold disp
  generalize c % 2 = c0
  generalize c / 2 % 2 = c1
  generalize c / 4 % 2 = c2
  rcases v with _ | _ | _ | _ | _ | v <;> simp only [frame, turn] <;> push_cast <;> congr 1 <;> ring

theorem frame_range (v : ℕ) (dx dy dz : ℤ) (c : ℕ) (hx : -2 ≤ dx ∧ dx ≤ 3) (hy : -2 ≤ dy ∧ dy ≤ 3) (hz : -2 ≤ dz ∧ dz ≤ 3) :
    let f := frame v (dx - (c % 2 : ℕ), dy - (c / 2 % 2 : ℕ), dz - (c / 4 % 2 : ℕ))
    |f.1| ≤ 3 ∧ |f.2.1| ≤ 3 ∧ f.2.2 ≤ 3 := by
  simp only [abs_le]
  rcases v with _ | _ | _ | _ | _ | v <;> simp only [frame] <;> omega

theorem tagView_lt (tag : ℕ) : tagView tag < 6 := by unfold tagView; split_ifs <;> omega

/-- The operators on a unit charge at `u` from the centre of its box: the rule, in the frame of a direction in which the
target is two or three boxes ahead, if the target child is separated from the source; nothing otherwise. -/
theorem plane_unit (R : Rule) (hR : R.Even) (p c : ℕ) (hc : c < 8) (dx dy dz : ℤ) (hx : -2 ≤ dx ∧ dx ≤ 3)
    (hy : -2 ≤ dy ∧ dy ≤ 3) (hz : -2 ≤ dz ∧ dz ≤ 3) :
    (farOct dx dy dz c = true → ∃ (v : ℕ) (x y z : ℤ), v < 6 ∧ turn v (disp dx dy dz c) = ⟨x, y, z⟩ ∧ |x| ≤ 3 ∧ |y| ≤ 3 ∧ 2 ≤ z ∧
      z ≤ 3 ∧ ∀ scale u b, ∑ n ∈ Finset.range (p + 1), (form (iToL R c scale (iToI R dx dy dz (mToI R p (reg u)))) b n).re =
        scale * planeKernel R p (turn v u) ⟨x, y, z⟩ (turn v b)) ∧
    (farOct dx dy dz c = false → ∀ scale u b,
      ∑ n ∈ Finset.range (p + 1), (form (iToL R c scale (iToI R dx dy dz (mToI R p (reg u)))) b n).re = 0) := by
  obtain ⟨-, h2, h3⟩ := paths_table dx (mem_off hx) dy (mem_off hy) dz (mem_off hz) c (List.mem_range.2 hc)
  constructor
  · intro h
    rw [h, if_pos rfl] at h2
    obtain ⟨q, hq⟩ := List.length_eq_one_iff.1 h2
    obtain ⟨h4, -, -, h5, h6⟩ := h3 q (by rw [hq]; exact List.mem_singleton_self _)
    refine ⟨tagView q.tag, _, _, _, tagView_lt _, frame_turn _ dx dy dz c, ?_⟩
    obtain ⟨r1, r2, r3⟩ := frame_range (tagView q.tag) dx dy dz c hx hy hz
    refine ⟨r1, r2, h5, r3, fun scale u b => ?_⟩
    rw [iToL_iToI_val, hq]
    simp only [List.map_cons, List.map_nil, List.sum_cons, List.sum_nil, add_zero]
    rw [pairW_kernel R hR p (reg u) u (fun _ _ _ => rfl) _ (tagView_lt _), h4, h6]
  · intro h scale u b
    rw [h] at h2
    have h2 : paths dx dy dz c = [] := List.length_eq_zero_iff.1 (by simpa using h2)
    rw [iToL_iToI_val, h2]
    simp

theorem turn_norm (v : ℕ) (a d b : Point ℝ) :
    Point.norm ⟨(turn v d).x + (turn v b).x - (turn v a).x, (turn v d).y + (turn v b).y - (turn v a).y,
      (turn v d).z + (turn v b).z - (turn v a).z⟩ = Point.norm ⟨d.x + b.x - a.x, d.y + b.y - a.y, d.z + b.z - a.z⟩ := by
  refine norm_congr_sq _ _ ?_
  rcases v with _ | _ | _ | _ | _ | v <;> simp only [turn] <;> ring

theorem turn_unit (v : ℕ) (a : Point ℝ) (h : InUnit a) : InUnit (turn v a) := by
  obtain ⟨h1, h2, h3⟩ := h
  rcases v with _ | _ | _ | _ | _ | v <;> simp only [turn, InUnit, abs_neg] <;> exact ⟨by assumption, by assumption, by assumption⟩

theorem cube_unit (d : Domain ℝ) (h : 0 < d.size) (ix : Index) (v : Point ℝ) (hv : InCube d ix v) :
    InUnit (psmul (scaleOf d.size ix.level) (v.sub (d.centerFromIndex ix))) := by
  have hs := scaleOf_size d h ix.level
  have hp := scaleOf_pos h ix.level
  have key : ∀ u : ℝ, |u| ≤ d.sizeFromLevel ix.level / 2 → |scaleOf d.size ix.level * u| ≤ 1 / 2 := by
    intro u hu
    rw [abs_mul, abs_of_pos hp]
    nlinarith [mul_le_mul_of_nonneg_left hu hp.le]
  obtain ⟨h1, h2, h3⟩ := hv
  exact ⟨key _ h1, key _ h2, key _ h3⟩

theorem disp_eq (d : Domain ℝ) (h : 0 < d.size) (k n : Index) (c : ℕ) (hc : c < 8) (hl : k.level = n.level + 1) :
    psmul (scaleOf d.size k.level) ((d.centerFromIndex (n.child c)).sub (d.centerFromIndex k)) =
      disp ((k.x : ℤ) - 2 * n.x) ((k.y : ℤ) - 2 * n.y) ((k.z : ℤ) - 2 * n.z) c := by
  have ho := same_level_offset d h (n.child c) k hl.symm
  rw [show (n.child c).level = k.level from hl.symm] at ho
  rw [ho, Index.child_eq n c hc, disp]
  generalize c % 2 = c0
  generalize c / 2 % 2 = c1
  generalize c / 4 % 2 = c2
  push_cast
  congr 1 <;> ring

theorem scaled_dist {s : ℝ} (hs : 0 < s) (C K D : Point ℝ) (h : psmul s (C.sub K) = D) (t q : Point ℝ) :
    Point.norm ⟨D.x + (psmul s (t.sub C)).x - (psmul s (q.sub K)).x, D.y + (psmul s (t.sub C)).y - (psmul s (q.sub K)).y,
      D.z + (psmul s (t.sub C)).z - (psmul s (q.sub K)).z⟩ = s * (t.sub q).norm := by
  rw [← psmul_norm s hs.le, ← h]
  congr 1
  simp only [psmul, Point.sub]
  congr 1 <;> ring

section Boxes

variable {R : Rule} {p : ℕ} {ε : ℝ} {d : Domain ℝ} {k n : Index} {c : ℕ}

/-- What a target child gets from the charges of a source box through the plane waves. -/
def planeVal (R : Rule) (p : ℕ) (d : Domain ℝ) (k n : Index) (c : ℕ) (M : Coef) (t : Point ℝ) : ℝ :=
  locVal p (scaleOf d.size (n.level + 1)) (iToL R c (scaleOf d.size n.level * 2)
    (iToI R ((k.x : ℤ) - 2 * n.x) ((k.y : ℤ) - 2 * n.y) ((k.z : ℤ) - 2 * n.z) (mToI R p M))) (t.sub (d.centerFromIndex (n.child c)))

theorem planeVal_add (M N : Coef) (t : Point ℝ) : planeVal R p d k n c (M + N) t = planeVal R p d k n c M t + planeVal R p d k n c N t := by
  unfold planeVal; rw [(mToI_lin R p).map_add, iToI_add, iToL_add, locVal_add]

theorem planeVal_smul (a : ℝ) (M : Coef) (t : Point ℝ) : planeVal R p d k n c (a • M) t = a * planeVal R p d k n c M t := by
  unfold planeVal; rw [(mToI_lin R p).map_smul, iToI_smul, iToL_smul, locVal_smul]

theorem planeVal_zero (t : Point ℝ) : planeVal R p d k n c 0 t = 0 := by
  have := planeVal_smul (R := R) (p := p) (d := d) (k := k) (n := n) (c := c) 0 0 t
  simpa using this

theorem planeVal_error (hR : R.Even) (hA : R.Accurate p ε) (h : 0 < d.size) (hl : k.level = n.level + 1) (hc : c < 8)
    (hx : -2 ≤ (k.x : ℤ) - 2 * n.x ∧ (k.x : ℤ) - 2 * n.x ≤ 3) (hy : -2 ≤ (k.y : ℤ) - 2 * n.y ∧ (k.y : ℤ) - 2 * n.y ≤ 3)
    (hz : -2 ≤ (k.z : ℤ) - 2 * n.z ∧ (k.z : ℤ) - 2 * n.z ≤ 3) (srcs : List Src) (hs : ∀ q ∈ srcs, InCube d k q.pos) (t : Point ℝ)
    (ht : InCube d (n.child c) t) :
    (Separated k (n.child c) → |planeVal R p d k n c (rep (scaleOf d.size k.level) (d.centerFromIndex k) srcs) t - potential srcs t| ≤
      (srcs.map fun q => |q.charge| * (ε * (1 / (t.sub q.pos).norm))).sum) ∧
    (¬ Separated k (n.child c) → planeVal R p d k n c (rep (scaleOf d.size k.level) (d.centerFromIndex k) srcs) t = 0) := by
  rw [← farOct_separated hl hc]
  have hsc : scaleOf d.size n.level * 2 = scaleOf d.size k.level := by rw [hl, scaleOf_succ]; ring
  have hp := scaleOf_pos h k.level
  set s := scaleOf d.size k.level with hs'
  have hval : ∀ u : Point ℝ, planeVal R p d k n c (reg u) t = _ := fun u => by
    unfold planeVal locVal; rw [hsc, ← hl, ← hs']
  constructor
  · intro hf
    rw [potential_eq]
    obtain ⟨v, x, y, z, -, h1, h2, h3, h4, h5, h6⟩ := (plane_unit R hR p c hc _ _ _ hx hy hz).1 hf
    refine sum_error (G := fun x => reg (psmul s (x.sub (d.centerFromIndex k)))) (val := fun M => planeVal R p d k n c M t)
      (φ := fun x => 1 / (t.sub x).norm) (B := fun x => ε * (1 / (t.sub x).norm)) (planeVal_zero t)
      (fun _ _ => planeVal_add _ _ t) (fun _ _ => planeVal_smul _ _ t) srcs fun q hq => ?_
    show |planeVal R p d k n c (reg (psmul s (q.pos.sub (d.centerFromIndex k)))) t - _| ≤ _
    rw [hval, h6]
    have ha := turn_unit v _ (cube_unit d h k q.pos (hs q hq))
    have hb' := cube_unit d h (n.child c) t ht
    rw [show (n.child c).level = k.level from hl.symm] at hb'
    have hb := turn_unit v _ hb'
    have hacc := hA _ _ x y z ha hb h2 h3 h4 h5
    have hn : Point.norm ⟨x + (turn v (psmul s (t.sub (d.centerFromIndex (n.child c))))).x - (turn v (psmul s (q.pos.sub (d.centerFromIndex k)))).x,
        y + (turn v (psmul s (t.sub (d.centerFromIndex (n.child c))))).y - (turn v (psmul s (q.pos.sub (d.centerFromIndex k)))).y,
        z + (turn v (psmul s (t.sub (d.centerFromIndex (n.child c))))).z - (turn v (psmul s (q.pos.sub (d.centerFromIndex k)))).z⟩ =
        s * (t.sub q.pos).norm := by
      have e := turn_norm v (psmul s (q.pos.sub (d.centerFromIndex k))) (disp ((k.x : ℤ) - 2 * n.x) ((k.y : ℤ) - 2 * n.y) ((k.z : ℤ) - 2 * n.z) c)
        (psmul s (t.sub (d.centerFromIndex (n.child c))))
      rw [h1] at e
      rw [e]
      exact scaled_dist hp _ _ _ (disp_eq d h k n c hc hl) t q.pos
    rw [hn] at hacc
    have e1 : (1 : ℝ) / (t.sub q.pos).norm = s * (1 / (s * (t.sub q.pos).norm)) := by
      by_cases h0 : (t.sub q.pos).norm = 0
      · rw [h0]; simp
      · field_simp
    rw [e1, ← mul_sub, abs_mul, abs_of_pos hp]
    calc _ ≤ s * _ := mul_le_mul_of_nonneg_left hacc hp.le
      _ = _ := by ring
  · intro hf
    have hf : farOct ((k.x : ℤ) - 2 * n.x) ((k.y : ℤ) - 2 * n.y) ((k.z : ℤ) - 2 * n.z) c = false := by simpa using hf
    have h0 : ∀ u, planeVal R p d k n c (reg u) t = 0 := fun u => by
      rw [hval]
      exact (plane_unit R hR p c hc _ _ _ hx hy hz).2 hf _ _ _
    clear hs
    induction srcs with
    | nil => rw [rep_nil, planeVal_zero]
    | cons q l ih => rw [rep_cons, planeVal_add, planeVal_smul, h0, ih]; simp

end Boxes

end
end Dashmm.Harm
