import Verif.Spec.Com
import Mathlib.Tactic.Ring
import Mathlib.Tactic.LinearCombination
import Mathlib.Tactic.Linarith
import Mathlib.Algebra.Order.Field.Basic
import Mathlib.Tactic.FieldSimp

namespace Dashmm.Com

variable {K : Type} [Field K]

@[simp] theorem total_nil (g : Src K → K) : total [] g = 0 := rfl
@[simp] theorem total_cons (s : Src K) (l : List (Src K)) (g : Src K → K) :
    total (s :: l) g = s.charge * g s + total l g := by simp [total]
@[simp] theorem total_append (l l' : List (Src K)) (g : Src K → K) :
    total (l ++ l') g = total l g + total l' g := by simp [total]

theorem total_perm {l l' : List (Src K)} (h : l.Perm l') (g : Src K → K) :
    total l g = total l' g := (h.map _).sum_eq

/-- The trace part of the tensor about any point, from raw sums. -/
theorem total_sq (l : List (Src K)) (p0 p1 p2 : K) :
    total l (fun s => sq s p0 p1 p2) =
      total l (fun s => s.x * s.x) - 2 * p0 * total l (·.x) + p0 * p0 * total l (fun _ => 1)
      + (total l (fun s => s.y * s.y) - 2 * p1 * total l (·.y) + p1 * p1 * total l (fun _ => 1))
      + (total l (fun s => s.z * s.z) - 2 * p2 * total l (·.z) + p2 * p2 * total l (fun _ => 1)) := by
  induction l with
  | nil => simp
  | cons s l ih => simp only [total_cons, ih]; simp only [sq]; ring

theorem total_prod (l : List (Src K)) (u v : Src K → K) (p q : K) :
    total l (fun s => 3 * (u s - p) * (v s - q)) =
      3 * (total l (fun s => u s * v s) - q * total l u - p * total l v
        + p * q * total l (fun _ => 1)) := by
  induction l with
  | nil => simp
  | cons s l ih => simp only [total_cons, ih]; ring

theorem total_sub (l : List (Src K)) (u v : Src K → K) :
    total l (fun s => u s - v s) = total l u - total l v := by
  induction l with
  | nil => simp
  | cons s l ih => simp only [total_cons, ih]; ring

section shift
variable {d : Data K} {l : List (Src K)} (h : IsMoments d l) (p0 p1 p2 : K)
include h

theorem shift_xx : d.mtot * (3 * (d.c0 - p0) * (d.c0 - p0)
      - ((d.c0 - p0) * (d.c0 - p0) + (d.c1 - p1) * (d.c1 - p1) + (d.c2 - p2) * (d.c2 - p2)))
      + d.qxx = total l fun s => 3 * (s.x - p0) * (s.x - p0) - sq s p0 p1 p2 := by
  rw [h.qxx]; simp only [total_sub, total_prod, total_sq]
  rw [← h.mtot, ← h.cx, ← h.cy, ← h.cz]; ring
theorem shift_yy : d.mtot * (3 * (d.c1 - p1) * (d.c1 - p1)
      - ((d.c0 - p0) * (d.c0 - p0) + (d.c1 - p1) * (d.c1 - p1) + (d.c2 - p2) * (d.c2 - p2)))
      + d.qyy = total l fun s => 3 * (s.y - p1) * (s.y - p1) - sq s p0 p1 p2 := by
  rw [h.qyy]; simp only [total_sub, total_prod, total_sq]
  rw [← h.mtot, ← h.cx, ← h.cy, ← h.cz]; ring
theorem shift_zz : d.mtot * (3 * (d.c2 - p2) * (d.c2 - p2)
      - ((d.c0 - p0) * (d.c0 - p0) + (d.c1 - p1) * (d.c1 - p1) + (d.c2 - p2) * (d.c2 - p2)))
      + d.qzz = total l fun s => 3 * (s.z - p2) * (s.z - p2) - sq s p0 p1 p2 := by
  rw [h.qzz]; simp only [total_sub, total_prod, total_sq]
  rw [← h.mtot, ← h.cx, ← h.cy, ← h.cz]; ring
theorem shift_xy : d.mtot * (3 * (d.c0 - p0) * (d.c1 - p1)) + d.qxy =
    total l fun s => 3 * (s.x - p0) * (s.y - p1) := by
  rw [h.qxy]; simp only [total_prod]
  rw [← h.mtot, ← h.cx, ← h.cy]; ring
theorem shift_xz : d.mtot * (3 * (d.c0 - p0) * (d.c2 - p2)) + d.qxz =
    total l fun s => 3 * (s.x - p0) * (s.z - p2) := by
  rw [h.qxz]; simp only [total_prod]
  rw [← h.mtot, ← h.cx, ← h.cz]; ring
theorem shift_yz : d.mtot * (3 * (d.c1 - p1) * (d.c2 - p2)) + d.qyz =
    total l fun s => 3 * (s.y - p1) * (s.z - p2) := by
  rw [h.qyz]; simp only [total_prod]
  rw [← h.mtot, ← h.cy, ← h.cz]; ring
end shift

theorem isMoments_mergeAt {a b : Data K} {A B : List (Src K)} (ha : IsMoments a A)
    (hb : IsMoments b B) {p0 p1 p2 : K}
    (h0 : (a.mtot + b.mtot) * p0 = a.mtot * a.c0 + b.mtot * b.c0)
    (h1 : (a.mtot + b.mtot) * p1 = a.mtot * a.c1 + b.mtot * b.c1)
    (h2 : (a.mtot + b.mtot) * p2 = a.mtot * a.c2 + b.mtot * b.c2) :
    IsMoments (mergeAt a b (a.mtot + b.mtot) p0 p1 p2) (A ++ B) where
  mtot := by simp [mergeAt, ha.mtot, hb.mtot]
  cx := by simp [mergeAt, ← ha.cx, ← hb.cx, h0]
  cy := by simp [mergeAt, ← ha.cy, ← hb.cy, h1]
  cz := by simp [mergeAt, ← ha.cz, ← hb.cz, h2]
  qxx := by simp only [mergeAt, total_append]; rw [shift_xx ha, shift_xx hb]
  qxy := by simp only [mergeAt, total_append]; rw [shift_xy ha, shift_xy hb]
  qxz := by simp only [mergeAt, total_append]; rw [shift_xz ha, shift_xz hb]
  qyy := by simp only [mergeAt, total_append]; rw [shift_yy ha, shift_yy hb]
  qyz := by simp only [mergeAt, total_append]; rw [shift_yz ha, shift_yz hb]
  qzz := by simp only [mergeAt, total_append]; rw [shift_zz ha, shift_zz hb]

theorem isMoments_fresh : IsMoments (fresh : Data K) [] := by
  constructor <;> simp [fresh]

variable [DecidableEq K]

theorem isMoments_addCom {a b d : Data K} {A B : List (Src K)} (ha : IsMoments a A)
    (hb : IsMoments b B) (h : addCom a b = some d) : IsMoments d (A ++ B) := by
  unfold addCom at h
  simp only at h
  split at h
  · simp at h
  · rename_i hm
    obtain rfl := Option.some.inj h
    apply isMoments_mergeAt ha hb <;> field_simp

theorem calcMtot_eq (d : Data K) (l : List (Src K)) :
    calcMtot d l = { d with mtot := total l (fun _ => 1) } := by
  have : ∀ (l : List (Src K)) (d : Data K),
      l.foldl (fun d i => { d with mtot := d.mtot + i.charge }) d =
        { d with mtot := d.mtot + total l (fun _ => 1) } := by
    intro l
    induction l with
    | nil => intro d; simp
    | cons s l ih => intro d; simp only [List.foldl_cons, ih, total_cons]; ext <;> simp; ring
  unfold calcMtot; rw [this]; simp

theorem xcom_fold (l : List (Src K)) (d : Data K) :
    l.foldl (fun d i => { d with
        c0 := d.c0 + i.charge * i.x
        c1 := d.c1 + i.charge * i.y
        c2 := d.c2 + i.charge * i.z }) d =
      { d with c0 := d.c0 + total l (·.x), c1 := d.c1 + total l (·.y),
               c2 := d.c2 + total l (·.z) } := by
  induction l generalizing d with
  | nil => simp
  | cons s l ih => simp only [List.foldl_cons, ih, total_cons]; ext <;> simp <;> ring

theorem calcXcom_eq (d : Data K) (l : List (Src K)) :
    calcXcom d l = if d.mtot ≠ 0 then
      { d with c0 := total l (·.x) / d.mtot, c1 := total l (·.y) / d.mtot,
               c2 := total l (·.z) / d.mtot }
      else { d with c0 := total l (·.x), c1 := total l (·.y), c2 := total l (·.z) } := by
  unfold calcXcom; simp only [xcom_fold]
  split
  · ext <;> simp [div_eq_mul_inv]
  · ext <;> simp

theorem calcQ_eq (d : Data K) (l : List (Src K)) :
    calcQ d l = { d with
      qxx := total l fun s => 3 * (s.x - d.c0) * (s.x - d.c0) - sq s d.c0 d.c1 d.c2
      qxy := total l fun s => 3 * (s.x - d.c0) * (s.y - d.c1)
      qxz := total l fun s => 3 * (s.x - d.c0) * (s.z - d.c2)
      qyy := total l fun s => 3 * (s.y - d.c1) * (s.y - d.c1) - sq s d.c0 d.c1 d.c2
      qyz := total l fun s => 3 * (s.y - d.c1) * (s.z - d.c2)
      qzz := total l fun s => 3 * (s.z - d.c2) * (s.z - d.c2) - sq s d.c0 d.c1 d.c2 } := by
  have : ∀ (l : List (Src K)) (d : Data K),
      l.foldl (fun d i =>
      let d0 := i.x - d.c0
      let d1 := i.y - d.c1
      let d2 := i.z - d.c2
      let mag := d0 * d0 + d1 * d1 + d2 * d2
      { d with
        qxx := d.qxx + i.charge * (3 * d0 * d0 - mag)
        qxy := d.qxy + i.charge * 3 * d0 * d1
        qxz := d.qxz + i.charge * 3 * d0 * d2
        qyy := d.qyy + i.charge * (3 * d1 * d1 - mag)
        qyz := d.qyz + i.charge * 3 * d1 * d2
        qzz := d.qzz + i.charge * (3 * d2 * d2 - mag) }) d = { d with
      qxx := d.qxx + total l fun s => 3 * (s.x - d.c0) * (s.x - d.c0) - sq s d.c0 d.c1 d.c2
      qxy := d.qxy + total l fun s => 3 * (s.x - d.c0) * (s.y - d.c1)
      qxz := d.qxz + total l fun s => 3 * (s.x - d.c0) * (s.z - d.c2)
      qyy := d.qyy + total l fun s => 3 * (s.y - d.c1) * (s.y - d.c1) - sq s d.c0 d.c1 d.c2
      qyz := d.qyz + total l fun s => 3 * (s.y - d.c1) * (s.z - d.c2)
      qzz := d.qzz + total l fun s => 3 * (s.z - d.c2) * (s.z - d.c2) - sq s d.c0 d.c1 d.c2 } := by
    intro l
    induction l with
    | nil => intro d; ext <;> simp
    | cons s l ih => intro d; rw [List.foldl_cons, ih]; ext <;> simp [sq] <;> ring
  unfold calcQ; rw [this]; ext <;> simp

theorem isMoments_sToM (l : List (Src K))
    (h : total l (fun _ => 1) ≠ 0 ∨ ∀ s ∈ l, s.charge = 0) : IsMoments (sToM l) l := by
  have hz : ∀ g : Src K → K, (∀ s ∈ l, s.charge = 0) → total l g = 0 := by
    intro g hl
    clear h
    induction l with
    | nil => rfl
    | cons s l ih =>
      rw [total_cons, hl s (by simp), ih (fun t ht => hl t (by simp [ht]))]; simp
  have h3 : (calcXcom (calcMtot fresh l) l).mtot = total l (fun _ => 1) ∧
      total l (fun _ => 1) * (calcXcom (calcMtot fresh l) l).c0 = total l (·.x) ∧
      total l (fun _ => 1) * (calcXcom (calcMtot fresh l) l).c1 = total l (·.y) ∧
      total l (fun _ => 1) * (calcXcom (calcMtot fresh l) l).c2 = total l (·.z) := by
    rw [calcXcom_eq, calcMtot_eq]
    by_cases hm : total l (fun _ => 1) = 0
    · have hs := h.resolve_left (by simpa using hm)
      simp [hm, hz _ hs]
    · simp only [ne_eq, hm, not_false_eq_true, if_true, true_and]
      refine ⟨?_, ?_, ?_⟩ <;> field_simp
  unfold sToM
  rw [calcQ_eq]
  obtain ⟨e, e0, e1, e2⟩ := h3
  constructor
  · exact e
  · simpa [e] using e0
  · simpa [e] using e1
  · simpa [e] using e2
  all_goals rfl

omit [DecidableEq K] in
theorem mToM_eq (d : Data K) : mToM d = d := rfl

theorem sToM_mtot (l : List (Src K)) : (sToM l).mtot = total l (fun _ => 1) := by
  unfold sToM; rw [calcQ_eq, calcXcom_eq, calcMtot_eq]; split <;> rfl

/-! ### Aggregation over a tree, unguarded version -/

mutual
theorem moments_com : (t : MTree K) → {d : Data K} → moments addCom t = some d →
    IsMoments d t.sources
  | .leaf l, d, h => by
    have hm : total l (fun _ => 1) ≠ 0 := by
      intro hm
      simp [moments, addCom, sToM_mtot, hm, fresh] at h
    have := isMoments_addCom isMoments_fresh (isMoments_sToM l (Or.inl hm)) h
    simpa [MTree.sources] using this
  | .node kids, d, h => by
    have := momentsList_com kids h isMoments_fresh
    simpa [MTree.sources] using this
theorem momentsList_com : (ts : List (MTree K)) → {acc d : Data K} →
    momentsList addCom ts acc = some d → {A : List (Src K)} → IsMoments acc A →
    IsMoments d (A ++ sourcesList ts)
  | [], acc, d, h, A, hA => by
    simp only [momentsList, Option.some.injEq] at h; subst h
    simpa [sourcesList] using hA
  | t :: ts, acc, d, h, A, hA => by
    rw [momentsList] at h
    obtain ⟨e, he, h⟩ := Option.bind_eq_some_iff.1 h
    obtain ⟨acc', hacc, h⟩ := Option.bind_eq_some_iff.1 h
    have := momentsList_com ts h (isMoments_addCom hA (moments_com t he) hacc)
    simpa [sourcesList, List.append_assoc] using this
end

/-! ### Positive and non-negative charges -/

section ordered
variable [LinearOrder K] [IsStrictOrderedRing K]

omit [DecidableEq K] in
theorem total_nonneg {l : List (Src K)} (h : ∀ s ∈ l, 0 ≤ s.charge) :
    0 ≤ total l (fun _ => 1) := by
  induction l with
  | nil => simp
  | cons s l ih =>
    rw [total_cons]
    have := h s (by simp)
    have := ih (fun t ht => h t (by simp [ht]))
    linarith

omit [DecidableEq K] in
theorem total_pos {l : List (Src K)} (h : ∀ s ∈ l, 0 < s.charge) (hl : l ≠ []) :
    0 < total l (fun _ => 1) := by
  cases l with
  | nil => exact absurd rfl hl
  | cons s l =>
    rw [total_cons]
    have := h s (by simp)
    have := total_nonneg (l := l) (fun t ht => (h t (by simp [ht])).le)
    linarith

omit [DecidableEq K] in
theorem charges_zero {l : List (Src K)} (h : ∀ s ∈ l, 0 ≤ s.charge)
    (h0 : total l (fun _ => 1) = 0) : ∀ s ∈ l, s.charge = 0 := by
  induction l with
  | nil => simp
  | cons s l ih =>
    rw [total_cons] at h0
    have h1 := h s (by simp)
    have h2 := total_nonneg (l := l) (fun t ht => h t (by simp [ht]))
    have h3 : s.charge = 0 := by linarith
    have h4 : total l (fun _ => 1) = 0 := by linarith
    intro t ht
    rcases List.mem_cons.1 ht with rfl | ht
    · exact h3
    · exact ih (fun t ht => h t (by simp [ht])) h4 t ht

omit [DecidableEq K] in
theorem total_zero_of_zero {l : List (Src K)} (h : ∀ s ∈ l, s.charge = 0) (g : Src K → K) :
    total l g = 0 := by
  induction l with
  | nil => rfl
  | cons s l ih =>
    rw [total_cons, h s (by simp), ih (fun t ht => h t (by simp [ht]))]; simp

theorem isMoments_addAcc {a b : Data K} {A B : List (Src K)} (ha : IsMoments a A)
    (hb : IsMoments b B) (hA : ∀ s ∈ A, 0 ≤ s.charge) (hB : ∀ s ∈ B, 0 ≤ s.charge) :
    ∃ d, addAcc a b = some d ∧ IsMoments d (A ++ B) := by
  unfold addAcc
  simp only
  split
  · rename_i hm
    refine ⟨_, rfl, ?_⟩
    apply isMoments_mergeAt ha hb <;> field_simp
  · rename_i hm
    push Not at hm
    refine ⟨_, rfl, ?_⟩
    have h1 := total_nonneg hA
    have h2 := total_nonneg hB
    rw [← ha.mtot] at h1; rw [← hb.mtot] at h2
    have a0 : a.mtot = 0 := by linarith
    have b0 : b.mtot = 0 := by linarith
    apply isMoments_mergeAt ha hb <;> simp [a0, b0]

mutual
theorem moments_acc : (t : MTree K) → (∀ s ∈ t.sources, 0 ≤ s.charge) →
    ∃ d, moments addAcc t = some d ∧ IsMoments d t.sources
  | .leaf l, h => by
    simp only [MTree.sources] at h ⊢
    have hs : IsMoments (sToM l) l := by
      apply isMoments_sToM
      by_cases hm : total l (fun _ => 1) = 0
      · exact Or.inr (charges_zero h hm)
      · exact Or.inl hm
    simpa [moments] using isMoments_addAcc isMoments_fresh hs (by simp) h
  | .node kids, h => by
    simp only [MTree.sources] at h ⊢
    have := momentsList_acc kids h isMoments_fresh (by simp)
    simpa [moments] using this
theorem momentsList_acc : (ts : List (MTree K)) → (∀ s ∈ sourcesList ts, 0 ≤ s.charge) →
    {acc : Data K} → {A : List (Src K)} → IsMoments acc A → (∀ s ∈ A, 0 ≤ s.charge) →
    ∃ d, momentsList addAcc ts acc = some d ∧ IsMoments d (A ++ sourcesList ts)
  | [], _, acc, A, hA, _ => by
    exact ⟨acc, by simp [momentsList], by simpa [sourcesList] using hA⟩
  | t :: ts, h, acc, A, hA, hp => by
    simp only [sourcesList, List.mem_append] at h
    obtain ⟨e, he, hm⟩ := moments_acc t (fun s hs => h s (Or.inl hs))
    obtain ⟨acc', hacc, hm'⟩ := isMoments_addAcc hA hm hp (fun s hs => h s (Or.inl hs))
    obtain ⟨d, hd, hdm⟩ := momentsList_acc ts (fun s hs => h s (Or.inr hs)) hm' (by
      intro s hs
      rcases List.mem_append.1 hs with hs | hs
      · exact hp s hs
      · exact h s (Or.inl hs))
    refine ⟨d, ?_, by simpa [sourcesList, List.append_assoc] using hdm⟩
    rw [momentsList]
    simp [he, mToM_eq, hacc, hd]
end

end ordered

end Dashmm.Com
