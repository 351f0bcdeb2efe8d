import Verif.Proofs.Waves
import Verif.Proofs.PlaneErr

/-!
The waves of the source boxes, gathered at the children of a target box.
-/

namespace Dashmm.Waves

open Complex (I)
open Dashmm.Lap
open Dashmm.Harm (mem_off)

set_option maxRecDepth 100000 in
theorem paths_direction : ∀ dx ∈ ([-2, -1, 0, 1, 2, 3] : List ℤ), ∀ dy ∈ ([-2, -1, 0, 1, 2, 3] : List ℤ),
    ∀ dz ∈ ([-2, -1, 0, 1, 2, 3] : List ℤ), ∀ c ∈ List.range 8,
      (paths dx dy dz c).map (fun p => (tagView p.tag, p.take.slot)) =
        ((axis (-2) 3 (dx, dy, dz)).orElse fun _ => axis (-2) 2 (dx - (c % 2 : ℕ), dy - (c / 2 % 2 : ℕ), dz - (c / 4 % 2 : ℕ))).toList.map fun v => (v, 5 - v) := by
  decide +kernel

set_option maxRecDepth 100000 in
theorem tags_shift : ∀ dx ∈ ([-2, -1, 0, 1, 2, 3] : List ℤ), ∀ dy ∈ ([-2, -1, 0, 1, 2, 3] : List ℤ),
    ∀ dz ∈ ([-2, -1, 0, 1, 2, 3] : List ℤ), ∀ tag ∈ (mergeTags dx dy dz).getD [],
      shiftInTable (tagShift tag dx dy dz).1 (tagShift tag dx dy dz).2.1 (tagShift tag dx dy dz).2.2 := by
  decide +kernel

theorem takes_shift : ∀ c ∈ List.range 8, ∀ t ∈ childTakes c, shiftInTable t.x t.y t.z := by decide +kernel

section Generic

variable {s : ℕ} {cnt : ℕ → ℕ}

theorem mapM_views (f : ℕ → Option (ℕ × List ℂ)) (V : ℕ → Wave) : ∀ tags : List ℕ,
    (∀ tag ∈ tags, ∃ a, f tag = some (tag, a) ∧ a.length = running cnt s ∧ Holds s cnt a (V tag)) →
    ∃ vs, tags.mapM f = some vs ∧ vs.map Prod.fst = tags ∧ ∀ q ∈ vs, q.2.length = running cnt s ∧ Holds s cnt q.2 (V q.1)
  | [], _ => ⟨[], rfl, rfl, by simp⟩
  | tag :: tags, h => by
    obtain ⟨a, e, l, ha⟩ := h tag List.mem_cons_self
    obtain ⟨vs, e', ht, hv⟩ := mapM_views f V tags fun t ht => h t (List.mem_cons_of_mem _ ht)
    refine ⟨(tag, a) :: vs, by rw [List.mapM_cons, e, e']; rfl, by rw [List.map_cons, ht], ?_⟩
    intro q hq
    rcases List.mem_cons.1 hq with rfl | hq
    · exact ⟨l, ha⟩
    · exact hv q hq

theorem addViews_holds {N : ℕ} (hN : running cnt s ≤ N) (V : ℕ → Wave) : ∀ (vs : List (ℕ × List ℂ)) (E : ℕ → List ℂ) (A : ℕ → Wave),
    (∀ q ∈ vs, q.2.length = running cnt s ∧ Holds s cnt q.2 (V q.1)) → (∀ t, (E t).length = N ∧ Holds s cnt (E t) (A t)) →
    ∃ E', addViews E vs = some E' ∧
      ∀ t, (E' t).length = N ∧ Holds s cnt (E' t) (A t + (((vs.map Prod.fst).filter fun g => g = t).map V).sum)
  | [], E, A, _, hE => ⟨E, rfl, fun t => by simpa using hE t⟩
  | (tag, a) :: vs, E, A, hv, hE => by
    obtain ⟨ha, hb⟩ := hv (tag, a) List.mem_cons_self
    obtain ⟨M, e, l, hM⟩ := addView_holds (hE tag).2 hb (by rw [ha, (hE tag).1]; exact hN)
    obtain ⟨E', e', h'⟩ := addViews_holds hN V vs (Function.update E tag M) (Function.update A tag (A tag + V tag))
      (fun q hq => hv q (List.mem_cons_of_mem _ hq)) (fun t => by
        by_cases h : t = tag
        · subst h; simp only [Function.update_self]; exact ⟨l.trans (hE t).1, hM⟩
        · simp only [Function.update_of_ne h]; exact hE t)
    refine ⟨E', by rw [addViews, List.foldlM_cons]; simp only [e, Option.bind_eq_bind, Option.bind_some]; exact e', fun t => ?_⟩
    refine ⟨(h' t).1, ?_⟩
    have := (h' t).2
    rw [List.map_cons, List.filter_cons]
    by_cases h : tag = t
    · subst h
      simp only [Function.update_self] at this
      simpa [add_assoc] using this
    · simp only [Function.update_of_ne (Ne.symm h)] at this
      simpa [h] using this

theorem boxes_holds {N : ℕ} (hN : running cnt s ≤ N) (make : SrcBox → Option (List (ℕ × List ℂ))) (tags : SrcBox → List ℕ)
    (V : SrcBox → ℕ → Wave) : ∀ (boxes : List SrcBox) (E : ℕ → List ℂ) (A : ℕ → Wave),
    (∀ b ∈ boxes, ∃ vs, make b = some vs ∧ vs.map Prod.fst = tags b ∧
      ∀ q ∈ vs, q.2.length = running cnt s ∧ Holds s cnt q.2 (V b q.1)) → (∀ t, (E t).length = N ∧ Holds s cnt (E t) (A t)) →
    ∃ E', boxes.foldlM (fun E b => do addViews E (← make b)) E = some E' ∧
      ∀ t, (E' t).length = N ∧ Holds s cnt (E' t) (A t + (boxes.map fun b => (((tags b).filter fun g => g = t).map (V b)).sum).sum)
  | [], E, A, _, hE => ⟨E, rfl, fun t => by simpa using hE t⟩
  | b :: boxes, E, A, hb, hE => by
    obtain ⟨vs, e, ht, hv⟩ := hb b List.mem_cons_self
    obtain ⟨E1, e1, h1⟩ := addViews_holds hN (V b) vs E A hv hE
    obtain ⟨E', e', h'⟩ := boxes_holds hN make tags V boxes E1 _ (fun b hb' => hb b (List.mem_cons_of_mem _ hb')) h1
    refine ⟨E', by rw [List.foldlM_cons]; simp only [e, e1, Option.bind_eq_bind, Option.bind_some]; exact e', fun t => ?_⟩
    have := h' t
    rw [ht, add_assoc] at this
    exact this

theorem slot_holds {shift : Shift} {φ : ℤ → ℤ → ℤ → Wave}
    (hsh : ∀ (M W : List ℂ) (A B : Wave) (x y z : ℤ), Holds s cnt M A → running cnt s ≤ M.length → Holds s cnt W B →
      shiftInTable x y z → ∃ M', shift M W x y z = some M' ∧ M'.length = M.length ∧ Holds s cnt M' (A + B * φ x y z))
    (E : ℕ → List ℂ) (A : ℕ → Wave) (hE : ∀ t, Holds s cnt (E t) (A t)) : ∀ (l : List Take) (M : List ℂ) (B : Wave),
    (∀ t ∈ l, shiftInTable t.x t.y t.z) → Holds s cnt M B → running cnt s ≤ M.length →
    ∃ M', l.foldlM (fun S t => shift S (E t.tag) t.x t.y t.z) M = some M' ∧ M'.length = M.length ∧
      Holds s cnt M' (B + (l.map fun t => A t.tag * φ t.x t.y t.z).sum)
  | [], M, B, _, hM, _ => ⟨M, rfl, rfl, by simpa using hM⟩
  | t :: l, M, B, hl, hM, hn => by
    obtain ⟨M1, e1, l1, h1⟩ := hsh M (E t.tag) B (A t.tag) t.x t.y t.z hM hn (hE t.tag) (hl t List.mem_cons_self)
    obtain ⟨M2, e2, l2, h2⟩ := slot_holds hsh E A hE l M1 _ (fun u hu => hl u (List.mem_cons_of_mem _ hu)) h1 (by omega)
    refine ⟨M2, by rw [List.foldlM_cons, e1]; exact e2, by omega, ?_⟩
    rw [List.map_cons, List.sum_cons, ← add_assoc]
    exact h2

theorem paths_sum (dx dy dz : ℤ) (c slot : ℕ) (V : ℕ → Wave) (φ : Take → Wave) :
    (((childTakes c).filter fun t => t.slot = slot).map fun t =>
      ((((mergeTags dx dy dz).getD []).filter fun g => g = t.tag).map V).sum * φ t).sum =
    (((paths dx dy dz c).filter fun q => q.take.slot = slot).map fun q => V q.tag * φ q.take).sum := by
  unfold paths
  generalize (mergeTags dx dy dz).getD [] = tags
  induction tags with
  | nil => simp
  | cons g tags ih =>
    rw [List.flatMap_cons, List.filter_append, List.map_append, List.sum_append, ← ih]
    induction childTakes c with
    | nil => simp
    | cons t l ih' =>
      simp only [List.filter_cons]
      by_cases h1 : t.slot = slot <;> by_cases h2 : g = t.tag
      · subst h2
        simp only [h1, decide_true, if_true, beq_self_eq_true, List.map_cons, List.sum_cons, List.filter_cons]
        simp only [List.filter_cons] at ih'
        rw [ih', add_mul]
        abel
      · have h2' : (t.tag == g) = false := by simpa using Ne.symm h2
        simp only [h1, h2, h2', decide_true, decide_false, if_true, List.map_cons, List.sum_cons, Bool.false_eq_true, if_false]
        simp only [List.filter_cons] at ih'
        rw [ih']
        abel
      · have h2' : (t.tag == g) = true := by simpa using h2.symm
        simp only [h1, h2', decide_false, if_true, Bool.false_eq_true, if_false, List.map_cons, List.filter_cons]
        simp only [List.filter_cons] at ih'
        exact ih'
      · have h2' : (t.tag == g) = false := by simpa using Ne.symm h2
        simp only [h1, h2', decide_false, Bool.false_eq_true, if_false]
        simp only [List.filter_cons] at ih'
        exact ih'

theorem sum_swap {β : Type} (l : List Take) (boxes : List β) (f : β → Take → Wave) (φ : Take → Wave) :
    (l.map fun t => (boxes.map fun b => f b t).sum * φ t).sum = (boxes.map fun b => (l.map fun t => f b t * φ t).sum).sum := by
  induction l with
  | nil => simp
  | cons t l ih =>
    simp only [List.map_cons, List.sum_cons]
    rw [ih, List.sum_map_add, List.sum_map_mul_right]

/-- What the boxes contribute to the direction `v` of the child `c`. -/
theorem gather_holds {shift : Shift} {φ : ℤ → ℤ → ℤ → Wave}
    (hsh : ∀ (M W : List ℂ) (A B : Wave) (x y z : ℤ), Holds s cnt M A → running cnt s ≤ M.length → Holds s cnt W B →
      shiftInTable x y z → ∃ M', shift M W x y z = some M' ∧ M'.length = M.length ∧ Holds s cnt M' (A + B * φ x y z))
    (hφ : ∀ x y z x' y' z', φ x y z * φ x' y' z' = φ (x + x') (y + y') (z + z'))
    (make : SrcBox → Option (List (ℕ × List ℂ))) (U : SrcBox → ℕ → Wave) {N : ℕ} (hN : running cnt s ≤ N)
    (boxes : List SrcBox) (hb : ∀ b ∈ boxes, b.Near)
    (hm : ∀ b ∈ boxes, ∃ vs, make b = some vs ∧ vs.map Prod.fst = (mergeTags b.dx b.dy b.dz).getD [] ∧
      ∀ q ∈ vs, q.2.length = running cnt s ∧ Holds s cnt q.2 (let t := tagShift q.1 b.dx b.dy b.dz
        U b (tagView q.1) * φ t.1 t.2.1 t.2.2))
    {c v : ℕ} (hc : c < 8) (hv : v < 6) :
    ∃ M, gather make shift N (running cnt s) c v boxes = some M ∧ M.length = running cnt s ∧
      Holds s cnt M ((boxes.map fun b => if b.direction c = some v then
        U b v * φ (b.toChild c v).1 (b.toChild c v).2.1 (b.toChild c v).2.2 else 0).sum) := by
  obtain ⟨E, e, hE⟩ := boxes_holds hN make (fun b => (mergeTags b.dx b.dy b.dz).getD [])
    (fun b tag => let t := tagShift tag b.dx b.dy b.dz
      U b (tagView tag) * φ t.1 t.2.1 t.2.2) boxes (freshViews N) 0 hm
    (fun t => ⟨by simp [freshViews], Holds.zero s cnt N hN⟩)
  obtain ⟨M, e', l, hM⟩ := slot_holds hsh E _ (fun t => (hE t).2) ((childTakes c).filter fun t => t.slot = 5 - v)
    (List.replicate (running cnt s) 0) 0
    (fun t ht => takes_shift c (List.mem_range.2 hc) t (List.mem_filter.1 ht).1)
    (Holds.zero s cnt _ (le_refl _)) (by simp)
  refine ⟨M, ?_, by simpa using l, ?_⟩
  · rw [gather]
    show (boxes.foldlM (fun E b => do addViews E (← make b)) (freshViews N) >>= fun E => slotArr shift (running cnt s) c E (5 - v)) = _
    rw [e]
    exact e'
  · rw [zero_add] at hM
    simp only [Pi.zero_apply, zero_add] at hM
    rw [sum_swap] at hM
    refine (congrArg (Holds s cnt M) ?_).mp hM
    refine congrArg List.sum (List.map_congr_left fun b hb' => ?_)
    refine (paths_sum b.dx b.dy b.dz c (5 - v) _ fun t => φ t.x t.y t.z).trans ?_
    obtain ⟨hx, hy, hz⟩ := hb b hb'
    have hp := paths_table _ (mem_off hx) _ (mem_off hy) _ (mem_off hz) c (List.mem_range.2 hc)
    have hd := paths_direction _ (mem_off hx) _ (mem_off hy) _ (mem_off hz) c (List.mem_range.2 hc)
    have hdir : ∀ w, b.direction c = some w → w < 6 := by
      intro w hw
      have ha : ∀ lo hi d w, axis lo hi d = some w → w < 6 := by
        intro lo hi d w hw
        unfold axis at hw
        split_ifs at hw <;> simp only [Option.some.injEq] at hw <;> omega
      unfold SrcBox.direction at hw
      cases h3 : axis (-2) 3 (b.dx, b.dy, b.dz) with
      | none => rw [h3] at hw; exact ha _ _ _ _ hw
      | some w' =>
        rw [h3] at hw
        simp only [Option.orElse, Option.some.injEq] at hw
        subst hw
        exact ha _ _ _ _ h3
    change _ = (b.direction c).toList.map _ at hd
    cases hw : b.direction c with
    | none =>
      rw [hw] at hd
      have : paths b.dx b.dy b.dz c = [] := by simpa using hd
      rw [this]; simp
    | some w =>
      rw [hw] at hd
      have hw6 := hdir w hw
      obtain ⟨q, hq⟩ : ∃ q, paths b.dx b.dy b.dz c = [q] := by
        have := congrArg List.length hd
        simp only [List.length_map, Option.toList_some, List.length_cons, List.length_nil] at this
        exact List.length_eq_one_iff.1 this
      rw [hq] at hd
      simp only [List.map_cons, List.map_nil, Option.toList_some, List.cons.injEq, and_true, Prod.mk.injEq] at hd
      have hok := hp.2.2 q (by rw [hq]; exact List.mem_cons_self)
      obtain ⟨-, -, -, -, hfr⟩ := hok
      rw [hq, List.filter_cons, List.filter_nil]
      by_cases hwv : w = v
      · subst hwv
        rw [if_pos (by simp [hd.2]), if_pos rfl]
        simp only [List.map_cons, List.map_nil, List.sum_cons, List.sum_nil, add_zero]
        rw [mul_assoc, hφ, hd.1]
        rw [hd.1] at hfr
        have e3 : b.toChild c w = _ := hfr
        rw [e3]
      · rw [if_neg (by simp only [hd.2, decide_eq_true_eq]; omega), if_neg (by simpa using hwv)]
        rfl

end Generic

end Dashmm.Waves
