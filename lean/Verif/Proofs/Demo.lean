import Verif.Spec.Demo
import Mathlib.Algebra.BigOperators.Intervals
import Mathlib.Tactic.Linarith
import Mathlib.Tactic.FieldSimp
/-!
Lemmas about the basic demo.
-/
namespace Dashmm.Demo

/-! ### Counts and indices -/

theorem share_eq (n ranks rank : ℕ) : share n ranks rank = n / ranks + if rank < n % ranks then 1 else 0 := by
  unfold share
  simp only
  split_ifs <;> rfl

theorem mem_indices {n ranks rank x : ℕ} :
    x ∈ indices n ranks rank ↔ share n ranks rank * rank ≤ x ∧ x < share n ranks rank * (rank + 1) := by
  unfold indices
  simp only [List.mem_map, List.mem_range]
  constructor
  · rintro ⟨i, hi, rfl⟩
    exact ⟨by omega, by rw [Nat.mul_add]; omega⟩
  · rintro ⟨h1, h2⟩
    exact ⟨x - share n ranks rank * rank, by rw [Nat.mul_add] at h2; omega, by omega⟩

theorem sum_share {n ranks : ℕ} (hr : 0 < ranks) : ((List.range ranks).map (share n ranks)).sum = n := by
  have hb : n % ranks < ranks := Nat.mod_lt _ hr
  have h : ∀ k, ((List.range k).map (share n ranks)).sum = k * (n / ranks) + min k (n % ranks) := by
    intro k
    induction k with
    | zero => simp
    | succ k ih =>
      rw [List.range_succ, List.map_append, List.sum_append, ih, List.map_singleton, List.sum_singleton, share_eq,
        Nat.add_mul]
      split_ifs <;> omega
  rw [h, Nat.min_eq_right hb.le]
  exact Nat.div_add_mod n ranks

theorem length_allIndices {n ranks : ℕ} (hr : 0 < ranks) : (allIndices n ranks).length = n := by
  unfold allIndices
  rw [List.length_flatMap]
  have : (List.range ranks).map (fun r => (indices n ranks r).length) = (List.range ranks).map (share n ranks) := by
    simp [indices]
  rw [this, sum_share hr]

/-- Equal shares: the ranks number the records consecutively. -/
theorem indices_equal {n ranks s : ℕ} (h : ∀ r < ranks, share n ranks r = s) : allIndices n ranks = List.range (ranks * s) := by
  have key : ∀ k ≤ ranks, (List.range k).flatMap (indices n ranks) = List.range (k * s) := by
    intro k
    induction k with
    | zero => simp
    | succ k ih =>
      intro hk
      rw [List.range_succ, List.flatMap_append, ih (by omega), List.flatMap_singleton, Nat.add_mul, Nat.one_mul,
        List.range_add]
      congr 1
      unfold indices
      rw [h k (by omega)]
      refine List.map_congr_left fun i _ => ?_
      rw [Nat.mul_comm s k]; omega
  exact key ranks (le_refl _)

theorem indices_few {n ranks : ℕ} (h : n < ranks) : allIndices n ranks = List.range n := by
  have hd : n / ranks = 0 := Nat.div_eq_of_lt h
  have hm : n % ranks = n := Nat.mod_eq_of_lt h
  have key : ∀ k, (List.range k).flatMap (indices n ranks) = List.range (min k n) := by
    intro k
    induction k with
    | zero => simp
    | succ k ih =>
      rw [List.range_succ, List.flatMap_append, ih, List.flatMap_singleton]
      unfold indices
      rw [share_eq, hd, hm]
      by_cases hk : k < n
      · have : min (k + 1) n = min k n + 1 := by omega
        rw [if_pos hk, this, List.range_succ]
        simp
        omega
      · have : min (k + 1) n = min k n := by omega
        rw [if_neg hk, this]
        simp
  rw [allIndices, key]
  congr 1
  omega

/-! ### The comparison -/

variable {P : Type}

theorem offsets_fold (l : List (Target P × ℕ)) : ∀ (m : ℤ → Option ℕ) (c : ℤ),
    let f := l.foldl (fun m x => fun c => if c = x.1.index then some x.2 else m c) m
    (c ∉ l.map (·.1.index) → f c = m c) ∧
    ((l.map (·.1.index)).Nodup → ∀ x ∈ l, f x.1.index = some x.2) := by
  induction l with
  | nil => intro m c; simp
  | cons x l ih =>
    intro m c f
    refine ⟨fun hc => ?_, fun hn y hy => ?_⟩
    · simp only [List.map_cons, List.mem_cons, not_or] at hc
      have := (ih (fun c => if c = x.1.index then some x.2 else m c) c).1 hc.2
      exact this.trans (if_neg hc.1)
    · simp only [List.map_cons, List.nodup_cons] at hn
      rcases List.mem_cons.1 hy with rfl | hy
      · have := (ih (fun c => if c = y.1.index then some y.2 else m c) y.1.index).1 hn.1
        exact this.trans (if_pos rfl)
      · exact (ih (fun c => if c = x.1.index then some x.2 else m c) c).2 hn.2 y hy

theorem offsets_nodup {ts : List (Target P)} (h : (ts.map (·.index)).Nodup) {i : ℕ} (hi : i < ts.length) :
    offsets ts ts[i].index = some i := by
  have hm : (ts.zipIdx.map (·.1.index)) = ts.map (·.index) := by
    have : ts.zipIdx.map (fun x => x.1.index) = (ts.zipIdx.map Prod.fst).map (·.index) := by
      rw [List.map_map]; rfl
    rw [this, List.zipIdx_map_fst]
  have := (offsets_fold ts.zipIdx (fun _ => none) 0).2 (by rw [hm]; exact h) (ts[i], i)
    (by rw [List.mem_zipIdx_iff_getElem?]; simp [hi])
  exact this

/-- The loop over targets that are found: sums and maximum. -/
theorem compareLoop_eq {ts : List (Target P)} (h : (ts.map (·.index)).Nodup) (es : List (Target P))
    (g : Target P → ℂ) (hg : ∀ e ∈ es, ∃ t ∈ ts, t.index = e.index ∧ t.phi = g e) :
    ∃ m, compareLoop ts es = some ((es.map fun e => ‖g e - e.phi‖ ^ 2).sum, (es.map fun e => ‖e.phi‖ ^ 2).sum, m) ∧
      IsMaxError (es.map fun e => (g e, e.phi)) m := by
  have key : ∀ (l : List (Target P)), (∀ e ∈ l, ∃ t ∈ ts, t.index = e.index ∧ t.phi = g e) → ∀ s : ℝ × ℝ × ℝ,
      ∃ m, l.foldlM (fun (s : ℝ × ℝ × ℝ) e =>
        ((offsets ts e.index).bind fun i => ts[i]?).map fun t =>
          let relerr := Complex.normSq (t.phi - e.phi)
          let exnorm := Complex.normSq e.phi
          (s.1 + relerr, s.2.1 + exnorm,
            if Real.sqrt (relerr / exnorm) > s.2.2 then Real.sqrt (relerr / exnorm) else s.2.2)) s =
          some (s.1 + (l.map fun e => ‖g e - e.phi‖ ^ 2).sum, s.2.1 + (l.map fun e => ‖e.phi‖ ^ 2).sum, m) ∧
        s.2.2 ≤ m ∧ (∀ p ∈ l.map (fun e => (g e, e.phi)), ‖p.1 - p.2‖ / ‖p.2‖ ≤ m) ∧
        (m = s.2.2 ∨ ∃ p ∈ l.map (fun e => (g e, e.phi)), m = ‖p.1 - p.2‖ / ‖p.2‖) := by
    intro l
    induction l with
    | nil => intro _ s; exact ⟨s.2.2, by simp, le_refl _, by simp, .inl rfl⟩
    | cons e l ih =>
      intro hl s
      obtain ⟨t, ht, hti, htp⟩ := hl e List.mem_cons_self
      obtain ⟨i, hi, rfl⟩ := List.getElem_of_mem ht
      have ho : (offsets ts e.index).bind (fun i => ts[i]?) = some ts[i] := by
        rw [← hti, offsets_nodup h hi]
        simp [hi]
      have hq : Real.sqrt (Complex.normSq (ts[i].phi - e.phi) / Complex.normSq e.phi) = ‖g e - e.phi‖ / ‖e.phi‖ := by
        rw [htp, Complex.normSq_eq_norm_sq, Complex.normSq_eq_norm_sq, ← div_pow, Real.sqrt_sq (by positivity)]
      obtain ⟨m, h1, h2, h3, h4⟩ := ih (fun e he => hl e (List.mem_cons_of_mem _ he))
        (s.1 + ‖g e - e.phi‖ ^ 2, s.2.1 + ‖e.phi‖ ^ 2,
          if ‖g e - e.phi‖ / ‖e.phi‖ > s.2.2 then ‖g e - e.phi‖ / ‖e.phi‖ else s.2.2)
      have hm : s.2.2 ≤ (if ‖g e - e.phi‖ / ‖e.phi‖ > s.2.2 then ‖g e - e.phi‖ / ‖e.phi‖ else s.2.2) ∧
          ‖g e - e.phi‖ / ‖e.phi‖ ≤ (if ‖g e - e.phi‖ / ‖e.phi‖ > s.2.2 then ‖g e - e.phi‖ / ‖e.phi‖ else s.2.2) := by
        split_ifs with hc
        · exact ⟨hc.le, le_refl _⟩
        · exact ⟨le_refl _, not_lt.1 hc⟩
      refine ⟨m, ?_, hm.1.trans h2, ?_, ?_⟩
      · rw [List.foldlM_cons, ho]
        simp only [Option.map_some, hq]
        rw [htp, Complex.normSq_eq_norm_sq, Complex.normSq_eq_norm_sq]
        refine Eq.trans h1 ?_
        simp only [List.map_cons, List.sum_cons, add_assoc]
      · intro p hp
        rw [List.map_cons] at hp
        rcases List.mem_cons.1 hp with rfl | hp
        · exact hm.2.trans h2
        · exact h3 p hp
      · rcases h4 with h4 | ⟨p, hp, h4⟩
        · by_cases hc : ‖g e - e.phi‖ / ‖e.phi‖ > s.2.2
          · exact .inr ⟨(g e, e.phi), by simp, h4.trans (if_pos hc)⟩
          · exact .inl (h4.trans (if_neg hc))
        · exact .inr ⟨p, by rw [List.map_cons]; exact List.mem_cons_of_mem _ hp, h4⟩
  obtain ⟨m, h1, -, h3, h4⟩ := key es hg (0, 0, 0)
  refine ⟨m, ?_, h3, h4⟩
  simp only [zero_add] at h1
  exact h1

/-! ### Points -/

theorem radius_onSphere {r u1 u2 : ℝ} (hr : 0 ≤ r) (h0 : 0 ≤ u1) (h1 : u1 ≤ 1) : radius (onSphere r u1 u2) = r := by
  unfold radius onSphere
  simp only
  have hs : Real.sqrt (1 - (2 * u1 - 1) * (2 * u1 - 1)) ^ 2 = 1 - (2 * u1 - 1) * (2 * u1 - 1) :=
    Real.sq_sqrt (by nlinarith)
  generalize Real.sqrt (1 - (2 * u1 - 1) * (2 * u1 - 1)) = st at hs ⊢
  generalize 2 * 3.1415926535 * u2 = p
  have hc := Real.cos_sq_add_sin_sq p
  have : (r * st * Real.cos p) ^ 2 + (r * st * Real.sin p) ^ 2 + (r * (2 * u1 - 1)) ^ 2 = r ^ 2 := by
    calc _ = r ^ 2 * (st ^ 2 * (Real.cos p ^ 2 + Real.sin p ^ 2) + (2 * u1 - 1) ^ 2) := by ring
      _ = r ^ 2 := by rw [hc, hs]; ring
  rw [this, Real.sqrt_sq hr]

theorem plummerRadicand_pos {u : ℝ} (h0 : 0 < u) (h1 : u < 1) : 0 < plummerRadicand u := by
  unfold plummerRadicand
  have := Real.one_lt_rpow_of_pos_of_lt_one_of_neg h0 h1 (show (-2 / 3 : ℝ) < 0 by norm_num)
  linarith

theorem plummer_radius {u : ℝ} (h0 : 0 < u) (h1 : u < 1) :
    plummerMass (1 / Real.sqrt (plummerRadicand u)) = u := by
  have hd := plummerRadicand_pos h0 h1
  set d := plummerRadicand u with hdd
  have hu : 1 + d = u ^ (-2 / 3 : ℝ) := by rw [hdd]; unfold plummerRadicand; ring
  have hs : 0 < Real.sqrt d := Real.sqrt_pos.2 hd
  have e1 : (1 / Real.sqrt d) ^ 2 = 1 / d := by rw [div_pow, one_pow, Real.sq_sqrt hd.le]
  have e2 : 1 + 1 / d = u ^ (-2 / 3 : ℝ) / d := by rw [← hu]; field_simp; ring
  unfold plummerMass
  rw [e1, e2, Real.div_rpow (Real.rpow_nonneg h0.le _) hd.le, ← Real.rpow_mul h0.le]
  have e3 : d ^ (3 / 2 : ℝ) = Real.sqrt d ^ 3 := by
    rw [Real.sqrt_eq_rpow, ← Real.rpow_natCast, ← Real.rpow_mul hd.le]
    norm_num
  have e4 : (-2 / 3 * (3 / 2) : ℝ) = -1 := by norm_num
  rw [e3, e4, Real.rpow_neg_one, div_pow, one_pow]
  field_simp

theorem filterMap_getElem_sublist {α : Type} {l : List α} {is : List ℕ} (h : is.Pairwise (· < ·))
    (h' : ∀ i ∈ is, i < l.length) :
    (is.filterMap fun i => l[i]?).Sublist l ∧ (is.filterMap fun i => l[i]?).length = is.length := by
  obtain ⟨js, rfl⟩ : ∃ js : List (Fin l.length), js.map (·.val) = is :=
    ⟨is.pmap (fun i hi => ⟨i, hi⟩) h', by rw [List.map_pmap]; simp⟩
  rw [List.pairwise_map] at h
  have he : ((js.map (·.val)).filterMap fun i => l[i]?) = js.map fun j => l[j] := by
    rw [List.filterMap_map]
    have : (fun i => l[i]?) ∘ (fun j : Fin l.length => j.val) = fun j => some (l[j]) := by
      funext j
      exact List.getElem?_eq_getElem j.isLt
    rw [this, List.filterMap_eq_map']
  rw [he]
  exact ⟨List.map_getElem_sublist h, by simp⟩

end Dashmm.Demo
