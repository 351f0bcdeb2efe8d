import Verif.Proofs.Demo
/-!
Properties C120 and C121: verification of the results, and the points, of the basic demo.

C120, full statement: every target has an index of its own, so the error reported is the error of the
targets sampled. False of the code when the ranks do not divide the number of targets.
-/
namespace Dashmm

open Demo

variable {P : Type}

/-! ### C120 -/

/-- C120: the ranks together make as many records as asked for; no rank has more than one more than
another. -/
theorem C120_counts {n ranks : ℕ} (hr : 0 < ranks) :
    ((List.range ranks).map (share n ranks)).sum = n ∧
    ∀ r r', share n ranks r ≤ share n ranks r' + 1 := by
  refine ⟨sum_share hr, fun r r' => ?_⟩
  rw [share_eq, share_eq]
  split_ifs <;> omega

/-- C120 (part): the targets are numbered from 0 to `n - 1` if the ranks divide their number or there are fewer
targets than ranks. Missing: the other cases, where it fails, see `C120_index_twice`. -/
theorem C120_indices_partial {n ranks : ℕ} (hr : 0 < ranks) (h : n % ranks = 0 ∨ n < ranks) :
    allIndices n ranks = List.range n := by
  rcases h with h | h
  · rw [indices_equal (s := n / ranks) fun r _ => by rw [share_eq, h]; simp]
    rw [Nat.mul_div_cancel' (Nat.dvd_of_mod_eq_zero h)]
  · exact indices_few h

/-- C120: in all other cases the first index of the first rank without a bonus target is also the index of
a target on an earlier rank. -/
theorem C120_index_twice {n ranks : ℕ} (hr : 0 < ranks) (h : n % ranks ≠ 0) (hn : ranks ≤ n) :
    n % ranks < ranks ∧ ∃ r < n % ranks, ∃ x, x ∈ indices n ranks r ∧ x ∈ indices n ranks (n % ranks) := by
  have hb : n % ranks < ranks := Nat.mod_lt _ hr
  have hs : 0 < n / ranks := Nat.div_pos hn hr
  have h1 := share_eq n ranks (n % ranks)
  simp only [lt_irrefl, if_false, Nat.add_zero] at h1
  generalize hbb : n % ranks = b at *
  generalize hss : n / ranks = s at *
  have hlt : s * b / (s + 1) < b := by
    rw [Nat.div_lt_iff_lt_mul (by omega)]
    nlinarith [Nat.pos_of_ne_zero h]
  refine ⟨hb, s * b / (s + 1), hlt, s * b, ?_, ?_⟩
  · rw [mem_indices, share_eq, hbb, hss, if_pos hlt]
    have h2 := Nat.div_add_mod (s * b) (s + 1)
    have h3 := Nat.mod_lt (s * b) (show 0 < s + 1 by omega)
    generalize s * b / (s + 1) = q at *
    refine ⟨by omega, ?_⟩
    rw [Nat.mul_add]
    omega
  · rw [mem_indices, h1]
    refine ⟨le_refl _, ?_⟩
    rw [Nat.mul_add]
    omega

/-- C120: so the indices of all targets differ exactly if the ranks divide their number or there are fewer
targets than ranks. -/
theorem C120_indices_iff {n ranks : ℕ} (hr : 0 < ranks) :
    (allIndices n ranks).Nodup ↔ n % ranks = 0 ∨ n < ranks := by
  constructor
  · intro hd
    by_contra hc
    push Not at hc
    obtain ⟨hb, r, hrb, x, h1, h2⟩ := C120_index_twice hr hc.1 hc.2
    have hp := (List.nodup_flatMap.1 hd).2
    rw [List.pairwise_iff_getElem] at hp
    have := hp r (n % ranks) (by simp; omega) (by simpa using hb) hrb
    simp only [Function.onFun, List.getElem_range] at this
    exact this h1 h2
  · intro h
    rw [C120_indices_partial hr h]
    exact List.nodup_range

/-- C120: only rank 0 verifies targets, at most 400 and at most as many as it made itself; their places in
the array of all targets exist and all differ. -/
theorem C120_samples (rank : ℕ) {targetCount total : ℕ} (h : targetCount ≤ total) :
    (testCount rank targetCount = if rank = 0 then min 400 targetCount else 0) ∧
    (samples total (testCount rank targetCount)).length = testCount rank targetCount ∧
    (samples total (testCount rank targetCount)).Pairwise (· < ·) ∧
    ∀ i ∈ samples total (testCount rank targetCount), i < total := by
  have hc : testCount rank targetCount = if rank = 0 then min 400 targetCount else 0 := by
    unfold testCount
    by_cases h0 : rank = 0
    · simp only [h0, if_true]
      split_ifs <;> omega
    · simp [h0]
  have hle : testCount rank targetCount ≤ total := by
    rw [hc]; split_ifs <;> omega
  refine ⟨hc, by simp [samples], ?_, ?_⟩
  · rw [samples, List.pairwise_map]
    rcases Nat.eq_zero_or_pos (testCount rank targetCount) with h0 | h0
    · rw [h0]; simp
    · have hd : 0 < total / testCount rank targetCount := Nat.div_pos hle h0
      exact List.pairwise_lt_range.imp fun hij => Nat.mul_lt_mul_of_pos_right hij hd
  · intro i hi
    obtain ⟨j, hj, rfl⟩ := List.mem_map.1 hi
    rw [List.mem_range] at hj
    calc j * (total / testCount rank targetCount) < testCount rank targetCount * (total / testCount rank targetCount) :=
          Nat.mul_lt_mul_of_pos_right hj (Nat.div_pos hle (by omega))
      _ ≤ total := Nat.mul_div_le _ _

/-- C120: the targets verified are as many of the targets, each taken once and in their order. -/
theorem C120_sampled (rank : ℕ) {targetCount : ℕ} (ts : List (Target P)) (h : targetCount ≤ ts.length) :
    (testTargets ts (testCount rank targetCount)).Sublist ts ∧
    (testTargets ts (testCount rank targetCount)).length = testCount rank targetCount := by
  obtain ⟨-, hl, hp, hi⟩ := C120_samples rank h
  have := filterMap_getElem_sublist (l := ts) hp hi
  exact ⟨this.1, this.2.trans hl⟩

/-- C120: if all indices differ, then for the results `e` of the direct summation for the sampled targets,
in whatever order they are collected, the numbers reported are the relative error in the least-squares
norm and the greatest relative error of the sampled targets. -/
theorem C120_error {ts : List (Target P)} (h : (ts.map (·.index)).Nodup) (count : ℕ) (e : Target P → ℂ)
    {es : List (Target P)} (he : es.Perm ((testTargets ts count).map fun t => { t with phi := e t })) :
    let ps := (testTargets ts count).map fun t => (t.phi, e t)
    ∃ m, compareResults ts es = some (relError ps, m) ∧ IsMaxError ps m := by
  intro ps
  have hsub : ∀ t ∈ testTargets ts count, t ∈ ts := by
    intro t ht
    obtain ⟨i, -, hi⟩ := List.mem_filterMap.1 ht
    exact List.mem_of_getElem? hi
  let g : Target P → ℂ := fun x => ((ts.find? fun t => decide (t.index = x.index)).map (·.phi)).getD 0
  have hg : ∀ t ∈ ts, ∀ z, g { t with phi := z } = t.phi := by
    intro t ht z
    have : (ts.find? fun u => decide (u.index = t.index)) = some t := by
      cases hf : ts.find? fun u => decide (u.index = t.index) with
      | none =>
        have := List.find?_eq_none.1 hf t ht
        simp at this
      | some u =>
        have h1 := List.find?_some hf
        have h2 := List.mem_of_find?_eq_some hf
        rw [List.inj_on_of_nodup_map h h2 ht (by simpa using h1)]
    show ((ts.find? fun u => decide (u.index = t.index)).map (·.phi)).getD 0 = t.phi
    rw [this]; rfl
  have hes : ∀ x ∈ es, ∃ t ∈ ts, t.index = x.index ∧ t.phi = g x := by
    intro x hx
    obtain ⟨t, ht, rfl⟩ := List.mem_map.1 (he.mem_iff.1 hx)
    exact ⟨t, hsub t ht, rfl, (hg t (hsub t ht) _).symm⟩
  obtain ⟨m, hm, hmax⟩ := compareLoop_eq h es g hes
  have hp : (es.map fun x => (g x, x.phi)).Perm ps := by
    refine (he.map _).trans ?_
    rw [List.map_map]
    refine List.Perm.of_eq (List.map_congr_left fun t ht => ?_)
    simp only [Function.comp]
    rw [hg t (hsub t ht)]
  refine ⟨m, ?_, ?_, ?_⟩
  · have s1 : (es.map fun x => ‖g x - x.phi‖ ^ 2).sum = (ps.map fun p => ‖p.1 - p.2‖ ^ 2).sum := by
      rw [← (hp.map fun p : ℂ × ℂ => ‖p.1 - p.2‖ ^ 2).sum_eq, List.map_map]; rfl
    have s2 : (es.map fun x => ‖x.phi‖ ^ 2).sum = (ps.map fun p => ‖p.2‖ ^ 2).sum := by
      rw [← (hp.map fun p : ℂ × ℂ => ‖p.2‖ ^ 2).sum_eq, List.map_map]; rfl
    rw [compareResults, hm, s1, s2]
    rfl
  · exact fun p hpp => hmax.1 p (hp.mem_iff.2 hpp)
  · rcases hmax.2 with h0 | ⟨p, hpp, h0⟩
    · exact .inl h0
    · exact .inr ⟨p, hp.mem_iff.1 hpp, h0⟩

/-- C120: with an index that occurs twice a perfect result is reported as wrong. -/
theorem C120_collision_wrong : ∃ ts : List (Target Unit),
    compareResults ts ((testTargets ts 1).map fun t => { t with phi := t.phi }) = some (1, 1) := by
  refine ⟨[⟨(), 1, 0⟩, ⟨(), 2, 0⟩], ?_⟩
  have : testTargets ([⟨(), 1, 0⟩, ⟨(), 2, 0⟩] : List (Target Unit)) 1 = [⟨(), 1, 0⟩] := rfl
  rw [this]
  simp [compareResults, compareLoop, offsets]
  norm_num

/-! ### C121 -/

/-- C121: cube positions are in the cube of side 1 around the origin; sphere positions are at distance 1. -/
theorem C121_cube_sphere {u0 u1 u2 : ℝ} (h0 : 0 ≤ u0 ∧ u0 ≤ 1) (h1 : 0 ≤ u1 ∧ u1 ≤ 1) (h2 : 0 ≤ u2 ∧ u2 ≤ 1) :
    (|(pickCube u0 u1 u2).1| ≤ 1 / 2 ∧ |(pickCube u0 u1 u2).2.1| ≤ 1 / 2 ∧ |(pickCube u0 u1 u2).2.2| ≤ 1 / 2) ∧
    radius (pickSphere u1 u2) = 1 := by
  refine ⟨?_, radius_onSphere zero_le_one h1.1 h1.2⟩
  simp only [pickCube, abs_le]
  norm_num
  exact ⟨h0, h1, h2⟩

/-- C121: a Plummer position from the random number `u`, strictly between 0 and 1, is at the radius within
which the part `u` of the mass of the Plummer sphere lies. -/
theorem C121_plummer {u u1 : ℝ} (u2 : ℝ) (h0 : 0 < u) (h1 : u < 1) (g0 : 0 ≤ u1) (g1 : u1 ≤ 1) :
    plummerMass (radius (pickPlummer u u1 u2)) = u := by
  unfold pickPlummer
  rw [radius_onSphere (by positivity) g0 g1]
  exact plummer_radius h0 h1

/-- C121: for the greatest value of `rand()`, and only for it, the radius of the Plummer position is a
division by zero. -/
theorem C121_plummer_division {u : ℝ} (h0 : 0 < u) (h1 : u ≤ 1) : Real.sqrt (plummerRadicand u) = 0 ↔ u = 1 := by
  constructor
  · intro h
    by_contra hne
    exact (Real.sqrt_pos.2 (plummerRadicand_pos h0 (lt_of_le_of_ne h1 hne))).ne' h
  · rintro rfl
    simp [plummerRadicand]

/-- C121: charges are between 1 and 2 in size, and positive where negative ones are not asked for (as for
the Barnes-Hut method). -/
theorem C121_charge {u : ℝ} (h : 0 ≤ u ∧ u ≤ 1) (useNegative odd : Bool) :
    1 ≤ |pickCharge useNegative odd u| ∧ |pickCharge useNegative odd u| ≤ 2 ∧ 0 < pickCharge false odd u := by
  have e : |pickCharge useNegative odd u| = u + 1 := by
    unfold pickCharge
    simp only
    split_ifs
    · rw [abs_mul, abs_of_pos (by linarith)]; simp
    · exact abs_of_pos (by linarith)
  have e2 : pickCharge false odd u = u + 1 := by simp [pickCharge]
  rw [e, e2]
  exact ⟨by linarith, by linarith, by linarith⟩

/-- C121: the total charge of the Plummer sources is 100 for each rank that has sources, not 100 as the
comment at demo/basic/testmain.cc:325 says. -/
theorem C121_plummer_total {n ranks : ℕ} (hr : 0 < ranks) : plummerTotal n ranks = 100 * min n ranks := by
  unfold plummerTotal
  have h1 : ∀ c : ℕ, (c : ℝ) * plummerCharge c = if c = 0 then 0 else 100 := by
    intro c
    unfold plummerCharge
    split_ifs with hc
    · simp [hc]
    · have : (c : ℝ) ≠ 0 := by exact_mod_cast hc
      field_simp
  simp only [h1]
  rcases Nat.lt_or_ge n ranks with hn | hn
  · have hd : n / ranks = 0 := Nat.div_eq_of_lt hn
    have hm : n % ranks = n := Nat.mod_eq_of_lt hn
    have key : ∀ k, ((List.range k).map fun r => if share n ranks r = 0 then (0 : ℝ) else 100).sum = 100 * (min n k : ℕ) := by
      intro k
      induction k with
      | zero => simp
      | succ k ih =>
        rw [List.range_succ, List.map_append, List.sum_append, ih, List.map_singleton, List.sum_singleton, share_eq, hd, hm]
        by_cases hk : k < n
        · have : min n (k + 1) = min n k + 1 := by omega
          rw [this]
          simp [hk]
          ring
        · have : min n (k + 1) = min n k := by omega
          rw [this]
          simp [hk]
    rw [key, Nat.cast_min]
  · have hd : 0 < n / ranks := Nat.div_pos hn hr
    have : ∀ r, share n ranks r ≠ 0 := by
      intro r
      rw [share_eq]
      omega
    simp only [this, if_false]
    rw [min_eq_right (by exact_mod_cast hn)]
    simp
    ring

/-- C121: the positions of the time-stepping demo are within a radius `r` exactly if their first random
number is at most `r`: the radius is uniform, so the positions are not uniform in the ball as the comment
at demo/stepping/stepping.cc:158 says (that would be `u0 ≤ r ^ 3`). -/
theorem C121_ball {u0 u1 : ℝ} (u2 : ℝ) (h0 : 0 ≤ u0) (g0 : 0 ≤ u1) (g1 : u1 ≤ 1) (r : ℝ) :
    radius (pickBall u0 u1 u2) ≤ r ↔ u0 ≤ r := by
  unfold pickBall
  rw [radius_onSphere h0 g0 g1]

/-! Non-vacuity. -/

/-- Five targets on two ranks: the index 2 occurs twice. -/
example : allIndices 5 2 = [0, 1, 2, 2, 3] ∧ allIndices 6 2 = [0, 1, 2, 3, 4, 5] := by decide

/-- Two targets with different indices. -/
example : (([⟨(), 1, 0⟩, ⟨(), 2, 1⟩] : List (Target Unit)).map (·.index)).Nodup ∧
    testTargets ([⟨(), 1, 0⟩, ⟨(), 2, 1⟩] : List (Target Unit)) 2 = [⟨(), 1, 0⟩, ⟨(), 2, 1⟩] := ⟨by simp, rfl⟩

/-- The Plummer position of one half. -/
example : plummerMass (radius (pickPlummer (1 / 2) (1 / 2) 0)) = 1 / 2 :=
  C121_plummer 0 (by norm_num) (by norm_num) (by norm_num) (by norm_num)

end Dashmm
