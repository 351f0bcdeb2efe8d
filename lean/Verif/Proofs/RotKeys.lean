import Verif.Proofs.RotTable

namespace Dashmm.Rot

open Classical

variable {rnd : ℝ → ℝ}

/-- The squares `a / b` of the positive cosines of the Laplace table, with their codes. -/
def tab : List (ℕ × ℕ × ℕ) :=
  [(1, 5, 447213), (1, 6, 408248), (1, 9, 333333), (1, 10, 316227), (1, 11, 301511),
   (1, 14, 267261), (1, 19, 229415), (4, 5, 894427), (2, 3, 816496), (1, 2, 707106),
   (4, 9, 666666), (1, 3, 577350), (4, 13, 554700), (2, 7, 534522), (4, 17, 485071),
   (2, 11, 426401), (9, 10, 948683), (9, 11, 904534), (9, 13, 832050), (9, 14, 801783),
   (9, 17, 727606), (9, 19, 688247), (9, 22, 639602)]

theorem tab_ok : ∀ e ∈ tab, 0 < e.2.1 ∧ e.1 ≤ e.2.1 ∧ 0 < e.1 ∧
    (1000 * e.2.2 + 1) ^ 2 * e.2.1 ≤ e.1 * 10 ^ 18 ∧
    e.1 * 10 ^ 18 ≤ (1000 * e.2.2 + 999) ^ 2 * e.2.1 ∧ 0 < e.2.2 ∧ e.2.2 < 1000000 := by
  decide

theorem tab_inj : ∀ e ∈ tab, ∀ e' ∈ tab, e.2.2 = e'.2.2 → e = e' := by decide

theorem div_sqrt_eq (c b : ℝ) (hc : 0 ≤ c) : c / √b = √(c * c / b) := by
  rw [Real.sqrt_div (mul_self_nonneg c), Real.sqrt_mul_self hc]

theorem near_over (h : Rounding rnd) {c b a d : ℝ} (hc : 0 ≤ c) (hb : 0 < b)
    (e : c * c / b = a / d) : Near (overSqrt rnd c b) (√(a / d)) := by
  have := near_overSqrt h c b hb
  rwa [div_sqrt_eq c b hc, e] at this

theorem near_of (h : Rounding rnd) {c b a d : ℝ} (hc : 0 < c) (hb : 0 < b)
    (e : c / b = a / d) : Near (sqrtOf rnd c b) (√(a / d)) := by
  have := near_sqrtOf h c b hc hb
  rwa [e] at this

theorem cbeta_near (h : Rounding rnd) : List.Forall₂ (fun c (e : ℕ × ℕ × ℕ) =>
    Near c (√((e.1 : ℝ) / e.2.1))) (laplaceCbeta rnd) tab := by
  unfold laplaceCbeta tab
  repeat' apply List.Forall₂.cons
  all_goals first
    | exact List.Forall₂.nil
    | (refine near_over h ?_ ?_ ?_ <;> norm_num)
    | (refine near_of h ?_ ?_ ?_ <;> norm_num)

theorem cbeta_mem (h : Rounding rnd) {c : ℝ} (hc : c ∈ laplaceCbeta rnd) :
    ∃ e ∈ tab, Near c (√((e.1 : ℝ) / e.2.1)) := by
  obtain ⟨i, hi, rfl⟩ := List.getElem_of_mem hc
  have hf := cbeta_near h
  have hl := hf.length_eq
  exact ⟨tab[i], List.getElem_mem _, hf.get hi (hl ▸ hi)⟩

theorem tab_mem (h : Rounding rnd) {e : ℕ × ℕ × ℕ} (he : e ∈ tab) :
    ∃ c ∈ laplaceCbeta rnd, Near c (√((e.1 : ℝ) / e.2.1)) := by
  obtain ⟨i, hi, rfl⟩ := List.getElem_of_mem he
  have hf := cbeta_near h
  have hl := hf.length_eq
  exact ⟨(laplaceCbeta rnd)[i], List.getElem_mem _, hf.get (hl ▸ hi) hi⟩

/-- A cosine the Laplace table is meant to serve. -/
inductive Served : ℝ → ℤ → Prop
  | zero : Served 0 0
  | pos {e : ℕ × ℕ × ℕ} (he : e ∈ tab) : Served (√((e.1 : ℝ) / e.2.1)) e.2.2
  | neg {e : ℕ × ℕ × ℕ} (he : e ∈ tab) : Served (-√((e.1 : ℝ) / e.2.1)) (-e.2.2 - 1)

theorem Served.code (h : Rounding rnd) {v : ℝ} {n : ℤ} (hs : Served v n) {k : ℝ} (hk : Near k v) :
    Rot.code rnd k = n := by
  cases hs with
  | zero =>
    have : k = 0 := by
      unfold Near Rel at hk
      simpa using hk
    rw [this]; exact code_zero h
  | pos he =>
    obtain ⟨a, b, _, c, d, _⟩ := tab_ok _ he
    exact code_of_near h a b hk c d
  | neg he =>
    obtain ⟨a, b, _, c, d, _⟩ := tab_ok _ he
    exact code_of_near_neg h a b hk c d

theorem Served.inj {v v' : ℝ} {n : ℤ} (h : Served v n) (h' : Served v' n) : v = v' := by
  generalize hn : n = n' at h'
  cases h with
  | zero =>
    cases h' with
    | zero => rfl
    | pos he => have := tab_ok _ he; omega
    | neg he => have := tab_ok _ he; omega
  | @pos e he =>
    have := tab_ok _ he
    cases h' with
    | zero => omega
    | @pos e' he' => rw [tab_inj _ he _ he' (by omega)]
    | neg he' => have := tab_ok _ he'; omega
  | @neg e he =>
    have := tab_ok _ he
    cases h' with
    | zero => omega
    | pos he' => have := tab_ok _ he'; omega
    | @neg e' he' => rw [tab_inj _ he _ he' (by omega)]

theorem Served.bound {v : ℝ} {n : ℤ} (h : Served v n) : |n| ≤ 1000000 ∧ |v| ≤ 1 := by
  cases h with
  | zero => simp
  | pos he =>
    obtain ⟨a, b, _, c, d, _⟩ := tab_ok _ he
    obtain ⟨b0, b1, lo, hi⟩ := scaled_bounds a b c d
    exact ⟨abs_le.2 ⟨by omega, by omega⟩, abs_le.2 ⟨by linarith, by linarith⟩⟩
  | neg he =>
    obtain ⟨a, b, _, c, d, _⟩ := tab_ok _ he
    obtain ⟨b0, b1, lo, hi⟩ := scaled_bounds a b c d
    exact ⟨abs_le.2 ⟨by omega, by omega⟩, abs_le.2 ⟨by linarith, by linarith⟩⟩

theorem Near.abs {k v : ℝ} (h : Near k v) (hv : |v| ≤ 1) : |k - v| ≤ 1 / 10 ^ 14 := by
  unfold Near Rel at h
  refine h.trans ?_
  have := mul_le_mul_of_nonneg_right hv (show (0 : ℝ) ≤ 1 / 10 ^ 14 by norm_num)
  linarith

theorem near_refl (v : ℝ) : Near v v := by
  unfold Near Rel; simp

/-- A table of keys all of which are served finds everything close to one of its keys. -/
theorem found (h : Rounding rnd) {keys : List ℝ} {v : ℝ} {n : ℤ}
    (hk : ∀ c ∈ keys, ∃ w m, Served w m ∧ Near c w) (hs : Served v n)
    (hc : ∃ c ∈ keys, Near c v) {k : ℝ} (hn : Near k v) :
    ∃ c, lookup rnd (build rnd keys) k = some c ∧ |c - v| ≤ 1 / 10 ^ 14 := by
  have ck := hs.code h hn
  apply lookup_build
  · intro c hc hsame
    obtain ⟨w, m, hw, hcw⟩ := hk c hc
    have cc := hw.code h hcw
    rw [sameKey_code h (by rw [cc]; exact hw.bound.1) (by rw [ck]; exact hs.bound.1), cc, ck]
      at hsame
    subst hsame
    rw [hs.inj hw]
    exact hcw.abs hw.bound.2
  · obtain ⟨c, hc, hcv⟩ := hc
    refine ⟨c, hc, ?_⟩
    have cc := hs.code h hcv
    rw [sameKey_code h (by rw [cc]; exact hs.bound.1) (by rw [ck]; exact hs.bound.1), cc, ck]

theorem laplace_keys (h : Rounding rnd) :
    ∀ c ∈ (laplaceCbeta rnd ++ [0]) ++ (laplaceCbeta rnd).map fun c => -c,
      ∃ w m, Served w m ∧ Near c w := by
  intro c hc
  simp only [List.mem_append, List.mem_singleton, List.mem_map] at hc
  rcases hc with (hc | rfl) | ⟨d, hd, rfl⟩
  · obtain ⟨e, he, hn⟩ := cbeta_mem h hc
    exact ⟨_, _, .pos he, hn⟩
  · exact ⟨_, _, .zero, near_refl 0⟩
  · obtain ⟨e, he, hn⟩ := cbeta_mem h hd
    exact ⟨_, _, .neg he, Rel.neg hn⟩

theorem laplace_found (h : Rounding rnd) {v : ℝ} {n : ℤ} (hs : Served v n) {k : ℝ}
    (hn : Near k v) :
    ∃ c, lookup rnd (laplaceTable rnd) k = some c ∧ |c - v| ≤ 1 / 10 ^ 14 := by
  refine found h (laplace_keys h) hs ?_ hn
  simp only [List.mem_append, List.mem_singleton, List.mem_map]
  cases hs with
  | zero => exact ⟨0, Or.inl (Or.inr rfl), near_refl 0⟩
  | pos he =>
    obtain ⟨c, hc, hcn⟩ := tab_mem h he
    exact ⟨c, Or.inl (Or.inl hc), hcn⟩
  | neg he =>
    obtain ⟨c, hc, hcn⟩ := tab_mem h he
    exact ⟨-c, Or.inr ⟨c, hc, rfl⟩, Rel.neg hcn⟩

/-- All squares of cosines between well-separated near boxes are in the table (the offsets are
finitely many). -/
theorem offsets_in_tab : ∀ x ∈ ([-3, -2, -1, 0, 1, 2, 3] : List Int),
    ∀ y ∈ ([-3, -2, -1, 0, 1, 2, 3] : List Int), ∀ z ∈ ([-3, -2, -1, 0, 1, 2, 3] : List Int),
    (2 ≤ x ∨ x ≤ -2 ∨ 2 ≤ y ∨ y ≤ -2 ∨ 2 ≤ z ∨ z ≤ -2) → ¬ (x = 0 ∧ y = 0) → z ≠ 0 →
    ∃ e ∈ tab, z * z * (e.2.1 : Int) = e.1 * (x * x + y * y + z * z) := by
  decide +kernel

theorem mem_range7 {d : Int} (h1 : -3 ≤ d) (h2 : d ≤ 3) :
    d ∈ ([-3, -2, -1, 0, 1, 2, 3] : List Int) := by
  have : d = -3 ∨ d = -2 ∨ d = -1 ∨ d = 0 ∨ d = 1 ∨ d = 2 ∨ d = 3 := by omega
  simpa using this

theorem mToL_served {x y z : Int} (hx : -3 ≤ x ∧ x ≤ 3) (hy : -3 ≤ y ∧ y ≤ 3) (hz : -3 ≤ z ∧ z ≤ 3)
    (hsep : 2 ≤ x ∨ x ≤ -2 ∨ 2 ≤ y ∨ y ≤ -2 ∨ 2 ≤ z ∨ z ≤ -2) (hp : ¬ (x = 0 ∧ y = 0)) :
    ∃ n, Served ((z : ℝ) / √((x * x + y * y + z * z : Int) : ℝ)) n := by
  by_cases hz0 : z = 0
  · subst hz0; exact ⟨0, by simpa using Served.zero⟩
  obtain ⟨e, he, heq⟩ := offsets_in_tab x (mem_range7 hx.1 hx.2) y (mem_range7 hy.1 hy.2) z
    (mem_range7 hz.1 hz.2) hsep hp hz0
  have hn : 0 < x * x + y * y + z * z := by
    have : 0 < z * z := mul_self_pos.2 hz0
    have := mul_self_nonneg x
    have := mul_self_nonneg y
    omega
  set n := x * x + y * y + z * z with hndef
  have hn' : (0 : ℝ) < (n : ℝ) := by exact_mod_cast hn
  have hb : (0 : ℝ) < (e.2.1 : ℝ) := by exact_mod_cast (tab_ok _ he).1
  have heq' : (z : ℝ) * z * e.2.1 = e.1 * n := by exact_mod_cast heq
  have hq : (z : ℝ) * z / n = (e.1 : ℝ) / e.2.1 := by
    rw [div_eq_div_iff hn'.ne' hb.ne']; linarith
  rcases lt_or_gt_of_ne hz0 with hneg | hpos
  · have h1 : (z : ℝ) / √(n : ℝ) = -√((e.1 : ℝ) / e.2.1) := by
      rw [← hq, show (z : ℝ) * z = -z * -z by ring, ← div_sqrt_eq (-(z : ℝ)) n (by
        have : (z : ℝ) < 0 := by exact_mod_cast hneg
        linarith)]
      ring
    rw [h1]; exact ⟨_, .neg he⟩
  · have h1 : (z : ℝ) / √(n : ℝ) = √((e.1 : ℝ) / e.2.1) := by
      rw [← hq, div_sqrt_eq (z : ℝ) n (by exact_mod_cast hpos.le)]
    rw [h1]; exact ⟨_, .pos he⟩

theorem mToLKey_near (h : Rounding rnd) {x y z : Int} (hn : 0 < x * x + y * y + z * z) :
    Near (mToLKey rnd x y z) ((z : ℝ) / √((x * x + y * y + z * z : Int) : ℝ)) := by
  exact near_overSqrt h (z : ℝ) _ (by exact_mod_cast hn)

theorem diag_mem : ((1, 3, 577350) : ℕ × ℕ × ℕ) ∈ tab := by decide

theorem served_diag : Served (1 / √3) 577350 := by
  have := Served.pos diag_mem
  simp only [Nat.cast_one, Nat.cast_ofNat] at this
  rw [div_sqrt_eq 1 3 (by norm_num)]
  simpa using this

theorem served_anti : Served (-1 / √3) (-577350 - 1) := by
  have := Served.neg diag_mem
  simp only [Nat.cast_one, Nat.cast_ofNat] at this
  rw [neg_div, div_sqrt_eq 1 3 (by norm_num)]
  simpa using this

theorem diag_near (h : Rounding rnd) : Near (diagonalKey rnd) (1 / √3) :=
  near_overSqrt h 1 3 (by norm_num)

theorem anti_near (h : Rounding rnd) : Near (antiDiagonalKey rnd) (-1 / √3) :=
  near_overSqrt h (-1) 3 (by norm_num)

theorem sqrt3_third : √3 / 3 = 1 / √3 := by
  have : √(3 : ℝ) * √3 = 3 := Real.mul_self_sqrt (by norm_num)
  have h0 : √(3 : ℝ) ≠ 0 := by
    have := Real.sqrt_pos.2 (show (0 : ℝ) < 3 by norm_num)
    exact this.ne'
  rw [div_eq_div_iff (by norm_num) h0]
  linarith

theorem yukawa_keys (h : Rounding rnd) :
    ∀ c ∈ [rnd (rnd (√3) / 3), rnd (-rnd (√3) / 3), 0], ∃ w m, Served w m ∧ Near c w := by
  intro c hc
  have a1 := near_divSqrt h 1 3 3
  have a2 := near_divSqrt h (-1) 3 3
  simp only [one_mul, neg_mul] at a1 a2
  rw [sqrt3_third] at a1
  rw [show -√3 / 3 = -(√3 / 3) by ring, sqrt3_third, ← neg_div] at a2
  simp only [List.mem_cons, List.not_mem_nil, or_false] at hc
  rcases hc with rfl | rfl | rfl
  · exact ⟨_, _, served_diag, a1⟩
  · exact ⟨_, _, served_anti, a2⟩
  · exact ⟨_, _, .zero, near_refl 0⟩

theorem yukawa_found (h : Rounding rnd) :
    (∃ c, lookup rnd (yukawaTable rnd) (diagonalKey rnd) = some c ∧ |c - 1 / √3| ≤ 1 / 10 ^ 14) ∧
    (∃ c, lookup rnd (yukawaTable rnd) (antiDiagonalKey rnd) = some c ∧
      |c - -1 / √3| ≤ 1 / 10 ^ 14) ∧
    (∃ c, lookup rnd (yukawaTable rnd) 0 = some c ∧ |c - 0| ≤ 1 / 10 ^ 14) := by
  have a1 := near_divSqrt h 1 3 3
  have a2 := near_divSqrt h (-1) 3 3
  simp only [one_mul, neg_mul] at a1 a2
  rw [sqrt3_third] at a1
  rw [show -√3 / 3 = -(√3 / 3) by ring, sqrt3_third, ← neg_div] at a2
  refine ⟨?_, ?_, ?_⟩
  · exact found h (yukawa_keys h) served_diag ⟨_, by simp, a1⟩ (diag_near h)
  · exact found h (yukawa_keys h) served_anti ⟨_, by simp, a2⟩ (anti_near h)
  · exact found h (yukawa_keys h) .zero ⟨0, by simp, near_refl 0⟩ (near_refl 0)

end Dashmm.Rot
