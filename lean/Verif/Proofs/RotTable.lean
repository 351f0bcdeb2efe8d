import Verif.Model.RotTable
import Verif.Spec.RotTable
import Mathlib.Tactic.Linarith
import Mathlib.Tactic.NormNum
import Mathlib.Tactic.Ring
import Mathlib.Tactic.Positivity
import Mathlib.Tactic.IntervalCases
import Mathlib.Tactic.FieldSimp

namespace Dashmm.Rot

open Classical

variable {rnd : ℝ → ℝ}

theorem builtinCmp_iff {a b : ℝ} : builtinCmp rnd a b ↔ cmpVal rnd a < cmpVal rnd b := by
  unfold builtinCmp
  split
  · rename_i h; simp [h]
  · rfl

theorem sameKey_iff {a b : ℝ} : SameKey rnd a b ↔ cmpVal rnd a = cmpVal rnd b := by
  rw [SameKey, builtinCmp_iff, builtinCmp_iff]
  constructor
  · rintro ⟨h1, h2⟩; exact le_antisymm (not_lt.1 h2) (not_lt.1 h1)
  · intro h; simp [h]

theorem strictWeak : StrictWeak (builtinCmp rnd) where
  irrefl a := by rw [builtinCmp_iff]; exact lt_irrefl _
  trans a b c := by simp only [builtinCmp_iff]; exact lt_trans
  incomp_trans a b c h1 h2 := by
    have a1 := sameKey_iff.1 h1
    have a2 := sameKey_iff.1 h2
    exact sameKey_iff.2 (a1.trans a2)

theorem lookup_put (m : Map) (k v k' : ℝ) :
    lookup rnd (put rnd m k v) k' = if SameKey rnd k k' then some v else lookup rnd m k' := by
  unfold lookup put
  have key : ∀ m : Map, ((m.map fun e => if SameKey rnd e.1 k then (e.1, v) else e).find?
      fun e => decide (SameKey rnd e.1 k')).map (·.2) =
      if SameKey rnd k k' ∧ ∃ e ∈ m, SameKey rnd e.1 k then some v
      else (m.find? fun e => decide (SameKey rnd e.1 k')).map (·.2) := by
    intro m
    induction m with
    | nil => simp
    | cons e m ih =>
      by_cases h1 : SameKey rnd e.1 k
      · by_cases h2 : SameKey rnd e.1 k'
        · have h3 : SameKey rnd k k' := by
            rw [sameKey_iff] at *; rw [← h1, h2]
          simp [h1, h2, h3]
        · have h3 : ¬ SameKey rnd k k' := by
            intro h; apply h2; rw [sameKey_iff] at *; rw [h1, h]
          simp [h1, h2, h3] at ih ⊢
          exact ih
      · by_cases h2 : SameKey rnd e.1 k'
        · have h3 : ¬ SameKey rnd k k' := by
            intro h; apply h1; rw [sameKey_iff] at *; rw [h2, h]
          simp [h1, h2, h3]
        · simp only [List.map_cons, h1, if_false, List.find?_cons, h2, decide_false] at ih ⊢
          rw [ih]
          simp [h1]
  by_cases h : ∃ e ∈ m, SameKey rnd e.1 k
  · rw [if_pos h, key]
    simp [h]
  · rw [if_neg h, List.find?_append]
    by_cases h3 : SameKey rnd k k'
    · have : m.find? (fun e => decide (SameKey rnd e.1 k')) = none := by
        rw [List.find?_eq_none]
        intro e he
        simp only [decide_eq_true_eq]
        intro h4
        apply h
        refine ⟨e, he, ?_⟩
        rw [sameKey_iff] at *; rw [h4, h3]
      simp [this, h3]
    · simp [h3]

theorem lookup_foldl (good : ℝ → Prop) (k : ℝ) : ∀ (keys : List ℝ) (m : Map),
    (∀ c ∈ keys, SameKey rnd c k → good c) →
    ((∃ c ∈ keys, SameKey rnd c k) ∨ ∃ c, lookup rnd m k = some c ∧ good c) →
    ∃ c, lookup rnd (keys.foldl (fun m k => put rnd m k k) m) k = some c ∧ good c := by
  intro keys
  induction keys with
  | nil => intro m _ h; simpa using h
  | cons c keys ih =>
    intro m hg h
    rw [List.foldl_cons]
    apply ih
    · intro c' hc'; exact hg c' (by simp [hc'])
    · by_cases hc : SameKey rnd c k
      · right
        exact ⟨c, by rw [lookup_put, if_pos hc], hg c (by simp) hc⟩
      · rcases h with ⟨c', hc', h⟩ | ⟨c', h1, h2⟩
        · rcases List.mem_cons.1 hc' with rfl | hc'
          · exact absurd h hc
          · exact Or.inl ⟨c', hc', h⟩
        · right
          exact ⟨c', by rw [lookup_put, if_neg hc, h1], h2⟩

/-- A key that agrees with a stored key, and only with good ones, is found. -/
theorem lookup_build {good : ℝ → Prop} {k : ℝ} {keys : List ℝ}
    (hg : ∀ c ∈ keys, SameKey rnd c k → good c) (h : ∃ c ∈ keys, SameKey rnd c k) :
    ∃ c, lookup rnd (build rnd keys) k = some c ∧ good c :=
  lookup_foldl good k keys [] hg (Or.inl h)

/-- The integer a key is classified by. -/
noncomputable def code (rnd : ℝ → ℝ) (a : ℝ) : ℤ := ⌊rnd (a * 1000000)⌋

theorem cmpVal_code (a : ℝ) : cmpVal rnd a = rnd ((code rnd a : ℝ) / 100000) := rfl

/-- A relative error. -/
def Rel (x y e : ℝ) : Prop := |x - y| ≤ |y| * e

theorem Rounding.rel (h : Rounding rnd) (x : ℝ) : Rel (rnd x) x (1 / 10 ^ 15) := by
  have := h x
  unfold Rel
  refine this.trans ?_
  rw [div_eq_mul_inv]
  apply mul_le_mul_of_nonneg_left _ (abs_nonneg _)
  norm_num

theorem Rel.trans {x y z e f : ℝ} (h1 : Rel x y e) (h2 : Rel y z f) (he : 0 ≤ e) :
    Rel x z (e + f + e * f) := by
  unfold Rel at *
  have : |y| ≤ |z| * (1 + f) := by
    have := abs_sub_abs_le_abs_sub y z
    linarith
  have h3 : |x - z| ≤ |x - y| + |y - z| := abs_sub_le _ _ _
  have h4 : |y| * e ≤ |z| * (1 + f) * e := mul_le_mul_of_nonneg_right this he
  nlinarith [abs_nonneg z]

theorem Rel.mono {x y e f : ℝ} (h : Rel x y e) (hef : e ≤ f) : Rel x y f :=
  le_trans h (mul_le_mul_of_nonneg_left hef (abs_nonneg _))

theorem Rel.mul_left {x y e : ℝ} (c : ℝ) (h : Rel x y e) : Rel (c * x) (c * y) e := by
  unfold Rel at *
  rw [← mul_sub, abs_mul, abs_mul, mul_assoc]
  exact mul_le_mul_of_nonneg_left h (abs_nonneg c)

theorem Rel.mul_right {x y e : ℝ} (c : ℝ) (h : Rel x y e) : Rel (x * c) (y * c) e := by
  rw [mul_comm x, mul_comm y]; exact h.mul_left c

theorem Rel.neg {x y e : ℝ} (h : Rel x y e) : Rel (-x) (-y) e := by
  unfold Rel at *
  rw [abs_neg, show -x - -y = -(x - y) by ring, abs_neg]; exact h

/-- Dividing by something known up to a small relative error. -/
theorem Rel.div {x y e : ℝ} (c : ℝ) (h : Rel x y e) (hy : 0 < y) (he : e ≤ 1 / 2) :
    Rel (c / x) (c / y) (2 * e) := by
  unfold Rel at *
  rw [abs_of_pos hy] at h
  obtain ⟨h1, h2⟩ := abs_le.1 h
  have hx : y / 2 ≤ x := by nlinarith
  have hx0 : 0 < x := by linarith
  have e1 : c / x - c / y = c / y * ((y - x) / x) := by
    field_simp
  rw [e1, abs_mul]
  apply mul_le_mul_of_nonneg_left _ (abs_nonneg _)
  rw [abs_div, abs_of_pos hx0, div_le_iff₀ hx0, abs_sub_comm]
  have he0 : 0 ≤ e := by
    by_contra hc
    have := abs_nonneg (x - y)
    nlinarith
  nlinarith [h, abs_le.2 ⟨h1, h2⟩]

theorem Rel.sqrt {x y e : ℝ} (h : Rel x y e) (hy : 0 < y) (he : e ≤ 1) : Rel (√x) (√y) e := by
  unfold Rel at *
  rw [abs_of_pos hy] at h
  obtain ⟨h1, h2⟩ := abs_le.1 h
  have hx : 0 ≤ x := by nlinarith
  have sy : 0 < √y := Real.sqrt_pos.2 hy
  have sx := Real.sqrt_nonneg x
  rw [abs_of_pos sy]
  have e1 : (√x - √y) * (√x + √y) = x - y := by
    have := Real.mul_self_sqrt hx
    have := Real.mul_self_sqrt hy.le
    nlinarith
  have e2 : |√x - √y| * (√x + √y) = |x - y| := by
    rw [← e1, abs_mul, abs_of_nonneg (a := √x + √y) (by linarith)]
  have e3 : |√x - √y| * √y ≤ √y * e * √y := by
    have := Real.mul_self_sqrt hy.le
    have := abs_nonneg (√x - √y)
    have : |√x - √y| * √y ≤ |√x - √y| * (√x + √y) := by nlinarith
    have h3 : |x - y| ≤ y * e := abs_le.2 ⟨h1, h2⟩
    nlinarith
  exact le_of_mul_le_mul_right e3 sy

/-- The keys of the table are computed with a tiny relative error. -/
def Near (k v : ℝ) : Prop := Rel k v (1 / 10 ^ 14)

theorem near_overSqrt (h : Rounding rnd) (c b : ℝ) (hb : 0 < b) :
    Near (overSqrt rnd c b) (c / √b) := by
  have h1 := h.rel (√b)
  have h2 := h1.div c (Real.sqrt_pos.2 hb) (by norm_num)
  have h3 := (h.rel (c / rnd (√b))).trans h2 (by norm_num)
  exact h3.mono (by norm_num)

theorem near_sqrtOf (h : Rounding rnd) (a b : ℝ) (ha : 0 < a) (hb : 0 < b) :
    Near (sqrtOf rnd a b) (√(a / b)) := by
  have h1 := h.rel (a / b)
  have h2 := h1.sqrt (div_pos ha hb) (by norm_num)
  have h3 := (h.rel (√(rnd (a / b)))).trans h2 (by norm_num)
  exact h3.mono (by norm_num)

theorem near_divSqrt (h : Rounding rnd) (s c b : ℝ) :
    Near (rnd (s * rnd (√b) / c)) (s * √b / c) := by
  have h1 := (h.rel (√b)).mul_left (s / c)
  have h3 := (h.rel (s * rnd (√b) / c)).trans (y := s * rnd (√b) / c) (z := s * √b / c)
    (f := 1 / 10 ^ 15) (by
      have e1 : s * rnd (√b) / c = s / c * rnd (√b) := by ring
      have e2 : s * √b / c = s / c * √b := by ring
      rw [e1, e2]; exact h1) (by norm_num)
  exact h3.mono (by norm_num)

/-- `√(a / b)` on the scale of the codes. -/
theorem scaled_bounds {a b N : ℕ} (hb : 0 < b) (hab : a ≤ b)
    (h1 : (1000 * N + 1) ^ 2 * b ≤ a * 10 ^ 18) (h2 : a * 10 ^ 18 ≤ (1000 * N + 999) ^ 2 * b) :
    0 ≤ √((a : ℝ) / b) ∧ √((a : ℝ) / b) ≤ 1 ∧ (1000 * N + 1 : ℝ) ≤ √((a : ℝ) / b) * 10 ^ 9 ∧
      √((a : ℝ) / b) * 10 ^ 9 ≤ (1000 * N + 999 : ℝ) := by
  have hb' : (0 : ℝ) < b := by exact_mod_cast hb
  set v := √((a : ℝ) / b) with hv
  have hv0 : 0 ≤ v := Real.sqrt_nonneg _
  have hv1 : v ≤ 1 := by
    rw [hv, Real.sqrt_le_one, div_le_one hb']
    exact_mod_cast hab
  have hsq : v * v * b = a := by
    rw [hv, Real.mul_self_sqrt (by positivity)]
    field_simp
  have h1' : ((1000 * N + 1 : ℝ)) ^ 2 * b ≤ a * 10 ^ 18 := by exact_mod_cast h1
  have h2' : (a * 10 ^ 18 : ℝ) ≤ (1000 * N + 999) ^ 2 * b := by exact_mod_cast h2
  refine ⟨hv0, hv1, ?_, ?_⟩
  · apply le_of_sq_le_sq
    · have : ((1000 * N + 1 : ℝ)) ^ 2 * b ≤ (v * 10 ^ 9) ^ 2 * b := by
        rw [← hsq] at h1'; nlinarith
      exact le_of_mul_le_mul_right this hb'
    · positivity
  · apply le_of_sq_le_sq
    · have : (v * 10 ^ 9) ^ 2 * b ≤ ((1000 * N + 999 : ℝ)) ^ 2 * b := by
        rw [← hsq] at h2'; nlinarith
      exact le_of_mul_le_mul_right this hb'
    · positivity

theorem scaled_near (h : Rounding rnd) {k v : ℝ} (hk : Near k v) (hv : |v| ≤ 1) :
    |rnd (k * 1000000) - v * 1000000| ≤ 1 / 10 ^ 4 := by
  have hr := (h.rel (k * 1000000)).trans (hk.mul_right 1000000) (by norm_num)
  unfold Rel at hr
  refine hr.trans ?_
  have : |v * 1000000| ≤ 1000000 := by
    rw [abs_mul]; norm_num; linarith
  refine (mul_le_mul_of_nonneg_right this (by norm_num)).trans (by norm_num)

/-- The code of a key close to `√(a / b)`. -/
theorem code_of_near (h : Rounding rnd) {k : ℝ} {a b N : ℕ} (hb : 0 < b) (hab : a ≤ b)
    (hk : Near k (√((a : ℝ) / b)))
    (h1 : (1000 * N + 1) ^ 2 * b ≤ a * 10 ^ 18) (h2 : a * 10 ^ 18 ≤ (1000 * N + 999) ^ 2 * b) :
    code rnd k = N := by
  obtain ⟨b0, b1, lo, hi⟩ := scaled_bounds hb hab h1 h2
  obtain ⟨q1, q2⟩ := abs_le.1 (scaled_near h hk (abs_le.2 ⟨by linarith, b1⟩))
  rw [code, Int.floor_eq_iff]
  push_cast
  constructor <;> linarith

/-- The code of a key close to `-√(a / b)`. -/
theorem code_of_near_neg (h : Rounding rnd) {k : ℝ} {a b N : ℕ} (hb : 0 < b) (hab : a ≤ b)
    (hk : Near k (-√((a : ℝ) / b)))
    (h1 : (1000 * N + 1) ^ 2 * b ≤ a * 10 ^ 18) (h2 : a * 10 ^ 18 ≤ (1000 * N + 999) ^ 2 * b) :
    code rnd k = -N - 1 := by
  obtain ⟨b0, b1, lo, hi⟩ := scaled_bounds hb hab h1 h2
  obtain ⟨q1, q2⟩ := abs_le.1 (scaled_near h hk (abs_le.2 ⟨by linarith, by linarith⟩))
  rw [code, Int.floor_eq_iff]
  push_cast
  constructor <;> linarith

theorem code_zero (h : Rounding rnd) : code rnd 0 = 0 := by
  have := h (0 * 1000000)
  simp at this
  simp [code, this]

/-- Codes that differ compare differently, also after the division. -/
theorem sameKey_code (h : Rounding rnd) {a b : ℝ} (ha : |code rnd a| ≤ 1000000)
    (hb : |code rnd b| ≤ 1000000) : SameKey rnd a b ↔ code rnd a = code rnd b := by
  rw [sameKey_iff, cmpVal_code, cmpVal_code]
  constructor
  · intro e
    have r1 := h.rel ((code rnd a : ℝ) / 100000)
    have r2 := h.rel ((code rnd b : ℝ) / 100000)
    unfold Rel at r1 r2
    have small : ∀ c : ℤ, |c| ≤ 1000000 → |(c : ℝ) / 100000| ≤ 10 := by
      intro c hc
      rw [abs_div]
      have : |(c : ℝ)| ≤ 1000000 := by exact_mod_cast hc
      rw [div_le_iff₀ (by norm_num)]
      norm_num
      linarith
    have s1 := small _ ha
    have s2 := small _ hb
    rw [e] at r1
    have t1 : |rnd ((code rnd b : ℝ) / 100000) - (code rnd a : ℝ) / 100000| ≤ 1 / 10 ^ 14 :=
      r1.trans ((mul_le_mul_of_nonneg_right s1 (by norm_num)).trans (by norm_num))
    have t2 : |rnd ((code rnd b : ℝ) / 100000) - (code rnd b : ℝ) / 100000| ≤ 1 / 10 ^ 14 :=
      r2.trans ((mul_le_mul_of_nonneg_right s2 (by norm_num)).trans (by norm_num))
    obtain ⟨u1, u2⟩ := abs_le.1 t1
    obtain ⟨w1, w2⟩ := abs_le.1 t2
    have d1 : (code rnd a : ℝ) < code rnd b + 1 := by
      by_contra hc; push Not at hc; linarith
    have d2 : (code rnd b : ℝ) < code rnd a + 1 := by
      by_contra hc; push Not at hc; linarith
    have e1 : code rnd a < code rnd b + 1 := by exact_mod_cast d1
    have e2 : code rnd b < code rnd a + 1 := by exact_mod_cast d2
    omega
  · intro e; rw [e]

end Dashmm.Rot
