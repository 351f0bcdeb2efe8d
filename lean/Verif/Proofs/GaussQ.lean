import Verif.Spec.GaussQ
/-!
# The Gauss rule: proofs
-/
namespace Dashmm.GaussQ

variable {N : ℕ}

/-! ### Similarity -/

/-- The form `φ'` is `φ` in other orthonormal coordinates up to `ε`; the linear forms agree. -/
def Sim (N : ℕ) (φ ζ φ' ζ' : (ℕ → ℝ) → ℝ) (ε : ℝ) : Prop :=
  ∃ V : (ℕ → ℝ) →ₗ[ℝ] (ℕ → ℝ), Function.Surjective V ∧ (∀ y, lengthSq N (V y) = lengthSq N y) ∧
    (∀ y, |φ' y - φ (V y)| ≤ ε * lengthSq N y) ∧ ∀ y, ζ' y = ζ (V y)

theorem lengthSq_nonneg (N : ℕ) (x : ℕ → ℝ) : 0 ≤ lengthSq N x := Finset.sum_nonneg fun _ _ => sq_nonneg _

theorem Sim.refl (φ ζ : (ℕ → ℝ) → ℝ) : Sim N φ ζ φ ζ 0 :=
  ⟨LinearMap.id, Function.surjective_id, fun _ => rfl, fun y => by simp, fun _ => rfl⟩

theorem Sim.trans {φ ζ φ' ζ' φ'' ζ'' : (ℕ → ℝ) → ℝ} {ε δ : ℝ} (h : Sim N φ ζ φ' ζ' ε)
    (g : Sim N φ' ζ' φ'' ζ'' δ) : Sim N φ ζ φ'' ζ'' (ε + δ) := by
  obtain ⟨V, v0, v1, v2, v3⟩ := h
  obtain ⟨W, w0, w1, w2, w3⟩ := g
  refine ⟨V.comp W, v0.comp w0, fun y => by simp [v1, w1], fun y => ?_, fun y => by simp [w3, v3]⟩
  have h1 := w2 y
  have h2 := v2 (W y)
  rw [w1] at h2
  have : φ'' y - φ ((V.comp W) y) = (φ'' y - φ' (W y)) + (φ' (W y) - φ (V (W y))) := by simp
  rw [this, add_mul]
  exact (abs_add_le _ _).trans (by linarith)

theorem Sim.mono {φ ζ φ' ζ' : (ℕ → ℝ) → ℝ} {ε δ : ℝ} (h : Sim N φ ζ φ' ζ' ε) (hd : ε ≤ δ) :
    Sim N φ ζ φ' ζ' δ := by
  obtain ⟨V, v0, v1, v2, v3⟩ := h
  exact ⟨V, v0, v1, fun y => (v2 y).trans (mul_le_mul_of_nonneg_right hd (lengthSq_nonneg N y)), v3⟩

theorem Sim.congr {φ ζ φ' φ'' ζ' : (ℕ → ℝ) → ℝ} {ε : ℝ} (h : Sim N φ ζ φ' ζ' ε) (g : φ' = φ'') :
    Sim N φ ζ φ'' ζ' ε := g ▸ h

/-- A form within `δ` of another. -/
theorem Sim.near {φ φ' ζ : (ℕ → ℝ) → ℝ} {δ : ℝ} (h : ∀ y, |φ' y - φ y| ≤ δ * lengthSq N y) :
    Sim N φ ζ φ' ζ δ := ⟨LinearMap.id, Function.surjective_id, fun _ => rfl, h, fun _ => rfl⟩

/-! ### A rotation of two coordinates -/

/-- The rotation of the coordinates `i` and `i + 1`. -/
def rotV (c s : ℝ) (i : ℕ) : (ℕ → ℝ) →ₗ[ℝ] (ℕ → ℝ) where
  toFun y k := if k = i then c * y i + s * y (i + 1) else if k = i + 1 then -s * y i + c * y (i + 1) else y k
  map_add' x y := by
    ext k; simp only [Pi.add_apply]; split_ifs <;> ring
  map_smul' a x := by
    ext k; simp only [Pi.smul_apply, smul_eq_mul, RingHom.id_apply]; split_ifs <;> ring

theorem rotV_same (c s : ℝ) (i : ℕ) (y : ℕ → ℝ) : rotV c s i y i = c * y i + s * y (i + 1) := by
  simp [rotV]

theorem rotV_succ (c s : ℝ) (i : ℕ) (y : ℕ → ℝ) : rotV c s i y (i + 1) = -s * y i + c * y (i + 1) := by
  simp [rotV]

theorem rotV_other (c s : ℝ) (i : ℕ) (y : ℕ → ℝ) {k : ℕ} (h : k ≠ i) (h' : k ≠ i + 1) : rotV c s i y k = y k := by
  simp [rotV, h, h']

theorem rotV_surjective {c s : ℝ} (hc : c ^ 2 + s ^ 2 = 1) (i : ℕ) : Function.Surjective (rotV c s i) := by
  intro y
  refine ⟨rotV c (-s) i y, ?_⟩
  funext k
  by_cases h : k = i
  · subst h
    rw [rotV_same, rotV_same, rotV_succ]
    linear_combination y k * hc
  · by_cases h' : k = i + 1
    · subst h'
      rw [rotV_succ, rotV_same, rotV_succ]
      linear_combination y (i + 1) * hc
    · rw [rotV_other c s i _ h h', rotV_other c (-s) i y h h']

/-- A sum over `range n` of a function of the coordinates that is equal apart from two places. -/
theorem sum_two {f g : ℕ → ℝ} {i n : ℕ} (hi : i + 1 < n) (h : ∀ k, k ≠ i → k ≠ i + 1 → f k = g k) :
    (∑ k ∈ Finset.range n, f k) - ∑ k ∈ Finset.range n, g k = (f i - g i) + (f (i + 1) - g (i + 1)) := by
  rw [← Finset.sum_sub_distrib]
  have hs : ({i, i + 1} : Finset ℕ) ⊆ Finset.range n := by
    intro k hk
    simp only [Finset.mem_insert, Finset.mem_singleton] at hk
    rw [Finset.mem_range]; omega
  rw [← Finset.sum_subset hs, Finset.sum_pair (by omega)]
  intro k _ hk
  simp only [Finset.mem_insert, Finset.mem_singleton, not_or] at hk
  rw [h k hk.1 hk.2, sub_self]

theorem lengthSq_rotV {c s : ℝ} (hc : c ^ 2 + s ^ 2 = 1) {i : ℕ} (hi : i + 1 < N) (y : ℕ → ℝ) :
    lengthSq N (rotV c s i y) = lengthSq N y := by
  have := sum_two (f := fun k => rotV c s i y k ^ 2) (g := fun k => y k ^ 2) hi
    fun k h h' => by simp only [rotV_other c s i y h h']
  rw [rotV_same, rotV_succ] at this
  unfold lengthSq
  linear_combination this + (y i ^ 2 + y (i + 1) ^ 2) * hc

/-- The linear form with the coefficients `z`. -/
def lin (N : ℕ) (z : ℕ → ℝ) (y : ℕ → ℝ) : ℝ := ∑ k ∈ Finset.range N, z k * y k

theorem lin_rotV {z z' : ℕ → ℝ} {c s : ℝ} {i : ℕ} (hi : i + 1 < N)
    (h0 : z' i = c * z i - s * z (i + 1)) (h1 : z' (i + 1) = s * z i + c * z (i + 1))
    (h : ∀ k, k ≠ i → k ≠ i + 1 → z' k = z k) (y : ℕ → ℝ) : lin N z' y = lin N z (rotV c s i y) := by
  have := sum_two (f := fun k => z' k * y k) (g := fun k => z k * rotV c s i y k) hi
    fun k g g' => by simp only [rotV_other c s i y g g', h k g g']
  rw [rotV_same, rotV_succ, h0, h1] at this
  unfold lin
  linear_combination this

/-- A sum over `range n` equal apart from three places. -/
theorem sum_three {f g : ℕ → ℝ} {i n : ℕ} (hi : i + 2 < n)
    (h : ∀ k, k ≠ i → k ≠ i + 1 → k ≠ i + 2 → f k = g k) :
    (∑ k ∈ Finset.range n, f k) - ∑ k ∈ Finset.range n, g k
      = (f i - g i) + (f (i + 1) - g (i + 1)) + (f (i + 2) - g (i + 2)) := by
  rw [← Finset.sum_sub_distrib]
  have hs : ({i, i + 1, i + 2} : Finset ℕ) ⊆ Finset.range n := by
    intro k hk
    simp only [Finset.mem_insert, Finset.mem_singleton] at hk
    rw [Finset.mem_range]; omega
  rw [← Finset.sum_subset hs, Finset.sum_insert (by simp), Finset.sum_pair (by omega)]
  · ring
  intro k _ hk
  simp only [Finset.mem_insert, Finset.mem_singleton, not_or] at hk
  rw [h k hk.1 hk.2.1 hk.2.2, sub_self]

/-- The quadratic form with the sums over the same range: the last subdiagonal element is zero. -/
def form' (N : ℕ) (d e : ℕ → ℝ) (x : ℕ → ℝ) : ℝ :=
  (∑ k ∈ Finset.range N, d k * x k ^ 2) + 2 * ∑ k ∈ Finset.range N, e k * (x k * x (k + 1))

/-- One turn of the chase: `b` couples `i` and `i + 2`, of which the rotation makes nothing. -/
theorem form_rotV {d e d' e' : ℕ → ℝ} {c s b b' : ℝ} {i : ℕ} (hi : i + 1 < N) (hc : c ^ 2 + s ^ 2 = 1)
    (hd0 : d' i = c ^ 2 * d i - 2 * c * s * e i + s ^ 2 * d (i + 1))
    (hd1 : d' (i + 1) = s ^ 2 * d i + 2 * c * s * e i + c ^ 2 * d (i + 1))
    (hd : ∀ k, k ≠ i → k ≠ i + 1 → d' k = d k)
    (he0 : e' i = c * s * (d i - d (i + 1)) + (c ^ 2 - s ^ 2) * e i)
    (hb : c * b = s * e (i + 1)) (he1 : e' (i + 1) = c * e (i + 1) + s * b)
    (hem : ∀ j, i = j + 1 → e' j = c * e j ∧ b' = s * e j) (hb0 : i = 0 → b' = 0)
    (he : ∀ k, k ≠ i → k ≠ i + 1 → k + 1 ≠ i → e' k = e k) (y : ℕ → ℝ) :
    form' N d' e' y + 2 * b' * (y (i - 1) * y (i + 1)) =
      form' N d e (rotV c s i y) + 2 * b * (rotV c s i y i * rotV c s i y (i + 2)) := by
  have hD := sum_two (f := fun k => d' k * y k ^ 2) (g := fun k => d k * rotV c s i y k ^ 2) hi
    fun k g g' => by simp only [rotV_other c s i y g g', hd k g g']
  rw [rotV_same, rotV_succ, hd0, hd1] at hD
  have h2 : rotV c s i y (i + 2) = y (i + 2) := rotV_other c s i y (by omega) (by omega)
  unfold form'
  rcases i with _ | j
  · have hE := sum_two (f := fun k => e' k * (y k * y (k + 1)))
      (g := fun k => e k * (rotV c s 0 y k * rotV c s 0 y (k + 1))) hi
      fun k g g' => by
        simp only [rotV_other c s 0 y g g', rotV_other c s 0 y (k := k + 1) (by omega) (by omega), he k g g' (by omega)]
    simp only [Nat.add_assoc, Nat.reduceAdd] at hE hD h2 ⊢
    have s0 := rotV_same c s 0 y
    have s1 := rotV_succ c s 0 y
    simp only [Nat.zero_add, Nat.add_zero] at *
    rw [he0, he1, h2, s0, s1] at hE
    rw [hb0 trivial, h2, s0]
    linear_combination hD + 2 * hE - 2 * (y 0 * y 2) * hb
  · have hE := sum_three (f := fun k => e' k * (y k * y (k + 1)))
      (g := fun k => e k * (rotV c s (j + 1) y k * rotV c s (j + 1) y (k + 1))) (i := j) (n := N) (by omega)
      fun k g g' g'' => by
        simp only [rotV_other c s (j + 1) y (k := k) (by omega) (by omega),
          rotV_other c s (j + 1) y (k := k + 1) (by omega) (by omega), he k (by omega) (by omega) (by omega)]
    have s0 := rotV_same c s (j + 1) y
    have s1 := rotV_succ c s (j + 1) y
    have sj := rotV_other c s (j + 1) y (k := j) (by omega) (by omega)
    obtain ⟨m1, m2⟩ := hem j rfl
    simp only [Nat.add_assoc, Nat.reduceAdd, Nat.add_sub_cancel] at *
    rw [he0, he1, h2, s0, s1, m1, sj] at hE
    rw [m2, h2, s0]
    linear_combination hD + 2 * hE - 2 * (y (j + 1) * y (j + 3)) * hb

/-! ### The chase -/

theorem rot_eq {F : ℝ} (G : ℝ) (hF : F ≠ 0) :
    (rot F G).2.1 ^ 2 + (rot F G).2.2 ^ 2 = 1 ∧ (rot F G).2.1 * (rot F G).1 = G ∧
    (rot F G).2.2 * (rot F G).1 = F ∧ (rot F G).2.2 ≠ 0 := by
  have key : ∀ q : ℝ, 0 < √(q * q + 1) ∧ √(q * q + 1) ^ 2 = q * q + 1 := fun q =>
    ⟨Real.sqrt_pos.2 (by nlinarith [mul_self_nonneg q]), Real.sq_sqrt (by nlinarith [mul_self_nonneg q])⟩
  unfold rot
  norm_num only
  split_ifs with h
  · have hG : G ≠ 0 := by rintro rfl; simp at h; exact absurd h (not_lt.2 (abs_nonneg F))
    obtain ⟨h1, h2⟩ := key (F / G)
    generalize √(F / G * (F / G) + 1) = R at *
    have hR := h1.ne'
    dsimp only
    refine ⟨?_, ?_, ?_, ?_⟩
    · field_simp
      field_simp at h2
      linarith
    · field_simp
    · field_simp
    · exact mul_ne_zero (div_ne_zero hF hG) (by simpa using hR)
  · obtain ⟨h1, h2⟩ := key (G / F)
    generalize √(G / F * (G / F) + 1) = R at *
    have hR := h1.ne'
    dsimp only
    refine ⟨?_, ?_, ?_, ?_⟩
    · field_simp
      field_simp at h2
      linarith
    · field_simp
    · field_simp
    · simpa using hR

/-- The diagonal while the chase is at `p`. -/
def gd (t : Chase) (p : ℕ) (k : ℕ) : ℝ := if k = p then t.D p - t.P else t.D k

/-- The subdiagonal while the chase is at `p`. -/
def ge (N l m : ℕ) (t : Chase) (p : ℕ) (k : ℕ) : ℝ :=
  if k < l ∨ k = m ∨ N ≤ k + 1 then 0 else if k = p then t.G else if k + 1 = p then t.C * t.E k else t.E k

/-- The element that is neither on the diagonal nor next to it. -/
def bul (l m : ℕ) (t : Chase) (p : ℕ) : ℝ := if p = m ∨ p = l then 0 else t.S * t.E (p - 1)

/-- The form while the chase is at `p`. -/
def chaseForm (N l m : ℕ) (t : Chase) (p : ℕ) (y : ℕ → ℝ) : ℝ :=
  form' N (gd t p) (ge N l m t p) y + 2 * bul l m t p * (y (p - 1) * y (p + 1))

theorem chase_step {l m i : ℕ} {t : Chase} (hl : l ≤ i) (him : i + 1 ≤ m) (hm : m < N) (hE : t.E i ≠ 0)
    (hS : t.S ≠ 0) :
    Sim N (chaseForm N l m t (i + 1)) (lin N t.Z) (chaseForm N l m (chase t i) i) (lin N (chase t i).Z) 0 ∧
    (chase t i).S ≠ 0 ∧ ∀ k, k ≠ i + 1 → (chase t i).E k = t.E k := by
  obtain ⟨hc, hG, hF, h0⟩ := rot_eq t.G (mul_ne_zero hS hE)
  have hi : i + 1 < N := by omega
  refine ⟨⟨rotV (rot (t.S * t.E i) t.G).2.1 (rot (t.S * t.E i) t.G).2.2 i,
    rotV_surjective hc i, lengthSq_rotV hc hi, fun y => ?_, fun y => ?_⟩, h0, fun k hk => ?_⟩
  · have he0 : ge N l m t (i + 1) i = t.C * t.E i := by
      simp only [ge]
      rw [if_neg (by omega), if_neg (by omega), if_pos trivial]
    have hd0 : gd t (i + 1) i = t.D i := by simp [gd]
    have hd1 : gd t (i + 1) (i + 1) = t.D (i + 1) - t.P := by simp [gd]
    have := form_rotV (d := gd t (i + 1)) (e := ge N l m t (i + 1)) (d' := gd (chase t i) i)
      (e' := ge N l m (chase t i) i) (b := bul l m t (i + 1)) (b' := bul l m (chase t i) i) hi hc
      ?_ ?_ ?_ ?_ ?_ ?_ ?_ ?_ ?_ y
    · rw [chaseForm, chaseForm, this]
      simp only [Nat.add_sub_cancel, Nat.add_assoc, Nat.reduceAdd, sub_self, abs_zero, zero_mul, le_refl]
    · rw [hd0, hd1, he0]
      simp only [gd, chase, if_true]
      rw [Function.update_of_ne (by omega)]
      linear_combination -t.D i * hc
    · rw [hd0, hd1, he0]
      simp only [gd, chase]
      rw [if_neg (by omega), Function.update_self]
      linear_combination -(t.D (i + 1) - t.P) * hc
    · intro k h h'
      simp only [gd, chase, h, h', if_false]
      rw [Function.update_of_ne h']
    · rw [hd0, hd1, he0]
      simp only [ge, chase]
      rw [if_neg (by omega)]
      simp only [if_true]
      linear_combination t.C * t.E i * hc
    · simp only [bul, ge]
      by_cases h : i + 1 = m
      · simp [h]
      · rw [if_neg (by omega), if_neg (by omega), if_pos trivial, Nat.add_sub_cancel]
        nth_rw 2 [← hF]
        nth_rw 5 [← hG]
        ring
    · simp only [bul, ge, chase]
      by_cases h : i + 1 = m
      · simp [h]
      · rw [if_neg (by omega), if_neg (by omega), if_neg (by omega), if_neg (by omega), if_pos trivial,
          if_neg (by omega), Nat.add_sub_cancel, Function.update_self]
        generalize rot (t.S * t.E i) t.G = r at *
        rw [← hF, ← hG]
        linear_combination -r.1 * hc
    · intro j hj
      subst hj
      simp only [bul, ge, chase, Nat.add_sub_cancel]
      by_cases h : j < l
      · simp [h, show j + 1 = l by omega]
      · have a1 : ¬ (j < l ∨ j = m ∨ N ≤ j + 1) := by omega
        have a2 : ¬ (j + 1 = m ∨ j + 1 = l) := by omega
        have a3 : j ≠ j + 1 + 1 := by omega
        have a4 : j + 1 ≠ j + 1 + 1 := by omega
        simp [a1, a2, Function.update_of_ne a3]
        exact ⟨fun g => absurd g a3, fun g => absurd g a3⟩
    · rintro rfl
      simp [bul, show l = 0 by omega]
    · intro k h h' h''
      simp only [ge, chase]
      split_ifs <;> first | rfl | omega | rw [Function.update_of_ne h']
  · refine lin_rotV hi ?_ ?_ ?_ y
    · simp [chase]
    · simp only [chase]
      rw [Function.update_of_ne (by omega), Function.update_self]
    · intro k h h'
      simp only [chase]
      rw [Function.update_of_ne h, Function.update_of_ne h']
  · simp only [chase]
    rw [Function.update_of_ne hk]

theorem chase_fold {l m : ℕ} (hm : m < N) : ∀ (n : ℕ) (t : Chase), l + n ≤ m → t.S ≠ 0 →
    (∀ k, l ≤ k → k < l + n → t.E k ≠ 0) →
    Sim N (chaseForm N l m t (l + n)) (lin N t.Z)
      (chaseForm N l m ((List.range' l n).reverse.foldl chase t) l)
      (lin N ((List.range' l n).reverse.foldl chase t).Z) 0 := by
  intro n
  induction n with
  | zero => intro t _ _ _; exact Sim.refl _ _
  | succ n ih =>
    intro t hn hS hE
    rw [List.range'_concat, List.reverse_append, List.foldl_append]
    simp only [one_mul, List.reverse_singleton, List.foldl_cons, List.foldl_nil]
    obtain ⟨h1, h2, h3⟩ := chase_step (N := N) (l := l) (m := m) (i := l + n) (t := t) (by omega) (by omega) hm
      (hE _ (by omega) (by omega)) hS
    have := h1.trans (ih (chase t (l + n)) (by omega) h2 fun k hk hk' => by
      rw [h3 k (by omega)]; exact hE k hk (by omega))
    simpa [Nat.add_assoc] using this

/-! ### Dropped elements -/

/-- The subdiagonal that is left when the first `l` eigenvalues have been found. -/
def me (N l : ℕ) (e : ℕ → ℝ) (k : ℕ) : ℝ := if k < l ∨ N ≤ k + 1 then 0 else e k

/-- The form of a state. -/
def stForm (N l : ℕ) (s : QL) : (ℕ → ℝ) → ℝ := form' N s.D (me N l s.E)

theorem form'_drop {d e e' : ℕ → ℝ} {m : ℕ} (hm : m + 1 < N) (h0 : e' m = 0) (h : ∀ k, k ≠ m → e' k = e k)
    (y : ℕ → ℝ) : |form' N d e' y - form' N d e y| ≤ |e m| * lengthSq N y := by
  have h1 : form' N d e' y - form' N d e y = -2 * e m * (y m * y (m + 1)) := by
    have := sum_two (f := fun k => e' k * (y k * y (k + 1))) (g := fun k => e k * (y k * y (k + 1))) hm
      fun k g _ => by simp only [h k g]
    rw [h0, h (m + 1) (by omega)] at this
    unfold form'
    linear_combination 2 * this
  have h2 : y m ^ 2 + y (m + 1) ^ 2 ≤ lengthSq N y := by
    rw [← Finset.sum_pair (show m ≠ m + 1 by omega) (f := fun k => y k ^ 2)]
    refine Finset.sum_le_sum_of_subset_of_nonneg ?_ fun _ _ _ => sq_nonneg _
    intro k hk
    simp only [Finset.mem_insert, Finset.mem_singleton] at hk
    rw [Finset.mem_range]; omega
  rw [h1, abs_mul, abs_mul, abs_neg, abs_two, mul_comm 2, mul_assoc]
  refine mul_le_mul_of_nonneg_left ?_ (abs_nonneg _)
  have : 2 * |y m * y (m + 1)| ≤ y m ^ 2 + y (m + 1) ^ 2 := by
    rw [abs_mul, ← sq_abs (y m), ← sq_abs (y (m + 1))]
    nlinarith [sq_nonneg (|y m| - |y (m + 1)|)]
  linarith

theorem form'_single (d e : ℕ → ℝ) {k : ℕ} (hk : k < N) : form' N d e (Pi.single k 1) = d k := by
  have h2 : ∀ j, (Pi.single k 1 : ℕ → ℝ) j * (Pi.single k 1 : ℕ → ℝ) (j + 1) = 0 := by
    intro j
    by_cases h : j = k
    · rw [Pi.single_eq_of_ne (show j + 1 ≠ k by omega)]; simp
    · rw [Pi.single_eq_of_ne h]; simp
  unfold form'
  simp only [h2, mul_zero, Finset.sum_const_zero, add_zero]
  rw [Finset.sum_eq_single k]
  · simp
  · intro j _ h; rw [Pi.single_eq_of_ne h]; simp
  · intro h; exact absurd (Finset.mem_range.2 hk) h

theorem lengthSq_single {k : ℕ} (hk : k < N) : lengthSq N (Pi.single k 1) = 1 := by
  unfold lengthSq
  rw [Finset.sum_eq_single k]
  · simp
  · intro j _ h; rw [Pi.single_eq_of_ne h]; simp
  · intro h; exact absurd (Finset.mem_range.2 hk) h

/-- Diagonal elements are no greater than the form. -/
theorem diag_le {φ ζ ζ' : (ℕ → ℝ) → ℝ} {B ε : ℝ} (hB : ∀ y, |φ y| ≤ B * lengthSq N y) {d e : ℕ → ℝ}
    (h : Sim N φ ζ (form' N d e) ζ' ε) {k : ℕ} (hk : k < N) : |d k| ≤ B + ε := by
  obtain ⟨V, -, v1, v2, -⟩ := h
  have h1 := v2 (Pi.single k 1)
  have h2 := hB (V (Pi.single k 1))
  rw [v1] at h2
  rw [lengthSq_single hk, form'_single _ _ hk] at *
  have := abs_sub_abs_le_abs_sub (d k) (φ (V (Pi.single k 1)))
  linarith

theorem findM_spec {l : ℕ} (hl : l < N) (s : QL) : l ≤ findM N l s ∧ findM N l s < N ∧
    (∀ k, l ≤ k → k < findM N l s → ¬ Small s k) ∧ (findM N l s + 1 < N → Small s (findM N l s)) := by
  classical
  unfold findM
  cases h : (List.range' l (N - 1 - l)).find? fun m => decide (Small s m) with
  | none =>
    have h1 := List.find?_eq_none.1 h
    simp only [List.mem_range'_1, decide_eq_true_eq, Option.getD_none] at h1 ⊢
    exact ⟨by omega, by omega, fun k g g' => h1 k ⟨g, by omega⟩, fun g => by omega⟩
  | some m =>
    have h1 := List.mem_of_find?_eq_some h
    have h2 := List.find?_some h
    rw [List.mem_range'_1] at h1
    simp only [decide_eq_true_eq, Option.getD_some] at h2 ⊢
    refine ⟨by omega, by omega, fun k g g' => ?_, fun _ => h2⟩
    obtain ⟨-, as, bs, e, hb⟩ := List.find?_eq_some_iff_append.1 h
    have hk : k ∈ as := by
      have hk : k ∈ List.range' l (N - 1 - l) := List.mem_range'_1.2 (by omega)
      have hp : (List.range' l (N - 1 - l)).Pairwise (· < ·) := List.pairwise_lt_range'
      rw [e] at hk hp
      rcases List.mem_append.1 hk with hk | hk
      · exact hk
      · exfalso
        rcases List.mem_cons.1 hk with rfl | hk
        · omega
        · have := (List.pairwise_cons.1 (List.pairwise_append.1 hp).2.1).1 k hk
          omega
    simpa using hb k hk

theorem epsilon_pos : 0 < epsilon := by unfold epsilon; positivity

theorem ne_zero_of_not_small {s : QL} {k : ℕ} (h : ¬ Small s k) : s.E k ≠ 0 := by
  intro h0
  apply h
  rw [Small, h0, abs_zero]
  exact mul_nonneg epsilon_pos.le (by positivity)

/-- The error after one more dropped element. -/
theorem drop_bound {φ ζ ζ' : (ℕ → ℝ) → ℝ} {B ε : ℝ} (hB : ∀ y, |φ y| ≤ B * lengthSq N y) {s : QL} {l m : ℕ}
    (h : Sim N φ ζ (stForm N l s) ζ' ε) (hm : m + 1 < N) (hs : Small s m) {e' : ℕ → ℝ}
    (h0 : e' m = 0) (he : ∀ k, k ≠ m → e' k = me N l s.E k) :
    Sim N φ ζ (form' N s.D e') ζ' ((B + ε) * (1 + 2 * epsilon) - B) := by
  have h1 := diag_le hB h (k := m) (by omega)
  have h2 := diag_le hB h hm
  have h3 : |me N l s.E m| ≤ |s.E m| := by
    unfold me; split_ifs
    · simp
    · exact le_rfl
  have h4 : |s.E m| ≤ epsilon * (2 * (B + ε)) :=
    hs.trans (mul_le_mul_of_nonneg_left (by linarith) epsilon_pos.le)
  have h5 := h.trans (Sim.near (ζ := ζ') (form'_drop (d := s.D) hm h0 he))
  exact h5.mono (by nlinarith)

/-- One turn of the `while` loop. -/
theorem sweep_sim {s : QL} {l m : ℕ} (hlm : l < m) (hm : m < N) (hE : ∀ k, l ≤ k → k < m → s.E k ≠ 0) :
    Sim N (form' N s.D fun k => if k = m then 0 else me N l s.E k) (lin N s.Z)
      (stForm N l (sweep s l m)) (lin N (sweep s l m).Z) 0 := by
  have h := chase_fold (N := N) (l := l) hm (m - l)
    { D := s.D, E := s.E, Z := s.Z, G := shift s l m, S := 1.0, C := 1.0, P := 0.0 } (by omega) (by norm_num)
    fun k hk hk' => hE k hk (by omega)
  rw [show l + (m - l) = m by omega] at h
  have e1 : chaseForm N l m { D := s.D, E := s.E, Z := s.Z, G := shift s l m, S := 1.0, C := 1.0, P := 0.0 } m
      = form' N s.D fun k => if k = m then 0 else me N l s.E k := by
    funext y
    simp only [chaseForm, bul, true_or, if_true, mul_zero, zero_mul, add_zero]
    congr 1
    · funext k; simp only [gd]; split_ifs with h
      · subst h; norm_num
      · rfl
    · funext k
      simp only [ge, me]
      split_ifs <;> first | rfl | omega | norm_num
  rw [e1] at h
  have e2 : chaseForm N l m ((List.range' l (m - l)).reverse.foldl chase
      { D := s.D, E := s.E, Z := s.Z, G := shift s l m, S := 1.0, C := 1.0, P := 0.0 }) l = stForm N l (sweep s l m) := by
    funext y
    simp only [chaseForm, bul, or_true, if_true, mul_zero, zero_mul, add_zero, stForm, sweep]
    congr 1
    · funext k; simp only [gd, Function.update_apply]
    · funext k
      simp only [ge, me, Function.update_apply]
      split_ifs <;> first | rfl | omega | norm_num
  rw [e2] at h
  exact h

/-- The error after `n` dropped elements. -/
noncomputable def err (B : ℝ) (n : ℕ) : ℝ := B * (1 + 2 * epsilon) ^ n - B

theorem err_succ (B : ℝ) (n : ℕ) : (B + err B n) * (1 + 2 * epsilon) - B = err B (n + 1) := by
  unfold err; ring

theorem err_mono {B : ℝ} (hB : 0 ≤ B) {n k : ℕ} (h : n ≤ k) : err B n ≤ err B k := by
  unfold err
  have := pow_le_pow_right₀ (show 1 ≤ 1 + 2 * epsilon by linarith [epsilon_pos]) h
  nlinarith

theorem qlLoop_sim {φ ζ : (ℕ → ℝ) → ℝ} {B : ℝ} (hB0 : 0 ≤ B) (hB : ∀ y, |φ y| ≤ B * lengthSq N y) {l : ℕ} (hl : l < N) :
    ∀ (j : ℕ) {n : ℕ} {s s' : QL}, qlLoop N l j s = some s' → Sim N φ ζ (stForm N l s) (lin N s.Z) (err B n) →
    Sim N φ ζ (stForm N (l + 1) s') (lin N s'.Z) (err B (n + j + 1)) := by
  intro j
  induction j with
  | zero =>
    intro n s s' h hs
    obtain ⟨f1, f2, f3, f4⟩ := findM_spec hl s
    rw [qlLoop] at h
    split_ifs at h with hm
    cases h
    rw [hm] at f4
    by_cases hN : l + 1 < N
    · rw [← err_succ]
      refine drop_bound hB hs hN (f4 hN) (by simp [me]) fun k hk => ?_
      simp only [me]; split_ifs <;> first | rfl | omega
    · refine (hs.mono (err_mono hB0 (Nat.le_succ _))).congr ?_
      simp only [stForm]; congr 1; funext k; simp only [me]; split_ifs <;> first | rfl | omega
  | succ j ih =>
    intro n s s' h hs
    obtain ⟨f1, f2, f3, f4⟩ := findM_spec hl s
    rw [qlLoop] at h
    split_ifs at h with hm
    · cases h
      rw [hm] at f4
      by_cases hN : l + 1 < N
      · refine Sim.mono (ε := err B (n + 1)) ?_ (err_mono hB0 (by omega))
        rw [← err_succ]
        refine drop_bound hB hs hN (f4 hN) (by simp [me]) fun k hk => ?_
        simp only [me]; split_ifs <;> first | rfl | omega
      · refine (hs.mono (err_mono hB0 (by omega))).congr ?_
        simp only [stForm]; congr 1; funext k; simp only [me]; split_ifs <;> first | rfl | omega
    · have hd : Sim N φ ζ (form' N s.D fun k => if k = findM N l s then 0 else me N l s.E k) (lin N s.Z) (err B (n + 1)) := by
        by_cases hN : findM N l s + 1 < N
        · rw [← err_succ]
          exact drop_bound hB hs hN (f4 hN) (by simp) fun k hk => by simp [hk]
        · refine (hs.mono (err_mono hB0 (Nat.le_succ _))).congr ?_
          simp only [stForm]; congr 1; funext k; simp only [me]; split_ifs <;> first | rfl | omega
      have h2 := hd.trans (sweep_sim (by omega) f2 fun k hk hk' => ne_zero_of_not_small (f3 k hk hk'))
      rw [add_zero] at h2
      have := ih h h2
      rwa [show n + 1 + j + 1 = n + (j + 1) + 1 by omega] at this

theorem qlAll_sim {φ ζ : (ℕ → ℝ) → ℝ} {B : ℝ} (hB0 : 0 ≤ B) (hB : ∀ y, |φ y| ≤ B * lengthSq N y) :
    ∀ (l : ℕ) {s s' : QL}, l ≤ N → (List.range l).foldlM (fun s l => qlLoop N l maxIter s) s = some s' →
    Sim N φ ζ (stForm N 0 s) (lin N s.Z) (err B 0) → Sim N φ ζ (stForm N l s') (lin N s'.Z) (err B (31 * l)) := by
  intro l
  induction l with
  | zero => intro s s' _ h hs; cases h; exact hs
  | succ l ih =>
    intro s s' hl h hs
    rw [List.range_succ, List.foldlM_append] at h
    obtain ⟨s1, h1, h2⟩ := Option.bind_eq_some_iff.1 h
    have h2 : qlLoop N l maxIter s1 = some s' := by simpa using h2
    have := qlLoop_sim hB0 hB (by omega) maxIter h2 (ih (by omega) h1 hs)
    exact this.mono (err_mono hB0 (by unfold maxIter; omega))

/-! ### The sort -/

theorem leastFrom_aux (D : ℕ → ℝ) : ∀ (L : List ℕ) (k : ℕ),
    let r := L.foldl (fun k j => if D j ≥ k.2 then k else (j, D j)) (k, D k)
    r.2 = D r.1 ∧ (r.1 = k ∨ r.1 ∈ L) ∧ r.2 ≤ D k ∧ ∀ j ∈ L, r.2 ≤ D j := by
  intro L
  induction L with
  | nil => intro k; simp
  | cons a L ih =>
    intro k
    simp only [List.foldl_cons]
    by_cases h : D a ≥ D k
    · simp only [h, if_true]
      obtain ⟨h1, h2, h3, h4⟩ := ih k
      refine ⟨h1, ?_, h3, ?_⟩
      · rcases h2 with h2 | h2
        · exact .inl h2
        · exact .inr (List.mem_cons_of_mem _ h2)
      · intro j hj
        rcases List.mem_cons.1 hj with rfl | hj
        · exact h3.trans h
        · exact h4 j hj
    · simp only [h, if_false]
      obtain ⟨h1, h2, h3, h4⟩ := ih a
      refine ⟨h1, ?_, h3.trans (le_of_not_ge h), ?_⟩
      · rcases h2 with h2 | h2
        · right; rw [h2]; exact List.mem_cons_self
        · exact .inr (List.mem_cons_of_mem _ h2)
      · intro j hj
        rcases List.mem_cons.1 hj with rfl | hj
        · exact h3
        · exact h4 j hj

theorem leastFrom_spec {i : ℕ} (hi : i < N) (D : ℕ → ℝ) : (leastFrom N i D).2 = D (leastFrom N i D).1 ∧
    i ≤ (leastFrom N i D).1 ∧ (leastFrom N i D).1 < N ∧ ∀ j, i ≤ j → j < N → D (leastFrom N i D).1 ≤ D j := by
  obtain ⟨h1, h2, h3, h4⟩ := leastFrom_aux D (List.range' (i + 1) (N - (i + 1))) i
  change (leastFrom N i D).2 = D (leastFrom N i D).1 at h1
  change (leastFrom N i D).1 = i ∨ (leastFrom N i D).1 ∈ _ at h2
  change (leastFrom N i D).2 ≤ _ at h3
  rw [List.mem_range'_1] at h2
  refine ⟨h1, by omega, by omega, fun j hj hj' => ?_⟩
  rw [← h1]
  rcases Nat.eq_or_lt_of_le hj with rfl | hj
  · exact h3
  · exact h4 j (List.mem_range'_1.2 (by omega))

/-- A turn of the sort exchanges two elements. -/
theorem sortStep_swap {i : ℕ} (hi : i < N) (s : QL) :
    (sortStep N s i).D = s.D ∘ Equiv.swap i (leastFrom N i s.D).1 ∧
    (sortStep N s i).Z = s.Z ∘ Equiv.swap i (leastFrom N i s.D).1 := by
  obtain ⟨h1, -, -, -⟩ := leastFrom_spec hi s.D
  unfold sortStep
  dsimp only
  generalize leastFrom N i s.D = k at *
  split_ifs with h
  · rw [h]; simp
  · constructor
    · funext j
      simp only [Function.update_apply, Function.comp, Equiv.swap_apply_def, h1]
      split_ifs <;> first | rfl | omega
    · funext j
      simp only [Function.update_apply, Function.comp, Equiv.swap_apply_def]
      split_ifs <;> first | rfl | (exfalso; omega) | skip
      all_goals simp_all

theorem sum_swap {i k : ℕ} (hi : i < N) (hk : k < N) (f : ℕ → ℝ) :
    ∑ j ∈ Finset.range N, f (Equiv.swap i k j) = ∑ j ∈ Finset.range N, f j := by
  refine Equiv.Perm.sum_comp _ _ _ ?_
  intro j hj
  rw [Finset.coe_range, Set.mem_Iio]
  by_contra hc
  exact hj (Equiv.swap_apply_of_ne_of_ne (by omega) (by omega))

theorem stForm_end (s : QL) (y : ℕ → ℝ) : stForm N N s y = ∑ k ∈ Finset.range N, s.D k * y k ^ 2 := by
  unfold stForm form'
  rw [Finset.sum_eq_zero (s := Finset.range N) (f := fun k => me N N s.E k * (y k * y (k + 1))) ?_]
  · simp
  · intro k hk
    rw [Finset.mem_range] at hk
    simp [me, hk]

theorem sortStep_sim {i : ℕ} (hi : i < N) (s : QL) :
    Sim N (stForm N N s) (lin N s.Z) (stForm N N (sortStep N s i)) (lin N (sortStep N s i).Z) 0 := by
  obtain ⟨h1, h2⟩ := sortStep_swap hi s
  obtain ⟨-, -, hk, -⟩ := leastFrom_spec hi s.D
  generalize (leastFrom N i s.D).1 = k at *
  refine ⟨LinearMap.funLeft ℝ ℝ (Equiv.swap i k), ?_, fun y => ?_, fun y => ?_, fun y => ?_⟩
  · intro y
    refine ⟨y ∘ Equiv.swap i k, ?_⟩
    funext j
    simp [LinearMap.funLeft]
  · exact sum_swap hi hk fun j => y j ^ 2
  · rw [stForm_end, stForm_end, h1, ← sum_swap hi hk]
    simp [LinearMap.funLeft]
  · unfold lin
    rw [h2, ← sum_swap hi hk]
    simp [LinearMap.funLeft]

theorem sort_sim : ∀ (n : ℕ), n ≤ N → ∀ s : QL,
    Sim N (stForm N N s) (lin N s.Z) (stForm N N ((List.range n).foldl (sortStep N) s))
      (lin N ((List.range n).foldl (sortStep N) s).Z) 0 ∧
    ∀ a b, a < n → a < b → b < N →
      ((List.range n).foldl (sortStep N) s).D a ≤ ((List.range n).foldl (sortStep N) s).D b := by
  intro n
  induction n with
  | zero => intro _ s; exact ⟨Sim.refl _ _, fun a b h => absurd h (by omega)⟩
  | succ n ih =>
    intro hn s
    obtain ⟨h1, h2⟩ := ih (by omega) s
    rw [List.range_succ, List.foldl_append]
    simp only [List.foldl_cons, List.foldl_nil]
    generalize (List.range n).foldl (sortStep N) s = t at *
    have hi : n < N := by omega
    refine ⟨by simpa using h1.trans (sortStep_sim hi t), fun a b ha hab hb => ?_⟩
    obtain ⟨g1, -⟩ := sortStep_swap hi t
    obtain ⟨-, k1, k2, k3⟩ := leastFrom_spec hi t.D
    rw [g1]
    generalize (leastFrom N n t.D).1 = k at *
    have hb' : n ≤ b → n ≤ Equiv.swap n k b ∧ Equiv.swap n k b < N := by
      intro h
      rw [Equiv.swap_apply_def]
      split_ifs <;> omega
    rcases Nat.lt_or_ge a n with h | h
    · have e : Equiv.swap n k a = a := Equiv.swap_apply_of_ne_of_ne (by omega) (by omega)
      simp only [Function.comp, e]
      rcases Nat.lt_or_ge b n with g | g
      · rw [Equiv.swap_apply_of_ne_of_ne (show b ≠ n by omega) (show b ≠ k by omega)]
        exact h2 a b h hab hb
      · exact h2 a _ h (by have := hb' g; omega) (hb' g).2
    · have : a = n := by omega
      subst this
      simp only [Function.comp, Equiv.swap_apply_left]
      have := hb' (by omega)
      exact k3 _ this.1 this.2

/-! ### The whole -/

theorem form_eq (hN : 0 < N) (d e : ℕ → ℝ) : form N d e = form' N d (me N 0 e) := by
  funext y
  obtain ⟨n, rfl⟩ := Nat.exists_eq_succ_of_ne_zero hN.ne'
  unfold form form'
  rw [Finset.sum_range_succ (f := fun k => me (n + 1) 0 e k * (y k * y (k + 1)))]
  simp only [Nat.succ_eq_add_one, Nat.add_sub_cancel]
  rw [show me (n + 1) 0 e n = 0 by simp [me], zero_mul, add_zero]
  congr 2
  refine Finset.sum_congr rfl fun k hk => ?_
  rw [Finset.mem_range] at hk
  rw [show me (n + 1) 0 e k = e k by simp only [me]; rw [if_neg (by omega)]]

theorem imtql2_spec {B : ℝ} (hN : 0 < N) (hB0 : 0 ≤ B) {s s' : QL} (hZ : ∀ k, s.Z k = 0)
    (hB : ∀ y, |form N s.D s.E y| ≤ B * lengthSq N y) (h : imtql2 N s = some s') :
    IsEigen N s.D s.E s'.D s'.Z (err B (31 * N)) ∧ ∀ a b, a < b → b < N → s'.D a ≤ s'.D b := by
  have h0 : lin N (Function.update s.Z 0 1) = fun y => y 0 := by
    funext y
    unfold lin
    rw [Finset.sum_eq_single 0]
    · simp
    · intro k _ hk; rw [Function.update_of_ne hk, hZ]; simp
    · intro hk; exact absurd (Finset.mem_range.2 hN) hk
  have key : Sim N (form N s.D s.E) (fun y => y 0) (stForm N N s') (lin N s'.Z) (err B (31 * N)) ∧
      ∀ a b, a < b → b < N → s'.D a ≤ s'.D b := by
    unfold imtql2 at h
    dsimp only at h
    have init : Sim N (form N s.D s.E) (fun y => y 0)
        (stForm N 0 { D := s.D, E := s.E, Z := Function.update s.Z 0 1 }) (lin N (Function.update s.Z 0 1)) (err B 0) := by
      rw [form_eq hN, h0]
      refine (Sim.refl _ _).mono ?_
      simp [err]
    split_ifs at h with h1
    · cases h
      subst h1
      refine ⟨(init.mono (err_mono hB0 (Nat.zero_le _))).congr ?_, fun a b _ _ => by omega⟩
      simp only [stForm]; congr 1; funext k; simp only [me]; split_ifs <;> first | rfl | omega
    · obtain ⟨s1, g1, rfl⟩ := Option.map_eq_some_iff.1 h
      have g2 := qlAll_sim hB0 hB N le_rfl g1 init
      obtain ⟨g3, g4⟩ := sort_sim (N := N) (N - 1) (by omega) s1
      exact ⟨by simpa using g2.trans g3, fun a b hab hb => g4 a b (by omega) hab hb⟩
  obtain ⟨⟨V, v0, v1, v2, v3⟩, hs⟩ := key
  exact ⟨⟨V, v0, v1, fun y => by rw [← stForm_end]; exact v2 y, fun y => (v3 y).symm⟩, hs⟩

/-- The first components of orthonormal eigenvectors have length one. -/
theorem IsEigen.sum_sq {d e x z : ℕ → ℝ} {ε : ℝ} (hN : 0 < N) (h : IsEigen N d e x z ε) : lengthSq N z = 1 := by
  obtain ⟨V, v0, v1, -, v3⟩ := h
  apply le_antisymm
  · have h1 := v3 z
    have h2 : V z 0 = lengthSq N z := by rw [h1]; exact Finset.sum_congr rfl fun k _ => by ring
    have h3 : (V z 0) ^ 2 ≤ lengthSq N (V z) :=
      Finset.single_le_sum (f := fun k => V z k ^ 2) (fun _ _ => sq_nonneg _) (Finset.mem_range.2 hN)
    rw [v1, h2] at h3
    have := lengthSq_nonneg N z
    nlinarith
  · obtain ⟨y, hy⟩ := v0 (Pi.single 0 1)
    have h1 := v3 y
    have h2 := v1 y
    rw [hy, lengthSq_single hN] at h2
    rw [hy] at h1
    simp only [Pi.single_eq_same] at h1
    have := Finset.sum_mul_sq_le_sq_mul_sq (Finset.range N) z y
    rw [← h1] at this
    change _ ≤ lengthSq N z * lengthSq N y at this
    rw [← h2] at this
    linarith

/-- The eigenvalues are no greater than the form. -/
theorem IsEigen.le {d e x z : ℕ → ℝ} {B ε : ℝ} (hB : ∀ y, |form N d e y| ≤ B * lengthSq N y)
    (h : IsEigen N d e x z ε) {k : ℕ} (hk : k < N) : |x k| ≤ B + ε := by
  obtain ⟨V, -, v1, v2, -⟩ := h
  have h1 := v2 (Pi.single k 1)
  have h2 := hB (V (Pi.single k 1))
  rw [v1] at h2
  rw [lengthSq_single hk] at *
  have h3 : ∑ j ∈ Finset.range N, x j * (Pi.single k 1 : ℕ → ℝ) j ^ 2 = x k := by
    rw [Finset.sum_eq_single k]
    · simp
    · intro j _ h; rw [Pi.single_eq_of_ne h]; simp
    · intro h; exact absurd (Finset.mem_range.2 hk) h
  rw [h3] at h1
  have := abs_sub_abs_le_abs_sub (x k) (form N d e (V (Pi.single k 1)))
  linarith

/-- The image of the first unit vector is `z`; the error in the first element. -/
theorem IsEigen.first_moment {e x z : ℕ → ℝ} {ε : ℝ} (hN : 0 < N) (h : IsEigen N (fun _ => 0) e x z ε) :
    |∑ k ∈ Finset.range N, x k * z k ^ 2| ≤ ε := by
  have hz := h.sum_sq hN
  obtain ⟨V, v0, v1, v2, v3⟩ := h
  have h1 : V z 0 = 1 := by
    rw [v3, ← hz]; exact Finset.sum_congr rfl fun k _ => by ring
  have h2 : lengthSq N (V z) = 1 := by rw [v1, hz]
  have h3 : ∀ k, k < N → k ≠ 0 → V z k = 0 := by
    intro k hk hk0
    have : V z 0 ^ 2 + V z k ^ 2 ≤ lengthSq N (V z) := by
      rw [← Finset.sum_pair (show (0 : ℕ) ≠ k by omega) (f := fun k => V z k ^ 2)]
      refine Finset.sum_le_sum_of_subset_of_nonneg ?_ fun _ _ _ => sq_nonneg _
      intro j hj
      simp only [Finset.mem_insert, Finset.mem_singleton] at hj
      rw [Finset.mem_range]; omega
    rw [h1, h2] at this
    nlinarith [sq_nonneg (V z k)]
  have h4 : form N (fun _ => 0) e (V z) = 0 := by
    unfold form
    rw [Finset.sum_eq_zero (fun k _ => by ring), Finset.sum_eq_zero ?_]
    · ring
    · intro k hk
      rw [Finset.mem_range] at hk
      rw [h3 (k + 1) (by omega) (by omega)]; ring
  have := v2 z
  rwa [h4, sub_zero, hz, mul_one] at this

/-! ### The matrix -/

theorem legendreE_pos (k : ℕ) : 0 < legendreE k := by unfold legendreE; positivity

theorem legendreE_sq (k : ℕ) : legendreE k ^ 2 = (k + 1) ^ 2 / ((2 * k + 1) * (2 * k + 3)) := by
  unfold legendreE
  rw [div_pow, Real.sq_sqrt (by positivity)]

theorem jacobiE_eq {k : ℕ} (junk : ℝ) (h : k + 1 < N) : jacobiE N junk k = legendreE k := by
  unfold jacobiE legendreE
  rw [if_pos h]
  push_cast
  congr 2
  ring

theorem legendre_bound (n : ℕ) (y : ℕ → ℝ) :
    2 * ∑ k ∈ Finset.range n, legendreE k * |y k * y (k + 1)| + (n + 1) / (2 * n + 1) * y n ^ 2 ≤
      ∑ k ∈ Finset.range (n + 1), y k ^ 2 := by
  induction n with
  | zero => simp
  | succ n ih =>
    rw [Finset.sum_range_succ, Finset.sum_range_succ (n := n + 1)]
    have h := legendreE_sq n
    have hp := legendreE_pos n
    generalize legendreE n = q at *
    have h1 : 2 * (q * |y n * y (n + 1)|) ≤
        (n + 1) / (2 * n + 1) * y n ^ 2 + (n + 1) / (2 * n + 3) * y (n + 1) ^ 2 := by
      rw [abs_mul]
      have ha : (0 : ℝ) < (n + 1) / (2 * n + 1) := by positivity
      have hq : q ^ 2 = (n + 1) / (2 * n + 1) * ((n + 1) / (2 * n + 3)) := by rw [h]; field_simp
      have hb : (0 : ℝ) < (n + 1) / (2 * n + 3) := by positivity
      generalize ((n : ℝ) + 1) / (2 * n + 1) = a at *
      generalize ((n : ℝ) + 1) / (2 * n + 3) = b at *
      rw [← sq_abs (y n), ← sq_abs (y (n + 1))]
      generalize |y n| = u
      generalize |y (n + 1)| = v
      have : 0 ≤ a * (a * u ^ 2 + b * v ^ 2 - 2 * (q * (u * v))) := by
        nlinarith [sq_nonneg (a * u - q * v)]
      nlinarith [(mul_nonneg_iff_of_pos_left ha).1 this]
    have h2 : ((n + 1 : ℕ) + 1 : ℝ) / (2 * (n + 1 : ℕ) + 1) * y (n + 1) ^ 2 + (n + 1) / (2 * n + 3) * y (n + 1) ^ 2 =
        y (n + 1) ^ 2 := by
      push_cast
      field_simp
      ring
    linarith

theorem jacobi_form (hN : 0 < N) (junk : ℝ) (y : ℕ → ℝ) :
    |form N (fun _ => 0) (jacobiE N junk) y| ≤ 1 * lengthSq N y := by
  obtain ⟨n, rfl⟩ := Nat.exists_eq_succ_of_ne_zero hN.ne'
  have h := legendre_bound n y
  unfold form lengthSq
  simp only [zero_mul, Finset.sum_const_zero, zero_add, Nat.succ_eq_add_one, Nat.add_sub_cancel, one_mul]
  rw [abs_mul, abs_two]
  have h1 : |∑ k ∈ Finset.range n, jacobiE (n + 1) junk k * (y k * y (k + 1))| ≤
      ∑ k ∈ Finset.range n, legendreE k * |y k * y (k + 1)| := by
    refine (Finset.abs_sum_le_sum_abs _ _).trans (Finset.sum_le_sum fun k hk => ?_)
    rw [Finset.mem_range] at hk
    rw [jacobiE_eq junk (by omega), abs_mul, abs_of_pos (legendreE_pos k)]
  have h2 : 0 ≤ ((n : ℝ) + 1) / (2 * n + 1) * y n ^ 2 := by positivity
  linarith

theorem form_jacobi (N : ℕ) (junk : ℝ) (y : ℕ → ℝ) :
    form N (fun _ => 0) (jacobiE N junk) y = form N (fun _ => 0) legendreE y := by
  unfold form
  congr 2
  refine Finset.sum_congr rfl fun k hk => ?_
  rw [Finset.mem_range] at hk
  rw [jacobiE_eq junk (by omega)]

/-! ### The element that is not initialised -/

/-- States equal but for the last element of the subdiagonal. -/
def Same (N : ℕ) (s t : QL) : Prop := s.D = t.D ∧ s.Z = t.Z ∧ ∀ k, k + 1 < N → s.E k = t.E k

/-- The same during the chase. -/
def SameC (N : ℕ) (s t : Chase) : Prop :=
  Same N s.toQL t.toQL ∧ s.G = t.G ∧ s.S = t.S ∧ s.C = t.C ∧ s.P = t.P

theorem chase_same {i : ℕ} (hi : i + 1 < N) {s t : Chase} (h : SameC N s t) : SameC N (chase s i) (chase t i) := by
  obtain ⟨⟨h1, h2, h3⟩, h4, h5, h6, h7⟩ := h
  have h8 := h3 i (by omega)
  refine ⟨⟨?_, ?_, fun k hk => ?_⟩, ?_, ?_, ?_, ?_⟩ <;>
    simp only [chase, h1, h2, h4, h5, h6, h7, h8]
  simp only [Function.update_apply, h3 k hk]

theorem fold_same : ∀ (L : List ℕ) {s t : Chase}, (∀ i ∈ L, i + 1 < N) → SameC N s t →
    SameC N (L.foldl chase s) (L.foldl chase t) := by
  intro L
  induction L with
  | nil => intro s t _ h; exact h
  | cons a L ih =>
    intro s t hL h
    exact ih (fun i hi => hL i (List.mem_cons_of_mem _ hi)) (chase_same (hL a List.mem_cons_self) h)

theorem sweep_same {l m : ℕ} (hlm : l < m) (hm : m < N) {s t : QL} (h : Same N s t) :
    Same N (sweep s l m) (sweep t l m) := by
  obtain ⟨h1, h2, h3⟩ := h
  have hs : shift s l m = shift t l m := by simp only [shift, h1, h3 l (by omega)]
  have := fold_same (N := N) (List.range' l (m - l)).reverse
    (s := { D := s.D, E := s.E, Z := s.Z, G := shift s l m, S := 1.0, C := 1.0, P := 0.0 })
    (t := { D := t.D, E := t.E, Z := t.Z, G := shift t l m, S := 1.0, C := 1.0, P := 0.0 })
    (fun i hi => by
      rw [List.mem_reverse, List.mem_range'_1] at hi
      omega) ⟨⟨h1, h2, h3⟩, hs, rfl, rfl, rfl⟩
  obtain ⟨⟨g1, g2, g3⟩, g4, g5, g6, g7⟩ := this
  simp only [sweep]
  refine ⟨?_, g2, fun k hk => ?_⟩
  · simp only [g1, g7]
  · simp only [Function.update_apply, g3 k hk, g4]

theorem findM_same (l : ℕ) {s t : QL} (h : Same N s t) : findM N l s = findM N l t := by
  obtain ⟨h1, h2, h3⟩ := h
  unfold findM
  congr 1
  refine List.find?_congr fun k hk => ?_
  rw [List.mem_range'_1] at hk
  refine decide_eq_decide.2 ?_
  simp only [Small, h1, h3 k (by omega)]

theorem qlLoop_same {l : ℕ} (hl : l < N) : ∀ (j : ℕ) {s t : QL}, Same N s t →
    Option.Rel (Same N) (qlLoop N l j s) (qlLoop N l j t) := by
  intro j
  induction j with
  | zero =>
    intro s t h
    rw [qlLoop, qlLoop, findM_same l h]
    split_ifs
    · exact .some h
    · exact .none
  | succ j ih =>
    intro s t h
    rw [qlLoop, qlLoop, findM_same l h]
    split_ifs with g
    · exact .some h
    · obtain ⟨f1, f2, -, -⟩ := findM_spec hl t
      exact ih (sweep_same (by omega) f2 h)

theorem qlAll_same : ∀ (L : List ℕ) {s t : QL}, (∀ l ∈ L, l < N) → Same N s t →
    Option.Rel (Same N) (L.foldlM (fun s l => qlLoop N l maxIter s) s) (L.foldlM (fun s l => qlLoop N l maxIter s) t) := by
  intro L
  induction L with
  | nil => intro s t _ h; exact .some h
  | cons a L ih =>
    intro s t hL h
    rw [List.foldlM_cons, List.foldlM_cons]
    have := qlLoop_same (hL a List.mem_cons_self) maxIter h
    cases h1 : qlLoop N a maxIter s <;> cases h2 : qlLoop N a maxIter t <;> rw [h1, h2] at this
    · exact .none
    · cases this
    · cases this
    · cases this with
      | some h => exact ih (fun i hi => hL i (List.mem_cons_of_mem _ hi)) h

theorem sort_same : ∀ (L : List ℕ) {s t : QL}, s.D = t.D → s.Z = t.Z →
    (L.foldl (sortStep N) s).D = (L.foldl (sortStep N) t).D ∧ (L.foldl (sortStep N) s).Z = (L.foldl (sortStep N) t).Z := by
  intro L
  induction L with
  | nil => intro s t h h'; exact ⟨h, h'⟩
  | cons a L ih =>
    intro s t h h'
    refine ih ?_ ?_
    · simp only [sortStep, h]; split_ifs <;> simp [h]
    · simp only [sortStep, h]; split_ifs <;> simp [h']

theorem rule_same (N : ℕ) (junk junk' : ℝ) : rule N junk = rule N junk' := by
  unfold rule imtql2
  dsimp only
  split_ifs with h
  · rfl
  · have := qlAll_same (N := N) (List.range N)
      (s := { D := fun _ => 0, E := jacobiE N junk, Z := Function.update (fun _ => 0) 0 1 })
      (t := { D := fun _ => 0, E := jacobiE N junk', Z := Function.update (fun _ => 0) 0 1 })
      (fun l hl => List.mem_range.1 hl) ⟨rfl, rfl, fun k hk => by simp only [jacobiE, hk, if_true]⟩
    generalize (List.range N).foldlM (fun s l => qlLoop N l maxIter s)
      ({ D := fun _ => 0, E := jacobiE N junk, Z := Function.update (fun _ => 0) 0 1 } : QL) = u at *
    generalize (List.range N).foldlM (fun s l => qlLoop N l maxIter s)
      ({ D := fun _ => 0, E := jacobiE N junk', Z := Function.update (fun _ => 0) 0 1 } : QL) = v at *
    cases this with
    | none => rfl
    | some h =>
      obtain ⟨g1, g2⟩ := sort_same (N := N) (List.range (N - 1)) h.1 h.2.1
      simp only [Option.map_some, g1, g2]

/-! ### Two nodes -/

/-- The state after the sweep for two nodes. -/
theorem sweep_two {q : ℝ} (hq : 0 < q) {s : QL} (hD : ∀ k, s.D k = 0) (hE : s.E 0 = q) (h0 : s.Z 0 = 1) (h1 : s.Z 1 = 0) :
    (sweep s 0 1).D 0 = -q ∧ (sweep s 0 1).D 1 = q ∧ (sweep s 0 1).E 0 = 0 ∧
    (sweep s 0 1).Z 0 ^ 2 = 1 / 2 ∧ (sweep s 0 1).Z 1 ^ 2 = 1 / 2 := by
  have hs : shift s 0 1 = q := by
    simp [shift, hD, hE]
  have hr : rot q q = (q * √2, 1 / √2, 1 / √2) := by
    unfold rot
    simp only [lt_irrefl, if_false, div_self hq.ne']
    norm_num
  have h2 : √(2 : ℝ) ^ 2 = 2 := Real.sq_sqrt (by norm_num)
  have h3 : √(2 : ℝ) ≠ 0 := by positivity
  have e1 : (1 : ℝ) / √2 * (1 / √2) = 1 / 2 := by
    field_simp
    linarith
  have hc : (1.0 : ℝ) * q = q := by norm_num
  simp only [sweep, hs, show List.range' 0 (1 - 0) = [0] from rfl, List.reverse_singleton, List.foldl_cons, List.foldl_nil,
    chase, hE, hc, hr, hD, h0, h1, Nat.zero_add, Function.update_self, Function.update_of_ne (show (0 : ℕ) ≠ 1 by omega),
    Function.update_of_ne (show (1 : ℕ) ≠ 0 by omega)]
  norm_num only
  refine ⟨?_, ?_, ?_, ?_, ?_⟩ <;> ring_nf <;> norm_num [h2] <;> ring

theorem two_nodes (junk : ℝ) : ∃ s, imtql2 2 { D := fun _ => 0, E := jacobiE 2 junk, Z := fun _ => 0 } = some s ∧
    s.D 0 = -(1 / √3) ∧ s.D 1 = 1 / √3 ∧ s.Z 0 ^ 2 = 1 / 2 ∧ s.Z 1 ^ 2 = 1 / 2 := by
  have hE : jacobiE 2 junk 0 = 1 / √3 := by
    rw [jacobiE_eq junk (by omega), legendreE]; norm_num
  have hq : (0 : ℝ) < 1 / √3 := by positivity
  set s0 : QL := { D := fun _ => 0, E := jacobiE 2 junk, Z := Function.update (fun _ => 0) 0 1 } with hs0
  obtain ⟨d0, d1, e0, z0, z1⟩ := sweep_two hq (s := s0) (fun _ => rfl) hE (by simp [hs0]) (by simp [hs0])
  have f1 : findM 2 0 s0 = 1 := by
    have : ¬ Small s0 0 := by
      unfold Small
      simp only [hs0, hE, abs_zero, add_zero, mul_zero, not_le]
      exact abs_pos.2 hq.ne'
    simp [findM, List.range', this]
  have f2 : findM 2 0 (sweep s0 0 1) = 0 := by
    have : Small (sweep s0 0 1) 0 := by
      unfold Small
      rw [e0, abs_zero]
      exact mul_nonneg epsilon_pos.le (by positivity)
    simp [findM, List.range', this]
  have f3 : ∀ s, findM 2 1 s = 1 := fun s => by simp [findM]
  have g : (List.range 2).foldlM (fun s l => qlLoop 2 l maxIter s) s0 = some (sweep s0 0 1) := by
    have q1 : qlLoop 2 0 maxIter s0 = some (sweep s0 0 1) := by
      unfold maxIter
      rw [qlLoop, f1, if_neg (by omega), qlLoop, f2, if_pos rfl]
    have q2 : qlLoop 2 1 maxIter (sweep s0 0 1) = some (sweep s0 0 1) := by
      unfold maxIter
      rw [qlLoop, f3, if_pos rfl]
    simp [List.range_succ, q1, q2]
  refine ⟨sweep s0 0 1, ?_, d0, d1, z0, z1⟩
  unfold imtql2
  simp only [show (2 : ℕ) ≠ 1 by omega, if_false]
  rw [← hs0, g]
  have l : leastFrom 2 0 (sweep s0 0 1).D = (0, (sweep s0 0 1).D 0) := by
    have : (sweep s0 0 1).D 0 ≤ (sweep s0 0 1).D 1 := by rw [d0, d1]; linarith
    simp [leastFrom, List.range', this]
  simp [sortStep, l]

end Dashmm.GaussQ
