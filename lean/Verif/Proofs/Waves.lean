import Verif.Spec.Waves
import Verif.Proofs.PlaneTable
import Verif.Proofs.MergeShift
import Mathlib.Tactic.Ring
import Mathlib.Tactic.Linarith

/-!
Layout of the tables of Yukawa and Helmholtz, and the arrays of waves.
-/

namespace Dashmm.Waves

open Complex (I)
open Dashmm.Lap
open PlaneTable (at?)

/-! ### The scan -/

theorem scan_spec (x : ℕ → ℝ) (m0 : ℕ → ℕ) (t : ℝ) (s j : ℕ) : ∀ (n a : ℕ) (st : ℕ × ℕ), a + n = s → j < a →
    (∀ i, j < i → i < a → x i < t) → IsGreatest {y | ∃ k, j ≤ k ∧ k < a ∧ y = m0 k} st.2 → st.1 = j →
    IsGreatest {y | ∃ k, j ≤ k ∧ k < s ∧ (∀ i, j < i → i < k → x i < t) ∧ y = m0 k}
      (let r := scan x m0 t (List.range' a n) st
       if r.2 ≥ m0 r.1 then r.2 else m0 r.1)
  | 0, a, (i, mx), hs, hj, hx, hg, hi => by
    simp only [List.range'_zero, scan]
    simp only at hg hi
    subst hi
    have hle : m0 i ≤ mx := hg.2 ⟨i, le_refl _, hj, rfl⟩
    rw [if_pos hle]
    obtain ⟨⟨k, k1, k2, rfl⟩, hub⟩ := hg
    refine ⟨⟨k, k1, by omega, fun i' h1 h2 => hx i' h1 (by omega), rfl⟩, ?_⟩
    rintro y ⟨k', h1, h2, _, rfl⟩
    exact hub ⟨k', h1, by omega, rfl⟩
  | n + 1, a, (i, mx), hs, hj, hx, hg, hi => by
    rw [List.range'_succ]
    simp only at hg hi
    by_cases h : x a ≥ t
    · simp only [scan, if_pos h]
      obtain ⟨⟨k, k1, k2, rfl⟩, hub⟩ := hg
      constructor
      · split_ifs with hc
        · exact ⟨k, k1, by omega, fun i' h1 h2 => hx i' h1 (by omega), rfl⟩
        · exact ⟨a, by omega, by omega, fun i' h1 h2 => hx i' h1 h2, rfl⟩
      · rintro y ⟨k', h1, h2, h3, rfl⟩
        have hk' : k' ≤ a := by
          by_contra hc
          exact absurd (h3 a hj (by omega)) (not_lt.2 h)
        have key : m0 k' ≤ max (m0 k) (m0 a) := by
          rcases Nat.lt_or_eq_of_le hk' with hk' | rfl
          · exact (hub ⟨k', h1, hk', rfl⟩).trans (le_max_left _ _)
          · exact le_max_right _ _
        split_ifs with hc
        · exact key.trans (max_le (le_refl _) hc)
        · exact key.trans (max_le (by omega) (le_refl _))
    · have e : scan x m0 t (a :: List.range' (a + 1) n) (i, mx) =
          scan x m0 t (List.range' (a + 1) n) (i, if mx ≥ m0 a then mx else m0 a) := by rw [scan, if_neg h]
      rw [e]
      refine scan_spec x m0 t s j n (a + 1) _ (by omega) (by omega) ?_ ?_ hi
      · intro i' h1 h2
        rcases Nat.lt_or_eq_of_le (Nat.lt_succ_iff.1 h2) with h2 | rfl
        · exact hx i' h1 h2
        · exact not_le.1 h
      · obtain ⟨⟨k, k1, k2, rfl⟩, hub⟩ := hg
        simp only
        constructor
        · split_ifs with hc
          · exact ⟨k, k1, by omega, rfl⟩
          · exact ⟨a, by omega, by omega, rfl⟩
        · rintro y ⟨k', h1, h2, rfl⟩
          have key : m0 k' ≤ max (m0 k) (m0 a) := by
            rcases Nat.lt_or_eq_of_le (Nat.lt_succ_iff.1 h2) with h2 | rfl
            · exact (hub ⟨k', h1, h2, rfl⟩).trans (le_max_left _ _)
            · exact le_max_right _ _
          split_ifs with hc
          · exact key.trans (max_le (le_refl _) hc)
          · exact key.trans (max_le (by omega) (le_refl _))

theorem angles_spec (T : PlaneTable) (t : ℝ) (j : ℕ) (hj : j < T.s) : IsGreatest (candidates T t j) (angles T t j) := by
  have := scan_spec T.rule.lam T.rule.m t T.s j (T.s - (j + 1)) (j + 1) (j, T.rule.m j) (by omega) (by omega)
    (fun i h1 h2 => by omega) ⟨⟨j, le_refl _, by omega, rfl⟩, by rintro y ⟨k, h1, h2, rfl⟩; rw [show k = j by omega]⟩ rfl
  have e : (List.range T.s).drop (j + 1) = List.range' (j + 1) (T.s - (j + 1)) := by
    rw [List.range_eq_range', List.drop_range']; congr 1; omega
  rw [angles, e]
  exact this

theorem candidates_mono (T : PlaneTable) {t t' : ℝ} (h : t ≤ t') (j : ℕ) : candidates T t j ⊆ candidates T t' j := by
  rintro n ⟨k, h1, h2, h3, h4⟩
  exact ⟨k, h1, h2, fun i a b => (h3 i a b).trans_le h, h4⟩

theorem angles_mono (T : PlaneTable) {t t' : ℝ} (h : t ≤ t') (j : ℕ) (hj : j < T.s) : angles T t j ≤ angles T t' j :=
  (angles_spec T t' j hj).2 (candidates_mono T h j (angles_spec T t j hj).1)

theorem angles_even {T : PlaneTable} (hT : T.Ok) (t : ℝ) (j : ℕ) (hj : j < T.s) : 0 < angles T t j ∧ angles T t j % 2 = 0 := by
  obtain ⟨k, _, hk, _, e⟩ := (angles_spec T t j hj).1
  rw [e]
  exact hT.even k hk

/-! ### Places -/

theorem running_mono {c d : ℕ → ℕ} : ∀ {n : ℕ}, (∀ k < n, c k ≤ d k) → running c n ≤ running d n
  | 0, _ => le_refl _
  | n + 1, h => Nat.add_le_add (running_mono fun k hk => h k (by omega)) (h n (by omega))

theorem running_le (c : ℕ → ℕ) : ∀ n, (∀ k < n, 1 ≤ c k) → n ≤ running c n
  | 0, _ => le_refl _
  | n + 1, h => Nat.add_le_add (running_le c n fun k hk => h k (by omega)) (h n (by omega))

theorem running_const (c : ℕ) : ∀ n, running (fun _ => c) n = c * n
  | 0 => rfl
  | n + 1 => by rw [running, running_const c n]; ring

/-- A table with `w` entries for each expansion entry. -/
theorem grid_at {α : Type} (s : ℕ) (cnt : ℕ → ℕ) (w : ℕ) (g : ℕ → ℕ → ℕ → α) :
    ((List.range s).flatMap fun k => (List.range (cnt k)).flatMap fun j => (List.range w).map (g k j)).length = w * running cnt s ∧
    ∀ k < s, ∀ j < cnt k, ∀ i < w,
      ((List.range s).flatMap fun k => (List.range (cnt k)).flatMap fun j => (List.range w).map (g k j))[
        (running cnt k + j) * w + i]? = some (g k j i) := by
  have := flatMap_at (fun k => (List.range (cnt k)).flatMap fun j => (List.range w).map (g k j))
    (fun k => w * running cnt k) (by show w * 0 = 0; simp) s
    (fun k hk => by simp only [blocks_length, running]; ring)
  refine ⟨this.1, fun k hk j hj i hi => ?_⟩
  have := this.2 k hk (w * j + i) _ (blocks_at (g k) w (cnt k) j i hj hi)
  rw [← this]; congr 1; ring

/-- A table with `w k` entries for each angle of the node `k`. -/
theorem grid_var {α : Type} (s : ℕ) (cnt w S : ℕ → ℕ) (h0 : S 0 = 0) (hS : ∀ k < s, S (k + 1) = S k + w k * cnt k) (g : ℕ → ℕ → ℕ → α) :
    ((List.range s).flatMap fun k => (List.range (cnt k)).flatMap fun j => (List.range (w k)).map (g k j)).length = S s ∧
    ∀ k < s, ∀ j < cnt k, ∀ i < w k,
      ((List.range s).flatMap fun k => (List.range (cnt k)).flatMap fun j => (List.range (w k)).map (g k j))[
        S k + j * w k + i]? = some (g k j i) := by
  have := flatMap_at (fun k => (List.range (cnt k)).flatMap fun j => (List.range (w k)).map (g k j)) S h0 s
    (fun k hk => by simp only [blocks_length]; rw [hS k hk])
  refine ⟨this.1, fun k hk j hj i hi => ?_⟩
  have := this.2 k hk (w k * j + i) _ (blocks_at (g k) (w k) (cnt k) j i hj hi)
  rw [← this]; congr 1; ring

theorem arrayOf_at (s : ℕ) (cnt : ℕ → ℕ) (W : Wave) : (arrayOf s cnt W).length = running cnt s ∧ Holds s cnt (arrayOf s cnt W) W := by
  have := flatMap_at (fun k => (List.range (cnt k)).map fun j => W k (j + 1)) (running cnt) rfl s
    (fun k _ => by simp [running])
  exact ⟨this.1, fun k hk j hj => this.2 k hk j _ (map_at _ _ j hj)⟩

theorem entries_at (s : ℕ) (cnt : ℕ → ℕ) : (entries s cnt).length = running cnt s ∧
    ∀ k < s, ∀ j < cnt k, (entries s cnt)[running cnt k + j]? = some (k, j) := by
  have := flatMap_at (fun k => (List.range (cnt k)).map fun j => (k, j)) (running cnt) rfl s
    (fun k _ => by simp [running])
  exact ⟨this.1, fun k hk j hj => this.2 k hk j _ (map_at _ _ j hj)⟩

theorem entries_nodup (s : ℕ) (cnt : ℕ → ℕ) : (entries s cnt).Nodup := by
  rw [entries, List.nodup_flatMap]
  refine ⟨fun k _ => (List.nodup_range).map fun a b h => by simpa using h, ?_⟩
  refine List.Pairwise.imp ?_ List.nodup_range
  intro a b hab
  simp only [Function.onFun, List.disjoint_left, List.mem_map, List.mem_range, not_exists, not_and]
  rintro ⟨x, y⟩ ⟨j, _, e⟩ j' _ e'
  simp only [Prod.mk.injEq] at e e'
  omega

theorem entries_inv {s : ℕ} {cnt : ℕ → ℕ} {k j i : ℕ} (h : (entries s cnt)[i]? = some (k, j)) :
    k < s ∧ j < cnt k ∧ i = running cnt k + j := by
  have hm := List.mem_of_getElem? h
  simp only [entries, List.mem_flatMap, List.mem_range, List.mem_map, Prod.mk.injEq] at hm
  obtain ⟨k', hk', j', hj', rfl, rfl⟩ := hm
  refine ⟨hk', hj', ?_⟩
  have h2 := (entries_at s cnt).2 k' hk' j' hj'
  have hi := (List.getElem?_eq_some_iff.1 h).1
  have hi2 := (List.getElem?_eq_some_iff.1 h2).1
  refine (List.Nodup.getElem_inj_iff (entries_nodup s cnt) (hi := hi) (hj := hi2)).1 ?_
  rw [(List.getElem?_eq_some_iff.1 h).2, (List.getElem?_eq_some_iff.1 h2).2]

theorem place_lt {s : ℕ} {cnt : ℕ → ℕ} {k j : ℕ} (hk : k < s) (hj : j < cnt k) : running cnt k + j < running cnt s := by
  have := (List.getElem?_eq_some_iff.1 ((entries_at s cnt).2 k hk j hj)).1
  rwa [(entries_at s cnt).1] at this

/-! ### Adding to arrays -/

theorem addAt_some {M : List ℂ} {i : ℕ} (v : ℂ) (h : i < M.length) : ∃ M', addAt M i v = some M' ∧ M'.length = M.length ∧
    M'[i]? = some (M[i] + v) ∧ ∀ j, j ≠ i → M'[j]? = M[j]? := by
  refine ⟨M.set i (M[i] + v), by simp [addAt, List.getElem?_eq_getElem h], by simp, by simp [h], fun j hj => ?_⟩
  rw [List.getElem?_set_ne (Ne.symm hj)]

theorem foldlM_addAt {α : Type} (g : List ℂ → α × ℕ → Option (List ℂ)) (F : α → ℂ) : ∀ (l : List α) (n : ℕ) (M : List ℂ),
    (∀ M a i, l[i]? = some a → g M (a, n + i) = addAt M (n + i) (F a)) → n + l.length ≤ M.length →
    ∃ M', (l.zipIdx n).foldlM g M = some M' ∧ M'.length = M.length ∧ (∀ i < n, M'[i]? = M[i]?) ∧
      ∀ i a, l[i]? = some a → M'[n + i]? = (M[n + i]?).map (· + F a)
  | [], n, M, _, _ => ⟨M, rfl, rfl, fun _ _ => rfl, fun i a h => by simp at h⟩
  | a :: l, n, M, hg, hl => by
    rw [List.length_cons] at hl
    obtain ⟨M1, e1, l1, p1, q1⟩ := addAt_some (M := M) (i := n) (F a) (by omega)
    obtain ⟨M2, e2, l2, p2, q2⟩ := foldlM_addAt g F l (n + 1) M1 (fun M b i hb => by
      have := hg M b (i + 1) (by simpa using hb)
      rwa [show n + (i + 1) = n + 1 + i by ring] at this) (by omega)
    refine ⟨M2, ?_, by omega, fun i hi => ?_, ?_⟩
    · rw [List.zipIdx_cons, List.foldlM_cons, show g M (a, n) = some M1 from (hg M a 0 rfl).trans e1]
      exact e2
    · rw [p2 i (by omega), q1 i (by omega)]
    · intro i b hb
      cases i with
      | zero =>
        simp only [List.getElem?_cons_zero, Option.some.injEq] at hb
        subst hb
        rw [Nat.add_zero, p2 n (by omega), p1, List.getElem?_eq_getElem (by omega), Option.map_some]
      | succ i =>
        have := q2 i b (by simpa using hb)
        rw [show n + (i + 1) = n + 1 + i by ring, this, q1 _ (by omega)]

theorem foldlM_zipIdx {α : Type} (g : List ℂ → α → Option (List ℂ)) : ∀ (l : List α) (n : ℕ) (M : List ℂ),
    (l.zipIdx n).foldlM (fun M q => g M q.1) M = l.foldlM g M
  | [], _, _ => rfl
  | a :: l, n, M => by
    rw [List.zipIdx_cons, List.foldlM_cons, List.foldlM_cons]
    congr 1
    funext M
    exact foldlM_zipIdx g l (n + 1) M

/-- A loop over the entries that adds at the place of each entry. -/
theorem loop_holds {s : ℕ} {cnt : ℕ → ℕ} (g : List ℂ → (ℕ × ℕ) × ℕ → Option (List ℂ)) (F : Wave) {M : List ℂ} {A : Wave}
    (hM : Holds s cnt M A) (hl : running cnt s ≤ M.length)
    (hg : ∀ M, ∀ k < s, ∀ j < cnt k, g M ((k, j), running cnt k + j) = addAt M (running cnt k + j) (F k (j + 1))) :
    ∃ M', (entries s cnt).zipIdx.foldlM g M = some M' ∧ M'.length = M.length ∧ Holds s cnt M' (A + F) := by
  obtain ⟨M', e, l, -, q⟩ := foldlM_addAt g (fun q : ℕ × ℕ => F q.1 (q.2 + 1)) (entries s cnt) 0 M (fun M a i h => by
    obtain ⟨k, j⟩ := a
    obtain ⟨hk, hj, rfl⟩ := entries_inv h
    rw [Nat.zero_add]
    exact hg M k hk j hj) (by rw [(entries_at s cnt).1]; omega)
  refine ⟨M', e, l, fun k hk j hj => ?_⟩
  have := q _ _ ((entries_at s cnt).2 k hk j hj)
  rw [Nat.zero_add, hM k hk j hj] at this
  exact this

theorem Holds.zero (s : ℕ) (cnt : ℕ → ℕ) (n : ℕ) (h : running cnt s ≤ n) : Holds s cnt (List.replicate n 0) 0 := by
  intro k hk j hj
  rw [List.getElem?_replicate, if_pos ((place_lt hk hj).trans_le h)]
  rfl

theorem addView_holds {s : ℕ} {cnt : ℕ → ℕ} {M b : List ℂ} {A B : Wave} (hM : Holds s cnt M A) (hb : Holds s cnt b B)
    (hl : b.length ≤ M.length) : ∃ M', addView M b = some M' ∧ M'.length = M.length ∧ Holds s cnt M' (A + B) := by
  obtain ⟨M', e, l, -, q⟩ := foldlM_addAt (fun M (q : ℂ × ℕ) => addAt M q.2 q.1) id b 0 M (fun M a i _ => rfl) (by omega)
  refine ⟨M', e, l, fun k hk j hj => ?_⟩
  have := q _ _ (hb k hk j hj)
  rw [Nat.zero_add, hM k hk j hj] at this
  exact this

/-! ### The factors -/

theorem phase_eq (arg d : ℝ) : phase arg d = Complex.exp (I * (arg * d : ℝ)) := by
  rw [phase, mul_comm I, Complex.exp_mul_I, Complex.ofReal_cos, Complex.ofReal_sin]

theorem at_of {α : Type} {a : List α} {n : ℕ} {v : α} (h : a[n]? = some v) {i : ℤ} (hi : i = n) : at? a i = some v := by
  subst hi
  rw [at?, if_pos (by omega), Int.toNat_natCast, h]

theorem fill_seven (s : ℕ) (m cnt : ℕ → ℕ) (arg : ℕ → ℝ → ℝ) {k j : ℕ} (hk : k < s) (hj : j < cnt k) {x : ℤ} (h1 : -3 ≤ x) (h2 : x ≤ 3) :
    at? (fill s m cnt fun k alpha => seven (arg k alpha)) (((running cnt k + j : ℕ) : ℤ) * 7 + 3 + x) =
      some (phase (arg k (((j + 1 : ℕ) : ℝ) * (2 * Real.pi / m k))) x) := by
  have := (grid_at s cnt 7 fun k j i => phase (arg k (((j + 1 : ℕ) : ℝ) * (2 * Real.pi / m k))) (((i : ℤ) - 3 : ℤ) : ℝ)).2
    k hk j hj (3 + x).toNat (by omega)
  rw [show (((3 + x).toNat : ℕ) : ℤ) - 3 = x by omega] at this
  exact at_of this (by omega)

theorem fill_seven_length (s : ℕ) (m cnt : ℕ → ℕ) (arg : ℕ → ℝ → ℝ) :
    (fill s m cnt fun k alpha => seven (arg k alpha)).length = 7 * running cnt s :=
  (grid_at s cnt 7 fun k j i => phase (arg k (((j + 1 : ℕ) : ℝ) * (2 * Real.pi / m k))) (((i : ℤ) - 3 : ℤ) : ℝ)).1

section Half

variable (T : PlaneTable) (m : ℕ → ℕ) (kappa decay : ℕ → ℝ)

theorem half_zs {k : ℕ} (hk : k < T.s) {z : ℤ} (h1 : 0 ≤ z) (h2 : z ≤ 3) :
    at? (halfLevel T m kappa decay).zs (4 * (k : ℤ) + z) = some ((Real.exp (-decay k * z) : ℝ) : ℂ) := by
  have := blocks_at (fun k (i : ℕ) => ((Real.exp (-decay k * i) : ℝ) : ℂ)) 4 T.s k z.toNat hk (by omega)
  have e : ((z.toNat : ℕ) : ℝ) = (z : ℝ) := by
    have : ((z.toNat : ℕ) : ℤ) = z := by omega
    exact_mod_cast this
  rw [e] at this
  exact at_of this (by omega)

theorem half_xy {k j : ℕ} (hk : k < T.s) (h1 : 1 ≤ j) (h2 : j ≤ m k / 2) {d : ℤ} (d1 : -3 ≤ d) (d2 : d ≤ 3) :
    let L := halfLevel T m kappa decay
    at? L.xs (((L.sm k + (j - 1) : ℕ) : ℤ) * 7 + 3 + d) = some (phase (kappa k * Real.cos (L.angle k j)) d) ∧
    at? L.ys (((L.sm k + (j - 1) : ℕ) : ℤ) * 7 + 3 + d) = some (phase (kappa k * Real.sin (L.angle k j)) d) := by
  obtain ⟨j, rfl⟩ : ∃ i, j = i + 1 := ⟨j - 1, by omega⟩
  exact ⟨fill_seven T.s m (fun k => m k / 2) (fun k alpha => kappa k * Real.cos alpha) hk h2 d1 d2,
    fill_seven T.s m (fun k => m k / 2) (fun k alpha => kappa k * Real.sin alpha) hk h2 d1 d2⟩

theorem half_ea (hm : ∀ k < T.s, 0 < m k ∧ m k % 2 = 0) : let L := halfLevel T m kappa decay
    L.ealphaj.length = L.smf L.s ∧ ∀ k < L.s, ∀ j, 1 ≤ j → j ≤ L.m k / 2 → ∀ f, 1 ≤ f → f ≤ L.f k →
      L.ealphaj[L.smf k + (j - 1) * L.f k + f - 1]? = some (phase f (L.angle k j)) := by
  simp only [halfLevel, fill, freqs, Level.angle]
  have hS : ∀ k < T.s, running (fun k => m k * T.rule.f k / 2) (k + 1) =
      running (fun k => m k * T.rule.f k / 2) k + T.rule.f k * (m k / 2) := by
    intro k hk
    rw [running]
    obtain ⟨a, ha⟩ : ∃ a, m k = 2 * a := ⟨m k / 2, by have := (hm k hk).2; omega⟩
    rw [ha, show 2 * a * T.rule.f k = 2 * (T.rule.f k * a) by ring, Nat.mul_div_cancel_left _ (by norm_num),
      Nat.mul_div_cancel_left _ (by norm_num)]
  have hea := grid_var T.s (fun k => m k / 2) T.rule.f (running fun k => m k * T.rule.f k / 2) rfl hS
    (fun k j i => phase ((i + 1 : ℕ) : ℝ) (((j + 1 : ℕ) : ℝ) * (2 * Real.pi / m k)))
  refine ⟨hea.1, fun k hk j h1 h2 f f1 f2 => ?_⟩
  obtain ⟨j, rfl⟩ : ∃ i, j = i + 1 := ⟨j - 1, by omega⟩
  obtain ⟨f, rfl⟩ : ∃ i, f = i + 1 := ⟨f - 1, by omega⟩
  rw [Nat.add_sub_cancel, ← Nat.add_assoc, Nat.add_sub_cancel]
  exact hea.2 k hk j h2 f f2

/-- The factor of a shift. -/
noncomputable def halfFactor (x y z : ℤ) : Wave := fun k j =>
  planeWave (kappa k) (decay k) ((halfLevel T m kappa decay).angle k j) x y z

theorem half_factor (x y z : ℤ) (k j : ℕ) (w : ℂ) :
    w * ((Real.exp (-decay k * z) : ℝ) : ℂ) * phase (kappa k * Real.sin (((j + 1 : ℕ) : ℝ) * (2 * Real.pi / m k))) y *
      phase (kappa k * Real.cos (((j + 1 : ℕ) : ℝ) * (2 * Real.pi / m k))) x = w * halfFactor T m kappa decay x y z k (j + 1) := by
  have e : (halfLevel T m kappa decay).angle k (j + 1) = ((j + 1 : ℕ) : ℝ) * (2 * Real.pi / m k) := rfl
  rw [halfFactor, e, phase_eq, phase_eq, Complex.ofReal_exp, mul_assoc, mul_assoc, ← Complex.exp_add, ← Complex.exp_add, planeWave]
  congr 2
  push_cast
  ring

/-- `yuk_e_to_e`. -/
theorem yukEToE_holds {M W : List ℂ} {A B : Wave} (hM : Holds T.s (fun k => m k / 2) M A) (hl : running (fun k => m k / 2) T.s ≤ M.length)
    (hW : Holds T.s (fun k => m k / 2) W B) {x y z : ℤ} (hs : shiftInTable x y z) :
    ∃ M', yukEToE (halfLevel T m kappa decay) M W x y z = some M' ∧ M'.length = M.length ∧
      Holds T.s (fun k => m k / 2) M' (A + B * halfFactor T m kappa decay x y z) := by
  obtain ⟨⟨x1, x2⟩, ⟨y1, y2⟩, z1, z2⟩ := hs
  refine loop_holds _ _ hM hl fun M k hk j hj => ?_
  have e1 := half_zs T m kappa decay hk z1 (by omega)
  have e2 := fill_seven T.s m (fun k => m k / 2) (fun k alpha => kappa k * Real.cos alpha) hk hj (by omega : -3 ≤ x) (by omega)
  have e3 := fill_seven T.s m (fun k => m k / 2) (fun k alpha => kappa k * Real.sin alpha) hk hj (by omega : -3 ≤ y) (by omega)
  have e4 := hW k hk j hj
  simp only [halfLevel] at e1 ⊢
  simp only [e1, e2, e3, e4, Option.bind_eq_bind, Option.bind_some]
  rw [half_factor]; rfl

/-- `e2e_e`. -/
theorem evanEToE_holds {M W : List ℂ} {A B : Wave} (hM : Holds T.s (fun k => m k / 2) M A) (hl : running (fun k => m k / 2) T.s ≤ M.length)
    (hW : Holds T.s (fun k => m k / 2) W B) {x y z : ℤ} (hs : shiftInTable x y z) :
    ∃ M', evanEToE (halfLevel T m kappa decay) M W x y z = some M' ∧ M'.length = M.length ∧
      Holds T.s (fun k => m k / 2) M' (A + B * halfFactor T m kappa decay x y z) := by
  obtain ⟨⟨x1, x2⟩, ⟨y1, y2⟩, z1, z2⟩ := hs
  refine loop_holds _ _ hM hl fun M k hk j hj => ?_
  have e1 := half_zs T m kappa decay hk z1 (by omega)
  have e2 := fill_seven T.s m (fun k => m k / 2) (fun k alpha => kappa k * Real.cos alpha) hk hj (by omega : -3 ≤ x) (by omega)
  have e3 := fill_seven T.s m (fun k => m k / 2) (fun k alpha => kappa k * Real.sin alpha) hk hj (by omega : -3 ≤ y) (by omega)
  have e4 := hW k hk j hj
  simp only [halfLevel] at e1 ⊢
  simp only [e1, e2, e3, e4, Option.bind_eq_bind, Option.bind_some]
  rw [show ∀ a b c d : ℂ, a * b * (c * d) = a * b * d * c from fun a b c d => by ring, half_factor]; rfl

end Half

section Prop'

variable (s f : ℕ) (x : ℕ → ℝ) (wd : ℝ) (C2 : ℕ)

theorem prop_zs {k : ℕ} (hk : k < s) {c : ℤ} (h1 : -3 ≤ c) (h2 : c ≤ 3) :
    at? (propLevel s f x wd C2).zs (7 * (k : ℤ) + 3 + c) = some (phase (wd * Real.cos (x k)) c) := by
  have := blocks_at (fun k (i : ℕ) => phase (wd * Real.cos (x k)) (((i : ℤ) - 3 : ℤ) : ℝ)) 7 s k (3 + c).toNat hk (by omega)
  rw [show (((3 + c).toNat : ℕ) : ℤ) - 3 = c by omega] at this
  exact at_of this (by omega)

theorem prop_xy {k j : ℕ} (hk : k < s) (h1 : 1 ≤ j) (h2 : j ≤ 16 + C2) {d : ℤ} (d1 : -3 ≤ d) (d2 : d ≤ 3) :
    let L := propLevel s f x wd C2
    at? L.xs (((L.sm k + (j - 1) : ℕ) : ℤ) * 7 + 3 + d) = some (phase (wd * Real.sin (x k) * Real.cos (L.angle k j)) d) ∧
    at? L.ys (((L.sm k + (j - 1) : ℕ) : ℤ) * 7 + 3 + d) = some (phase (wd * Real.sin (x k) * Real.sin (L.angle k j)) d) := by
  obtain ⟨j, rfl⟩ : ∃ i, j = i + 1 := ⟨j - 1, by omega⟩
  exact ⟨fill_seven s (fun _ => 16 + C2) (fun _ => 16 + C2) (fun k alpha => wd * Real.sin (x k) * Real.cos alpha) hk h2 d1 d2,
    fill_seven s (fun _ => 16 + C2) (fun _ => 16 + C2) (fun k alpha => wd * Real.sin (x k) * Real.sin alpha) hk h2 d1 d2⟩

theorem prop_ea : let L := propLevel s f x wd C2
    L.ealphaj.length = L.smf L.s ∧ ∀ k < L.s, ∀ j, 1 ≤ j → j ≤ L.m k → ∀ g, 1 ≤ g → g ≤ L.f k →
      L.ealphaj[L.smf k + (j - 1) * L.f k + g - 1]? = some (phase g (L.angle k j)) := by
  simp only [propLevel, fill, freqs, Level.angle]
  have hS : ∀ k < s, running (fun _ => (16 + C2) * f) (k + 1) = running (fun _ => (16 + C2) * f) k + f * (16 + C2) := by
    intro k hk
    rw [running]; ring
  have hea := grid_var s (fun _ => 16 + C2) (fun _ => f) (running fun _ => (16 + C2) * f) rfl hS
    (fun k j i => phase ((i + 1 : ℕ) : ℝ) (((j + 1 : ℕ) : ℝ) * (2 * Real.pi / ((16 + C2 : ℕ) : ℝ))))
  refine ⟨hea.1, fun k hk j h1 h2 g g1 g2 => ?_⟩
  obtain ⟨j, rfl⟩ : ∃ i, j = i + 1 := ⟨j - 1, by omega⟩
  obtain ⟨g, rfl⟩ : ∃ i, g = i + 1 := ⟨g - 1, by omega⟩
  rw [Nat.add_sub_cancel, ← Nat.add_assoc, Nat.add_sub_cancel]
  exact hea.2 k hk j h2 g g2

/-- The factor of a shift. -/
noncomputable def propFactor (a b c : ℤ) : Wave := fun k j =>
  travelWave (wd * Real.sin (x k)) (wd * Real.cos (x k)) ((propLevel s f x wd C2).angle k j) a b c

/-- The numbers, or their conjugates. -/
noncomputable def conjIf (conj : Bool) (W : Wave) : Wave := fun k j => if conj then starRingEnd ℂ (W k j) else W k j

theorem propEToE_holds (conj : Bool) {M W : List ℂ} {A B : Wave} (hM : Holds s (fun _ => 16 + C2) M A)
    (hl : running (fun _ => 16 + C2) s ≤ M.length) (hW : Holds s (fun _ => 16 + C2) W B) {a b c : ℤ}
    (ha : -3 ≤ a ∧ a ≤ 3) (hb : -3 ≤ b ∧ b ≤ 3) (hc : -3 ≤ c ∧ c ≤ 3) :
    ∃ M', propEToE (propLevel s f x wd C2) conj M W a b c = some M' ∧ M'.length = M.length ∧
      Holds s (fun _ => 16 + C2) M' (A + conjIf conj B * propFactor s f x wd C2 a b c) := by
  rw [propEToE, ← foldlM_zipIdx _ _ 0]
  refine loop_holds _ _ hM hl fun M k hk j hj => ?_
  have e1 := prop_zs s f x wd C2 hk hc.1 hc.2
  have e2 := fill_seven s (fun _ => 16 + C2) (fun _ => 16 + C2) (fun k alpha => wd * Real.sin (x k) * Real.cos alpha) hk hj ha.1 ha.2
  have e3 := fill_seven s (fun _ => 16 + C2) (fun _ => 16 + C2) (fun k alpha => wd * Real.sin (x k) * Real.sin alpha) hk hj hb.1 hb.2
  have e4 := hW k hk j hj
  simp only [propLevel] at e1 ⊢
  simp only [e1, e2, e3, e4, Option.bind_eq_bind, Option.bind_some]
  congr 1
  show _ = (if conj then starRingEnd ℂ (B k (j + 1)) else B k (j + 1)) * propFactor s f x wd C2 a b c k (j + 1)
  have e : (propLevel s f x wd C2).angle k (j + 1) = ((j + 1 : ℕ) : ℝ) * (2 * Real.pi / ((16 + C2 : ℕ) : ℝ)) := rfl
  rw [propFactor, e, phase_eq, phase_eq, phase_eq, mul_assoc, ← Complex.exp_add, ← Complex.exp_add, travelWave]
  congr 2
  push_cast
  ring

end Prop'

end Dashmm.Waves
