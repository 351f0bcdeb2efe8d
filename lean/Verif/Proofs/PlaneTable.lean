import Verif.Spec.PlaneTable
import Mathlib.Tactic.Ring

/-!
Where the entries of the flat arrays are.
-/

namespace Dashmm.Lap

theorem flatMap_at {α : Type} (g : ℕ → List α) (S : ℕ → ℕ) (h0 : S 0 = 0) : ∀ n, (∀ k < n, S (k + 1) = S k + (g k).length) →
    ((List.range n).flatMap g).length = S n ∧
      ∀ k < n, ∀ i x, (g k)[i]? = some x → ((List.range n).flatMap g)[S k + i]? = some x
  | 0, _ => by simp [h0]
  | n + 1, h => by
    obtain ⟨h1, h2⟩ := flatMap_at g S h0 n fun k hk => h k (by omega)
    rw [List.range_succ, List.flatMap_append, List.flatMap_singleton]
    refine ⟨by rw [List.length_append, h1, h n (by omega)], fun k hk i x hx => ?_⟩
    rcases Nat.lt_succ_iff_lt_or_eq.1 hk with hk | rfl
    · have := h2 k hk i x hx
      rw [List.getElem?_append_left (List.getElem?_eq_some_iff.1 this).1, this]
    · rw [List.getElem?_append_right (by omega), h1, Nat.add_sub_cancel_left, hx]

theorem map_at {α : Type} (g : ℕ → α) (n i : ℕ) (h : i < n) : ((List.range n).map g)[i]? = some (g i) := by
  simp [h]

/-- The blocks of equal length. -/
theorem blocks_at {α : Type} (g : ℕ → ℕ → α) (w n j i : ℕ) (hj : j < n) (hi : i < w) :
    ((List.range n).flatMap fun j => (List.range w).map (g j))[w * j + i]? = some (g j i) := by
  have := (flatMap_at (fun j => (List.range w).map (g j)) (fun j => w * j) (by simp) n (fun k _ => by simp; ring)).2 j hj i _
    (map_at (g j) w i hi)
  simpa using this

theorem blocks_length {α : Type} (g : ℕ → ℕ → α) (w n : ℕ) :
    ((List.range n).flatMap fun j => (List.range w).map (g j)).length = w * n := by
  have := (flatMap_at (fun j => (List.range w).map (g j)) (fun j => w * j) (by simp) n (fun k _ => by simp; ring)).1
  simpa using this

namespace PlaneTable

variable {T : PlaneTable} (h : T.Ok)

include h

theorem Ok.ruleEven : T.rule.Even := fun k hk => h.even k hk

/-- A table with `w` entries for each expansion entry. -/
theorem Ok.grid {α : Type} (w : ℕ) (g : ℕ → ℕ → ℕ → α) :
    ((List.range T.s).flatMap fun k => (List.range (T.rule.m k / 2)).flatMap fun j => (List.range w).map (g k j)).length =
      w * T.nexp ∧
    ∀ k < T.s, ∀ j < T.rule.m k / 2, ∀ i < w,
      ((List.range T.s).flatMap fun k => (List.range (T.rule.m k / 2)).flatMap fun j => (List.range w).map (g k j))[
        (T.sm.getD k 0 + j) * w + i]? = some (g k j i) := by
  have := flatMap_at (fun k => (List.range (T.rule.m k / 2)).flatMap fun j => (List.range w).map (g k j))
    (fun k => w * T.sm.getD k 0) (by show w * T.sm.getD 0 0 = 0; rw [h.sm0, Nat.mul_zero]) T.s
    (fun k hk => by simp only [blocks_length]; rw [h.smS k hk]; simp only [rule]; ring)
  refine ⟨by rw [this.1, h.nexp], fun k hk j hj i hi => ?_⟩
  have := this.2 k hk (w * j + i) _ (blocks_at (g k) w (T.rule.m k / 2) j i hj hi)
  rw [← this]; congr 1; ring

theorem Ok.xs_at : T.xsArr.length = 7 * T.nexp ∧ ∀ k < T.s, ∀ j < T.rule.m k / 2, ∀ i < 7,
    T.xsArr[(T.sm.getD k 0 + j) * 7 + i]? = some (T.rule.xs k (j + 1) ((i : ℤ) - 3)) :=
  h.grid 7 fun k j i => T.rule.xs k (j + 1) ((i : ℤ) - 3)

theorem Ok.ys_at : T.ysArr.length = 7 * T.nexp ∧ ∀ k < T.s, ∀ j < T.rule.m k / 2, ∀ i < 7,
    T.ysArr[(T.sm.getD k 0 + j) * 7 + i]? = some (T.rule.ys k (j + 1) ((i : ℤ) - 3)) :=
  h.grid 7 fun k j i => T.rule.ys k (j + 1) ((i : ℤ) - 3)

theorem Ok.flat_at (W : Wave) : (T.flat W).length = T.nexp ∧ ∀ k < T.s, ∀ j < T.rule.m k / 2,
    (T.flat W)[T.sm.getD k 0 + j]? = some (W k (j + 1)) := by
  have := flatMap_at (fun k => (List.range (T.rule.m k / 2)).map fun j => W k (j + 1)) (fun k => T.sm.getD k 0) h.sm0 T.s
    (fun k hk => by rw [h.smS k hk]; simp [rule])
  exact ⟨by rw [flat, this.1, h.nexp], fun k hk j hj => this.2 k hk j _ (map_at _ _ j hj)⟩

theorem Ok.ea_at : T.eaArr.length = T.smf.getD T.s 0 ∧ ∀ k < T.s, ∀ j < T.rule.m k / 2, ∀ i < T.rule.f k,
    T.eaArr[T.smf.getD k 0 + j * T.rule.f k + i]? = some (T.rule.ealpha k (j + 1) (i + 1)) := by
  have := flatMap_at (fun k => (List.range (T.rule.m k / 2)).flatMap fun j =>
      (List.range (T.rule.f k)).map fun i => T.rule.ealpha k (j + 1) (i + 1))
    (fun k => T.smf.getD k 0) h.smf0 T.s (fun k hk => by
      have e := blocks_length (fun j i => T.rule.ealpha k (j + 1) (i + 1)) (T.rule.f k) (T.rule.m k / 2)
      simp only [e]; rw [h.smfS k hk]; simp only [rule]; ring)
  refine ⟨this.1, fun k hk j hj i hi => ?_⟩
  have := this.2 k hk (T.rule.f k * j + i) _ (blocks_at (fun j i => T.rule.ealpha k (j + 1) (i + 1)) _ _ j i hj hi)
  rw [eaArr, ← this]; congr 1; ring

omit h in
theorem zs_at (T : PlaneTable) : T.zsArr.length = 4 * T.s ∧ ∀ k < T.s, ∀ i < 4, T.zsArr[4 * k + i]? = some (T.rule.zs k i) :=
  ⟨blocks_length (fun k i => T.rule.zs k i) 4 T.s, fun k hk i hi => blocks_at (fun k i => T.rule.zs k i) 4 T.s k i hk hi⟩

omit h in
theorem lam_at (T : PlaneTable) (p : ℕ) : (T.lamArr p).length = T.s * ((p + 1) * (p + 2) / 2) ∧
    ∀ k < T.s, ∀ n ≤ p, ∀ m ≤ n, (T.lamArr p)[k * ((p + 1) * (p + 2) / 2) + (n * (n + 1) / 2 + m)]? = some (T.rule.lamknm k n m) := by
  have tri : ∀ n, (n + 1) * (n + 1 + 1) / 2 = n * (n + 1) / 2 + (n + 1) := by
    intro n
    rw [show (n + 1) * (n + 1 + 1) = n * (n + 1) + (n + 1) * 2 by ring, Nat.add_mul_div_right _ _ (by norm_num)]
  have inner := fun k => flatMap_at (fun n => (List.range (n + 1)).map fun m => T.rule.lamknm k n m) (fun n => n * (n + 1) / 2)
    (by simp) (p + 1) (fun n _ => by rw [tri]; simp)
  have := flatMap_at (fun k => (List.range (p + 1)).flatMap fun n => (List.range (n + 1)).map fun m => T.rule.lamknm k n m)
    (fun k => k * ((p + 1) * (p + 2) / 2)) (by simp) T.s (fun k _ => by rw [(inner k).1]; ring)
  refine ⟨this.1, fun k hk n hn m hm => ?_⟩
  exact this.2 k hk _ _ ((inner k).2 n (by omega) m _ (map_at _ _ m (by omega)))

omit h in
theorem mapM_zipIdx {α β : Type} (g : α × ℕ → Option β) (F : α → β) : ∀ (l : List α) (n : ℕ),
    (∀ a i, l[i]? = some a → g (a, n + i) = some (F a)) → ((l.zipIdx n).mapM g : Option (List β)) = some (l.map F)
  | [], _, _ => rfl
  | a :: l, n, hl => by
    have h1 := hl a 0 rfl
    have h2 := mapM_zipIdx g F l (n + 1) fun b i hb => by
      have := hl b (i + 1) (by simpa using hb)
      rwa [show n + (i + 1) = n + 1 + i by ring] at this
    rw [List.zipIdx_cons, List.mapM_cons, show g (a, n) = some (F a) from h1, h2]; rfl

omit h in
theorem pairs_inv (T : PlaneTable) (W : Wave) {k j i : ℕ} (hi :
    ((List.range T.s).flatMap fun k => (List.range (T.rule.m k / 2)).map fun j => (k, j))[i]? = some (k, j)) :
    k < T.s ∧ j < T.rule.m k / 2 ∧ (T.flat W)[i]? = some (W k (j + 1)) := by
  have hm := List.mem_of_getElem? hi
  simp only [List.mem_flatMap, List.mem_range, List.mem_map, Prod.mk.injEq] at hm
  obtain ⟨k', hk', j', hj', rfl, rfl⟩ := hm
  refine ⟨hk', hj', ?_⟩
  have e : T.flat W = ((List.range T.s).flatMap fun k => (List.range (T.rule.m k / 2)).map fun j => (k, j)).map
      fun q => W q.1 (q.2 + 1) := by
    rw [List.map_flatMap, flat]
    refine List.flatMap_congr fun k _ => ?_
    rw [List.map_map]; rfl
  rw [e, List.getElem?_map, hi]; rfl

/-- `lap_e_to_e` on arrays is `eToE`. -/
theorem Ok.eToE_arr (W : Wave) (x y z : ℤ) (hs : shiftInTable x y z) :
    T.eToEArr (T.flat W) x y z = some (T.flat (eToE T.rule W x y z)) := by
  obtain ⟨⟨x1, x2⟩, ⟨y1, y2⟩, z1, z2⟩ := hs
  have key := mapM_zipIdx (fun q : (ℕ × ℕ) × ℕ => do
      let factorZ ← at? T.zsArr (4 * q.1.1 + z)
      let sidx : ℤ := ((T.sm.getD q.1.1 0 + q.1.2 : ℕ) : ℤ) * 7 + 3
      let factorX ← at? T.xsArr (sidx + x)
      let factorY ← at? T.ysArr (sidx + y)
      let w ← (T.flat W)[q.2]?
      some (w * (factorZ : ℂ) * factorY * factorX)) (fun q => eToE T.rule W x y z q.1 (q.2 + 1))
    ((List.range T.s).flatMap fun k => (List.range (T.rule.m k / 2)).map fun j => (k, j)) 0 ?_
  · refine Eq.trans key ?_
    congr 1
    rw [List.map_flatMap, flat]
    refine List.flatMap_congr fun k _ => ?_
    rw [List.map_map]; rfl
  · rintro ⟨k, j⟩ i hi
    obtain ⟨hk, hj, hw⟩ := pairs_inv T W hi
    have e1 : at? T.zsArr (4 * (k : ℤ) + z) = some (T.rule.zs k z) := by
      rw [at?, if_pos (by omega)]
      have := (zs_at T).2 k hk z.toNat (by omega)
      rw [show ((z.toNat : ℕ) : ℤ) = z by omega] at this
      rw [← this]; congr 1; omega
    have e2 : at? T.xsArr (((T.sm.getD k 0 + j : ℕ) : ℤ) * 7 + 3 + x) = some (T.rule.xs k (j + 1) x) := by
      rw [at?, if_pos (by omega)]
      have := h.xs_at.2 k hk j hj (3 + x).toNat (by omega)
      rw [show ((3 + x).toNat : ℤ) - 3 = x by omega] at this
      rw [← this]; congr 1; omega
    have e3 : at? T.ysArr (((T.sm.getD k 0 + j : ℕ) : ℤ) * 7 + 3 + y) = some (T.rule.ys k (j + 1) y) := by
      rw [at?, if_pos (by omega)]
      have := h.ys_at.2 k hk j hj (3 + y).toNat (by omega)
      rw [show ((3 + y).toNat : ℤ) - 3 = y by omega] at this
      rw [← this]; congr 1; omega
    simp only [e1, e2, e3, Nat.zero_add, hw, Option.bind_eq_bind, Option.bind_some]
    rfl

end PlaneTable

theorem table3_ok : table3.Ok := by constructor <;> decide +kernel
theorem table6_ok : table6.Ok := by constructor <;> decide +kernel
theorem table9_ok : table9.Ok := by constructor <;> decide +kernel

end Dashmm.Lap
