import Verif.Proofs.Hilbert
import Verif.Proofs.Partition
import Mathlib.Data.List.Perm.Subperm
import Mathlib.Data.List.Nodup
import Mathlib.Algebra.BigOperators.Group.List.Basic
namespace Dashmm
namespace Hilbert

theorem foldl_set_map_length {α : Type} (l : List α) (k v : α → Nat) (r : List Nat) :
    (l.foldl (fun r a => r.set (k a) (v a)) r).length = r.length := by
  induction l generalizing r with
  | nil => rfl
  | cons a l ih => rw [List.foldl_cons, ih]; simp

theorem foldl_set_map_other {α : Type} (l : List α) (k v : α → Nat) (r : List Nat) (j : Nat)
    (h : ∀ a ∈ l, k a ≠ j) : (l.foldl (fun r a => r.set (k a) (v a)) r).getD j 0 = r.getD j 0 := by
  induction l generalizing r with
  | nil => rfl
  | cons a l ih =>
    rw [List.foldl_cons, ih _ fun b hb => h b (by simp [hb])]
    have := h a (by simp)
    simp [List.getD_eq_getElem?_getD, List.getElem?_set_ne this]

theorem foldl_set_map {α : Type} (l : List α) (k v : α → Nat) (r : List Nat)
    (inj : ∀ a ∈ l, ∀ b ∈ l, k a = k b → a = b) (a : α) (ha : a ∈ l) (hk : k a < r.length) :
    (l.foldl (fun r a => r.set (k a) (v a)) r).getD (k a) 0 = v a := by
  induction l generalizing r with
  | nil => cases ha
  | cons b l ih =>
    rw [List.foldl_cons]
    by_cases hal : a ∈ l
    · exact ih _ (fun x hx y hy => inj x (by simp [hx]) y (by simp [hy])) hal (by simpa using hk)
    · have hab : a = b := by
        rcases List.mem_cons.1 ha with h | h
        · exact h
        · exact absurd h hal
      subst hab
      rw [foldl_set_map_other]
      · simp [hk]
      · intro x hx he
        have := inj x (by simp [hx]) a (by simp) he
        subst this
        exact hal hx

theorem foldl_pair {α β γ : Type} (l : List α) (f : β → α → β) (g : γ → α → γ) (b : β) (c : γ) :
    l.foldl (fun p a => (f p.1 a, g p.2 a)) (b, c) = (l.foldl f b, l.foldl g c) := by
  induction l generalizing b c with
  | nil => rfl
  | cons a l ih => rw [List.foldl_cons, ih]; rfl

theorem mem_cells {klen : Nat} {c : Nat × Nat × Nat} :
    c ∈ cells klen ↔ c.1 < klen ∧ c.2.1 < klen ∧ c.2.2 < klen := by
  obtain ⟨x, y, z⟩ := c
  simp only [cells, List.mem_flatMap, List.mem_map, List.mem_range, Prod.mk.injEq]
  constructor
  · rintro ⟨z', hz, y', hy, x', hx, rfl, rfl, rfl⟩
    exact ⟨hx, hy, hz⟩
  · rintro ⟨hx, hy, hz⟩
    exact ⟨z, hz, y, hy, x, hx, rfl, rfl, rfl⟩

theorem cellPos_inj {klen : Nat} {c c' : Nat × Nat × Nat} (hc : c ∈ cells klen)
    (hc' : c' ∈ cells klen) (h : cellPos klen c = cellPos klen c') : c = c' := by
  obtain ⟨x, y, z⟩ := c
  obtain ⟨x', y', z'⟩ := c'
  rw [mem_cells] at hc hc'
  simp only [cellPos] at hc hc' h
  have e : ∀ x y z : Nat, x + (z * klen * klen + y * klen) = klen * (klen * z + y) + x := by
    intro x y z; ring
  rw [e, e] at h
  obtain ⟨h1, rfl⟩ := digit_eq hc.1 hc'.1 h
  obtain ⟨rfl, rfl⟩ := digit_eq hc.2.1 hc'.2.1 h1
  rfl

theorem cellPos_lt {klen : Nat} {c : Nat × Nat × Nat} (hc : c ∈ cells klen) :
    cellPos klen c < klen ^ 3 := by
  obtain ⟨x, y, z⟩ := c
  rw [mem_cells] at hc
  simp only [cellPos] at hc ⊢
  have h1 : (z + 1) * klen ≤ klen * klen := Nat.mul_le_mul_right _ hc.2.2
  have h2 : (y + 1) * klen ≤ klen * klen := Nat.mul_le_mul_right _ hc.2.1
  have h3 : (z + 1) * klen * klen ≤ klen * klen * klen := Nat.mul_le_mul_right _ h1
  have e1 : (z + 1) * klen * klen = z * klen * klen + klen * klen := by ring
  have e2 : (y + 1) * klen = y * klen + klen := by ring
  have e3 : klen ^ 3 = klen * klen * klen := by ring
  omega

theorem cellPos_surj {klen : Nat} {i : Nat} (h : i < klen ^ 3) :
    ∃ c ∈ cells klen, cellPos klen c = i := by
  have hk : 0 < klen := by
    rcases Nat.eq_zero_or_pos klen with rfl | h'
    · simp at h
    · exact h'
  refine ⟨(i % klen, i / klen % klen, i / klen / klen), ?_, ?_⟩
  · rw [mem_cells]
    refine ⟨Nat.mod_lt _ hk, Nat.mod_lt _ hk, ?_⟩
    rw [Nat.div_div_eq_div_mul]
    rw [Nat.div_lt_iff_lt_mul (by positivity)]
    calc i < klen ^ 3 := h
      _ = klen * (klen * klen) := by ring
  · simp only [cellPos]
    have h1 := Nat.div_add_mod i klen
    have h2 := Nat.div_add_mod (i / klen) klen
    calc i % klen + (i / klen / klen * klen * klen + i / klen % klen * klen)
        = klen * (klen * (i / klen / klen) + i / klen % klen) + i % klen := by ring
      _ = i := by rw [h2, h1]

/-- The key of a cell. -/
def ckey (lvl : Nat) (c : Nat × Nat × Nat) : Nat := key c.1 c.2.1 c.2.2 (2 ^ lvl)

theorem ckey_lt (lvl : Nat) (c) : ckey lvl c < 8 ^ lvl := loop_lt _ _ _ _ _

theorem ckey_inj {lvl : Nat} {c c' : Nat × Nat × Nat} (hc : c ∈ cells (2 ^ lvl))
    (hc' : c' ∈ cells (2 ^ lvl)) (h : ckey lvl c = ckey lvl c') : c = c' := by
  obtain ⟨x, y, z⟩ := c
  obtain ⟨x', y', z'⟩ := c'
  rw [mem_cells] at hc hc'
  have h1 := loop_inj lvl states_id h
  have a0 := h1 0
  have a1 := h1 1
  have a2 := h1 2
  simp only [axis, Matrix.cons_val_zero, Matrix.cons_val_one, Matrix.cons_val] at a0 a1 a2
  rw [Nat.mod_eq_of_lt hc.1, Nat.mod_eq_of_lt hc'.1] at a0
  rw [Nat.mod_eq_of_lt hc.2.1, Nat.mod_eq_of_lt hc'.2.1] at a1
  rw [Nat.mod_eq_of_lt hc.2.2, Nat.mod_eq_of_lt hc'.2.2] at a2
  simp only at a0 a1 a2
  subst a0 a1 a2
  rfl

theorem ckey_surj {lvl v : Nat} (h : v < 8 ^ lvl) : ∃ c ∈ cells (2 ^ lvl), ckey lvl c = v := by
  obtain ⟨x, y, z, hx, hy, hz, hv⟩ := loop_surj lvl states_id v h
  exact ⟨(x, y, z), mem_cells.2 ⟨hx, hy, hz⟩, hv⟩

theorem cube_eq (lvl : Nat) : (2 ^ lvl) ^ 3 = 8 ^ lvl := by
  rw [← Nat.pow_mul, Nat.mul_comm, Nat.pow_mul]

/-- Points in the cell at a position. -/
def weight (s t : List Nat) (i : Nat) : Nat := s.getD i 0 + t.getD i 0

section
variable {s t : List Nat} {lvl : Nat}

theorem gather_fst : (gather (ckey lvl) s t (2 ^ lvl)).1
    = (cells (2 ^ lvl)).foldl (fun r c => r.set (ckey lvl c) (weight s t (cellPos (2 ^ lvl) c)))
      (List.replicate s.length 0) := by
  unfold gather weight
  exact congrArg Prod.fst (foldl_pair (cells (2 ^ lvl))
    (fun (r : List Nat) c =>
      r.set (ckey lvl c) (s.getD (cellPos (2 ^ lvl) c) 0 + t.getD (cellPos (2 ^ lvl) c) 0))
    (fun (r : List Nat) c => r.set (ckey lvl c) (cellPos (2 ^ lvl) c)) _ _)

theorem gather_snd : (gather (ckey lvl) s t (2 ^ lvl)).2
    = (cells (2 ^ lvl)).foldl (fun r c => r.set (ckey lvl c) (cellPos (2 ^ lvl) c))
      (List.replicate s.length 0) := by
  unfold gather
  exact congrArg Prod.snd (foldl_pair (cells (2 ^ lvl))
    (fun (r : List Nat) c =>
      r.set (ckey lvl c) (s.getD (cellPos (2 ^ lvl) c) 0 + t.getD (cellPos (2 ^ lvl) c) 0))
    (fun (r : List Nat) c => r.set (ckey lvl c) (cellPos (2 ^ lvl) c)) _ _)

/-- The cell counts along the curve. -/
def curve (s t : List Nat) (lvl : Nat) : List Nat := (gather (ckey lvl) s t (2 ^ lvl)).1
/-- The cells along the curve. -/
def origin (s t : List Nat) (lvl : Nat) : List Nat := (gather (ckey lvl) s t (2 ^ lvl)).2

theorem curve_length : (curve s t lvl).length = s.length := by
  rw [curve, gather_fst, foldl_set_map_length]; simp
theorem origin_length : (origin s t lvl).length = s.length := by
  rw [origin, gather_snd, foldl_set_map_length]; simp

variable (hs : s.length = 8 ^ lvl)
include hs

theorem curve_get {c} (hc : c ∈ cells (2 ^ lvl)) :
    (curve s t lvl).getD (ckey lvl c) 0 = weight s t (cellPos (2 ^ lvl) c) := by
  rw [curve, gather_fst]
  exact foldl_set_map _ _ (fun c => weight s t (cellPos (2 ^ lvl) c)) _
    (fun a ha b hb h => ckey_inj ha hb h) c hc (by simp [hs, ckey_lt])

theorem origin_get {c} (hc : c ∈ cells (2 ^ lvl)) :
    (origin s t lvl).getD (ckey lvl c) 0 = cellPos (2 ^ lvl) c := by
  rw [origin, gather_snd]
  exact foldl_set_map _ _ (fun c => cellPos (2 ^ lvl) c) _
    (fun a ha b hb h => ckey_inj ha hb h) c hc (by simp [hs, ckey_lt])

theorem origin_inj {h h' : Nat} (hh : h < 8 ^ lvl) (hh' : h' < 8 ^ lvl)
    (he : (origin s t lvl).getD h 0 = (origin s t lvl).getD h' 0) : h = h' := by
  obtain ⟨c, hc, rfl⟩ := ckey_surj hh
  obtain ⟨c', hc', rfl⟩ := ckey_surj hh'
  rw [origin_get hs hc, origin_get hs hc'] at he
  rw [cellPos_inj hc hc' he]

theorem curve_eq_map : curve s t lvl = (origin s t lvl).map (weight s t) := by
  apply List.ext_getElem
  · rw [curve_length, List.length_map, origin_length]
  · intro i h1 h2
    have hi : i < 8 ^ lvl := by rw [curve_length, hs] at h1; exact h1
    obtain ⟨c, hc, rfl⟩ := ckey_surj hi
    have a := curve_get (t := t) hs hc
    have b := origin_get (t := t) hs hc
    have h3 : ckey lvl c < (origin s t lvl).length := by simpa using h2
    rw [List.getD_eq_getElem?_getD, List.getElem?_eq_getElem h1] at a
    rw [List.getD_eq_getElem?_getD, List.getElem?_eq_getElem h3] at b
    simp only [Option.getD_some] at a b
    rw [List.getElem_map, a, b]

theorem origin_perm : (origin s t lvl).Perm (List.range (8 ^ lvl)) := by
  have hnd : (origin s t lvl).Nodup := by
    rw [List.nodup_iff_injective_get]
    intro i j hij
    have hi : i.1 < 8 ^ lvl := lt_of_lt_of_eq i.2 (origin_length.trans hs)
    have hj : j.1 < 8 ^ lvl := lt_of_lt_of_eq j.2 (origin_length.trans hs)
    apply Fin.ext
    apply origin_inj (t := t) hs hi hj
    rw [List.getD_eq_getElem?_getD, List.getElem?_eq_getElem i.2, List.getD_eq_getElem?_getD,
      List.getElem?_eq_getElem j.2]
    simpa using hij
  have hsub : (origin s t lvl) ⊆ List.range (8 ^ lvl) := by
    intro v hv
    obtain ⟨i, hi, rfl⟩ := List.mem_iff_getElem.1 hv
    have hi' : i < 8 ^ lvl := by have := hi; rw [origin_length, hs] at this; exact this
    obtain ⟨c, hc, rfl⟩ := ckey_surj hi'
    have b := origin_get (t := t) hs hc
    rw [List.getD_eq_getElem?_getD, List.getElem?_eq_getElem hi] at b
    simp only [Option.getD_some] at b
    rw [b, List.mem_range, ← cube_eq]
    exact cellPos_lt hc
  exact (hnd.subperm hsub).perm_of_length_le (by rw [origin_length, hs]; simp)

theorem sum_weights (ht : t.length = 8 ^ lvl) :
    ((List.range (8 ^ lvl)).map (weight s t)).sum = s.sum + t.sum := by
  have h1 : ∀ l : List Nat, ((List.range l.length).map fun i => l.getD i 0).sum = l.sum := by
    intro l
    congr 1
    apply List.ext_getElem
    · simp
    · intro i h1 h2
      simp [h2]
  have h2 : ((List.range (8 ^ lvl)).map (weight s t)).sum
      = ((List.range (8 ^ lvl)).map fun i => s.getD i 0).sum
        + ((List.range (8 ^ lvl)).map fun i => t.getD i 0).sum := by
    unfold weight
    rw [List.sum_map_add]
  rw [h2]
  conv_lhs => rw [← hs, h1 s, hs, ← ht, h1 t]

theorem curve_total (ht : t.length = 8 ^ lvl) :
    cumulative (curve s t lvl) (curve s t lvl).length = s.sum + t.sum := by
  unfold cumulative
  rw [List.take_length, curve_eq_map hs, ((origin_perm hs).map _).sum_eq, sum_weights hs ht]

theorem curve_head : (curve s t lvl).getD 0 0 = s.getD 0 0 + t.getD 0 0 := by
  have h0 : ((0, 0, 0) : Nat × Nat × Nat) ∈ cells (2 ^ lvl) :=
    mem_cells.2 ⟨by positivity, by positivity, by positivity⟩
  have hk : ckey lvl (0, 0, 0) = 0 := by
    unfold ckey key
    have : ∀ k (o : Fin 8 → Fin 8), o 0 = 0 → loop 0 0 0 (2 ^ k) o = 0 := by
      intro k
      induction k with
      | zero => intro o _; exact loop_zero _ _ _ _
      | succ k ih =>
        intro o ho
        have hm : mIndex 0 0 0 (2 ^ (k + 1)) = 0 := by
          have h2 : 2 ^ (k + 1) / 2 = 2 ^ k := by rw [Nat.pow_succ]; simp
          have hp : ¬ (0 : Nat) ≥ 2 ^ k := by
            have : 0 < 2 ^ k := by positivity
            omega
          simp only [mIndex, Nat.zero_mod, h2, if_neg hp]
          rfl
        have hi : hIndicies 0 = 0 := by decide
        rw [loop_succ, hm, hi, ho]
        rw [ih (next o 0) (by
          unfold next
          rw [ho]
          decide)]
        simp
    exact this lvl _ rfl
  have h := curve_get (t := t) hs h0
  rw [hk] at h
  rw [h]
  simp [weight, cellPos]

/-- The condition under which the code can place the cuts. -/
theorem splittable_iff (ht : t.length = 8 ^ lvl) (ranks : Nat) :
    Splittable (curve s t lvl) ranks ↔
      ranks ≤ 1 ∨ (0 < (s.sum + t.sum) / ranks ∧
        s.getD 0 0 + t.getD 0 0 < 2 * ((s.sum + t.sum) / ranks)) := by
  unfold Splittable
  rw [curve_total hs ht, curve_head hs]

theorem distribute_none (ht : t.length = 8 ^ lvl) {ranks : Nat} (hr : 0 < ranks)
    (h : ¬ (ranks ≤ 1 ∨ (0 < (s.sum + t.sum) / ranks ∧
        s.getD 0 0 + t.getD 0 0 < 2 * ((s.sum + t.sum) / ranks)))) :
    distribute ranks s t lvl = none := by
  rw [← splittable_iff hs ht] at h
  have := partition_none hr h
  unfold distribute
  simp only
  have e : (gather (fun c => key c.1 c.2.1 c.2.2 (2 ^ lvl)) s t (2 ^ lvl)).1 = curve s t lvl := rfl
  rw [e, this]
  rfl

theorem distribute_some (ht : t.length = 8 ^ lvl) {ranks : Nat} (hr : 0 < ranks)
    (h : ranks ≤ 1 ∨ (0 < (s.sum + t.sum) / ranks ∧
        s.getD 0 0 + t.getD 0 0 < 2 * ((s.sum + t.sum) / ranks))) :
    ∃ rk, distribute ranks s t lvl = some rk ∧ rk.length = 8 ^ lvl ∧
      (∀ c ∈ cells (2 ^ lvl), rk.getD (cellPos (2 ^ lvl) c) 0 < ranks) ∧
      (∀ c ∈ cells (2 ^ lvl), ∀ c' ∈ cells (2 ^ lvl), ckey lvl c ≤ ckey lvl c' →
        rk.getD (cellPos (2 ^ lvl) c) 0 ≤ rk.getD (cellPos (2 ^ lvl) c') 0) ∧
      (∀ c ∈ cells (2 ^ lvl), ∀ q, 0 < q → q < ranks →
        (rk.getD (cellPos (2 ^ lvl) c) 0 < q ↔
          ckey lvl c < nearest (curve s t lvl) ((s.sum + t.sum) / ranks * q))) := by
  rw [← splittable_iff hs ht] at h
  have hlen : (curve s t lvl).length = 8 ^ lvl := by rw [curve_length, hs]
  have hpos : 0 < 8 ^ lvl := by positivity
  obtain ⟨rm, h1, h2, h3, h4, h5⟩ := partition_spec hr (by rw [hlen]; exact hpos) h
  rw [hlen] at h2 h3 h4
  rw [curve_total hs ht, hlen] at h5
  refine ⟨(List.range s.length).foldl
    (fun r h => r.set ((origin s t lvl).getD h 0) (rm.getD h 0)) (List.replicate s.length 0), ?_, ?_, ?_⟩
  · unfold distribute
    simp only
    have e : (gather (fun c => key c.1 c.2.1 c.2.2 (2 ^ lvl)) s t (2 ^ lvl)).1 = curve s t lvl := rfl
    have e2 : (gather (fun c => key c.1 c.2.1 c.2.2 (2 ^ lvl)) s t (2 ^ lvl)).2 = origin s t lvl := rfl
    rw [e, e2, h1]
    rfl
  · rw [foldl_set_map_length]; simp [hs]
  · have hget : ∀ c ∈ cells (2 ^ lvl), ((List.range s.length).foldl
        (fun r h => r.set ((origin s t lvl).getD h 0) (rm.getD h 0))
        (List.replicate s.length 0)).getD (cellPos (2 ^ lvl) c) 0 = rm.getD (ckey lvl c) 0 := by
      intro c hc
      rw [← origin_get (t := t) hs hc]
      apply foldl_set_map (List.range s.length) (fun h => (origin s t lvl).getD h 0)
        (fun h => rm.getD h 0)
      · intro a ha b hb he
        rw [List.mem_range, hs] at ha hb
        exact origin_inj hs ha hb he
      · rw [List.mem_range, hs]; exact ckey_lt lvl c
      · rw [origin_get hs hc, List.length_replicate, hs, ← cube_eq]
        exact cellPos_lt hc
    refine ⟨?_, ?_, ?_⟩
    · intro c hc
      rw [hget c hc]
      exact h3 _ (ckey_lt lvl c)
    · intro c hc c' hc' hle
      rw [hget c hc, hget c' hc']
      exact h4 _ _ hle (ckey_lt lvl c')
    · intro c hc q hq0 hq
      rw [hget c hc]
      exact h5 _ (ckey_lt lvl c) q hq0 hq

end
end Hilbert
end Dashmm
