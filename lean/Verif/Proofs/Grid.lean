import Verif.Model.Grid
import Verif.Spec.Grid
import Verif.Spec.Reduce
import Verif.Proofs.Index
import Verif.Proofs.Group
import Verif.Proofs.Distribute
import Mathlib.Algebra.Order.Floor.Ring
import Mathlib.Tactic.Linarith
import Mathlib.Tactic.FieldSimp
import Mathlib.Tactic.Positivity
namespace Dashmm
namespace Grid
open Reduce (Combined)

set_option linter.unusedSectionVars false
variable {K : Type} [Field K] [LinearOrder K] [IsStrictOrderedRing K]

/-! ### domain -/

/-- The box contains the point. -/
def Has (v : Box6 K) (p : Point K) : Prop :=
  (v.x0 ≤ p.x ∧ p.x ≤ v.x1) ∧ (v.y0 ≤ p.y ∧ p.y ≤ v.y1) ∧ (v.z0 ≤ p.z ∧ p.z ≤ v.z1)

theorem addPoint_has (v : Box6 K) (p : Point K) : Has (addPoint v p) p := by
  simp [Has, addPoint]

theorem addPoint_keep {v : Box6 K} {p : Point K} (q : Point K) (h : Has v p) : Has (addPoint v q) p := by
  obtain ⟨⟨a, b⟩, ⟨c, d⟩, ⟨e, f⟩⟩ := h
  exact ⟨⟨(min_le_left _ _).trans a, b.trans (le_max_left _ _)⟩,
    ⟨(min_le_left _ _).trans c, d.trans (le_max_left _ _)⟩,
    ⟨(min_le_left _ _).trans e, f.trans (le_max_left _ _)⟩⟩

theorem foldl_keep {p : Point K} : ∀ (l : List (Point K)) {v : Box6 K}, Has v p → Has (l.foldl addPoint v) p
  | [], _, h => h
  | q :: l, _, h => foldl_keep l (addPoint_keep q h)

theorem foldl_has {p : Point K} : ∀ (l : List (Point K)) (v : Box6 K), p ∈ l → Has (l.foldl addPoint v) p
  | q :: l, v, h => by
    rcases List.mem_cons.1 h with rfl | h
    · exact foldl_keep l (addPoint_has v p)
    · exact foldl_has l _ h

theorem localBox_src {same : Bool} {src tgt : List (Point K)} {p : Point K} (h : p ∈ src) :
    Has (localBox same src tgt) p := by
  unfold localBox
  simp only
  split
  · exact foldl_has _ _ h
  · exact foldl_keep _ (foldl_has _ _ h)

theorem localBox_tgt {src tgt : List (Point K)} {p : Point K} (h : p ∈ tgt) :
    Has (localBox false src tgt) p := foldl_has _ _ h

theorem boxOp_left {a b : Box6 K} {p : Point K} (h : Has a p) : Has (boxOp a b) p := by
  obtain ⟨⟨a, b⟩, ⟨c, d⟩, ⟨e, f⟩⟩ := h
  exact ⟨⟨(min_le_left _ _).trans a, b.trans (le_max_left _ _)⟩,
    ⟨(min_le_left _ _).trans c, d.trans (le_max_left _ _)⟩,
    ⟨(min_le_left _ _).trans e, f.trans (le_max_left _ _)⟩⟩

theorem boxOp_right {a b : Box6 K} {p : Point K} (h : Has b p) : Has (boxOp a b) p := by
  obtain ⟨⟨a, b⟩, ⟨c, d⟩, ⟨e, f⟩⟩ := h
  exact ⟨⟨(min_le_right _ _).trans a, b.trans (le_max_right _ _)⟩,
    ⟨(min_le_right _ _).trans c, d.trans (le_max_right _ _)⟩,
    ⟨(min_le_right _ _).trans e, f.trans (le_max_right _ _)⟩⟩

theorem combined_has {p : Point K} {xs : List (Box6 K)} {v : Box6 K} (h : Combined boxInit boxOp xs v) :
    (∃ b ∈ xs, Has b p) → Has v p := by
  induction h with
  | ident => rintro ⟨b, hb, _⟩; simp at hb
  | one x => rintro ⟨b, hb, h⟩; rw [List.mem_singleton.1 hb] at h; exact h
  | op _ _ ih1 ih2 =>
    rintro ⟨b, hb, h⟩
    rcases List.mem_append.1 hb with hb | hb
    · exact boxOp_left (ih1 ⟨b, hb, h⟩)
    · exact boxOp_right (ih2 ⟨b, hb, h⟩)
  | reorder hp _ ih => rintro ⟨b, hb, h⟩; exact ih ⟨b, hp.mem_iff.2 hb, h⟩

theorem domainOf_has {v : Box6 K} {p : Point K} (h : Has v p) : InDomain (domainOf v) p := by
  obtain ⟨⟨a, b⟩, ⟨c, d⟩, ⟨e, f⟩⟩ := h
  have h1 : v.x1 - v.x0 ≤ (domainOf v).size := le_max_left _ _
  have h2 : v.y1 - v.y0 ≤ (domainOf v).size := (le_max_left _ _).trans (le_max_right _ _)
  have h3 : v.z1 - v.z0 ≤ (domainOf v).size := (le_max_right _ _).trans (le_max_right _ _)
  have e1 : (domainOf v).low.x = (v.x1 + v.x0 - (domainOf v).size) / 2 := rfl
  have e2 : (domainOf v).low.y = (v.y1 + v.y0 - (domainOf v).size) / 2 := rfl
  have e3 : (domainOf v).low.z = (v.z1 + v.z0 - (domainOf v).size) / 2 := rfl
  refine ⟨⟨?_, ?_⟩, ⟨?_, ?_⟩, ⟨?_, ?_⟩⟩ <;> simp only [e1, e2, e3] <;> linarith

/-! ### the bounds are tight -/

/-- Every bound of the box is the initial one or a coordinate of one of the points. -/
def From (v : Box6 K) (S : Point K → Prop) : Prop :=
  (v.x0 = 10 ^ 50 ∨ ∃ p, S p ∧ p.x = v.x0) ∧ (v.x1 = -10 ^ 50 ∨ ∃ p, S p ∧ p.x = v.x1) ∧
  (v.y0 = 10 ^ 50 ∨ ∃ p, S p ∧ p.y = v.y0) ∧ (v.y1 = -10 ^ 50 ∨ ∃ p, S p ∧ p.y = v.y1) ∧
  (v.z0 = 10 ^ 50 ∨ ∃ p, S p ∧ p.z = v.z0) ∧ (v.z1 = -10 ^ 50 ∨ ∃ p, S p ∧ p.z = v.z1)

theorem From.mono {v : Box6 K} {S S' : Point K → Prop} (h : From v S) (hs : ∀ p, S p → S' p) : From v S' := by
  obtain ⟨a, b, c, d, e, f⟩ := h
  exact ⟨a.imp_right fun ⟨p, h1, h2⟩ => ⟨p, hs p h1, h2⟩, b.imp_right fun ⟨p, h1, h2⟩ => ⟨p, hs p h1, h2⟩,
    c.imp_right fun ⟨p, h1, h2⟩ => ⟨p, hs p h1, h2⟩, d.imp_right fun ⟨p, h1, h2⟩ => ⟨p, hs p h1, h2⟩,
    e.imp_right fun ⟨p, h1, h2⟩ => ⟨p, hs p h1, h2⟩, f.imp_right fun ⟨p, h1, h2⟩ => ⟨p, hs p h1, h2⟩⟩

theorem pick_min {P : K → Prop} {a b : K} (ha : P a) (hb : P b) : P (min a b) := by
  rcases min_choice a b with h | h <;> rw [h] <;> assumption
theorem pick_max {P : K → Prop} {a b : K} (ha : P a) (hb : P b) : P (max a b) := by
  rcases max_choice a b with h | h <;> rw [h] <;> assumption

theorem addPoint_from {v : Box6 K} {S : Point K → Prop} {q : Point K} (h : From v S) (hq : S q) :
    From (addPoint v q) S := by
  obtain ⟨a, b, c, d, e, f⟩ := h
  refine ⟨?_, ?_, ?_, ?_, ?_, ?_⟩
  · exact pick_min (P := fun w => w = 10 ^ 50 ∨ ∃ p, S p ∧ p.x = w) a (.inr ⟨q, hq, rfl⟩)
  · exact pick_max (P := fun w => w = -10 ^ 50 ∨ ∃ p, S p ∧ p.x = w) b (.inr ⟨q, hq, rfl⟩)
  · exact pick_min (P := fun w => w = 10 ^ 50 ∨ ∃ p, S p ∧ p.y = w) c (.inr ⟨q, hq, rfl⟩)
  · exact pick_max (P := fun w => w = -10 ^ 50 ∨ ∃ p, S p ∧ p.y = w) d (.inr ⟨q, hq, rfl⟩)
  · exact pick_min (P := fun w => w = 10 ^ 50 ∨ ∃ p, S p ∧ p.z = w) e (.inr ⟨q, hq, rfl⟩)
  · exact pick_max (P := fun w => w = -10 ^ 50 ∨ ∃ p, S p ∧ p.z = w) f (.inr ⟨q, hq, rfl⟩)

theorem boxInit_from (S : Point K → Prop) : From (boxInit : Box6 K) S :=
  ⟨.inl rfl, .inl rfl, .inl rfl, .inl rfl, .inl rfl, .inl rfl⟩

theorem foldl_from {S : Point K → Prop} : ∀ (l : List (Point K)) {v : Box6 K}, From v S → (∀ p ∈ l, S p) →
    From (l.foldl addPoint v) S
  | [], _, h, _ => h
  | q :: l, _, h, hl => foldl_from l (addPoint_from h (hl q (by simp))) fun p hp => hl p (by simp [hp])

theorem boxOp_from {a b : Box6 K} {S : Point K → Prop} (ha : From a S) (hb : From b S) : From (boxOp a b) S := by
  obtain ⟨a1, b1, c1, d1, e1, f1⟩ := ha
  obtain ⟨a2, b2, c2, d2, e2, f2⟩ := hb
  refine ⟨?_, ?_, ?_, ?_, ?_, ?_⟩
  · exact pick_min (P := fun w => w = 10 ^ 50 ∨ ∃ p, S p ∧ p.x = w) a1 a2
  · exact pick_max (P := fun w => w = -10 ^ 50 ∨ ∃ p, S p ∧ p.x = w) b1 b2
  · exact pick_min (P := fun w => w = 10 ^ 50 ∨ ∃ p, S p ∧ p.y = w) c1 c2
  · exact pick_max (P := fun w => w = -10 ^ 50 ∨ ∃ p, S p ∧ p.y = w) d1 d2
  · exact pick_min (P := fun w => w = 10 ^ 50 ∨ ∃ p, S p ∧ p.z = w) e1 e2
  · exact pick_max (P := fun w => w = -10 ^ 50 ∨ ∃ p, S p ∧ p.z = w) f1 f2

theorem combined_from {S : Point K → Prop} {xs : List (Box6 K)} {v : Box6 K}
    (h : Combined boxInit boxOp xs v) : (∀ b ∈ xs, From b S) → From v S := by
  induction h with
  | ident => intro _; exact boxInit_from S
  | one x => intro h; exact h x (by simp)
  | op _ _ ih1 ih2 =>
    intro h
    exact boxOp_from (ih1 fun b hb => h b (by simp [hb])) (ih2 fun b hb => h b (by simp [hb]))
  | reorder hp _ ih => intro h; exact ih fun b hb => h b (hp.mem_iff.1 hb)

/-! ### cells -/

section
variable [FloorRing K]

theorem cellCoord_spec {dim : Nat} (hd : 0 < dim) {lo size p : K} (hs : 0 < size) (h1 : lo ≤ p)
    (h2 : p ≤ lo + size) :
    0 ≤ cellCoord dim lo (1 / size) p ∧
    InSlot lo (size / (dim : K)) dim (cellCoord dim lo (1 / size) p).toNat p := by
  have hdK : (0 : K) < dim := by exact_mod_cast hd
  set v : K := (dim : K) * (p - lo) * (1 / size) with hv
  have hv0 : 0 ≤ v := by
    have : 0 ≤ p - lo := by linarith
    positivity
  have hvd : v ≤ dim := by
    have : (p - lo) * (1 / size) ≤ 1 := by
      rw [mul_one_div, div_le_one hs]; linarith
    calc v = dim * ((p - lo) * (1 / size)) := by rw [hv]; ring
      _ ≤ dim * 1 := mul_le_mul_of_nonneg_left this hdK.le
      _ = dim := mul_one _
  have hp : p = v * (size / dim) + lo := by
    rw [hv]; field_simp; ring
  have hh : 0 < size / (dim : K) := by positivity
  have ht : trunc v = ⌊v⌋ := if_pos hv0
  have hf0 : 0 ≤ ⌊v⌋ := Int.floor_nonneg.2 hv0
  have hcc : cellCoord dim lo (1 / size) p = min ((dim : Int) - 1) ⌊v⌋ := by
    unfold cellCoord; rw [← hv, ht]
  rw [hcc]
  have hd1 : (1 : Int) ≤ dim := by exact_mod_cast hd
  refine ⟨by rw [le_min_iff]; omega, ?_⟩
  by_cases hlt : ⌊v⌋ < (dim : Int)
  · have hm : min ((dim : Int) - 1) ⌊v⌋ = ⌊v⌋ := by rw [min_eq_right]; omega
    rw [hm]
    have hcast : ((⌊v⌋.toNat : Nat) : K) = ((⌊v⌋ : Int) : K) := by
      have : ((⌊v⌋.toNat : Nat) : Int) = ⌊v⌋ := Int.toNat_of_nonneg hf0
      exact_mod_cast congrArg (Int.cast : Int → K) this
    refine ⟨by omega, ?_, .inl ?_⟩
    · rw [hcast]
      have := mul_le_mul_of_nonneg_right (Int.floor_le v) hh.le
      linarith [hp]
    · rw [hcast]
      have := mul_lt_mul_of_pos_right (Int.lt_floor_add_one v) hh
      linarith [hp]
  · have hm : min ((dim : Int) - 1) ⌊v⌋ = dim - 1 := by rw [min_eq_left]; omega
    rw [hm]
    have hfl : (dim : K) ≤ v := by
      have : (dim : Int) ≤ ⌊v⌋ := by omega
      have := Int.le_floor.1 this
      exact_mod_cast this
    have hveq : v = dim := le_antisymm hvd hfl
    have hpe : p = dim * (size / dim) + lo := by
      have h := hp
      rw [hveq] at h
      exact h
    have hnat : ((dim : Int) - 1).toNat = dim - 1 := by omega
    rw [hnat]
    have hc : ((dim - 1 : Nat) : K) = (dim : K) - 1 := by
      have : ((dim - 1 : Nat) : K) + 1 = dim := by exact_mod_cast Nat.sub_add_cancel hd
      linarith
    have h3 : ((dim : K) - 1 + 1) * (size / dim) = dim * (size / dim) := by ring
    have h4 : ((dim : K) - 1) * (size / dim) = dim * (size / dim) - size / dim := by ring
    refine ⟨by omega, ?_, .inr ⟨by omega, ?_⟩⟩
    · rw [hc, h4]; linarith
    · rw [hc, h3]; linarith

theorem gidOf_spec {d : Domain K} (hs : 0 < d.size) (level : Nat) {p : Point K} (hp : InDomain d p) :
    ∃ i : Index, i.level = level ∧ InBoxOf d i p ∧ gidOf d level p = simpleKey i.x i.y i.z (2 ^ level) := by
  obtain ⟨⟨a, b⟩, ⟨c, e⟩, ⟨f, g⟩⟩ := hp
  have h2 : 0 < 2 ^ level := by positivity
  have hx := cellCoord_spec h2 hs a b
  have hy := cellCoord_spec h2 hs c e
  have hz := cellCoord_spec h2 hs f g
  push_cast at hx hy hz
  exact ⟨⟨_, _, _, level⟩, rfl, ⟨hx.2, hy.2, hz.2⟩, rfl⟩

omit [FloorRing K] in
theorem slot_unique {lo h p : K} (hh : 0 < h) {dim m n : Nat} (hm : InSlot lo h dim m p)
    (hn : InSlot lo h dim n p) : m = n := by
  have key : ∀ a b : Nat, InSlot lo h dim a p → InSlot lo h dim b p → a ≤ b := by
    rintro a b ⟨a1, a2, _⟩ ⟨b1, _, b3⟩
    rcases b3 with b3 | ⟨b3, _⟩
    · have : (a : K) * h < ((b : K) + 1) * h := by linarith
      have := lt_of_mul_lt_mul_right this hh.le
      have : a < b + 1 := by exact_mod_cast this
      omega
    · omega
  exact Nat.le_antisymm (key _ _ hm hn) (key _ _ hn hm)

end

theorem simpleKey_lt {x y z n : Nat} (hx : x < n) (hy : y < n) (hz : z < n) : simpleKey x y z n < n ^ 3 := by
  have := Hilbert.cellPos_lt (klen := n) (c := (x, y, z)) (Hilbert.mem_cells.2 ⟨hx, hy, hz⟩)
  unfold Hilbert.cellPos at this
  unfold simpleKey
  simp only at this
  linarith

theorem simpleKey_inj {x y z x' y' z' n : Nat} (hx : x < n) (hy : y < n) (hz : z < n) (hx' : x' < n)
    (hy' : y' < n) (hz' : z' < n) (h : simpleKey x y z n = simpleKey x' y' z' n) :
    x = x' ∧ y = y' ∧ z = z' := by
  have := Hilbert.cellPos_inj (klen := n) (c := (x, y, z)) (c' := (x', y', z'))
    (Hilbert.mem_cells.2 ⟨hx, hy, hz⟩) (Hilbert.mem_cells.2 ⟨hx', hy', hz'⟩) (by
      unfold Hilbert.cellPos; unfold simpleKey at h; simp only; linarith)
  simpa using this

theorem simpleKey_surj {n v : Nat} (h : v < n ^ 3) :
    ∃ x y z, x < n ∧ y < n ∧ z < n ∧ simpleKey x y z n = v := by
  obtain ⟨⟨x, y, z⟩, hc, he⟩ := Hilbert.cellPos_surj h
  obtain ⟨hx, hy, hz⟩ := Hilbert.mem_cells.1 hc
  refine ⟨x, y, z, hx, hy, hz, ?_⟩
  rw [← he]; unfold Hilbert.cellPos simpleKey; simp only; ring

section
variable [FloorRing K]

theorem assignPoints_spec (d : Domain K) (level : Nat) (P : List (Point K))
    (hg : ∀ p ∈ P, gidOf d level p < 8 ^ level) :
    (assignPoints d level P).1 = P.map (gidOf d level) ∧
    (assignPoints d level P).2.length = 8 ^ level ∧
    ∀ g, g < 8 ^ level → (assignPoints d level P).2.getD g 0 = (P.map (gidOf d level)).countP (· = g) := by
  unfold assignPoints
  have key : ∀ (P : List (Point K)) (a : List Nat × List Nat), a.2.length = 8 ^ level →
      (∀ p ∈ P, gidOf d level p < 8 ^ level) →
      (P.foldl (fun a p => (a.1 ++ [gidOf d level p],
        a.2.set (gidOf d level p) (a.2.getD (gidOf d level p) 0 + 1))) a).1 = a.1 ++ P.map (gidOf d level) ∧
      (P.foldl (fun a p => (a.1 ++ [gidOf d level p],
        a.2.set (gidOf d level p) (a.2.getD (gidOf d level p) 0 + 1))) a).2.length = 8 ^ level ∧
      ∀ g, g < 8 ^ level → (P.foldl (fun a p => (a.1 ++ [gidOf d level p],
        a.2.set (gidOf d level p) (a.2.getD (gidOf d level p) 0 + 1))) a).2.getD g 0
          = a.2.getD g 0 + (P.map (gidOf d level)).countP (· = g) := by
    intro P
    induction P with
    | nil => intro a ha _; exact ⟨by simp, ha, by simp⟩
    | cons p P ih =>
      intro a ha hg
      obtain ⟨h1, h2, h3⟩ := ih (a.1 ++ [gidOf d level p],
        a.2.set (gidOf d level p) (a.2.getD (gidOf d level p) 0 + 1)) (by simp [ha])
        (fun q hq => hg q (by simp [hq]))
      refine ⟨by rw [List.foldl_cons, h1]; simp, by rw [List.foldl_cons, h2], ?_⟩
      intro g hlt
      rw [List.foldl_cons, h3 g hlt, getD_set, ha, List.map_cons, List.countP_cons]
      by_cases he : gidOf d level p = g
      · rw [if_pos ⟨he, by rw [he]; exact hlt⟩, if_pos (by simpa using he), he]; omega
      · rw [if_neg (fun h => he h.1), if_neg (by simpa using he)]; omega
  obtain ⟨h1, h2, h3⟩ := key P ([], List.replicate (8 ^ level) 0) (by simp) hg
  refine ⟨by simpa using h1, h2, ?_⟩
  intro g hlt
  have := h3 g hlt
  simp only [List.getD_eq_getElem?_getD, List.getElem?_replicate, hlt, if_true, Option.getD_some,
    Nat.zero_add] at this ⊢
  exact this

end

theorem unifGridIndex_ge {idx : Index} {u : Nat} (h : u ≤ idx.level) :
    unifGridIndex idx u = some (simpleKey (idx.parent (idx.level - u)).x (idx.parent (idx.level - u)).y
      (idx.parent (idx.level - u)).z (2 ^ u)) := by
  unfold unifGridIndex
  simp only [Nat.one_shiftLeft]
  rw [if_neg (by omega)]
  by_cases he : idx.level = u
  · rw [if_neg (by omega), he, Nat.sub_self, Index.parent_zero]
  · rw [if_pos (by omega)]
    have : ((idx.level : Int) - u).toNat = idx.level - u := by omega
    rw [this]

theorem parent_of_path (i : Index) : ∀ p : List Nat, (∀ c ∈ p, c < 8) →
    (p.foldl Index.child i).parent p.length = i ∧ (p.foldl Index.child i).level = i.level + p.length := by
  intro p
  induction p using List.reverseRecOn with
  | nil => intro _; exact ⟨by simp [Index.parent_zero], rfl⟩
  | append_singleton p c ih =>
    intro h
    obtain ⟨h1, h2⟩ := ih fun d hd => h d (by simp [hd])
    rw [List.foldl_append]
    simp only [List.foldl_cons, List.foldl_nil, List.length_append, List.length_cons, List.length_nil]
    refine ⟨?_, ?_⟩
    · rw [show p.length + (0 + 1) = 1 + p.length by omega, Index.parent_add,
        Index.parent_child _ _ (h c (by simp)), h1]
    · rw [Index.child_eq _ _ (h c (by simp))]; simp [h2]; omega

end Grid
end Dashmm
