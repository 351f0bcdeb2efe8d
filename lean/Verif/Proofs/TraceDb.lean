import Verif.Spec.TraceDb
import Verif.Props.Trace

/-! Lemmas on the database. -/

namespace Dashmm.Trace

/-- What `collate` does for one type. -/
def auto (ty : Nat) (loc : Int) (gid : Nat) : Option Part → List (Evt × Nat) → Option (Option Part × List Seg)
  | p, [] => some (p, [])
  | none, (e, i) :: l => if e.starts then auto ty loc gid (some ⟨i, e.stamp, loc, gid⟩) l else none
  | some p, (e, i) :: l =>
    if e.ends then (auto ty loc gid none l).map fun r => (r.1, ⟨ty, p.begin_, i, p.start, e.stamp, loc, gid⟩ :: r.2) else none

def ofType (ty : Nat) (l : List (Evt × Nat)) : List (Evt × Nat) := l.filter fun x => decide (x.1.seg = ty)

def Own (loc : Int) (gid : Nat) (c : Coll) : Prop := ∀ ty p, c.part ty = some p → p.loc = loc ∧ p.gid = gid

theorem collate_own {loc : Int} {gid : Nat} {c c' : Coll} (h : Own loc gid c) {e : Evt} {i : Nat} (hc : collate loc gid c e i = some c') :
    Own loc gid c' := by
  unfold collate at hc
  by_cases h0 : e.seg = 0
  · rw [if_pos h0] at hc; cases hc; exact h
  · rw [if_neg h0] at hc
    cases hp : c.part e.seg with
    | none =>
      rw [hp] at hc
      simp only at hc
      split_ifs at hc
      cases hc
      intro ty p hty
      simp only [setPart] at hty
      split_ifs at hty
      · cases hty; exact ⟨rfl, rfl⟩
      · exact h ty p hty
    | some q =>
      rw [hp] at hc
      simp only at hc
      split_ifs at hc
      cases hc
      intro ty p hty
      simp only [setPart] at hty
      split_ifs at hty
      exact h ty p hty

theorem ofType_cons (ty : Nat) (x : Evt × Nat) (l : List (Evt × Nat)) :
    ofType ty (x :: l) = if x.1.seg = ty then x :: ofType ty l else ofType ty l := by
  unfold ofType
  rw [List.filter_cons]
  simp only [decide_eq_true_eq]

theorem collateAll_some {loc : Int} {gid : Nat} {l : List (Evt × Nat)} {c c' : Coll} (h : Own loc gid c) (hc : collateAll loc gid c l = some c')
    {ty : Nat} (hty : ty ≠ 0) : ∃ out, auto ty loc gid (c.part ty) (ofType ty l) = some (c'.part ty, out) ∧
      (c'.full.filter fun s => decide (s.kind = ty)) = (c.full.filter fun s => decide (s.kind = ty)) ++ out := by
  induction l generalizing c with
  | nil =>
    simp only [collateAll, Option.some.injEq] at hc
    subst hc
    refine ⟨[], ?_, by simp⟩
    simp only [ofType, List.filter_nil]
    cases c.part ty <;> rfl
  | cons x l ih =>
    obtain ⟨e, i⟩ := x
    rw [collateAll] at hc
    cases h1 : collate loc gid c e i with
    | none => rw [h1] at hc; simp at hc
    | some c1 =>
      rw [h1] at hc
      simp only at hc
      obtain ⟨out, p, q⟩ := ih (collate_own h h1) hc
      rw [ofType_cons]
      simp only
      unfold collate at h1
      by_cases h0 : e.seg = 0
      · rw [if_pos h0] at h1
        cases h1
        rw [if_neg (by omega)]
        exact ⟨out, p, q⟩
      · rw [if_neg h0] at h1
        cases hp : c.part e.seg with
        | none =>
          rw [hp] at h1
          simp only at h1
          split_ifs at h1 with hs
          cases h1
          by_cases he : e.seg = ty
          · subst he
            rw [if_pos rfl, hp]
            simp only [setPart, if_true] at p
            refine ⟨out, ?_, q⟩
            rw [auto, if_pos hs]; exact p
          · rw [if_neg he]
            have he' : ¬ ty = e.seg := fun h => he h.symm
            simp only [setPart, if_neg he'] at p
            exact ⟨out, p, q⟩
        | some r =>
          rw [hp] at h1
          simp only at h1
          split_ifs at h1 with hl hs
          cases h1
          obtain ⟨o1, o2⟩ := h _ _ hp
          by_cases he : e.seg = ty
          · subst he
            rw [if_pos rfl, hp]
            simp only [setPart, if_true] at p
            refine ⟨_, by rw [auto, if_pos hs, p]; rfl, ?_⟩
            rw [q, List.filter_append, List.append_assoc]
            simp [o1, o2]
          · rw [if_neg he]
            have he' : ¬ ty = e.seg := fun h => he h.symm
            simp only [setPart, if_neg he'] at p
            refine ⟨out, p, ?_⟩
            rw [q, List.filter_append]
            simp [he]

theorem collateAll_none {loc : Int} {gid : Nat} {l : List (Evt × Nat)} {c : Coll} (h : Own loc gid c) (hc : collateAll loc gid c l = none) :
    ∃ ty, ty ≠ 0 ∧ auto ty loc gid (c.part ty) (ofType ty l) = none := by
  induction l generalizing c with
  | nil => simp [collateAll] at hc
  | cons x l ih =>
    obtain ⟨e, i⟩ := x
    rw [collateAll] at hc
    cases h1 : collate loc gid c e i with
    | none =>
      unfold collate at h1
      by_cases h0 : e.seg = 0
      · rw [if_pos h0] at h1; simp at h1
      rw [if_neg h0] at h1
      refine ⟨e.seg, h0, ?_⟩
      rw [ofType_cons]
      simp only [if_true]
      cases hp : c.part e.seg with
      | none =>
        rw [hp] at h1
        simp only at h1
        split_ifs at h1 with hs
        rw [auto, if_neg hs]
      | some r =>
        rw [hp] at h1
        obtain ⟨o1, o2⟩ := h _ _ hp
        simp only [o1, o2, ne_eq, not_true, or_self, if_false] at h1
        split_ifs at h1 with hs
        rw [auto, if_neg hs]
    | some c1 =>
      rw [h1] at hc
      simp only at hc
      obtain ⟨ty, hty, p⟩ := ih (collate_own h h1) hc
      refine ⟨ty, hty, ?_⟩
      rw [ofType_cons]
      simp only
      unfold collate at h1
      by_cases h0 : e.seg = 0
      · rw [if_pos h0] at h1
        cases h1
        rw [if_neg (by omega)]
        exact p
      · rw [if_neg h0] at h1
        cases hp : c.part e.seg with
        | none =>
          rw [hp] at h1
          simp only at h1
          split_ifs at h1 with hs
          cases h1
          by_cases he : e.seg = ty
          · subst he
            rw [if_pos rfl, hp]
            simp only [setPart, if_true] at p
            rw [auto, if_pos hs]; exact p
          · rw [if_neg he]
            have he' : ¬ ty = e.seg := fun h => he h.symm
            simp only [setPart, if_neg he'] at p
            exact p
        | some r =>
          rw [hp] at h1
          simp only at h1
          split_ifs at h1 with hl hs
          cases h1
          by_cases he : e.seg = ty
          · subst he
            rw [if_pos rfl, hp]
            simp only [setPart, if_true] at p
            rw [auto, if_pos hs, p]; rfl
          · rw [if_neg he]
            have he' : ¬ ty = e.seg := fun h => he h.symm
            simp only [setPart, if_neg he'] at p
            exact p

/-- What the rows of the segments say. -/
def Refers (ty : Nat) (loc : Int) (gid : Nat) (m : List (Evt × Nat)) (s : Seg) : Prop :=
  s.kind = ty ∧ s.loc = loc ∧ s.gid = gid ∧ (∃ e, (e, s.begin_) ∈ m ∧ e.stamp = s.start ∧ e.starts = true) ∧
    ∃ e, (e, s.end_) ∈ m ∧ e.stamp = s.finish ∧ e.ends = true

theorem Refers.mono {ty : Nat} {loc : Int} {gid : Nat} {m m' : List (Evt × Nat)} {s : Seg} (h : Refers ty loc gid m s) (hm : ∀ x ∈ m, x ∈ m') :
    Refers ty loc gid m' s := by
  obtain ⟨a, b, c, ⟨e, d, f⟩, e', d', f'⟩ := h
  exact ⟨a, b, c, ⟨e, hm _ d, f⟩, e', hm _ d', f'⟩

theorem auto_segments {ty : Nat} {loc : Int} {gid : Nat} {segs : List (Nat × Nat)} {last : List Nat} (hlast : last.length ≤ 1) :
    ∀ {m : List (Evt × Nat)}, m.map (fun x => (x.1.stamp, x.1.starts, x.1.ends)) =
        (segs.flatMap fun s => [(s.1, true, false), (s.2, false, true)]) ++ last.map (fun t => (t, true, false)) →
      ∃ p out, auto ty loc gid none m = some (p, out) ∧ out.map (fun s => (s.start, s.finish)) = segs ∧ ∀ s ∈ out, Refers ty loc gid m s := by
  induction segs with
  | nil =>
    intro m hm
    simp only [List.flatMap_nil, List.nil_append] at hm
    cases last with
    | nil =>
      simp at hm; subst hm
      exact ⟨none, [], rfl, rfl, by simp⟩
    | cons t last =>
      have : last = [] := by cases last with
        | nil => rfl
        | cons => simp at hlast
      subst this
      cases m with
      | nil => simp at hm
      | cons x m =>
        cases m with
        | cons y m => simp at hm
        | nil =>
          obtain ⟨e, i⟩ := x
          simp at hm
          exact ⟨_, [], by rw [auto, if_pos hm.2.1]; rfl, rfl, by simp⟩
  | cons s segs ih =>
    intro m hm
    simp only [List.flatMap_cons, List.cons_append, List.nil_append] at hm
    cases m with
    | nil => simp at hm
    | cons x m =>
      cases m with
      | nil => simp at hm
      | cons y m =>
        obtain ⟨e, i⟩ := x
        obtain ⟨e', i'⟩ := y
        simp only [List.map_cons, List.cons.injEq, Prod.mk.injEq] at hm
        obtain ⟨⟨a1, a2, a3⟩, ⟨b1, b2, b3⟩, hm⟩ := hm
        obtain ⟨p, out, q1, q2, q3⟩ := ih hm
        refine ⟨p, ⟨ty, i, i', e.stamp, e'.stamp, loc, gid⟩ :: out, ?_, ?_, ?_⟩
        · rw [auto, if_pos a2, auto, if_pos b3, q1]; rfl
        · rw [List.map_cons, q2, a1, b1]
        · intro s' hs'
          rcases List.mem_cons.1 hs' with rfl | hs'
          · exact ⟨rfl, rfl, rfl, ⟨e, by simp, rfl, a2⟩, e', by simp, rfl, b3⟩
          · exact (q3 s' hs').mono fun x hx => by simp [hx]

theorem auto_shape {ty : Nat} {loc : Int} {gid : Nat} : ∀ (n : Nat) {m : List (Evt × Nat)}, m.length ≤ n →
    (∀ x ∈ m, x.1.starts = !x.1.ends) → (auto ty loc gid none m).isSome → ∃ (segs : List (Nat × Nat)) (last : List Nat), last.length ≤ 1 ∧
      m.map (fun x => (x.1.stamp, x.1.starts, x.1.ends)) =
        (segs.flatMap fun s => [(s.1, true, false), (s.2, false, true)]) ++ last.map (fun t => (t, true, false))
  | 0, m, hn, _, _ => by
    cases m with
    | nil => exact ⟨[], [], by simp, rfl⟩
    | cons => simp at hn
  | n + 1, m, hn, hr, h => by
    cases m with
    | nil => exact ⟨[], [], by simp, rfl⟩
    | cons x m =>
      obtain ⟨e, i⟩ := x
      rw [auto] at h
      split_ifs at h with hs
      · have he : e.ends = false := by have := hr (e, i) (by simp); simpa [hs] using this.symm
        cases m with
        | nil => exact ⟨[], [e.stamp], by simp, by simp [hs, he]⟩
        | cons y m =>
          obtain ⟨e', i'⟩ := y
          rw [auto] at h
          split_ifs at h with hs'
          · have he' : e'.starts = false := by have := hr (e', i') (by simp); simpa [hs'] using this
            rw [Option.isSome_map] at h
            obtain ⟨segs, last, p, q⟩ := auto_shape n (m := m) (by simp at hn; omega) (fun x hx => hr x (by simp [hx])) h
            refine ⟨(e.stamp, e'.stamp) :: segs, last, p, ?_⟩
            simp [q, hs, hs', he, he']
          · simp at h
      · simp at h

theorem Segments.trips {ty : Nat} {l : List Evt} {n : Nat} : (ofType ty (l.zipIdx n)).map (fun x => (x.1.stamp, x.1.starts, x.1.ends)) =
    (l.filter fun e => decide (e.seg = ty)).map (fun e => (e.stamp, e.starts, e.ends)) := by
  induction l generalizing n with
  | nil => rfl
  | cons e l ih =>
    rw [List.zipIdx_cons, ofType_cons, List.filter_cons]
    simp only [decide_eq_true_eq]
    split_ifs
    · rw [List.map_cons, List.map_cons, ih]
    · exact ih

/-! ## The names -/

theorem mem_insName {s t : String} {l : List String} : t ∈ insName s l ↔ t = s ∨ t ∈ l := by
  induction l with
  | nil => simp [insName]
  | cons x l ih =>
    unfold insName
    split_ifs with h1 h2
    · subst h1; simp
    · simp
    · simp only [List.mem_cons, ih]
      constructor
      · rintro (h | h | h) <;> simp [h]
      · rintro (h | h | h) <;> simp [h]

theorem mem_foldNames {l : List Evt} {acc : List String} {t : String} :
    t ∈ l.foldl (fun l e => insName e.tag l) acc ↔ t ∈ acc ∨ ∃ e ∈ l, e.tag = t := by
  induction l generalizing acc with
  | nil => simp
  | cons x l ih =>
    rw [List.foldl_cons, ih, mem_insName]
    constructor
    · rintro ((h | h) | ⟨e, he, h⟩)
      · exact Or.inr ⟨x, by simp, h.symm⟩
      · exact Or.inl h
      · exact Or.inr ⟨e, by simp [he], h⟩
    · rintro (h | ⟨e, he, h⟩)
      · exact Or.inl (Or.inr h)
      · rcases List.mem_cons.1 he with rfl | he
        · exact Or.inl (Or.inl h.symm)
        · exact Or.inr ⟨e, he, h⟩

theorem insName_sorted {s : String} {l : List String} (h : l.Pairwise (· < ·)) : (insName s l).Pairwise (· < ·) := by
  induction l with
  | nil => simp [insName]
  | cons x l ih =>
    obtain ⟨h1, h2⟩ := List.pairwise_cons.1 h
    unfold insName
    split_ifs with e1 e2
    · exact h
    · refine List.pairwise_cons.2 ⟨fun y hy => ?_, h⟩
      rcases List.mem_cons.1 hy with rfl | hy
      · exact e2
      · exact String.lt_trans e2 (h1 y hy)
    · refine List.pairwise_cons.2 ⟨fun y hy => ?_, ih h2⟩
      rcases mem_insName.1 hy with rfl | hy
      · by_contra hc
        exact e1 (String.le_antisymm (String.not_lt.1 hc) (String.not_lt.1 e2))
      · exact h1 y hy

theorem typeNames_sorted (ws : List Wrk) : (typeNames ws).Pairwise (· < ·) := by
  unfold typeNames
  have : ∀ (l : List Evt) (acc : List String), acc.Pairwise (· < ·) → (l.foldl (fun l e => insName e.tag l) acc).Pairwise (· < ·) := by
    intro l
    induction l with
    | nil => exact fun acc h => h
    | cons x l ih => exact fun acc h => ih _ (insName_sorted h)
  exact this _ _ List.Pairwise.nil

theorem typeId_spec {names : List String} {s : String} (h : s ∈ names) : ∃ i, typeId names s = some i ∧ names[i]? = some s := by
  unfold typeId
  cases hi : names.findIdx? fun t => decide (t = s) with
  | none =>
    rw [List.findIdx?_eq_none_iff] at hi
    have := hi s h
    simp at this
  | some i =>
    refine ⟨i, rfl, ?_⟩
    rw [List.findIdx?_eq_some_iff_getElem] at hi
    obtain ⟨h1, h2, _⟩ := hi
    rw [List.getElem?_eq_getElem h1]
    simpa using h2

end Dashmm.Trace
